import Verif.Props.CmifCases
/-! C96: concrete images: non-vacuity and counterexamples. -/
namespace Verif.Cmif
open Finset Verif.Blur Verif.Fft Verif.MI Verif.Spec
open Verif.Spec.Cross hiding entropy

/-- an image of one row and two pixels -/
noncomputable def two (u v : ℝ) : Img := ⟨1, 2, fun _ c => if c = 0 then u else v⟩

theorem two_unit {u v : ℝ} (hu : 0 ≤ u ∧ u < 1) (hv : 0 ≤ v ∧ v < 1) : (two u v).h = 1 ∧ (two u v).w = 2 ∧ Unit01 1 2 (two u v).px := by
  refine ⟨rfl, rfl, fun k _ l _ => ?_⟩
  show 0 ≤ (if l = 0 then u else v) ∧ (if l = 0 then u else v) < 1
  split_ifs <;> assumption

theorem inBin_iff {n k : ℕ} (hn : 0 < n) {v : ℝ} (h : InBin n k v) (i : ℕ) : InBin n i v ↔ i = k :=
  ⟨fun h' => inBin_unique hn h' h, fun e => e ▸ h⟩

theorem pixels_two {n p q : ℕ} (hn : 0 < n) (a : ℕ → ℕ → ℝ) (hu : InBin n p (a 0 0)) (hv : InBin n q (a 0 1)) (i : ℕ) :
    pixels 1 2 n a i = (if i = p then 1 else 0) + (if i = q then 1 else 0) := by
  classical
  have e : pixels 1 2 n a i = ∑ k ∈ range 1, ∑ l ∈ range 2, if InBin n i (a k l) then 1 else 0 := by
    unfold pixels; rw [card_filter, sum_product]
  rw [e]
  simp only [sum_range_one, sum_range_succ, sum_range_zero, zero_add, inBin_iff hn hu, inBin_iff hn hv]

theorem pairs_two {n m p q p' q' : ℕ} (hn : 0 < n) (hm : 0 < m) (a b : ℕ → ℕ → ℝ) (hu : InBin n p (a 0 0)) (hv : InBin n q (a 0 1))
    (hu' : InBin m p' (b 0 0)) (hv' : InBin m q' (b 0 1)) (i j : ℕ) :
    pixelPairs 1 2 n m a b i j = (if i = p ∧ j = p' then 1 else 0) + (if i = q ∧ j = q' then 1 else 0) := by
  classical
  have e : pixelPairs 1 2 n m a b i j = ∑ k ∈ range 1, ∑ l ∈ range 2, if InBin n i (a k l) ∧ InBin m j (b k l) then 1 else 0 := by
    unfold pixelPairs; rw [card_filter, sum_product]
  rw [e]
  simp only [sum_range_one, sum_range_succ, sum_range_zero, zero_add, inBin_iff hn hu, inBin_iff hn hv, inBin_iff hm hu', inBin_iff hm hv']

theorem entropy_two {n p q : ℕ} (hn : 0 < n) (hp : p < n) (hq : q < n) (hpq : p ≠ q) (a : ℕ → ℕ → ℝ)
    (hu : InBin n p (a 0 0)) (hv : InBin n q (a 0 1)) : Cross.entropy 1 2 n a = Real.log 2 := by
  unfold Cross.entropy
  simp only [pixels_two hn a hu hv]
  have : ∀ i ∈ range n, ((((if i = p then 1 else 0) + (if i = q then 1 else 0) : ℕ) : ℝ) / (((1 : ℕ) : ℝ) * ((2 : ℕ) : ℝ)) *
      Real.log ((((if i = p then 1 else 0) + (if i = q then 1 else 0) : ℕ) : ℝ) / (((1 : ℕ) : ℝ) * ((2 : ℕ) : ℝ)))) =
      (if i = p then -(Real.log 2 / 2) else 0) + (if i = q then -(Real.log 2 / 2) else 0) := by
    intro i _
    have l2 : Real.log (1 / 2) = -Real.log 2 := by rw [one_div, Real.log_inv]
    by_cases h1 : i = p
    · have h2 : i ≠ q := fun h => hpq (h1.symm.trans h)
      rw [if_pos h1, if_neg h2, if_pos h1, if_neg h2]
      norm_num [l2]; ring
    · by_cases h2 : i = q
      · rw [if_neg h1, if_pos h2, if_neg h1, if_pos h2]
        norm_num [l2]; ring
      · rw [if_neg h1, if_neg h2, if_neg h1, if_neg h2]; simp
  rw [sum_congr rfl this, sum_add_distrib, sum_ite_eq', sum_ite_eq', if_pos (mem_range.mpr hp), if_pos (mem_range.mpr hq)]
  ring

theorem entropy_flat {n p : ℕ} (hn : 0 < n) (hp : p < n) (a : ℕ → ℕ → ℝ)
    (hu : InBin n p (a 0 0)) (hv : InBin n p (a 0 1)) : Cross.entropy 1 2 n a = 0 := by
  unfold Cross.entropy
  simp only [pixels_two hn a hu hv]
  rw [sum_eq_zero, neg_zero]
  intro i _
  by_cases h : i = p
  · rw [if_pos h]; norm_num
  · rw [if_neg h]; norm_num

theorem laid_two (u v : ℝ) : laidOn 1 2 (two u v) 0 1 0 0 = u ∧ laidOn 1 2 (two u v) 0 1 0 1 = v := by
  constructor <;> rfl

/-- Non-vacuity of `C96_value`, `C96_agrees` and `C96_registration`: the map of an image of two grey levels against itself
shows `log 2` at its centre. -/
example : ∃ m o, cmif ⟨2, 2, 8, false, .none⟩ [two 0 (1 / 2)] [two 0 (1 / 2)] none none = some m ∧ entry m 0 0 = some o ∧
    o.h = 1 ∧ o.w = 2 ∧ o.at_ 0 1 = some (Real.log 2) := by
  have hu := two_unit (u := 0) (v := 1 / 2) (by norm_num) (by norm_num)
  have hI : Images 1 2 [two 0 (1 / 2)] := ⟨by simp, fun i hi => by rw [List.mem_singleton.mp hi]; exact hu⟩
  obtain ⟨m, hm, -, -, hv⟩ := C96_value ⟨2, 2, 8, false, .none⟩ 1 2 _ _ hI hI (by norm_num) (by norm_num) rfl
    (by norm_num) (by norm_num) (by norm_num) (by norm_num) rfl rfl
  obtain ⟨o, ho, h1, h2, h3⟩ := hv 0 0 _ _ rfl rfl
  refine ⟨m, o, hm, ho, h1, h2, ?_⟩
  rw [h3 0 (by norm_num) 1 (by norm_num)]
  have r := (C96_registration 1 2 2 2 (two 0 (1 / 2)) (two 0 (1 / 2)) (by norm_num) (by norm_num) (by norm_num) (by norm_num)
    hu.2.2 hu.2.2).2 0 1 (C96_centre 1 2 (two 0 (1 / 2)) (by norm_num) (by norm_num))
  rw [r, entropy_two (p := 0) (q := 1) (by norm_num) (by norm_num) (by norm_num) (by norm_num) _
    (show InBin 2 0 0 by constructor <;> norm_num) (show InBin 2 1 (1 / 2) by constructor <;> norm_num)]

/-- Non-vacuity of `C96_chunked_partial` (16 bins) and `C96_constant_partial`. -/
example : (∃ m, cmif ⟨16, 16, 8, false, .none⟩ [two 0 (1 / 2)] [two 0 (1 / 2)] none none = some m) ∧
    ∃ m, cmif ⟨2, 2, 8, true, .none⟩ [two 0 (3 / 4)] [two 0 (3 / 4)] none none = some m := by
  have hu := two_unit (u := 0) (v := 1 / 2) (by norm_num) (by norm_num)
  have hu' := two_unit (u := 0) (v := 3 / 4) (by norm_num) (by norm_num)
  have hI : Images 1 2 [two 0 (1 / 2)] := ⟨by simp, fun i hi => by rw [List.mem_singleton.mp hi]; exact hu⟩
  have hI' : Images 1 2 [two 0 (3 / 4)] := ⟨by simp, fun i hi => by rw [List.mem_singleton.mp hi]; exact hu'⟩
  constructor
  · obtain ⟨m, hm, -⟩ := C96_chunked_partial ⟨16, 16, 8, false, .none⟩ 1 2 _ _ hu hI (by norm_num) (by norm_num) rfl
      (by norm_num) (by norm_num) (by norm_num) (by norm_num) (Or.inl (by norm_num)) (by norm_num) (by norm_num) (by norm_num) rfl rfl
    exact ⟨m, hm⟩
  · have hc : Clear 1 2 2 (two 0 (3 / 4)).px := by
      intro k _ l _ i hi
      show InBin 2 i ((if l = 0 then (0 : ℝ) else 3 / 4) * 0.99999)
      replace hi : InBin 2 i (if l = 0 then (0 : ℝ) else 3 / 4) := hi
      split_ifs at hi ⊢ with h
      · rw [zero_mul]; exact hi
      · have : i = 1 := inBin_unique (n := 2) (by norm_num) hi (by constructor <;> norm_num)
        rw [this]; constructor <;> norm_num
    obtain ⟨m, hm, -⟩ := C96_constant_partial ⟨2, 2, 8, true, .none⟩ 1 2 _ _ hI' hI'
      (fun i hi => by rw [List.mem_singleton.mp hi]; exact hc) (fun i hi => by rw [List.mem_singleton.mp hi]; exact hc)
      (by norm_num) (by norm_num) rfl (by norm_num) (by norm_num) (by norm_num) (by norm_num) rfl rfl
    exact ⟨m, hm⟩

/-- **Failure: bin counts one above a multiple of the chunk size.**  With 9 bins (chunks of 8) the last grey level never
enters the joint histogram: an image of two grey levels (entropy `log 2`) against itself scores `2 log 2`. -/
theorem C96_chunk_boundary_fails : ∃ m o, cmif ⟨9, 9, 8, false, .none⟩ [two 0 (17 / 18)] [two 0 (17 / 18)] none none = some m ∧
    entry m 0 0 = some o ∧ o.at_ 0 1 = some (2 * Real.log 2) ∧
    mutualInfo 1 2 9 9 (laidOn 1 2 (two 0 (17 / 18)) 0 1) (two 0 (17 / 18)).px = Real.log 2 := by
  have hu := two_unit (u := 0) (v := 17 / 18) (by norm_num) (by norm_num)
  have hI : Images 1 2 [two 0 (17 / 18)] := ⟨by simp, fun i hi => by rw [List.mem_singleton.mp hi]; exact hu⟩
  obtain ⟨q1, q2, q3⟩ := shapes_ok (a := ⟨9, 9, 8, false, .none⟩) hI hI (by norm_num) (by norm_num) (by norm_num) (by norm_num) (by norm_num) (by norm_num)
  have b0 : InBin 9 0 0 := by constructor <;> norm_num
  have b1 : InBin 9 8 (17 / 18) := by constructor <;> norm_num
  have ent : Cross.entropy 1 2 9 (two 0 (17 / 18)).px = Real.log 2 :=
    entropy_two (p := 0) (q := 8) (by norm_num) (by norm_num) (by norm_num) (by norm_num) _ b0 b1
  have ent' : Cross.entropy 1 2 9 (laidOn 1 2 (two 0 (17 / 18)) 0 1) = Real.log 2 :=
    entropy_two (p := 0) (q := 8) (by norm_num) (by norm_num) (by norm_num) (by norm_num) _ b0 b1
  have hv : visited 9 8 = [1, 2, 3, 4, 5, 6, 7, 8] := by decide
  have hj : entJoint 9 9 8 (stack (ones (two 0 (17 / 18))) 9 (two 0 (17 / 18))) (stack (ones (two 0 (17 / 18))) 9 (two 0 (17 / 18))) 0 1 = 0 := by
    obtain ⟨c1, -, -⟩ := corr_facts (by norm_num) (by norm_num) rfl hu hu (nd := 9) (ns := 9) (by norm_num) (by norm_num) (by norm_num) (by norm_num) 0 1
    have c1' : ∀ i j, thresh (corrAt (stack (ones (two 0 (17 / 18))) 9 (two 0 (17 / 18)) (i + 1)) (stack (ones (two 0 (17 / 18))) 9 (two 0 (17 / 18)) (j + 1)) 0 1) =
        (((if i = 0 ∧ j = 0 then 1 else 0) + (if i = 8 ∧ j = 8 then 1 else 0) : ℕ) : ℝ) := by
      intro i j
      rw [c1, thresh_nat, pairs_two (p := 0) (q := 8) (p' := 0) (q' := 8) (by norm_num) (by norm_num) _ _ b0 b1 b0 b1]
    have hl : visited 9 8 = (List.range 8).map fun l => l + 1 := by decide
    unfold entJoint
    rw [hl]
    simp only [list_sum_range, c1']
    simp [sum_range_succ, pl, plogp]
  unfold cmif
  rw [q1, q2, if_pos q3, if_pos (Or.inl (by norm_num))]
  simp only [Bool.false_eq_true, if_false]
  unfold bigResult
  rw [if_pos ⟨rfl, by norm_num, Or.inl rfl⟩]
  refine ⟨_, _, rfl, entry_range _ _ _ (by simp) (by simp), ?_, ?_⟩
  · have h0 : [two 0 (17 / 18)][0]? = some (two 0 (17 / 18)) := rfl
    simp only [List.length_singleton, if_true, stacks_none h0]
    rw [entMarg_eq (by norm_num) (by norm_num) rfl hu hu (by norm_num) (by norm_num) (by norm_num) (by norm_num) 0 1, hj, ent, ent']
    unfold finish
    simp only
    rw [if_neg]
    · congr 1; ring
    · have := Real.log_pos (by norm_num : (1 : ℝ) < 2); linarith
  · rw [mutualInfo_congr (C96_centre 1 2 (two 0 (17 / 18)) (by norm_num) (by norm_num)), mutualInfo_self hu.2.2 (by norm_num), ent]

/-- **Failure: batches with more than 8 bins.**  The entry for destination 0 and source 1 takes its marginal entropies from
destination 1: here destination 0 and the sources are uniform (mutual information 0) and the entry is `log 2`. -/
theorem C96_batch_fails : ∃ m o, cmif ⟨16, 16, 8, false, .none⟩ [two 0 0, two 0 (1 / 2)] [two 0 0, two 0 0] none none = some m ∧
    entry m 0 1 = some o ∧ o.at_ 0 1 = some (Real.log 2) ∧
    mutualInfo 1 2 16 16 (laidOn 1 2 (two 0 0) 0 1) (two 0 0).px = 0 := by
  have hu := two_unit (u := 0) (v := 0) (by norm_num) (by norm_num)
  have hu' := two_unit (u := 0) (v := 1 / 2) (by norm_num) (by norm_num)
  have hI : Images 1 2 [two 0 0, two 0 (1 / 2)] := ⟨by simp, fun i hi => by
    simp only [List.mem_cons, List.not_mem_nil, or_false] at hi
    rcases hi with rfl | rfl <;> assumption⟩
  have hI' : Images 1 2 [two 0 0, two 0 0] := ⟨by simp, fun i hi => by
    simp only [List.mem_cons, List.not_mem_nil, or_false, or_self] at hi
    rw [hi]; exact hu⟩
  obtain ⟨q1, q2, q3⟩ := shapes_ok (a := ⟨16, 16, 8, false, .none⟩) hI hI' (by norm_num) (by norm_num) (by norm_num) (by norm_num) (by norm_num) (by norm_num)
  have b0 : InBin 16 0 0 := by constructor <;> norm_num
  have b1 : InBin 16 8 (1 / 2) := by constructor <;> norm_num
  have e0 : Cross.entropy 1 2 16 (two 0 0).px = 0 := entropy_flat (p := 0) (by norm_num) (by norm_num) _ b0 b0
  have e1 : Cross.entropy 1 2 16 (laidOn 1 2 (two 0 (1 / 2)) 0 1) = Real.log 2 :=
    entropy_two (p := 0) (q := 8) (by norm_num) (by norm_num) (by norm_num) (by norm_num) _ b0 b1
  have mi0 : mutualInfo 1 2 16 16 (laidOn 1 2 (two 0 0) 0 1) (two 0 0).px = 0 := by
    rw [mutualInfo_congr (C96_centre 1 2 (two 0 0) (by norm_num) (by norm_num)), mutualInfo_self hu.2.2 (by norm_num), e0]
  have hj := entJoint_eq (by norm_num) (by norm_num) rfl hu hu (nd := 16) (ns := 16) (by norm_num) (by norm_num) (by norm_num) (by norm_num)
    (chunk := 8) (by norm_num) (by norm_num) (by norm_num) 0 1
  have hj0 : entJoint 16 16 8 (stack (ones (two 0 0)) 16 (two 0 0)) (stack (ones (two 0 0)) 16 (two 0 0)) 0 1 = 0 := by
    have hq : Cross.entropy 1 2 16 (laidOn 1 2 (two 0 0) 0 1) = 0 := entropy_flat (p := 0) (by norm_num) (by norm_num) _ b0 b0
    have k := mutualInfo_eq (displaced_unit hu.2.2 (by norm_num) (by norm_num) (displacementAt 1 0) (displacementAt 2 1)) hu.2.2
      (na := 16) (nb := 16) (by norm_num) (by norm_num)
    rw [hj]
    have k' : mutualInfo 1 2 16 16 (laidOn 1 2 (two 0 0) 0 1) (two 0 0).px = Cross.entropy 1 2 16 (laidOn 1 2 (two 0 0) 0 1) + Cross.entropy 1 2 16 (two 0 0).px +
      ∑ i ∈ range 16, ∑ j ∈ range 16, pl ((pixelPairs 1 2 16 16 (laidOn 1 2 (two 0 0) 0 1) (two 0 0).px i j : ℝ) / ((1 : ℕ) * (2 : ℕ))) := k
    rw [mi0, hq, e0] at k'
    linarith
  unfold cmif
  rw [q1, q2, if_pos q3, if_pos (Or.inl (by norm_num))]
  simp only [Bool.false_eq_true, if_false]
  unfold bigResult
  rw [if_pos ⟨rfl, by norm_num, Or.inl rfl⟩]
  refine ⟨_, _, rfl, entry_range _ _ _ (by simp) (by simp), ?_, mi0⟩
  have h0 : [two 0 0, two 0 (1 / 2)][0]? = some (two 0 0) := rfl
  have h1 : [two 0 0, two 0 (1 / 2)][1]? = some (two 0 (1 / 2)) := rfl
  have h2 : [two 0 0, two 0 0][1]? = some (two 0 0) := rfl
  simp only [List.length_cons, List.length_nil, show ¬ (0 + 1 + 1 = 1) by norm_num, if_false, stacks_none h0, stacks_none h1, stacks_none h2]
  rw [entMarg_eq (by norm_num) (by norm_num) rfl hu' hu (by norm_num) (by norm_num) (by norm_num) (by norm_num) 0 1, hj0, e0, e1]
  unfold finish
  simp only
  rw [if_neg]
  · congr 1; ring
  · have := Real.log_pos (by norm_num : (1 : ℝ) < 2); linarith

theorem corr_centre (a b : Img) (h w : ℕ) (ha : a.h = h ∧ a.w = w) (hb : b.h = h ∧ b.w = w) (hh : 0 < h) (hw : 0 < w) (he : w % 2 = 0) :
    corrAt a b (h / 2) (w / 2) = ∑ k ∈ range h, ∑ l ∈ range w, b.px k l * a.px k l := by
  obtain ⟨rfl, rfl⟩ := ha
  rw [corrAt_eq a b hb.1 hb.2 hh hw he]
  refine sum_congr rfl fun k hk => sum_congr rfl fun l hl => ?_
  rw [← C96_centre a.h a.w a hh hw k (mem_range.mp hk) l (mem_range.mp hl)]; rfl

/-- **Failure: grey value 1.**  A pixel of value exactly 1 (the maximum of every min-max normalised image) is in no level: the
image `[0, 1]` against itself scores 0, as a uniform image would. -/
theorem C96_value_one_fails : ∃ m o, cmif ⟨2, 2, 8, false, .none⟩ [two 0 1] [two 0 1] none none = some m ∧
    entry m 0 0 = some o ∧ o.at_ 0 1 = some 0 := by
  have hsh : shapesOk ⟨2, 2, 8, false, .none⟩ 1 2 [two 0 1] [two 0 1] none none := by
    refine ⟨?_, by simp, by simp, by norm_num, by norm_num, by simp, by simp, by norm_num, by norm_num, by norm_num, by norm_num⟩
    intro i hi
    simp only [List.cons_append, List.nil_append, Option.getD_none, List.append_nil, List.mem_cons, List.not_mem_nil, or_false, or_self] at hi
    rw [hi]; exact ⟨rfl, rfl⟩
  have l0 : ∀ i : ℕ, (level 2 (two 0 1) i).px 0 0 = if i = 0 then 1 else 0 := by
    intro i
    show (if byteOf ((2 : ℕ) * (0 : ℝ)) = (i : ℤ) then (1 : ℝ) else 0) = _
    have : byteOf ((2 : ℕ) * (0 : ℝ)) = 0 := by unfold byteOf trunc; norm_num
    rw [this]
    by_cases h : i = 0
    · rw [if_pos h, if_pos (by rw [h]; rfl)]
    · rw [if_neg h, if_neg (by intro h'; exact h (by exact_mod_cast h'.symm))]
  have l1 : ∀ i : ℕ, (level 2 (two 0 1) i).px 0 1 = if i = 2 then 1 else 0 := by
    intro i
    show (if byteOf ((2 : ℕ) * (1 : ℝ)) = (i : ℤ) then (1 : ℝ) else 0) = _
    have : byteOf ((2 : ℕ) * (1 : ℝ)) = 2 := by
      unfold byteOf trunc
      rw [if_pos (by norm_num)]
      have : ⌊((2 : ℕ) : ℝ) * 1⌋ = 2 := by rw [Int.floor_eq_iff]; norm_num
      rw [this]; rfl
    rw [this]
    by_cases h : i = 2
    · rw [if_pos h, if_pos (by rw [h]; rfl)]
    · rw [if_neg h, if_neg (by intro h'; exact h (by exact_mod_cast h'.symm))]
  have cj : ∀ i j : ℕ, corrAt (stack (ones (two 0 1)) 2 (two 0 1) (i + 1)) (stack (ones (two 0 1)) 2 (two 0 1) (j + 1)) 0 1 =
      (if j = 0 then 1 else 0) * (if i = 0 then 1 else 0) + (if j = 2 then 1 else 0) * (if i = 2 then 1 else 0) := by
    intro i j
    rw [← l0, ← l0, ← l1, ← l1]
    refine (corr_centre (level 2 (two 0 1) i) (level 2 (two 0 1) j) 1 2 ⟨rfl, rfl⟩ ⟨rfl, rfl⟩ (by decide) (by decide) rfl).trans ?_
    simp [sum_range_succ]
  have cd : ∀ i : ℕ, corrAt (stack (ones (two 0 1)) 2 (two 0 1) (i + 1)) (stack (ones (two 0 1)) 2 (two 0 1) 0) 0 1 =
      (if i = 0 then 1 else 0) + (if i = 2 then 1 else 0) := by
    intro i
    rw [← l0, ← l1]
    refine (corr_centre (level 2 (two 0 1) i) (ones (two 0 1)) 1 2 ⟨rfl, rfl⟩ ⟨rfl, rfl⟩ (by decide) (by decide) rfl).trans ?_
    simp [sum_range_succ, ones]
  have cs : ∀ i : ℕ, corrAt (stack (ones (two 0 1)) 2 (two 0 1) 0) (stack (ones (two 0 1)) 2 (two 0 1) (i + 1)) 0 1 =
      (if i = 0 then 1 else 0) + (if i = 2 then 1 else 0) := by
    intro i
    rw [← l0, ← l1]
    refine (corr_centre (ones (two 0 1)) (level 2 (two 0 1) i) 1 2 ⟨rfl, rfl⟩ ⟨rfl, rfl⟩ (by decide) (by decide) rfl).trans ?_
    simp [sum_range_succ, ones]
  have hcm : cmif ⟨2, 2, 8, false, .none⟩ [two 0 1] [two 0 1] none none = some ((List.range 1).map fun b => (List.range 1).map fun c =>
      smallEntry ⟨2, 2, 8, false, .none⟩ 1 2 (slices 2 [two 0 1] none b) (slices 2 [two 0 1] none c)) := by
    unfold cmif
    exact (if_pos hsh).trans (if_neg (by norm_num))
  refine ⟨_, _, hcm, entry_range _ _ _ (by norm_num) (by norm_num), ?_⟩
  have h0 : [two 0 1][0]? = some (two 0 1) := rfl
  have hent : entSmall 2 2 (stack (ones (two 0 1)) 2 (two 0 1)) (stack (ones (two 0 1)) 2 (two 0 1)) 0 1 = (0, 0, 0) := by
    unfold entSmall entOf
    simp only [cj, cd, cs]
    simp [sum_range_succ, thresh, pl, plogp]
  unfold smallEntry
  simp only [stacks_none h0, hent]
  unfold finish
  simp

/-- a 2 by 2 image -/
noncomputable def four (a b c d : ℝ) : Img :=
  ⟨2, 2, fun r k => if r = 0 then (if k = 0 then a else b) else (if k = 0 then c else d)⟩

theorem level_four (a b c d : ℝ) (ha : a = 0 ∨ a = 1 / 2) (hb : b = 0 ∨ b = 1 / 2) (hc : c = 0 ∨ c = 1 / 2) (hd : d = 0 ∨ d = 1 / 2) (i : ℕ) :
    level 2 (four a b c d) i = four (if (2 * a) = i then 1 else 0) (if (2 * b) = i then 1 else 0)
      (if (2 * c) = i then 1 else 0) (if (2 * d) = i then 1 else 0) := by
  classical
  have key : ∀ v : ℝ, v = 0 ∨ v = 1 / 2 → (byteOf ((2 : ℕ) * v) = (i : ℤ) ↔ 2 * v = i) := by
    intro v hv
    rcases hv with rfl | rfl
    · have : byteOf ((2 : ℕ) * (0 : ℝ)) = 0 := by unfold byteOf trunc; norm_num
      rw [this, mul_zero]
      constructor
      · intro h; have : i = 0 := by exact_mod_cast h.symm
        rw [this]; simp
      · intro h; have : i = 0 := by exact_mod_cast h.symm
        rw [this]; simp
    · have : byteOf ((2 : ℕ) * (1 / 2 : ℝ)) = 1 := by unfold byteOf trunc; norm_num
      rw [this]
      constructor
      · intro h; have : i = 1 := by exact_mod_cast h.symm
        rw [this]; norm_num
      · intro h
        have : (1 : ℝ) = i := by linarith
        have : i = 1 := by exact_mod_cast this.symm
        rw [this]; rfl
  unfold level four
  simp only [Img.mk.injEq, true_and]
  funext r k
  by_cases h1 : r = 0 <;> by_cases h2 : k = 0 <;> simp only [h1, h2, if_true, if_false]
  · exact if_congr (key a ha) rfl rfl
  · exact if_congr (key b hb) rfl rfl
  · exact if_congr (key c hc) rfl rfl
  · exact if_congr (key d hd) rfl rfl

theorem corr_four (a b c d a' b' c' d' : ℝ) : corrAt (four a b c d) (four a' b' c' d') 1 1 = a' * a + b' * b + c' * c + d' * d := by
  refine (corr_centre (four a b c d) (four a' b' c' d') 2 2 ⟨rfl, rfl⟩ ⟨rfl, rfl⟩ (by decide) (by decide) rfl).trans ?_
  simp [sum_range_succ, four]; ring

/-- **Failure: masks.**  A mask restricts the marginal histogram of the other image but not the joint histogram: on the
masked-in top row the source is uniform, so the mutual information there is 0 whatever the destination; the map shows
`log 2 / 2` at zero displacement. -/
theorem C96_mask_fails : ∃ m o,
    cmif ⟨2, 2, 8, false, .none⟩ [four 0 (1 / 2) 0 0] [four 0 0 (1 / 2) (1 / 2)] none (some [four 1 1 0 0]) = some m ∧
    entry m 0 0 = some o ∧ o.at_ 1 1 = some (Real.log 2 / 2) ∧
    mutualInfo 1 2 2 2 (four 0 (1 / 2) 0 0).px (four 0 0 (1 / 2) (1 / 2)).px = 0 := by
  have hsh : shapesOk ⟨2, 2, 8, false, .none⟩ 2 2 [four 0 (1 / 2) 0 0] [four 0 0 (1 / 2) (1 / 2)] none (some [four 1 1 0 0]) := by
    refine ⟨?_, by simp, by simp, by norm_num, by norm_num, by simp, by simp, by norm_num, by norm_num, by norm_num, by norm_num⟩
    intro i hi
    simp only [List.cons_append, List.nil_append, Option.getD_none, List.append_nil, Option.getD_some, List.mem_cons, List.not_mem_nil, or_false] at hi
    rcases hi with rfl | rfl | rfl <;> exact ⟨rfl, rfl⟩
  have hcm : cmif ⟨2, 2, 8, false, .none⟩ [four 0 (1 / 2) 0 0] [four 0 0 (1 / 2) (1 / 2)] none (some [four 1 1 0 0]) =
      some ((List.range 1).map fun b => (List.range 1).map fun c =>
      smallEntry ⟨2, 2, 8, false, .none⟩ 2 2 (slices 2 [four 0 (1 / 2) 0 0] none b) (slices 2 [four 0 0 (1 / 2) (1 / 2)] (some [four 1 1 0 0]) c)) := by
    unfold cmif
    exact (if_pos hsh).trans (if_neg (by norm_num))
  have hones : ∀ a b c d, ones (four a b c d) = four 1 1 1 1 := by
    intro a b c d; unfold ones four; congr 1; funext r k; simp
  have hD : ∀ i, slices 2 [four 0 (1 / 2) 0 0] none 0 i = if i = 0 then four 1 1 1 1 else level 2 (four 0 (1 / 2) 0 0) (i - 1) := by
    intro i
    show (if i = 0 then ones (four 0 (1 / 2) 0 0) else _) = _
    rw [hones]; rfl
  have hS : ∀ i, slices 2 [four 0 0 (1 / 2) (1 / 2)] (some [four 1 1 0 0]) 0 i =
      if i = 0 then four 1 1 0 0 else level 2 (four 0 0 (1 / 2) (1 / 2)) (i - 1) := fun i => rfl
  have l1 := level_four 0 (1 / 2) 0 0 (Or.inl rfl) (Or.inr rfl) (Or.inl rfl) (Or.inl rfl)
  have l2 := level_four 0 0 (1 / 2) (1 / 2) (Or.inl rfl) (Or.inl rfl) (Or.inr rfl) (Or.inr rfl)
  have log2 := Real.log_pos (by norm_num : (1 : ℝ) < 2)
  have e12 : Real.log (1 / 2) = -Real.log 2 := by rw [one_div, Real.log_inv]
  have e14 : Real.log (1 / 4) = -(2 * Real.log 2) := by
    rw [one_div, Real.log_inv, show (4 : ℝ) = 2 ^ 2 by norm_num, Real.log_pow]; push_cast; ring
  have hent : entSmall 2 2 (slices 2 [four 0 (1 / 2) 0 0] none 0) (slices 2 [four 0 0 (1 / 2) (1 / 2)] (some [four 1 1 0 0]) 0) 1 1 =
      (Real.log 2, Real.log 2, 3 / 2 * Real.log 2) := by
    unfold entSmall entOf
    simp only [hD, hS, l1, l2, if_true, Nat.add_sub_cancel, Nat.add_one_ne_zero, if_false, corr_four, sum_range_succ, sum_range_zero, zero_add,
      Nat.cast_zero, Nat.cast_one, mul_zero]
    norm_num [thresh, pl, plogp]
    rw [e12, e14]
    exact ⟨by ring, by ring⟩
  refine ⟨_, _, hcm, entry_range _ _ _ (by norm_num) (by norm_num), ?_, ?_⟩
  · unfold smallEntry
    simp only [hent]
    unfold finish
    simp only
    rw [if_neg (by linarith)]
    congr 1; ring
  · have hu : Unit01 1 2 (four 0 (1 / 2) 0 0).px := by
      intro k _ l _
      show 0 ≤ (if k = 0 then (if l = 0 then (0 : ℝ) else 1 / 2) else (if l = 0 then 0 else 0)) ∧ (if k = 0 then (if l = 0 then (0 : ℝ) else 1 / 2) else (if l = 0 then 0 else 0)) < 1
      split_ifs <;> norm_num
    have hu' : Unit01 1 2 (four 0 0 (1 / 2) (1 / 2)).px := by
      intro k _ l _
      show 0 ≤ (if k = 0 then (if l = 0 then (0 : ℝ) else 0) else (if l = 0 then 1 / 2 else 1 / 2)) ∧ (if k = 0 then (if l = 0 then (0 : ℝ) else 0) else (if l = 0 then 1 / 2 else 1 / 2)) < 1
      split_ifs <;> norm_num
    have b := mutualInfo_bounds hu hu' (na := 2) (nb := 2) (by norm_num) (by norm_num) (by norm_num) (by norm_num)
    have z : Cross.entropy 1 2 2 (four 0 0 (1 / 2) (1 / 2)).px = 0 :=
      entropy_flat (p := 0) (by norm_num) (by norm_num) _ (show InBin 2 0 0 by constructor <;> norm_num) (show InBin 2 0 0 by constructor <;> norm_num)
    rw [z] at b
    exact le_antisymm b.2.2 b.1

end Verif.Cmif
