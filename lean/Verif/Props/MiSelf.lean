import Verif.Props.MiBounds
/-!
C86 continued: an image against itself; `mutual_information` is never negative; batches.
-/
namespace Verif.MI
open Finset Real

theorem diag_zero {x : List ℝ} {b : ℕ} (hb : 0 < b) (hx : ∀ v ∈ x, 0 ≤ v ∧ v < 1) {i j : ℕ} (hi : i < b) (hj : j < b)
    (hij : i ≠ j) : jointHist x x b b i j = 0 := by
  rw [(C37_binned_partial x x b b hb hb hx hx).1 i hi j hj]
  unfold pairCount
  rw [List.length_eq_zero_iff, List.filter_eq_nil_iff]
  rintro ⟨u, v⟩ hp
  have huv : u = v := by
    rw [List.zip_eq_zipWith, List.zipWith_self] at hp
    obtain ⟨a, -, h⟩ := List.mem_map.mp hp
    simp only [Prod.mk.injEq] at h
    rw [← h.1, ← h.2]
  subst huv
  simp only [decide_eq_true_eq]
  rw [← and_assoc, ← floor_bin hb, ← floor_bin hb]
  rintro ⟨h1, h2⟩
  apply hij
  rw [h1] at h2
  exact_mod_cast h2

theorem table_diag {bits : Bool} {n : ℕ} {t : ℕ → ℕ → ℝ} (hd : ∀ i < n, ∀ j < n, i ≠ j → t i j = 0) {ex ey ej : ℝ}
    (h : tableEntropies bits n n t = some (ex, ey, ej)) : ex = ej ∧ ey = ej := by
  unfold tableEntropies at h
  simp only at h
  set total := ∑ i ∈ range n, ∑ j ∈ range n, t i j with htot
  by_cases hz : total = 0
  · rw [if_pos hz] at h; simp at h
  rw [if_neg hz] at h
  have hr : ∀ (F : ℝ → ℝ), F 0 = 0 → ∀ i ∈ range n, ∑ j ∈ range n, F (t i j / total) = F (t i i / total) := by
    intro F hF i hi
    refine sum_eq_single i (fun j hj hji => ?_) fun hn => absurd hi hn
    rw [hd i (mem_range.mp hi) j (mem_range.mp hj) (Ne.symm hji), zero_div, hF]
  have hc : ∀ j ∈ range n, ∑ i ∈ range n, t i j / total = t j j / total := by
    intro i hi
    refine sum_eq_single i (fun j hj hji => ?_) fun hn => absurd hi hn
    rw [hd j (mem_range.mp hj) i (mem_range.mp hi) hji, zero_div]
  have hpl : plogp bits 0 = 0 := by unfold plogp; rw [if_neg (lt_irrefl _)]
  have hr' := hr id rfl
  simp only [id] at hr'
  have s1 : ∑ i ∈ range n, t i i / total = 1 := by
    rw [← sum_congr rfl hr']
    have : ∀ i ∈ range n, ∑ j ∈ range n, t i j / total = (∑ j ∈ range n, t i j) / total := fun i _ => (sum_div ..).symm
    rw [sum_congr rfl this, ← sum_div]
    exact div_self hz
  rw [sum_congr rfl hr', sum_congr rfl hc, s1] at h
  simp only [div_one, Option.some.injEq, Prod.mk.injEq] at h
  have k1 : ∑ i ∈ range n, plogp bits (∑ j ∈ range n, t i j / total) = ∑ i ∈ range n, plogp bits (t i i / total) :=
    sum_congr rfl fun i hi => by rw [hr' i hi]
  have k2 : ∑ j ∈ range n, plogp bits (∑ i ∈ range n, t i j / total) = ∑ i ∈ range n, plogp bits (t i i / total) :=
    sum_congr rfl fun i hi => by rw [hc i hi]
  rw [k1, k2, sum_congr rfl (hr (plogp bits) hpl)] at h
  obtain ⟨h1, h2, h3⟩ := h
  rw [← h1, ← h2, ← h3]
  exact ⟨rfl, rfl⟩

/-- C86: an image against itself (values in `[0, 1)`): the mutual information is the entropy of the image, and every
normalised value is exactly one (when the entropy is not zero). -/
theorem C86_self (x : List ℝ) (b : ℕ) (bits exclude : Bool) (m : Norm) (hb : 0 < b)
    (hx : ∀ v ∈ x, 0 ≤ v ∧ v < 1) (ex ey ej : ℝ) (he : entropies x x b b bits exclude = some (ex, ey, ej)) :
    ex = ey ∧ ex = ej ∧ binnedNmi x x b b bits .none exclude = some ex ∧
      (ex ≠ 0 → m ≠ .none → binnedNmi x x b b bits m exclude = some 1) := by
  have hd : ex = ej ∧ ey = ej := by
    unfold entropies at he
    cases exclude
    · exact table_diag (fun i hi j hj hij => by rw [diag_zero hb hx hi hj hij]; simp) he
    · exact table_diag (fun i hi j hj hij => by rw [diag_zero hb hx (by omega) (by omega) (by omega)]; simp) he
  obtain ⟨rfl, rfl⟩ := hd
  have h0 := (entropies_spec he).1
  refine ⟨rfl, rfl, ?_, fun hne hm => ?_⟩
  · unfold binnedNmi
    rw [if_pos ⟨rfl, hb, hb⟩, he]
    simp [applyNorm]
  · have hpos : 0 < ey := lt_of_le_of_ne h0 (Ne.symm hne)
    unfold binnedNmi
    rw [if_pos ⟨rfl, hb, hb⟩, he]
    have e : ey + ey - ey = ey := by ring
    simp only [Option.bind_some]
    cases m
    · exact absurd rfl hm
    · simp only [applyNorm, e]
      rw [if_neg (by linarith |> fun h : 0 < ey + ey => h.ne'), show 2 * ey = ey + ey by ring, div_self]
      exact (by linarith : 0 < ey + ey).ne'
    · simp [applyNorm, hne]
    · simp [applyNorm, hne]
    · simp [applyNorm, hne]
    · simp only [applyNorm, e, sqrt_mul_self h0]
      rw [if_neg hne, div_self hne]
    · simp only [applyNorm, e, sub_self, abs_zero]
      rw [if_pos (show (0 : ℝ) < 1e-6 by norm_num), if_neg hne, div_self hne]

/-- C86: the value is defined for non-empty images of equal size with values in `[0, 1)`. -/
theorem C86_defined (x y : List ℝ) (bx byy : ℕ) (bits : Bool) (hbx : 0 < bx) (hby : 0 < byy)
    (hl : x.length = y.length) (hne : x ≠ []) (hx : ∀ v ∈ x, 0 ≤ v ∧ v < 1) (hy : ∀ v ∈ y, 0 ≤ v ∧ v < 1) :
    (binnedNmi x y bx byy bits .none false).isSome := by
  unfold binnedNmi
  rw [if_pos ⟨hl, hbx, hby⟩]
  have ht := (C37_binned_partial x y bx byy hbx hby hx hy).2
  have : ∑ i ∈ range bx, ∑ j ∈ range byy, ((jointHist x y bx byy i j : ℕ) : ℝ) ≠ 0 := by
    have h : 0 < x.length := List.length_pos_iff.mpr hne
    have h2 : ∑ i ∈ range bx, ∑ j ∈ range byy, jointHist x y bx byy i j ≠ 0 := by omega
    exact_mod_cast h2
  unfold entropies tableEntropies
  simp only [Bool.false_eq_true, if_false]
  rw [if_neg this]
  rfl

/-- non-vacuity of C86_bounds, C86_symmetric and C86_self. -/
example : ∃ v, binnedNmi [1 / 4, 3 / 4] [3 / 4, 1 / 4] 2 3 true .none false = some v ∧ 0 ≤ v ∧
    binnedNmi [3 / 4, 1 / 4] [1 / 4, 3 / 4] 3 2 true .none false = some v := by
  have hx : ∀ v ∈ ([1 / 4, 3 / 4] : List ℝ), 0 ≤ v ∧ v < 1 := by
    intro v hv; simp at hv; rcases hv with rfl | rfl <;> norm_num
  have hy : ∀ v ∈ ([3 / 4, 1 / 4] : List ℝ), 0 ≤ v ∧ v < 1 := by
    intro v hv; simp at hv; rcases hv with rfl | rfl <;> norm_num
  obtain ⟨v, hv⟩ := Option.isSome_iff_exists.mp
    (C86_defined [1 / 4, 3 / 4] [3 / 4, 1 / 4] 2 3 true (by norm_num) (by norm_num) rfl (by simp) hx hy)
  exact ⟨v, hv, (C86_bounds _ _ _ _ _ _ _ _ hv).1, by rw [C86_symmetric _ _ _ _ _ _ _ (by simp) hx hy]; exact hv⟩

/-! ### merging cells lowers the entropy -/

theorem sum_mul_log_le {α : Type} (s : Finset α) (f : α → ℝ) (hf : ∀ a ∈ s, 0 ≤ f a) :
    ∑ a ∈ s, f a * log (f a) ≤ (∑ a ∈ s, f a) * log (∑ a ∈ s, f a) := by
  rw [sum_mul]
  exact sum_le_sum fun a ha => mul_log_le (hf a ha) (single_le_sum hf ha)

theorem count_zip_joint (ab bb : List ℤ) (n : ℕ) (ha : ∀ i ∈ ab, 0 ≤ i ∧ i < (n : ℤ)) (hb : ∀ i ∈ bb, 0 ≤ i ∧ i < (n : ℤ)) (k : ℤ) :
    (jointBins ab bb n).count k = ∑ p ∈ (range n ×ˢ range n) with ((p.1 : ℤ) * ((n : ℤ) - 1) + (p.2 : ℤ) = k),
      (List.zip ab bb).count ((p.1 : ℤ), (p.2 : ℤ)) := by
  unfold jointBins
  rw [← List.map_uncurry_zip_eq_zipWith]
  have hz : ∀ q ∈ List.zip ab bb, (0 ≤ q.1 ∧ q.1 < (n : ℤ)) ∧ 0 ≤ q.2 ∧ q.2 < (n : ℤ) := by
    rintro ⟨i, j⟩ hp
    obtain ⟨h1, h2⟩ := List.of_mem_zip hp
    exact ⟨ha i h1, hb j h2⟩
  generalize List.zip ab bb = L at hz
  induction L with
  | nil => simp
  | cons q L ih =>
    have := ih fun r hr => hz r (List.mem_cons_of_mem _ hr)
    obtain ⟨⟨i0, i1⟩, j0, j1⟩ := hz q List.mem_cons_self
    simp only [List.map_cons, List.count_cons, this, sum_add_distrib]
    congr 1
    obtain ⟨i, j⟩ := q
    simp only at i0 i1 j0 j1
    have e : ∀ p ∈ (range n ×ˢ range n).filter (fun p : ℕ × ℕ => (p.1 : ℤ) * ((n : ℤ) - 1) + (p.2 : ℤ) = k),
        (if ((i, j) == ((p.1 : ℤ), (p.2 : ℤ))) = true then 1 else 0) = if p = (i.toNat, j.toNat) then 1 else 0 := by
      rintro ⟨a, b⟩ _
      by_cases g : i = (a : ℤ) ∧ j = (b : ℤ)
      · have g' : (a, b) = (i.toNat, j.toNat) := by rw [Prod.mk.injEq]; omega
        rw [if_pos g', if_pos]; simp [g.1, g.2]
      · have g' : ¬ (a, b) = (i.toNat, j.toNat) := by rw [Prod.mk.injEq]; omega
        rw [if_neg g', if_neg]; simpa using g
    rw [sum_congr rfl e, sum_ite_eq']
    have : ((i.toNat, j.toNat) ∈ (range n ×ˢ range n).filter (fun p : ℕ × ℕ => (p.1 : ℤ) * ((n : ℤ) - 1) + (p.2 : ℤ) = k)) ↔
        i * ((n : ℤ) - 1) + j = k := by
      rw [mem_filter, mem_product, mem_range, mem_range]
      simp only [Int.toNat_of_nonneg i0, Int.toNat_of_nonneg j0]
      constructor
      · exact fun h => h.2
      · exact fun h => ⟨⟨by omega, by omega⟩, h⟩
    simp only [this, Function.uncurry]
    by_cases g : i * ((n : ℤ) - 1) + j = k <;> simp [g]

theorem count_fst (L : List (ℤ × ℤ)) (n : ℕ) (hz : ∀ q ∈ L, 0 ≤ q.2 ∧ q.2 < (n : ℤ)) (i : ℤ) :
    ∑ j ∈ range n, L.count (i, (j : ℤ)) = (L.map Prod.fst).count i := by
  induction L with
  | nil => simp
  | cons q L ih =>
    obtain ⟨a, b⟩ := q
    obtain ⟨j0, j1⟩ := hz (a, b) List.mem_cons_self
    simp only [List.map_cons, List.count_cons, sum_add_distrib, ih fun r hr => hz r (List.mem_cons_of_mem _ hr)]
    congr 1
    by_cases g : a = i
    · subst g
      have e : ∀ j ∈ range n, (if ((a, b) == (a, (j : ℤ))) = true then 1 else 0) = if b.toNat = j then 1 else 0 := by
        intro j _
        by_cases h : b = (j : ℤ)
        · have : b.toNat = j := by omega
          simp [h]
        · have : ¬ b.toNat = j := by omega
          simp [h, this]
      rw [sum_congr rfl e, sum_ite_eq, if_pos]
      · simp
      · rw [mem_range]; simp only at j1; omega
    · simp [g]

theorem count_snd (L : List (ℤ × ℤ)) (n : ℕ) (hz : ∀ q ∈ L, 0 ≤ q.1 ∧ q.1 < (n : ℤ)) (j : ℤ) :
    ∑ i ∈ range n, L.count ((i : ℤ), j) = (L.map Prod.snd).count j := by
  have := count_fst (L.map Prod.swap) n (by
    intro q hq
    obtain ⟨r, hr, rfl⟩ := List.mem_map.mp hq
    exact hz r hr) j
  rw [List.map_map] at this
  have e : (Prod.fst ∘ Prod.swap : ℤ × ℤ → ℤ) = Prod.snd := rfl
  rw [e] at this
  rw [← this]
  refine sum_congr rfl fun i _ => ?_
  have : (j, (i : ℤ)) = Prod.swap ((i : ℤ), j) := rfl
  rw [this, List.count_map_of_injective L Prod.swap Prod.swap_injective]

/-- C86: mutual_information never returns a negative number: for any two non-constant rows its value is at least the exact
mutual information of the binned images, which is non-negative (merging joint bins can only raise the value). -/
theorem C86_mi_nonneg (a b : List ℝ) (n : ℕ) (v : ℝ) (h : mutualInformation a b n true = some v) : 0 ≤ v := by
  unfold mutualInformation at h
  by_cases hl : a.length = b.length
  swap
  · rw [if_neg hl] at h; simp at h
  rw [if_pos hl] at h
  rcases hab : bins a n true with _ | ab
  · rw [hab] at h; simp at h
  rcases hbb : bins b n true with _ | bb
  · rw [hab, hbb] at h; simp at h
  rw [hab, hbb] at h
  simp only [Option.bind_some] at h
  unfold scatterCount at h
  by_cases rj : ∀ i ∈ jointBins ab bb n, 0 ≤ i ∧ i < ((n * n : ℕ) : ℤ)
  swap
  · rw [if_neg rj] at h; simp at h
  by_cases ra : ∀ i ∈ ab, 0 ≤ i ∧ i < (n : ℤ)
  swap
  · rw [if_neg ra] at h; simp at h
  by_cases rb : ∀ i ∈ bb, 0 ≤ i ∧ i < (n : ℤ)
  swap
  · rw [if_neg rb] at h; simp at h
  rw [if_pos rj, if_pos ra, if_pos rb] at h
  simp only [Option.bind_some, Option.map_some, Option.some.injEq] at h
  have lab : ab.length = a.length := by
    unfold bins at hab
    rcases hm : minOf a with _ | mn
    · rw [hm] at hab; simp at hab
    rcases hM : maxOf a with _ | mx
    · rw [hm, hM] at hab; simp at hab
    rw [hm, hM] at hab
    simp only [Option.bind_some, if_true] at hab
    split at hab
    · simp at hab
    · simp only [Option.some.injEq] at hab; rw [← hab]; simp
  have lbb : bb.length = b.length := by
    unfold bins at hbb
    rcases hm : minOf b with _ | mn
    · rw [hm] at hbb; simp at hbb
    rcases hM : maxOf b with _ | mx
    · rw [hm, hM] at hbb; simp at hbb
    rw [hm, hM] at hbb
    simp only [Option.bind_some, if_true] at hbb
    split at hbb
    · simp at hbb
    · simp only [Option.some.injEq] at hbb; rw [← hbb]; simp
  have ane : 0 < a.length := by
    cases a with
    | nil => simp [bins, minOf] at hab
    | cons => simp
  set N : ℝ := (a.length : ℝ) with hN
  have N0 : 0 < N := by rw [hN]; exact_mod_cast ane
  have sa : ∑ l ∈ range n, ((ab.count (l : ℤ) : ℕ) : ℝ) = N := by
    rw [hN, ← lab, ← count_sum n ab ra]; push_cast; rfl
  have sb : ∑ l ∈ range n, ((bb.count (l : ℤ) : ℕ) : ℝ) = N := by
    rw [hN, hl, ← lbb, ← count_sum n bb rb]; push_cast; rfl
  have sj : ∑ l ∈ range (n * n), (((jointBins ab bb n).count (l : ℤ) : ℕ) : ℝ) = N := by
    have : (jointBins ab bb n).length = a.length := by
      rw [jointBins, List.length_zipWith, lab, lbb, hl, min_self]
    rw [hN, ← this, ← count_sum (n * n) _ rj]; push_cast; rfl
  -- the exact joint table
  obtain ⟨p, hp⟩ : ∃ p : ℕ → ℕ → ℝ, p = fun i j : ℕ => (((List.zip ab bb).count ((i : ℤ), (j : ℤ)) : ℕ) : ℝ) / N := ⟨_, rfl⟩
  have p0 : ∀ i j, 0 ≤ p i j := fun i j => by rw [hp]; positivity
  have hz : ∀ q ∈ List.zip ab bb, (0 ≤ q.1 ∧ q.1 < (n : ℤ)) ∧ 0 ≤ q.2 ∧ q.2 < (n : ℤ) := by
    rintro ⟨i, j⟩ hp
    obtain ⟨h1, h2⟩ := List.of_mem_zip hp
    exact ⟨ra i h1, rb j h2⟩
  have rows : ∀ i : ℕ, ∑ j ∈ range n, p i j = ((ab.count (i : ℤ) : ℕ) : ℝ) / N := by
    intro i
    rw [hp, ← sum_div]
    congr 1
    have := count_fst (List.zip ab bb) n (fun q hq => (hz q hq).2) (i : ℤ)
    rw [List.map_fst_zip (by omega)] at this
    rw [← this]; push_cast; rfl
  have cols : ∀ j : ℕ, ∑ i ∈ range n, p i j = ((bb.count (j : ℤ) : ℕ) : ℝ) / N := by
    intro j
    rw [hp, ← sum_div]
    congr 1
    have := count_snd (List.zip ab bb) n (fun q hq => (hz q hq).1) (j : ℤ)
    rw [List.map_snd_zip (by omega)] at this
    rw [← this]; push_cast; rfl
  have p1 : ∑ i ∈ range n, ∑ j ∈ range n, p i j = 1 := by
    rw [sum_congr rfl fun i _ => rows i, ← sum_div, sa]
    exact div_self N0.ne'
  have g := joint_ge p0 p1
  simp only [rows, cols] at g
  -- merging
  have merged : ∀ k : ℕ, (((jointBins ab bb n).count (k : ℤ) : ℕ) : ℝ) / N =
      ∑ q ∈ (range n ×ˢ range n) with ((q.1 : ℤ) * ((n : ℤ) - 1) + (q.2 : ℤ) = (k : ℤ)), p q.1 q.2 := by
    intro k
    rw [count_zip_joint ab bb n ra rb, hp, ← sum_div]
    push_cast; rfl
  have mono : ∑ i ∈ range n, ∑ j ∈ range n, p i j * log (p i j) ≤
      ∑ k ∈ range (n * n), ((((jointBins ab bb n).count (k : ℤ) : ℕ) : ℝ) / N) *
        log ((((jointBins ab bb n).count (k : ℤ) : ℕ) : ℝ) / N) := by
    rw [← sum_product' (range n) (range n) fun i j => p i j * log (p i j)]
    have maps : ∀ q ∈ range n ×ˢ range n, ((q.1 : ℤ) * ((n : ℤ) - 1) + (q.2 : ℤ)).toNat ∈ range (n * n) := by
      rintro ⟨i, j⟩ hq
      rw [mem_product, mem_range, mem_range] at hq
      simp only at hq
      have := joint_range (n := n) (ab := [(i : ℤ)]) (bb := [(j : ℤ)]) (by simp; omega) (by simp; omega)
        ((i : ℤ) * ((n : ℤ) - 1) + (j : ℤ)) (by simp [jointBins])
      rw [mem_range]; simp only; omega
    rw [← sum_fiberwise_of_maps_to maps]
    refine sum_le_sum fun k _ => ?_
    rw [merged k]
    refine le_trans (le_of_eq ?_) (sum_mul_log_le _ (fun q : ℕ × ℕ => p q.1 q.2) fun q _ => p0 _ _)
    refine sum_congr ?_ fun _ _ => rfl
    ext ⟨i, j⟩
    rw [mem_filter, mem_filter]
    refine and_congr_right fun hq => ?_
    rw [mem_product, mem_range, mem_range] at hq
    simp only at hq ⊢
    have : 0 ≤ (i : ℤ) * ((n : ℤ) - 1) := Int.mul_nonneg (by omega) (by omega)
    omega
  rw [← h]
  unfold entropy normalise
  simp only [sa, sb, sj]
  linarith

/-- C86: batch_binned_nmi gives, at each index, the value of the pair of images at that index, a single image being used
for all; batches of different sizes, neither of them one, are refused. -/
theorem C86_batch (x y : List (List ℝ)) (bx byy : ℕ) (bits exclude : Bool) (m : Norm) :
    (x.length ≠ y.length → x.length ≠ 1 → y.length ≠ 1 → batchBinnedNmi x y bx byy bits m exclude = none) ∧
    (x.length = y.length → batchBinnedNmi x y bx byy bits m exclude =
      some (List.zipWith (fun u v => binnedNmi u v bx byy bits m exclude) x y)) ∧
    (∀ u, x = [u] → y.length ≠ 0 → batchBinnedNmi x y bx byy bits m exclude =
      some (y.map fun v => binnedNmi u v bx byy bits m exclude)) ∧
    (∀ v, y = [v] → x.length ≠ 0 → batchBinnedNmi x y bx byy bits m exclude =
      some (x.map fun u => binnedNmi u v bx byy bits m exclude)) := by
  refine ⟨fun h h1 h2 => ?_, fun h => ?_, ?_, ?_⟩
  · unfold batchBinnedNmi
    simp only
    rw [if_pos ⟨h, fun hc => hc.elim h1 h2⟩]
  · unfold batchBinnedNmi
    simp only
    rw [if_neg (fun hc => hc.1 h), if_neg (fun hc => hc h)]
    congr 1
    apply List.ext_getElem
    · simp [h]
    · intro i h1 h2
      simp only [List.length_map, List.length_range] at h1
      simp only [List.getElem_map, List.getElem_range, List.getElem_zipWith]
      have g1 : (if x.length = 1 then x.flatten else x.getD i []) = x[i] := by
        split
        · rename_i hx
          obtain ⟨u, rfl⟩ := List.length_eq_one_iff.mp hx
          have : i = 0 := by simp at h1; omega
          subst this; simp
        · rw [List.getD_eq_getElem?_getD, List.getElem?_eq_getElem h1]; rfl
      have g2 : (if y.length = 1 then y.flatten else y.getD i []) = y[i]'(by omega) := by
        split
        · rename_i hy
          obtain ⟨u, rfl⟩ := List.length_eq_one_iff.mp hy
          have : i = 0 := by simp at h; omega
          subst this; simp
        · rw [List.getD_eq_getElem?_getD, List.getElem?_eq_getElem (by omega)]; rfl
      rw [g1, g2]
  · rintro u rfl hy
    unfold batchBinnedNmi
    simp only [List.length_singleton]
    rw [if_neg (fun hc => hc.2 (by simp))]
    congr 1
    have hb : (if 1 ≠ y.length then max 1 y.length else 1) = y.length := by split <;> omega
    rw [hb]
    apply List.ext_getElem
    · simp
    · intro i h1 h2
      simp only [List.length_map, List.length_range] at h1
      simp only [List.getElem_map, List.getElem_range, if_true]
      have g2 : (if y.length = 1 then y.flatten else y.getD i []) = y[i]'(by omega) := by
        split
        · rename_i hy
          obtain ⟨u, rfl⟩ := List.length_eq_one_iff.mp hy
          have : i = 0 := by simp at h1; omega
          subst this; simp
        · rw [List.getD_eq_getElem?_getD, List.getElem?_eq_getElem (by omega)]; rfl
      rw [g2]; simp
  · rintro u rfl hy
    unfold batchBinnedNmi
    simp only [List.length_singleton]
    rw [if_neg (fun hc => hc.2 (by simp))]
    congr 1
    have hb : (if x.length ≠ 1 then max x.length 1 else x.length) = x.length := by split <;> omega
    rw [hb]
    apply List.ext_getElem
    · simp
    · intro i h1 h2
      simp only [List.length_map, List.length_range] at h1
      simp only [List.getElem_map, List.getElem_range, if_true]
      have g2 : (if x.length = 1 then x.flatten else x.getD i []) = x[i]'(by omega) := by
        split
        · rename_i hy
          obtain ⟨u, rfl⟩ := List.length_eq_one_iff.mp hy
          have : i = 0 := by simp at h1; omega
          subst this; simp
        · rw [List.getD_eq_getElem?_getD, List.getElem?_eq_getElem (by omega)]; rfl
      rw [g2]; simp

example (u v w : List ℝ) : batchBinnedNmi [u] [v, w] 2 2 false .none false =
    some [binnedNmi u v 2 2 false .none false, binnedNmi u w 2 2 false .none false] :=
  (C86_batch [u] [v, w] 2 2 false false .none).2.2.1 u rfl (by simp)

end Verif.MI
