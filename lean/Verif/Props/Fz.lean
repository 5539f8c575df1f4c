import Verif.Lemmas.FzIneq
/-! Properties C07-C12 (laue_fz_ori.py, laue_fz_misori.py). -/
open Quaternion
namespace Verif
open Spec

/-! ### C07: reduction -/

/-- C07: reduction to the fundamental zone returns a symmetric equivalent of the input, with
non-negative scalar part, of unit norm if the input has unit norm, and no symmetric equivalent of the
input has a smaller rotation angle. -/
theorem C07_reduce (q : Q) (n : ℕ) (h1 : 1 ≤ n) (h2 : n ≤ 11) :
    ∃ r, oriToFz q n = some r ∧ SymEquiv n q r ∧ 0 ≤ r.w ∧ (IsUnit4 q → IsUnit4 r) ∧
      (∀ h ∈ laueRotations n, |(toH q * h).re| ≤ r.w) ∧
      (∀ h ∈ laueRotations n, rotAngle (toH r) ≤ rotAngle (toH q * h)) := by
  obtain ⟨G, g, he, hg, hr, hmax⟩ := oriToFz_spec q n h1 h2
  have hs := same_quProd q g
  have hw : (quProd q g).w = |(toH q * toH g).re| := by
    rw [quProd, abs_std_w, ← toH_prodRaw]; rfl
  have hall : ∀ h ∈ laueRotations n, |(toH q * h).re| ≤ (quProd q g).w := by
    rw [forall_rot_iff h1 h2 he, hw]
    intro g' hg'
    rw [← posReal_eq, ← posReal_eq]; exact hmax g' hg'
  refine ⟨_, hr, ?_, quStd_nonneg _, ?_, hall, ?_⟩
  · rcases hs with h | h
    · exact ⟨toH g, mem_rot h1 h2 he hg, h⟩
    · exact ⟨-toH g, mem_of_same h1 h2 (Or.inr rfl) (mem_rot h1 h2 he hg), by rw [h, H_mul_neg]⟩
  · intro hq
    exact unit_std.mpr (unit_prodRaw hq ((rotGroup_laue h1 h2 he).unit g hg))
  · intro h hh
    unfold rotAngle
    have := hall h hh
    have h0 : 0 ≤ (quProd q g).w := quStd_nonneg _
    have : |(toH q * h).re| ≤ |(toH (quProd q g)).re| := by
      rw [toH_re, abs_of_nonneg h0]; exact this
    have := Real.arccos_le_arccos this
    linarith

/-- The equivalents listed by `ori_equiv_laue` are exactly the symmetric equivalents up to sign. -/
theorem C07_equiv (q : Q) (n : ℕ) (h1 : 1 ≤ n) (h2 : n ≤ 11) :
    ∃ l, oriEquiv q n = some l ∧ 2 * l.length = laueOrder n ∧
      (∀ r ∈ l, 0 ≤ r.w ∧ SymEquiv n q r) ∧
      (∀ r, SymEquiv n q r → ∃ r' ∈ l, SameUpToSign (toH r) (toH r')) := by
  obtain ⟨l, hl, hidx, he⟩ := laueElements_some n h1 h2
  refine ⟨_, by unfold oriEquiv; rw [he]; rfl, ?_, ?_, ?_⟩
  · rw [List.length_map, List.length_map]
    interval_cases n <;>
      (simp only [laueGroupsX] at hidx
       obtain rfl := Option.some.inj hidx
       rfl)
  · intro r hr
    obtain ⟨g, hg, rfl⟩ := List.mem_map.mp hr
    refine ⟨quStd_nonneg _, ?_⟩
    rcases same_quProd q g with h | h
    · exact ⟨toH g, mem_rot h1 h2 he hg, h⟩
    · exact ⟨-toH g, mem_of_same h1 h2 (Or.inr rfl) (mem_rot h1 h2 he hg), by rw [h, H_mul_neg]⟩
  · rintro r ⟨h, hh, hr⟩
    rw [gen_laue h1 h2 he] at hh
    obtain ⟨g, hg, hs⟩ := hh
    refine ⟨_, List.mem_map_of_mem hg, ?_⟩
    rw [hr]
    exact (SameUpToSign.mul_left _ hs).trans (same_quProd q g).symm

/-- non-vacuity for C07: a cubic orientation outside the zone (rotation of 127° about z) is moved. -/
example : IsUnit4 ⟨3/5, 0, 0, 4/5⟩ ∧ ¬ InZone 11 (toH ⟨3/5, 0, 0, 4/5⟩) := by
  refine ⟨by norm_num [IsUnit4], ?_⟩
  intro h
  have hm : toH ⟨0, 0, 0, 1⟩ ∈ laueRotations 11 :=
    mem_rot (n := 11) (by norm_num) (by norm_num) (G := laueO) rfl (by simp [laueO])
  have := h _ hm
  norm_num at this

/-! ### C08: independence of the representative -/

theorem symEquiv_of {n : ℕ} {q q' : Q} (hq : SymEquiv n q q' ∨ q' = q.neg) (h1 : 1 ≤ n)
    (h2 : n ≤ 11) : SymEquiv n q q' := by
  rcases hq with h | rfl
  · exact h
  · refine ⟨-1, mem_of_same h1 h2 (Or.inr rfl) (laueRotations n).one_mem, ?_⟩
    rw [toH_neg, H_mul_neg, mul_one]

theorem symEquiv_symm {n : ℕ} {q q' : Q} (h1 : 1 ≤ n) (h2 : n ≤ 11) (h : SymEquiv n q q') :
    SymEquiv n q' q := by
  obtain ⟨g, hg, he⟩ := h
  obtain ⟨hs, hm, _⟩ := rot_star h1 h2 hg
  exact ⟨star g, hs, by rw [he, mul_assoc, hm, mul_one]⟩

theorem symEquiv_trans {n : ℕ} {q q' q'' : Q} (h : SymEquiv n q q') (h' : SymEquiv n q' q'') :
    SymEquiv n q q'' := by
  obtain ⟨g, hg, he⟩ := h
  obtain ⟨g', hg', he'⟩ := h'
  exact ⟨g * g', (laueRotations n).mul_mem hg hg', by rw [he', he, mul_assoc]⟩

/-- C08: for symmetric equivalents (and for `-q`) the reduced orientations have the same scalar part,
hence the same rotation angle. -/
theorem C08_angle (q q' r r' : Q) (n : ℕ) (h1 : 1 ≤ n) (h2 : n ≤ 11)
    (hq : SymEquiv n q q' ∨ q' = q.neg)
    (hr : oriToFz q n = some r) (hr' : oriToFz q' n = some r') :
    r.w = r'.w ∧ quAngle r = quAngle r' := by
  have hq := symEquiv_of hq h1 h2
  obtain ⟨s, hs, hse, hs0, _, hsm, _⟩ := C07_reduce q n h1 h2
  obtain ⟨s', hs', hse', hs0', _, hsm', _⟩ := C07_reduce q' n h1 h2
  rw [hr] at hs; rw [hr'] at hs'
  obtain rfl := Option.some.inj hs
  obtain rfl := Option.some.inj hs'
  have e : r.w = r'.w := by
    apply le_antisymm
    · obtain ⟨g, hg, he⟩ := symEquiv_trans (symEquiv_symm h1 h2 hq) hse
      have := hsm' g hg
      rw [← he, toH_re, abs_of_nonneg hs0] at this; exact this
    · obtain ⟨g, hg, he⟩ := symEquiv_trans hq hse'
      have := hsm g hg
      rw [← he, toH_re, abs_of_nonneg hs0'] at this; exact this
  exact ⟨e, by unfold quAngle; rw [e]⟩

/-- C08: if the smallest rotation angle is attained by a unique equivalent (up to sign) and is not a
half turn, equivalent inputs give the very same output. -/
theorem C08_canonical (q q' r r' : Q) (n : ℕ) (h1 : 1 ≤ n) (h2 : n ≤ 11)
    (hq : SymEquiv n q q' ∨ q' = q.neg)
    (hr : oriToFz q n = some r) (hr' : oriToFz q' n = some r') (hpos : 0 < r.w)
    (huniq : ∀ s t : Q, SymEquiv n q s → SymEquiv n q t → |s.w| = r.w → |t.w| = r.w →
      SameUpToSign (toH s) (toH t)) : r = r' := by
  have hw := (C08_angle q q' r r' n h1 h2 hq hr hr').1
  have hq := symEquiv_of hq h1 h2
  obtain ⟨s, hs, hse, hs0, _, _, _⟩ := C07_reduce q n h1 h2
  obtain ⟨s', hs', hse', hs0', _, _, _⟩ := C07_reduce q' n h1 h2
  rw [hr] at hs; rw [hr'] at hs'
  obtain rfl := Option.some.inj hs
  obtain rfl := Option.some.inj hs'
  have := huniq r r' hse (symEquiv_trans hq hse') (abs_of_nonneg hs0)
    (by rw [abs_of_nonneg hs0', hw])
  rcases this with h | h
  · exact toH_inj h
  · exfalso
    have := congrArg (fun h => h.re) h
    simp only [H_re_neg, toH_re] at this
    linarith

/-- non-vacuity for C08: a genuine pair of distinct symmetric equivalents. -/
example : SymEquiv 2 ⟨3/5, 0, 0, 4/5⟩ ⟨-4/5, 0, 0, 3/5⟩ := by
  refine ⟨toH ⟨0, 0, 0, 1⟩, mem_rot (n := 2) (by norm_num) (by norm_num) (G := laueC2) rfl
    (by simp [laueC2]), ?_⟩
  ext <;> simp
  norm_num

/-- non-vacuity of `C08_canonical`: monoclinic, q = (3/5,0,0,4/5) reduces to (4/5, 0, 0, -3/5), and
the equivalents with scalar part ±4/5 agree up to sign. -/
example (s t : Q) (hs : SymEquiv 2 ⟨3/5, 0, 0, 4/5⟩ s) (ht : SymEquiv 2 ⟨3/5, 0, 0, 4/5⟩ t)
    (h1 : |s.w| = 4/5) (h2 : |t.w| = 4/5) : SameUpToSign (toH s) (toH t) := by
  have key : ∀ s : Q, SymEquiv 2 ⟨3/5, 0, 0, 4/5⟩ s → |s.w| = 4/5 →
      SameUpToSign (toH s) (toH ⟨-4/5, 0, 0, 3/5⟩) := by
    rintro s ⟨g, hg, he⟩ h
    have h2' : laueElements ((2 : ℕ) : ℤ) = some laueC2 := rfl
    rw [gen_laue (n := 2) (by norm_num) (by norm_num) h2'] at hg
    obtain ⟨c, hc, hcs⟩ := hg
    have hre : s.w = (toH ⟨3/5, 0, 0, 4/5⟩ * g).re := by rw [← he]; rfl
    simp only [laueC2, List.mem_cons, List.not_mem_nil, or_false] at hc
    rcases hc with rfl | rfl
    · exfalso
      rw [hre] at h
      rcases hcs with rfl | rfl <;> norm_num [abs_of_pos, abs_of_neg] at h
    · have := (SameUpToSign.mul_left (toH ⟨3/5, 0, 0, 4/5⟩) hcs)
      rw [← he] at this
      refine this.trans (Or.inl ?_)
      ext <;> simp
      norm_num
  exact (key s hs h1).trans (key t ht h2).symm

/-! ### C09: closed form = brute force -/

/-- C09: for quaternions with non-negative scalar part the closed-form test answers, for each of the
11 Laue groups, exactly whether the orientation has minimal rotation angle among its symmetric
equivalents; all other ids are rejected. -/
theorem C09_closed_form (q : Q) (hw : 0 ≤ q.w) (n : ℕ) (h1 : 1 ≤ n) (h2 : n ≤ 11) :
    ∃ b, oriInFz q n = some b ∧ (b = true ↔ InZone n (toH q)) := by
  have hz : ∀ G, laueElements n = some G →
      (InZone n (toH q) ↔ ∀ g ∈ G, quProdPosReal q g ≤ q.w) := by
    intro G he
    unfold InZone
    rw [forall_rot_iff h1 h2 he, toH_re, abs_of_nonneg hw]
    simp only [posReal_eq]
  obtain ⟨t0, t2, t3, t4⟩ := s2_facts
  obtain ⟨s0, s2, s3, s4⟩ := s3_facts
  have hx := abs_nonneg q.x
  have hy := abs_nonneg q.y
  interval_cases n
  · refine ⟨true, by simp [oriInFz], ?_⟩
    rw [hz laueC1 rfl]
    simpa using ineq_C1 q hw
  · refine ⟨_, by simp only [oriInFz]; norm_num; rfl, ?_⟩
    rw [hz laueC2 rfl, ineq_C2 q hw, decide_eq_true_eq]
  · refine ⟨_, by simp only [oriInFz]; norm_num; rfl, ?_⟩
    rw [hz laueD2 rfl, ineq_D2 q hw, decide_eq_true_eq]
  · refine ⟨_, by simp only [oriInFz]; norm_num; rfl, ?_⟩
    rw [hz laueC4 rfl, ineq_C4 q hw, decide_eq_true_eq]
  · have e : oriInFz q ((5 : ℕ) : ℤ) = some (decide (|q.z| ≤ (Real.sqrt 2 - 1) * q.w ∧
      (if (if |q.x| > |q.y| then |q.x| else |q.y|) > (Real.sqrt 2 + 1) *
        (if |q.x| > |q.y| then |q.y| else |q.x|) then (if |q.x| > |q.y| then |q.x| else |q.y|)
      else (1 / Real.sqrt 2) * (if |q.x| > |q.y| then |q.x| else |q.y|) +
        (1 / Real.sqrt 2) * (if |q.x| > |q.y| then |q.y| else |q.x|)) ≤ q.w)) := by
      simp only [oriInFz]; norm_num
    refine ⟨_, e, ?_⟩
    rw [hz laueD4 rfl, ineq_D4 q hw, decide_eq_true_eq]
    apply and_congr_right
    intro _
    have hr : 1 / Real.sqrt 2 = Real.sqrt 2 / 2 := R2_eq
    rw [hr]
    have key : ∀ m k : ℝ, 0 ≤ k → k ≤ m → ((if m > (Real.sqrt 2 + 1) * k then m
        else Real.sqrt 2 / 2 * m + Real.sqrt 2 / 2 * k) ≤ q.w ↔
        m ≤ q.w ∧ k ≤ q.w ∧ m + k ≤ Real.sqrt 2 * q.w) := by
      intro m k hk hkm
      rw [← r2lin, mul_add]
      split
      · constructor
        · intro h; refine ⟨h, by linarith, ?_⟩; nlinarith
        · rintro ⟨h, _, _⟩; exact h
      · constructor
        · intro h
          have : m ≤ Real.sqrt 2 / 2 * m + Real.sqrt 2 / 2 * k := by nlinarith
          exact ⟨by linarith, by linarith, h⟩
        · rintro ⟨_, _, h⟩; exact h
    by_cases hc : |q.x| > |q.y|
    · simp only [if_pos hc]
      rw [key _ _ hy hc.le]
    · simp only [if_neg hc]
      rw [key _ _ hx (not_lt.mp hc), add_comm |q.y|]
      tauto
  · refine ⟨_, by simp only [oriInFz]; norm_num; rfl, ?_⟩
    rw [hz laueC3 rfl, ineq_C3 q hw, decide_eq_true_eq, one_div]
  · have e : oriInFz q ((7 : ℕ) : ℤ) = some (decide (|q.z| ≤ (1 / Real.sqrt 3) * q.w ∧
      (if |q.x| ≥ |q.y| * Real.sqrt 3 then |q.x|
      else (Real.sqrt 3 / 2) * |q.y| + 0.5 * |q.x|) ≤ q.w)) := by
      simp only [oriInFz]; norm_num
    refine ⟨_, e, ?_⟩
    rw [hz laueD3 rfl, ineq_D3 q hw, decide_eq_true_eq]
    apply and_congr_right
    intro _
    split
    · constructor
      · intro h; exact ⟨h, by nlinarith⟩
      · rintro ⟨h, _⟩; exact h
    · rename_i h; rw [not_le] at h
      constructor
      · intro h; exact ⟨by nlinarith, by linarith⟩
      · rintro ⟨_, h⟩; linarith
  · refine ⟨_, by simp only [oriInFz]; norm_num; rfl, ?_⟩
    rw [hz laueC6 rfl, ineq_C6 q hw, decide_eq_true_eq]
  · have e : oriInFz q ((9 : ℕ) : ℤ) = some (decide (|q.z| ≤ (2 - Real.sqrt 3) * q.w ∧
      (if (if |q.x| > |q.y| then |q.x| else |q.y|) > (2 + Real.sqrt 3) *
        (if |q.x| > |q.y| then |q.y| else |q.x|) then (if |q.x| > |q.y| then |q.x| else |q.y|)
      else (Real.sqrt 3 / 2) * (if |q.x| > |q.y| then |q.x| else |q.y|) +
        0.5 * (if |q.x| > |q.y| then |q.y| else |q.x|)) ≤ q.w)) := by
      simp only [oriInFz]; norm_num
    refine ⟨_, e, ?_⟩
    rw [hz laueD6 rfl, ineq_D6 q hw, decide_eq_true_eq]
    apply and_congr_right
    intro _
    have key : ∀ m k : ℝ, 0 ≤ k → k ≤ m → ((if m > (2 + Real.sqrt 3) * k then m
        else Real.sqrt 3 / 2 * m + 0.5 * k) ≤ q.w ↔
        m ≤ q.w ∧ k ≤ q.w ∧ 1 / 2 * m + Real.sqrt 3 / 2 * k ≤ q.w ∧
          Real.sqrt 3 / 2 * m + 1 / 2 * k ≤ q.w) := by
      intro m k hk hkm
      have h5 : 1 / 2 * m + Real.sqrt 3 / 2 * k ≤ Real.sqrt 3 / 2 * m + 1 / 2 * k := by nlinarith
      split
      · rename_i hm
        have h6 : Real.sqrt 3 / 2 * m + 1 / 2 * k ≤ m := by nlinarith
        constructor
        · intro h; exact ⟨h, by linarith, by linarith, by linarith⟩
        · rintro ⟨h, _, _⟩; exact h
      · rename_i hm; rw [gt_iff_lt, not_lt] at hm
        have h6 : m ≤ Real.sqrt 3 / 2 * m + 1 / 2 * k := by nlinarith
        constructor
        · intro h
          exact ⟨by linarith, by linarith, by linarith, by linarith⟩
        · rintro ⟨_, _, _, h⟩; linarith
    by_cases hc : |q.x| > |q.y|
    · simp only [if_pos hc]
      rw [key _ _ hy hc.le]
    · simp only [if_neg hc]
      rw [key _ _ hx (not_lt.mp hc), add_comm (1 / 2 * |q.y|), add_comm (Real.sqrt 3 / 2 * |q.y|)]
      tauto
  · refine ⟨_, by simp only [oriInFz]; norm_num; rfl, ?_⟩
    rw [hz laueT rfl, ineq_T q hw, decide_eq_true_eq]; rfl
  · refine ⟨_, by simp only [oriInFz]; norm_num; rfl, ?_⟩
    rw [hz laueO rfl, ineq_O q hw, Bool.and_eq_true, decide_eq_true_eq, decide_eq_true_eq]; rfl

/-- C09: the closed form rejects every id outside 1..11. -/
theorem C09_reject (q : Q) (n : ℤ) (h : n < 1 ∨ 11 < n) : oriInFz q n = none := by
  unfold oriInFz
  repeat rw [if_neg (by omega)]

/-- C09: the brute-force test decides zone membership too (for any sign of the scalar part), so both
tests agree on quaternions with non-negative scalar part. -/
theorem C09_brute (q : Q) (n : ℕ) (h1 : 1 ≤ n) (h2 : n ≤ 11) :
    ∃ b, oriInFzBrute q n = some b ∧ (b = true ↔ InZone n (toH q)) ∧
      (0 ≤ q.w → oriInFz q n = some b) := by
  obtain ⟨l, _, _, he⟩ := laueElements_some n h1 h2
  obtain ⟨m, hm, hlen⟩ := laueMult_len h1 h2 he
  obtain ⟨t, ht⟩ := laue_ne_nil h1 h2 he
  have e : oriInFzBrute q n = some (decide (argmaxFirst ((l.map XQ.toQ).map fun g =>
      |quProdPosReal q g|) = 0)) := by
    unfold oriInFzBrute
    rw [hm, he]
    simp only [Option.bind_eq_bind, Option.bind_some, if_pos hlen]
    rfl
  have hiff : (decide (argmaxFirst ((l.map XQ.toQ).map fun g =>
      |quProdPosReal q g|) = 0) = true ↔ InZone n (toH q)) := by
    rw [decide_eq_true_eq, ht, List.map_cons, argmaxFirst_zero]
    unfold InZone
    rw [forall_rot_iff h1 h2 he, ht]
    have h0 : |quProdPosReal q ⟨1, 0, 0, 0⟩| = |(toH q).re| := by
      simp [quProdPosReal]
    rw [h0]
    simp only [List.forall_mem_cons]
    have h00 : |(toH q * toH ⟨1, 0, 0, 0⟩).re| ≤ |(toH q).re| := by simp
    constructor
    · intro h
      refine ⟨h00, fun g hg => ?_⟩
      have := h _ (List.mem_map_of_mem hg)
      rw [posReal_eq, abs_abs] at this
      exact this
    · rintro ⟨_, h⟩ y hy
      obtain ⟨g, hg, rfl⟩ := List.mem_map.mp hy
      rw [posReal_eq, abs_abs]
      exact h g hg
  refine ⟨_, e, hiff, fun hw => ?_⟩
  obtain ⟨b, hb, hbi⟩ := C09_closed_form q hw n h1 h2
  rw [hb]
  congr 1
  rw [Bool.eq_iff_iff, hbi, hiff]

/-- non-vacuity for C09: both answers occur. -/
example : oriInFz ⟨1, 0, 0, 0⟩ 9 = some true ∧ oriInFz ⟨3/5, 0, 0, 4/5⟩ 10 = some false := by
  constructor
  · simp only [oriInFz]; norm_num
    obtain ⟨_, _, _, h⟩ := s3_facts; linarith
  · simp only [oriInFz, sumAbsXyz]; norm_num [abs_of_pos]

/-! ### C10: reduced orientations are inside -/

/-- C10: the reduction always lands in the closed-form fundamental zone, and reducing again changes
neither the scalar part nor the rotation angle. -/
theorem C10_inside (q : Q) (n : ℕ) (h1 : 1 ≤ n) (h2 : n ≤ 11) :
    ∃ r, oriToFz q n = some r ∧ oriInFz r n = some true ∧
      ∃ r', oriToFz r n = some r' ∧ r'.w = r.w ∧ quAngle r' = quAngle r := by
  obtain ⟨r, hr, hse, h0, _, hmax, _⟩ := C07_reduce q n h1 h2
  obtain ⟨r', hr', _⟩ := C07_reduce r n h1 h2
  obtain ⟨b, hb, hbi⟩ := C09_closed_form r h0 n h1 h2
  have hz : InZone n (toH r) := by
    obtain ⟨g, hg, he⟩ := hse
    intro h hh
    rw [toH_re, abs_of_nonneg h0, he, mul_assoc]
    exact hmax _ ((laueRotations n).mul_mem hg hh)
  refine ⟨r, hr, by rw [hb, hbi.mpr hz], r', hr', ?_⟩
  have := C08_angle q r r r' n h1 h2 (Or.inl hse) hr hr'
  exact ⟨this.1.symm, this.2.symm⟩

/-! ### C11: disorientation -/

theorem same_triple (a b c : Q) : quTripleProdPosReal a b c = |(toH a * toH b * toH c).re| := by
  unfold quTripleProdPosReal
  rw [posReal_eq, mul_assoc]
  exact (SameUpToSign.mul_left _ (same_quProd b c)).abs_re

/-- characterisation of the returned angle by the maximum over both groups -/
theorem disori_spec (q1 q2 : Q) (n m : ℕ) (hn1 : 1 ≤ n) (hn2 : n ≤ 11) (hm1 : 1 ≤ m) (hm2 : m ≤ 11) :
    ∃ c, disoriAngle q1 q2 n m = some (2 * Real.arccos c) ∧
      (∃ g ∈ laueRotations n, ∃ h ∈ laueRotations m,
        c = |(h * (toH q1 * star (toH q2)) * g).re|) ∧
      (∀ g ∈ laueRotations n, ∀ h ∈ laueRotations m,
        |(h * (toH q1 * star (toH q2)) * g).re| ≤ c) := by
  obtain ⟨l1, _, _, he1⟩ := laueElements_some n hn1 hn2
  obtain ⟨l2, _, _, he2⟩ := laueElements_some m hm1 hm2
  obtain ⟨t1, ht1⟩ := laue_ne_nil hn1 hn2 he1
  obtain ⟨t2, ht2⟩ := laue_ne_nil hm1 hm2 he2
  set G1 := l1.map XQ.toQ
  set G2 := l2.map XQ.toQ
  set M := quProd q1 (quConj q2)
  have hM : SameUpToSign (toH M) (toH q1 * star (toH q2)) := by
    rw [← toH_conj]; exact same_quProd _ _
  set L := G2.flatMap fun g2 => G1.map fun g1 => quTripleProdPosReal g2 M g1 with hL
  have hne : L ≠ [] := by rw [hL, ht1, ht2]; simp
  obtain ⟨c, hc, hrow, hmax⟩ := rowMax_spec hne
  have hval : ∀ g1 g2 : Q, quTripleProdPosReal g2 M g1 =
      |(toH g2 * (toH q1 * star (toH q2)) * toH g1).re| := by
    intro g1 g2
    rw [same_triple]
    exact (SameUpToSign.mul_right _ (SameUpToSign.mul_left _ hM)).abs_re
  refine ⟨c, ?_, ?_, ?_⟩
  · unfold disoriAngle
    rw [he1, he2]
    simp only [Option.bind_eq_bind, Option.bind_some]
    rw [hrow]; rfl
  · rw [hL, List.mem_flatMap] at hc
    obtain ⟨g2, hg2, hc⟩ := hc
    obtain ⟨g1, hg1, rfl⟩ := List.mem_map.mp hc
    exact ⟨toH g1, mem_rot hn1 hn2 he1 hg1, toH g2, mem_rot hm1 hm2 he2 hg2, hval g1 g2⟩
  · intro g hg h hh
    rw [gen_laue hn1 hn2 he1] at hg
    rw [gen_laue hm1 hm2 he2] at hh
    obtain ⟨g1, hg1, hs1⟩ := hg
    obtain ⟨g2, hg2, hs2⟩ := hh
    have : SameUpToSign (h * (toH q1 * star (toH q2)) * g)
        (toH g2 * (toH q1 * star (toH q2)) * toH g1) :=
      (SameUpToSign.mul_left _ hs1).trans
        (SameUpToSign.mul_right _ (SameUpToSign.mul_right _ hs2))
    rw [this.abs_re, ← hval]
    exact hmax _ (List.mem_flatMap.mpr ⟨g2, hg2, List.mem_map_of_mem hg1⟩)

theorem H_star_mul (u v : ℍ[ℝ]) : star (u * v) = star v * star u := by
  ext <;> simp <;> ring
theorem H_star_star (u : ℍ[ℝ]) : star (star u) = u := by ext <;> simp

theorem disori_le {q1 q2 q1' q2' : Q} {n m n' m' : ℕ} (hn1 : 1 ≤ n) (hn2 : n ≤ 11) (hm1 : 1 ≤ m)
    (hm2 : m ≤ 11) (hn1' : 1 ≤ n') (hn2' : n' ≤ 11) (hm1' : 1 ≤ m') (hm2' : m' ≤ 11)
    (H : ∀ g ∈ laueRotations n, ∀ h ∈ laueRotations m, ∃ g' ∈ laueRotations n',
      ∃ h' ∈ laueRotations m', |(h * (toH q1 * star (toH q2)) * g).re| =
        |(h' * (toH q1' * star (toH q2')) * g').re|)
    (H' : ∀ g ∈ laueRotations n', ∀ h ∈ laueRotations m', ∃ g' ∈ laueRotations n,
      ∃ h' ∈ laueRotations m, |(h * (toH q1' * star (toH q2')) * g).re| =
        |(h' * (toH q1 * star (toH q2)) * g').re|) :
    disoriAngle q1 q2 n m = disoriAngle q1' q2' n' m' := by
  obtain ⟨c, hc, ⟨g, hg, h, hh, e⟩, hmax⟩ := disori_spec q1 q2 n m hn1 hn2 hm1 hm2
  obtain ⟨c', hc', ⟨g', hg', h', hh', e'⟩, hmax'⟩ := disori_spec q1' q2' n' m' hn1' hn2' hm1' hm2'
  have : c = c' := by
    apply le_antisymm
    · obtain ⟨a, ha, b, hb, hab⟩ := H g hg h hh
      rw [e, hab]; exact hmax' a ha b hb
    · obtain ⟨a, ha, b, hb, hab⟩ := H' g' hg' h' hh'
      rw [e', hab]; exact hmax a ha b hb
  rw [hc, hc', this]

/-- C11 (partial): the disorientation angle is unchanged when `q1` is replaced by `±h * q1` with `h`
in the group of the *second* id, when `q2` is replaced by `±h * q2` with `h` in the group of the
*first* id, and when the two orientations and ids are swapped.  Missing: invariance under the
library's own notion of equivalence `q * h` -- see `C11_right_equiv_fails`. -/
theorem C11_invariant_partial (q1 q2 q1' q2' : Q) (n m : ℕ) (hn1 : 1 ≤ n) (hn2 : n ≤ 11)
    (hm1 : 1 ≤ m) (hm2 : m ≤ 11) (h k : ℍ[ℝ]) (hh : h ∈ laueRotations m)
    (hk : k ∈ laueRotations n) (e1 : SameUpToSign (toH q1') (h * toH q1))
    (e2 : SameUpToSign (toH q2') (k * toH q2)) :
    disoriAngle q1' q2' n m = disoriAngle q1 q2 n m ∧
    disoriAngle q2 q1 m n = disoriAngle q1 q2 n m := by
  have hstar := rot_star hm1 hm2 hh
  have kstar := rot_star hn1 hn2 hk
  have hprod : SameUpToSign (toH q1' * star (toH q2')) (h * (toH q1 * star (toH q2)) * star k) := by
    have a := SameUpToSign.mul_right (star (toH q2')) e1
    have b := SameUpToSign.mul_left (h * toH q1) e2.star
    rw [H_star_mul] at b
    refine (a.trans b).trans (Or.inl ?_)
    simp only [mul_assoc]
  constructor
  · apply disori_le <;> try assumption
    · intro g hg x hx
      refine ⟨star k * g, (laueRotations n).mul_mem kstar.1 hg, x * h,
        (laueRotations m).mul_mem hx hh, ?_⟩
      rw [(SameUpToSign.mul_right g (SameUpToSign.mul_left x hprod)).abs_re]
      simp only [mul_assoc]
    · intro g hg x hx
      refine ⟨k * g, (laueRotations n).mul_mem hk hg, x * star h,
        (laueRotations m).mul_mem hx hstar.1, ?_⟩
      rw [(SameUpToSign.mul_right (k * g) (SameUpToSign.mul_left (x * star h) hprod)).abs_re]
      have : x * star h * (h * (toH q1 * star (toH q2)) * star k) * (k * g) =
          x * (star h * h) * (toH q1 * star (toH q2)) * (star k * k) * g := by
        simp only [mul_assoc]
      rw [this, hstar.2.2, kstar.2.2]
      simp only [mul_one]
  · have T : ∀ a b g x : ℍ[ℝ], |(x * (a * star b) * g).re| =
        |(star g * (b * star a) * star x).re| := by
      intro a b g x
      rw [← H_re_star]
      simp only [H_star_mul, H_star_star, mul_assoc]
    apply disori_le <;> try assumption
    · intro g hg x hx
      exact ⟨star x, (rot_star hn1 hn2 hx).1, star g, (rot_star hm1 hm2 hg).1, T _ _ _ _⟩
    · intro g hg x hx
      exact ⟨star x, (rot_star hm1 hm2 hx).1, star g, (rot_star hn1 hn2 hg).1, T _ _ _ _⟩

/-- C11: the reduced misorientation is `h * q * g` (up to sign) with `g` in the group of the first id and `h` in that of the
second, its scalar part is non-negative, and no other such product has a smaller rotation angle. -/
theorem C11_misori (q : Q) (n m : ℕ) (hn1 : 1 ≤ n) (hn2 : n ≤ 11) (hm1 : 1 ≤ m) (hm2 : m ≤ 11) :
    ∃ r, misoriToFz q n m = some r ∧ 0 ≤ r.w ∧ (IsUnit4 q → IsUnit4 r) ∧
      (∃ g ∈ laueRotations n, ∃ h ∈ laueRotations m, SameUpToSign (toH r) (h * toH q * g)) ∧
      (∀ g ∈ laueRotations n, ∀ h ∈ laueRotations m, |(h * toH q * g).re| ≤ r.w) := by
  obtain ⟨l1, _, _, he1⟩ := laueElements_some n hn1 hn2
  obtain ⟨l2, _, _, he2⟩ := laueElements_some m hm1 hm2
  obtain ⟨t1, ht1⟩ := laue_ne_nil hn1 hn2 he1
  obtain ⟨t2, ht2⟩ := laue_ne_nil hm1 hm2 he2
  set G1 := l1.map XQ.toQ
  set G2 := l2.map XQ.toQ
  set L := G2.flatMap fun g2 => G1.map fun g1 => quProd g2 (quProd q g1) with hL
  have hne : L.map (fun e => |e.w|) ≠ [] := by rw [hL, ht1, ht2]; simp
  have hlt := argmaxFirst_lt hne
  have hmax := argmaxFirst_max hlt
  have hlt' : argmaxFirst (L.map fun e => |e.w|) < L.length := by simpa using hlt
  set r := L[argmaxFirst (L.map fun e => |e.w|)] with hr
  have hsame : ∀ g1 g2 : Q, SameUpToSign (toH (quProd g2 (quProd q g1))) (toH g2 * toH q * toH g1) := by
    intro g1 g2
    have := (same_quProd g2 (quProd q g1)).trans (SameUpToSign.mul_left (toH g2) (same_quProd q g1))
    rwa [← mul_assoc] at this
  have hrL : r ∈ L := List.getElem_mem hlt'
  have hrL' := hrL
  rw [hL, List.mem_flatMap] at hrL'
  obtain ⟨g2, hg2, h'⟩ := hrL'
  obtain ⟨g1, hg1, e⟩ := List.mem_map.mp h'
  have hw : 0 ≤ r.w := by rw [← e]; exact quStd_nonneg _
  refine ⟨r, ?_, hw, ?_, ⟨toH g1, mem_rot hn1 hn2 he1 hg1, toH g2, mem_rot hm1 hm2 he2 hg2, ?_⟩, ?_⟩
  · unfold misoriToFz
    rw [he1, he2]
    simp only [Option.bind_eq_bind, Option.bind_some]
    exact List.getElem?_eq_getElem hlt'
  · intro hq
    rw [← e]
    exact unit_std.mpr (unit_prodRaw ((rotGroup_laue hm1 hm2 he2).unit g2 hg2)
      (unit_std.mpr (unit_prodRaw hq ((rotGroup_laue hn1 hn2 he1).unit g1 hg1))))
  · rw [← e]; exact hsame g1 g2
  · intro g hg h hh
    rw [gen_laue hn1 hn2 he1] at hg
    rw [gen_laue hm1 hm2 he2] at hh
    obtain ⟨k1, hk1, hs1⟩ := hg
    obtain ⟨k2, hk2, hs2⟩ := hh
    have hs : SameUpToSign (h * toH q * g) (toH k2 * toH q * toH k1) :=
      (SameUpToSign.mul_left _ hs1).trans (SameUpToSign.mul_right _ (SameUpToSign.mul_right _ hs2))
    rw [hs.abs_re, ← (hsame k1 k2).abs_re]
    have := hmax _ (List.mem_map_of_mem (f := fun e : Q => |e.w|)
      (List.mem_flatMap.mpr ⟨k2, hk2, List.mem_map_of_mem hk1⟩))
    rw [List.getElem_map, ← hr, abs_of_nonneg hw] at this
    exact this

/-- C11: the disorientation quaternion is `h * q1 * q2⁻¹ * g` up to sign, with `g` in the group of the first id and `h` in
that of the second, and its rotation angle is `disori_angle_laue`. -/
theorem C11_disorientation (q1 q2 : Q) (n m : ℕ) (hn1 : 1 ≤ n) (hn2 : n ≤ 11) (hm1 : 1 ≤ m) (hm2 : m ≤ 11) :
    ∃ r, disorientation q1 q2 n m = some r ∧ 0 ≤ r.w ∧
      (∃ g ∈ laueRotations n, ∃ h ∈ laueRotations m,
        SameUpToSign (toH r) (h * (toH q1 * star (toH q2)) * g)) ∧
      disoriAngle q1 q2 n m = some (rotAngle (toH r)) := by
  obtain ⟨r, hr, hw, -, ⟨g, hg, h, hh, hs⟩, hmax⟩ := C11_misori (quProd q1 (quConj q2)) n m hn1 hn2 hm1 hm2
  obtain ⟨c, hc, ⟨g', hg', h', hh', e'⟩, hmax'⟩ := disori_spec q1 q2 n m hn1 hn2 hm1 hm2
  have hM : SameUpToSign (toH (quProd q1 (quConj q2))) (toH q1 * star (toH q2)) := by
    rw [← toH_conj]; exact same_quProd _ _
  have hM' : ∀ x y : ℍ[ℝ], SameUpToSign (x * toH (quProd q1 (quConj q2)) * y) (x * (toH q1 * star (toH q2)) * y) :=
    fun x y => SameUpToSign.mul_right _ (SameUpToSign.mul_left _ hM)
  refine ⟨r, hr, hw, ⟨g, hg, h, hh, hs.trans (hM' _ _)⟩, ?_⟩
  have : c = r.w := by
    apply le_antisymm
    · have := hmax g' hg' h' hh'
      rwa [(hM' _ _).abs_re, ← e'] at this
    · have := hmax' g hg h hh
      rwa [← (hM' _ _).abs_re, ← hs.abs_re, toH_re, abs_of_nonneg hw] at this
  rw [hc, this]
  unfold rotAngle
  rw [toH_re, abs_of_nonneg hw]

example : (1 : ℕ) ≤ 11 ∧ 11 ≤ 11 ∧ (1 : ℕ) ≤ 9 ∧ 9 ≤ 11 := by decide

theorem sq_eq_one_or {a : ℝ} (h : a ^ 2 = 1) : a = 1 ∨ a = -1 := by
  have : (a - 1) * (a + 1) = 0 := by linear_combination h
  rcases mul_eq_zero.mp this with h | h
  · left; linarith
  · right; linarith

theorem unit_star_mul {q1 q2 : Q} (h1 : IsUnit4 q1) (h2 : IsUnit4 q2) :
    ∃ p : Q, IsUnit4 p ∧ toH p = toH q1 * star (toH q2) :=
  ⟨quProdRaw q1 (quConj q2), unit_prodRaw h1 (unit_conj.mpr h2), by rw [toH_prodRaw, toH_conj]⟩

/-- C11: for one Laue group the disorientation angle of unit quaternions lies in `[0, π]` and is zero
exactly when one orientation is `h * q` of the other for some group member `h`. -/
theorem C11_zero_partial (q1 q2 : Q) (u1 : IsUnit4 q1) (u2 : IsUnit4 q2) (n : ℕ) (hn1 : 1 ≤ n)
    (hn2 : n ≤ 11) :
    ∃ a, disoriAngle q1 q2 n n = some a ∧ 0 ≤ a ∧ a ≤ Real.pi ∧
      (a = 0 ↔ ∃ h ∈ laueRotations n, toH q1 = h * toH q2) := by
  obtain ⟨c, hc, ⟨g, hg, h, hh, e⟩, hmax⟩ := disori_spec q1 q2 n n hn1 hn2 hn1 hn2
  have c0 : 0 ≤ c := by rw [e]; exact abs_nonneg _
  refine ⟨_, hc, by have := Real.arccos_nonneg c; linarith,
    by have := Real.arccos_le_pi_div_two.mpr c0; linarith, ?_⟩
  have hcyc : ∀ a b d : ℍ[ℝ], (a * b * d).re = (b * (d * a)).re := by
    intro a b d; rw [mul_assoc, H_re_mul_comm, mul_assoc]
  have hz : (2 * Real.arccos c = 0 ↔ 1 ≤ c) := by
    rw [← Real.arccos_eq_zero]; constructor <;> intro h <;> linarith
  rw [hz]
  constructor
  · intro hc1
    -- c = |re(p * (g h))| with p and gh unit
    obtain ⟨p, hp, hpe⟩ := unit_star_mul u1 u2
    have hgh := (laueRotations n).mul_mem hg hh
    obtain ⟨l, _, _, he⟩ := laueElements_some n hn1 hn2
    have hgh' := hgh
    rw [gen_laue hn1 hn2 he] at hgh'
    obtain ⟨k, hk, hks⟩ := hgh'
    have hku := (rotGroup_laue hn1 hn2 he).unit k hk
    rw [hcyc, ← hpe, (SameUpToSign.mul_left (toH p) hks).abs_re] at e
    rw [e] at hc1
    have hu := unit_prodRaw hp hku
    have hre : (toH p * toH k).re = (quProdRaw p k).w := by rw [← toH_prodRaw]; rfl
    rw [hre] at hc1
    have hsq : 1 ≤ (quProdRaw p k).w ^ 2 := by
      rw [← sq_abs]; nlinarith
    unfold IsUnit4 at hu
    have hx : (quProdRaw p k).x = 0 := by
      have := sq_nonneg (quProdRaw p k).y; have := sq_nonneg (quProdRaw p k).z
      exact pow_eq_zero_iff (two_ne_zero) |>.mp
        (le_antisymm (by linarith) (sq_nonneg _))
    have hy : (quProdRaw p k).y = 0 := by
      have := sq_nonneg (quProdRaw p k).x; have := sq_nonneg (quProdRaw p k).z
      exact pow_eq_zero_iff (two_ne_zero) |>.mp
        (le_antisymm (by linarith) (sq_nonneg _))
    have hzz : (quProdRaw p k).z = 0 := by
      have := sq_nonneg (quProdRaw p k).x; have := sq_nonneg (quProdRaw p k).y
      exact pow_eq_zero_iff (two_ne_zero) |>.mp
        (le_antisymm (by linarith) (sq_nonneg _))
    have hw2 : (quProdRaw p k).w ^ 2 = 1 := by
      rw [hx, hy, hzz] at hu; linarith
    have hkk := rot_star hn1 hn2 (mem_rot hn1 hn2 he hk)
    have hq1 : ∀ s : ℍ[ℝ], toH p * toH k = s → toH q1 = s * star (toH k) * toH q2 := by
      intro s hs
      rw [← hs, mul_assoc (toH p), hkk.2.1, mul_one, hpe, mul_assoc, H_star_mul_of_unit u2, mul_one]
    rcases (sq_eq_one_or hw2) with hw | hw
    · refine ⟨star (toH k), hkk.1, ?_⟩
      have := hq1 1 (by rw [← toH_prodRaw]; ext <;> simp [hx, hy, hzz, hw])
      rwa [one_mul] at this
    · refine ⟨-star (toH k), mem_of_same hn1 hn2 (Or.inr rfl) hkk.1, ?_⟩
      have := hq1 (-1) (by rw [← toH_prodRaw]; ext <;> simp [hx, hy, hzz, hw])
      rwa [H_neg_mul, one_mul] at this
  · rintro ⟨k, hk, hke⟩
    have hks := rot_star hn1 hn2 hk
    have := hmax 1 (laueRotations n).one_mem (star k) hks.1
    rw [mul_one, hke, mul_assoc k, H_mul_star_of_unit u2, mul_one, hks.2.2] at this
    simpa using this

/-- C11: for one Laue group `disori_angle_laue` and `ori_angle_laue` agree (unit quaternions). -/
theorem C11_same_as_ori_angle (q1 q2 : Q) (u1 : IsUnit4 q1) (u2 : IsUnit4 q2) (n : ℕ) (hn1 : 1 ≤ n)
    (hn2 : n ≤ 11) : disoriAngle q1 q2 n n = oriAngle q1 q2 n := by
  obtain ⟨c, hc, ⟨g, hg, h, hh, e⟩, hmax⟩ := disori_spec q1 q2 n n hn1 hn2 hn1 hn2
  set M := quProd q1 (quConj q2) with hMd
  have hM : SameUpToSign (toH M) (toH q1 * star (toH q2)) := by
    rw [← toH_conj]; exact same_quProd _ _
  have hMu : IsUnit4 M := unit_std.mpr (unit_prodRaw u1 (unit_conj.mpr u2))
  obtain ⟨r, hr, ⟨k, hk, hke⟩, h0, hru, hrm, _⟩ := C07_reduce M n hn1 hn2
  have hcyc : ∀ a b d : ℍ[ℝ], (a * b * d).re = (b * (d * a)).re := by
    intro a b d; rw [mul_assoc, H_re_mul_comm, mul_assoc]
  have hcr : c = r.w := by
    apply le_antisymm
    · rw [e, hcyc, ← (SameUpToSign.mul_right _ hM).abs_re]
      exact hrm _ ((laueRotations n).mul_mem hg hh)
    · have := hmax k hk 1 (laueRotations n).one_mem
      rw [one_mul, ← (SameUpToSign.mul_right k hM).abs_re, ← hke, toH_re, abs_of_nonneg h0] at this
      exact this
  rw [hc]
  unfold oriAngle
  rw [← hMd, hr]
  simp only [Option.bind_eq_bind, Option.bind_some, Option.pure_def]
  rw [quNormStd, quNorm_of_unit (hru hMu), quStd_of_nonneg h0, quAngle, hcr]

/-- C11 fails for the library's own equivalence `q * g` (as returned by `ori_equiv_laue` and used by
`ori_to_fz_laue`): two monoclinic orientations that are symmetric equivalents get the maximal
disorientation angle π. -/
theorem C11_right_equiv_fails : ∃ q1 q2 : Q, IsUnit4 q1 ∧ IsUnit4 q2 ∧ SymEquiv 2 q1 q2 ∧
    disoriAngle q1 q2 2 2 = some Real.pi := by
  have h2' : laueElements ((2 : ℕ) : ℤ) = some laueC2 := rfl
  have hk : toH ⟨0, 0, 0, 1⟩ ∈ laueRotations 2 :=
    mem_rot (n := 2) (by norm_num) (by norm_num) h2' (by simp [laueC2])
  refine ⟨⟨1/2, 1/2, 1/2, 1/2⟩, ⟨-(1/2), 1/2, -(1/2), 1/2⟩, by norm_num [IsUnit4],
    by norm_num [IsUnit4], ⟨toH ⟨0, 0, 0, 1⟩, hk, by ext <;> simp⟩, ?_⟩
  obtain ⟨c, hc, ⟨g, hg, h, hh, e⟩, hmax⟩ := disori_spec ⟨1/2, 1/2, 1/2, 1/2⟩
    ⟨-(1/2), 1/2, -(1/2), 1/2⟩ 2 2 (by norm_num) (by norm_num) (by norm_num) (by norm_num)
  have : c = 0 := by
    rw [gen_laue (n := 2) (by norm_num) (by norm_num) h2'] at hg hh
    obtain ⟨g1, hg1, hs1⟩ := hg
    obtain ⟨g2, hg2, hs2⟩ := hh
    rw [e, ((SameUpToSign.mul_left _ hs1).trans
      (SameUpToSign.mul_right _ (SameUpToSign.mul_right _ hs2))).abs_re]
    simp only [laueC2, List.mem_cons, List.not_mem_nil, or_false] at hg1 hg2
    rcases hg1 with rfl | rfl <;> rcases hg2 with rfl | rfl <;> norm_num
  have hc' : disoriAngle ⟨1/2, 1/2, 1/2, 1/2⟩ ⟨-(1/2), 1/2, -(1/2), 1/2⟩ 2 2 =
    some (2 * Real.arccos c) := hc
  rw [hc', this, Real.arccos_zero]
  congr 1; ring

/-- non-vacuity for C11: two different orientations related by a group member on the left. -/
example : ∃ h ∈ laueRotations 2, toH ⟨-(1/2), -(1/2), 1/2, 1/2⟩ = h * toH ⟨1/2, 1/2, 1/2, 1/2⟩ :=
  ⟨toH ⟨0, 0, 0, 1⟩, mem_rot (n := 2) (by norm_num) (by norm_num) (G := laueC2) rfl
    (by simp [laueC2]), by ext <;> simp⟩

/-! ### C12: sampling -/

theorem permuted_perm {α : Type} (l : List α) (σ : Equiv.Perm (Fin l.length)) :
    (permuted l σ).Perm l := by
  unfold permuted
  have h : List.ofFn (fun i : Fin l.length => l[i]) = l := List.ofFn_getElem
  conv_rhs => rw [← h]
  exact Equiv.Perm.ofFn_comp_perm σ (fun i : Fin l.length => l[i])

/-- C12: whatever permutation is drawn (or none), the sampled orientations are, as a multiset, exactly
the grid orientations that lie in the fundamental zone: no member is lost or duplicated and every
returned orientation passes the closed-form test. -/
theorem C12_sample (grid : ℤ → List Q) (n : ℕ) (h1 : 1 ≤ n) (h2 : n ≤ 11) (target : ℤ)
    (perm : (l : List Q) → Option (Equiv.Perm (Fin l.length)))
    (hgrid : ∀ k, ∀ q ∈ grid k, 0 ≤ q.w) :
    ∃ (k : ℤ) (out : List Q), sampleOriFz grid n target perm = some out ∧
      k = ⌊((target : ℝ) * 0.5 * laueOrder n) ^ ((1 : ℝ) / 3)⌋ ∧
      (∀ q ∈ out, oriInFz q n = some true ∧ InZone n (toH q)) ∧
      (∀ q : Q, InZone n (toH q) → out.countP (fun r => open Classical in decide (r = q)) =
        (grid k).countP (fun r => open Classical in decide (r = q))) ∧
      out.Perm ((grid k).filter fun q => oriInFz q n == some true) := by
  classical
  have hm : getLaueMult n = some (laueOrder n) := by
    unfold getLaueMult
    rw [pyIndex_nat _ _ h1]
    interval_cases n <;> rfl
  set k := sampleEdge (laueOrder n) target with hk
  have hex : ∃ out, sampleOriFz grid n target perm = some out ∧
      out.Perm (fzFilter (grid k) n) := by
    unfold sampleOriFz
    rw [hm]
    simp only [Option.bind_eq_bind, Option.bind_some]
    rw [if_pos (by omega)]
    cases hp : perm (fzFilter (grid (sampleEdge (laueOrder n) target)) n) with
    | none => exact ⟨_, rfl, List.Perm.refl _⟩
    | some σ => exact ⟨_, rfl, permuted_perm _ σ⟩
  obtain ⟨out, ho, hperm⟩ := hex
  refine ⟨k, out, ho, rfl, ?_, ?_, hperm⟩
  · intro q hq
    have := hperm.mem_iff.mp hq
    unfold fzFilter at this
    rw [List.mem_filter, beq_iff_eq] at this
    refine ⟨this.2, ?_⟩
    obtain ⟨b, hb, hbi⟩ := C09_closed_form q (hgrid k q this.1) n h1 h2
    rw [hb] at this
    exact hbi.mp (Option.some.inj this.2)
  · intro q hz
    rw [hperm.countP_eq]
    unfold fzFilter
    rw [List.countP_filter]
    apply List.countP_congr
    intro r hr
    simp only [Bool.and_eq_true, decide_eq_true_eq, beq_iff_eq]
    constructor
    · exact fun h => h.1
    · intro h
      subst h
      obtain ⟨b, hb, hbi⟩ := C09_closed_form r (hgrid k r hr) n h1 h2
      exact ⟨rfl, by rw [hb, hbi.mpr hz]⟩

/-- non-vacuity for C12: a grid with one orientation inside and one outside the cubic zone. -/
example : ∀ k : ℤ, ∀ q ∈ (fun _ : ℤ => [(⟨1, 0, 0, 0⟩ : Q), ⟨3/5, 0, 0, 4/5⟩]) k, 0 ≤ q.w := by
  intro k q hq
  simp only [List.mem_cons, List.not_mem_nil, or_false] at hq
  rcases hq with rfl | rfl <;> norm_num

end Verif
