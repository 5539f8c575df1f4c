import Verif.Props.S2Solid
/-! C165: `s2_to_fz_laue` keeps a uniform distribution of directions uniform, up to its tolerance. -/
namespace Verif.S2
open Verif Verif.Cubo Real MeasureTheory
open Verif.Spec

theorem cone3_meas {S : Set V} (hS : MeasurableSet {x : Fin 3 → ℝ | ofComp x ∈ S}) : MeasurableSet (cone3 S) := by
  refine (measurableSet_lt measurable_const norm3_meas).inter ((measurableSet_lt norm3_meas measurable_const).inter ?_)
  have : Measurable fun x : Fin 3 → ℝ => (![x 0 / norm3 x, x 1 / norm3 x, x 2 / norm3 x] : Fin 3 → ℝ) := by
    refine measurable_pi_lambda _ fun i => ?_
    fin_cases i
    exacts [(measurable_pi_apply 0).div norm3_meas, (measurable_pi_apply 1).div norm3_meas, (measurable_pi_apply 2).div norm3_meas]
  exact this hS

theorem inside_meas' (n : ℕ) (d : ℝ) : MeasurableSet {x : Fin 3 → ℝ | ofComp x ∈ {v | Inside n d v}} := by
  have : {x : Fin 3 → ℝ | ofComp x ∈ {v | Inside n d v}} = ⋂ m ∈ {m | m ∈ wallNormals n}, {x : Fin 3 → ℝ | d < m.x * x 0 + m.y * x 1 + m.z * x 2} := by
    ext x
    simp only [Set.mem_iInter, Set.mem_ofPred_eq]
    rfl
  rw [this]
  refine MeasurableSet.biInter (List.finite_toSet _).countable fun m _ => ?_
  exact measurableSet_lt measurable_const (by fun_prop)

/-- The directions within `e` of a wall, on its inner side. -/
def nearWall (n : ℕ) (e : ℝ) : Set V := {v | ∃ m ∈ wallNormals n, 0 ≤ m.x * v.x + m.y * v.y + m.z * v.z ∧ m.x * v.x + m.y * v.y + m.z * v.z ≤ e}

theorem near_area {n : ℕ} (h1 : 1 ≤ n) (h2 : n ≤ 11) {e : ℝ} (he : 0 ≤ e) : volume (cone3 (nearWall n e)) ≤ ENNReal.ofReal (24 * e) := by
  classical
  have hcard : (wallNormals n).toFinset.card ≤ 4 := by
    refine (List.toFinset_card_le _).trans ?_
    interval_cases n <;> simp [wallNormals]
  have hsl : ∀ m ∈ wallNormals n, volume {x : Fin 3 → ℝ | norm3 x < 1 ∧ -e ≤ (-m.x) * x 0 + (-m.y) * x 1 + (-m.z) * x 2 ∧ (-m.x) * x 0 + (-m.y) * x 1 + (-m.z) * x 2 ≤ 0} ≤
      ENNReal.ofReal (6 * e) := by
    intro m hm
    rcases wall_big hm with h | h | h
    · exact slab_box 0 ![-m.x, -m.y, -m.z] (by simpa using h) e he
    · exact slab_box 1 ![-m.x, -m.y, -m.z] (by simpa using h) e he
    · exact slab_box 2 ![-m.x, -m.y, -m.z] (by simpa using h) e he
  have hsub : cone3 (nearWall n e) ⊆ ⋃ m ∈ (wallNormals n).toFinset,
      {x : Fin 3 → ℝ | norm3 x < 1 ∧ -e ≤ (-m.x) * x 0 + (-m.y) * x 1 + (-m.z) * x 2 ∧ (-m.x) * x 0 + (-m.y) * x 1 + (-m.z) * x 2 ≤ 0} := by
    rintro x ⟨a1, a2, m, hm, hle, hge⟩
    simp only [Set.mem_iUnion]
    have eq : m.x * (dirOf x).x + m.y * (dirOf x).y + m.z * (dirOf x).z = (m.x * x 0 + m.y * x 1 + m.z * x 2) / norm3 x := by
      simp only [dirOf]; ring
    rw [eq] at hle hge
    rw [div_le_iff₀ a1] at hge
    rw [le_div_iff₀ a1] at hle
    refine ⟨m, by simpa using hm, a2, ?_, by linarith⟩
    nlinarith
  refine (measure_mono hsub).trans ((measure_biUnion_finset_le _ _).trans ?_)
  refine (Finset.sum_le_card_nsmul _ _ (ENNReal.ofReal (6 * e)) fun m hm => hsl m (by simpa using hm)).trans ?_
  rw [nsmul_eq_mul, ← ENNReal.ofReal_natCast, ← ENNReal.ofReal_mul (by positivity)]
  apply ENNReal.ofReal_le_ofReal
  have : ((wallNormals n).toFinset.card : ℝ) ≤ 4 := by exact_mod_cast hcard
  nlinarith

open Classical in
/-- The rotations of a class, each once alone and once followed by the inversion. -/
noncomputable def moves (G : List Q) : Finset (Q × ℝ) := G.toFinset ×ˢ {1, -1}

theorem mem_moves {G : List Q} {j : Q × ℝ} (hj : j ∈ moves G) : j.1 ∈ G ∧ (j.2 = 1 ∨ j.2 = -1) := by
  classical
  simpa [moves] using hj

theorem card_moves {n : ℕ} {G : List Q} (h1 : 1 ≤ n) (h2 : n ≤ 11) (he : laueElements n = some G) : (moves G).card = laueOrder n := by
  classical
  obtain ⟨G', he', -, -, -, -, -, -, hl, -⟩ := C06_group n h1 h2
  rw [he] at he'
  cases he'
  have hnd := laue_nodup h1 h2 he
  have : ({1, -1} : Finset ℝ).card = 2 := Finset.card_pair (by norm_num)
  rw [moves, Finset.card_product, List.toFinset_card_of_nodup hnd, this, ← hl]; ring

theorem moves_disjoint {n : ℕ} {G : List Q} (h1 : 1 ≤ n) (h2 : n ≤ 11) (he : laueElements n = some G) {j k : Q × ℝ} (hj : j ∈ moves G) (hk : k ∈ moves G)
    (v : V) (a : Inside n 0 (move j.1 j.2 v)) (b : Inside n 0 (move k.1 k.2 v)) : j = k := by
  obtain ⟨g, s⟩ := j
  obtain ⟨g', s'⟩ := k
  obtain ⟨hg, hs⟩ := mem_moves hj
  obtain ⟨hg', hs'⟩ := mem_moves hk
  simp only at a b hs hs' hg hg'
  obtain ⟨c, hc, ec, hce⟩ := image_rel h1 h2 he hg hg' v
  rcases hs with rfl | rfl <;> rcases hs' with rfl | rfl
  · rw [move_one] at a b
    rw [ec] at b
    rw [hce ((uniq h1 h2 he 0 le_rfl _ a c hc).1 (inside_above' b))]
  · rw [move_one] at a
    rw [move_neg, ec] at b
    exact absurd (inside_above' b) (uniq h1 h2 he 0 le_rfl _ a c hc).2
  · rw [move_neg] at a
    rw [move_one, ec, ← vneg_vneg (quApply g v), quApply_vneg] at b
    exact absurd (inside_above' b) (uniq h1 h2 he 0 le_rfl _ a c hc).2
  · rw [move_neg] at a b
    rw [ec, ← quApply_vneg] at b
    rw [hce ((uniq h1 h2 he 0 le_rfl _ a c hc).1 (inside_above' b))]

theorem equiv_moves {n : ℕ} {G : List Q} (h1 : 1 ≤ n) (h2 : n ≤ 11) (he : laueElements n = some G) (p q : V) :
    DirEquiv n p q ↔ ∃ j ∈ moves G, q = move j.1 j.2 p := by
  classical
  rw [dirEquiv_iff h1 h2 he]
  simp only [equivPoints, List.mem_append, List.mem_map]
  constructor
  · rintro (⟨g, hg, rfl⟩ | ⟨r, ⟨g, hg, rfl⟩, rfl⟩)
    · exact ⟨(g, 1), by simp [moves, hg], (move_one _ _).symm⟩
    · exact ⟨(g, -1), by simp [moves, hg], (move_neg _ _).symm⟩
  · rintro ⟨⟨g, s⟩, hj, rfl⟩
    obtain ⟨hg, hs⟩ := mem_moves hj
    rcases hs with hs | hs
    · simp only at hs; subst hs; exact Or.inl ⟨g, hg, (move_one _ _).symm⟩
    · simp only at hs; subst hs; exact Or.inr ⟨_, ⟨g, hg, rfl⟩, (move_neg _ _).symm⟩

theorem moves_sum {n : ℕ} {G : List Q} (h1 : 1 ≤ n) (h2 : n ≤ 11) (he : laueElements n = some G) (hu : ∀ g ∈ G, IsUnit4 g) {S : Set V}
    (hS : MeasurableSet {x : Fin 3 → ℝ | ofComp x ∈ S}) (hin : S ⊆ {v | Inside n 0 v}) :
    volume (⋃ j ∈ moves G, cone3 {v | move j.1 j.2 v ∈ S}) = laueOrder n * volume (cone3 S) := by
  have hsq : ∀ j ∈ moves G, j.2 ^ 2 = 1 := by
    intro j hj
    rcases (mem_moves hj).2 with h | h <;> rw [h] <;> norm_num
  have hF : ∀ j ∈ moves G, volume (cone3 {v | move j.1 j.2 v ∈ S}) = volume (cone3 S) := fun j hj => volume_move (hu _ (mem_moves hj).1) (hsq j hj) S
  have hFm : ∀ j ∈ moves G, NullMeasurableSet (cone3 {v | move j.1 j.2 v ∈ S}) volume := by
    intro j hj
    have : MeasurableSet (cone3 {v | move j.1 j.2 v ∈ S}) := by
      rw [cone_move (hu _ (mem_moves hj).1) (hsq j hj)]
      exact (LinearMap.continuous_of_finiteDimensional (Matrix.toLin' (rotMat j.1 j.2))).measurable (cone3_meas hS)
    exact this.nullMeasurableSet
  have hd : Set.Pairwise (↑(moves G)) (Function.onFun (AEDisjoint volume) fun j : Q × ℝ => cone3 {v | move j.1 j.2 v ∈ S}) := by
    intro j hj k hk hne
    have : cone3 {v | move j.1 j.2 v ∈ S} ∩ cone3 {v | move k.1 k.2 v ∈ S} = ∅ := by
      ext x
      simp only [Set.mem_inter_iff, Set.mem_empty_iff_false, iff_false, not_and]
      rintro ⟨-, -, a⟩ ⟨-, -, b⟩
      exact hne (moves_disjoint h1 h2 he hj hk _ (hin a) (hin b))
    show volume (cone3 {v | move j.1 j.2 v ∈ S} ∩ cone3 {v | move k.1 k.2 v ∈ S}) = 0
    rw [this, measure_empty]
  rw [measure_biUnion_finset₀ hd hFm, Finset.sum_congr rfl hF, Finset.sum_const, card_moves h1 h2 he, nsmul_eq_mul]

/-- The directions whose reduction lands in a set. -/
noncomputable def reducedInto (n : ℕ) (single : Bool) (B : Set V) : Set V := {v | ∃ r, s2ToFz (s2Eps single) n [v] = some [r] ∧ r ∈ B}

/-- The directions without an equivalent well inside the sector. -/
def nearAny (n : ℕ) (e : ℝ) : Set V := {v | ∀ r, DirEquiv n v r → ¬ Inside n e r}

theorem nearAny_area {n : ℕ} {G : List Q} (h1 : 1 ≤ n) (h2 : n ≤ 11) (he : laueElements n = some G) (hu : ∀ g ∈ G, IsUnit4 g) {e : ℝ} (h0 : 0 ≤ e) :
    volume (cone3 (nearAny n e)) ≤ ENNReal.ofReal (laueOrder n * (24 * e)) := by
  have hsub : cone3 (nearAny n e) ⊆ ⋃ j ∈ moves G, cone3 {v | move j.1 j.2 v ∈ nearWall n e} := by
    rintro x ⟨a1, a2, h⟩
    obtain ⟨q, hq, ha⟩ := cover h1 h2 (dirOf x)
    have hn := h q hq
    unfold Inside at hn
    push Not at hn
    obtain ⟨m, hm, hle⟩ := hn
    obtain ⟨j, hj, rfl⟩ := (equiv_moves h1 h2 he _ _).mp hq
    simp only [Set.mem_iUnion]
    exact ⟨j, hj, a1, a2, m, hm, ha m hm, hle⟩
  refine (measure_mono hsub).trans ((measure_biUnion_finset_le _ _).trans ?_)
  refine (Finset.sum_le_card_nsmul _ _ (ENNReal.ofReal (24 * e)) fun j hj => ?_).trans ?_
  · rw [volume_move (hu _ (mem_moves hj).1) (by rcases (mem_moves hj).2 with h | h <;> rw [h] <;> norm_num)]
    exact near_area h1 h2 h0
  · rw [card_moves h1 h2 he, nsmul_eq_mul, ← ENNReal.ofReal_natCast, ← ENNReal.ofReal_mul (by positivity)]

theorem reduce_well {n : ℕ} (h1 : 1 ≤ n) (h2 : n ≤ 11) (single : Bool) {v r : V} (hv : IsUnit3 v) (hr : DirEquiv n v r)
    (hin : Inside n (2 * s2Eps single) r) : s2ToFz (s2Eps single) n [v] = some [r] :=
  C88_to_fz_partial n h1 h2 single [v] [r] (.cons ⟨hv, hr, hin⟩ .nil)

/-- **C165**: the directions on which `s2_to_fz_laue` raises cover at most `144 EPS` per symmetry operation of the sphere. -/
theorem C165_raises (n : ℕ) (h1 : 1 ≤ n) (h2 : n ≤ 11) (single : Bool) :
    dirArea {v | s2ToFz (s2Eps single) n [v] = none} ≤ ENNReal.ofReal (laueOrder n * (144 * s2Eps single)) := by
  obtain ⟨G, he, -, hu, -⟩ := C06_group n h1 h2
  obtain ⟨e0, -⟩ := eps_facts single
  have hsub : cone3 {v | s2ToFz (s2Eps single) n [v] = none} ⊆ cone3 (nearAny n (2 * s2Eps single)) := by
    rintro x ⟨a1, a2, h⟩
    refine ⟨a1, a2, fun r hr hin => ?_⟩
    rw [Set.mem_ofPred_eq, reduce_well h1 h2 single (dirOf_unit a1) hr hin] at h
    cases h
  unfold dirArea
  calc _ ≤ 3 * ENNReal.ofReal (laueOrder n * (24 * (2 * s2Eps single))) := by
        gcongr
        exact (measure_mono hsub).trans (nearAny_area h1 h2 he hu (by linarith))
    _ = _ := by
        rw [show (3 : ENNReal) = ENNReal.ofReal 3 by norm_num, ← ENNReal.ofReal_mul (by norm_num)]
        congr 1; ring

/-- **C165**: the directions that `s2_to_fz_laue` takes into a set have the area of the part of the set within the sector, times the order of
the Laue group, up to `144 EPS` per symmetry operation. -/
theorem C165_uniform (n : ℕ) (h1 : 1 ≤ n) (h2 : n ≤ 11) (single : Bool) (B : Set V) (hB : MeasurableSet {x : Fin 3 → ℝ | ofComp x ∈ B}) :
    dirArea {v | ∃ r, s2ToFz (s2Eps single) n [v] = some [r] ∧ r ∈ B} ≤
        laueOrder n * dirArea (B ∩ {v | Inside n 0 v}) + ENNReal.ofReal (laueOrder n * (144 * s2Eps single)) ∧
      laueOrder n * dirArea (B ∩ {v | Inside n 0 v}) ≤
        dirArea {v | ∃ r, s2ToFz (s2Eps single) n [v] = some [r] ∧ r ∈ B} + ENNReal.ofReal (laueOrder n * (144 * s2Eps single)) := by
  obtain ⟨G, he, -, hu, -⟩ := C06_group n h1 h2
  obtain ⟨e0, -⟩ := eps_facts single
  have hmono : ∀ v, Inside n (2 * s2Eps single) v → Inside n 0 v := fun v h m hm => lt_trans (by linarith) (h m hm)
  let S : Set V := B ∩ {v | Inside n (2 * s2Eps single) v}
  have hS : MeasurableSet {x : Fin 3 → ℝ | ofComp x ∈ S} := hB.inter (inside_meas' n _)
  have hsum := moves_sum h1 h2 he hu hS fun v hv => hmono v hv.2
  have hkey : (3 : ENNReal) * ENNReal.ofReal (laueOrder n * (24 * (2 * s2Eps single))) = ENNReal.ofReal (laueOrder n * (144 * s2Eps single)) := by
    rw [show (3 : ENNReal) = ENNReal.ofReal 3 by norm_num, ← ENNReal.ofReal_mul (by norm_num)]
    congr 1; ring
  have hlow : (⋃ j ∈ moves G, cone3 {v | move j.1 j.2 v ∈ S}) ⊆ cone3 (reducedInto n single B) := by
    intro x hx
    simp only [Set.mem_iUnion] at hx
    obtain ⟨j, hj, a1, a2, hb, hin⟩ := hx
    exact ⟨a1, a2, _, reduce_well h1 h2 single (dirOf_unit a1) ((equiv_moves h1 h2 he _ _).mpr ⟨j, hj, rfl⟩) hin, hb⟩
  have hup : cone3 (reducedInto n single B) ⊆ (⋃ j ∈ moves G, cone3 {v | move j.1 j.2 v ∈ S}) ∪ cone3 (nearAny n (2 * s2Eps single)) := by
    rintro x ⟨a1, a2, r, hr, hb⟩
    by_cases hn : dirOf x ∈ nearAny n (2 * s2Eps single)
    · exact Or.inr ⟨a1, a2, hn⟩
    · left
      simp only [nearAny, Set.mem_ofPred_eq, not_forall, not_not] at hn
      obtain ⟨r', hr', hin⟩ := hn
      have hw := reduce_well h1 h2 single (dirOf_unit a1) hr' hin
      rw [hr] at hw
      simp only [Option.some.injEq, List.cons.injEq, and_true] at hw
      subst hw
      obtain ⟨j, hj, rfl⟩ := (equiv_moves h1 h2 he _ _).mp hr'
      simp only [Set.mem_iUnion]
      exact ⟨j, hj, a1, a2, hb, hin⟩
  have hsplit : cone3 (B ∩ {v | Inside n 0 v}) ⊆ cone3 S ∪ cone3 (nearWall n (2 * s2Eps single)) := by
    rintro x ⟨a1, a2, hb, hin⟩
    by_cases h : Inside n (2 * s2Eps single) (dirOf x)
    · exact Or.inl ⟨a1, a2, hb, h⟩
    · unfold Inside at h
      push Not at h
      obtain ⟨m, hm, hle⟩ := h
      exact Or.inr ⟨a1, a2, m, hm, (hin m hm).le, hle⟩
  have hSle : volume (cone3 S) ≤ volume (cone3 (B ∩ {v | Inside n 0 v})) := by
    apply measure_mono
    rintro x ⟨a1, a2, hb, hin⟩
    exact ⟨a1, a2, hb, hmono _ hin⟩
  change dirArea (reducedInto n single B) ≤ _ ∧ _ ≤ dirArea (reducedInto n single B) + _
  unfold dirArea
  rw [← hkey]
  constructor
  · calc _ ≤ 3 * (laueOrder n * volume (cone3 (B ∩ {v | Inside n 0 v})) + ENNReal.ofReal (laueOrder n * (24 * (2 * s2Eps single)))) := by
          gcongr
          refine (measure_mono hup).trans ((measure_union_le _ _).trans ?_)
          rw [hsum]
          gcongr
          exact nearAny_area h1 h2 he hu (by linarith)
      _ = _ := by ring
  · calc _ ≤ (laueOrder n : ENNReal) * (3 * (volume (cone3 S) + ENNReal.ofReal (24 * (2 * s2Eps single)))) := by
          gcongr
          exact (measure_mono hsplit).trans ((measure_union_le _ _).trans (by gcongr; exact near_area h1 h2 (by linarith)))
      _ = 3 * (laueOrder n * volume (cone3 S)) + 3 * (laueOrder n * ENNReal.ofReal (24 * (2 * s2Eps single))) := by ring
      _ ≤ _ := by
          rw [← hsum, ENNReal.ofReal_mul (by positivity) (p := (laueOrder n : ℝ)), ENNReal.ofReal_natCast]
          gcongr

/-! ### Non-vacuity -/

/-- In double precision the directions of class `m-3m` on which the reduction raises cover less than a hundred-millionth of the unit of area. -/
example : dirArea {v | s2ToFz (s2Eps false) (11 : ℕ) [v] = none} ≤ ENNReal.ofReal (1 / 100000000) := by
  refine (C165_raises 11 (by norm_num) (by norm_num) false).trans (ENNReal.ofReal_le_ofReal ?_)
  norm_num [s2Eps, laueOrder]

/-- Half of the sector of class `2/m`, the directions with `0 < x`. -/
example : MeasurableSet {x : Fin 3 → ℝ | ofComp x ∈ {v : V | 0 < v.x}} :=
  show MeasurableSet {x : Fin 3 → ℝ | 0 < x 0} from measurableSet_lt measurable_const (measurable_pi_apply 0)

end Verif.S2
