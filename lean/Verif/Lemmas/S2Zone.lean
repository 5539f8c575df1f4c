import Verif.Model.S2Zone
import Verif.Spec.S2Zone
import Verif.Lemmas.Fz
import Verif.Lemmas.FzIneq
import Verif.Lemmas.Trig
import Verif.Props.Quat
import Mathlib.Analysis.SpecialFunctions.Trigonometric.Bounds
/-! Lemmas for the fundamental sector of the 2-sphere. -/
open Quaternion
namespace Verif.S2
open Spec

/-! ### directions up to symmetry -/

theorem vecH_inj {a b : V} (h : vecH a = vecH b) : a = b := by
  have h1 := congrArg (fun q : ℍ[ℝ] => q.imI) h
  have h2 := congrArg (fun q : ℍ[ℝ] => q.imJ) h
  have h3 := congrArg (fun q : ℍ[ℝ] => q.imK) h
  exact V.ext h1 h2 h3

theorem rotates_iff (q : Q) (p r : V) : Rotates (toH q) p r ↔ r = quApply q p := by
  constructor
  · intro h; exact (vecH_inj ((C03_apply q p).symm.trans h)).symm
  · rintro rfl; exact C03_apply q p

theorem rotates_same {a b : ℍ[ℝ]} (h : SameUpToSign a b) (p r : V) : Rotates a p r ↔ Rotates b p r := by
  rcases h with rfl | rfl
  · rfl
  · exact rotates_neg _ _ _

theorem dirEquiv_iff {n : ℕ} {G : List Q} (h1 : 1 ≤ n) (h2 : n ≤ 11) (he : laueElements n = some G) (p q : V) :
    DirEquiv n p q ↔ q ∈ equivPoints G p := by
  unfold DirEquiv equivPoints
  simp only [List.mem_append, List.mem_map]
  constructor
  · rintro ⟨h, hh, r, hr, hq⟩
    rw [gen_laue h1 h2 he] at hh
    obtain ⟨g, hg, hs⟩ := hh
    rw [rotates_same hs, rotates_iff] at hr
    rcases hq with rfl | rfl
    · exact Or.inl ⟨g, hg, hr.symm⟩
    · exact Or.inr ⟨r, ⟨g, hg, hr.symm⟩, rfl⟩
  · rintro (⟨g, hg, rfl⟩ | ⟨r, ⟨g, hg, rfl⟩, rfl⟩)
    · exact ⟨toH g, mem_rot h1 h2 he hg, _, C03_apply g p, Or.inl rfl⟩
    · exact ⟨toH g, mem_rot h1 h2 he hg, _, C03_apply g p, Or.inr rfl⟩

theorem rotates_vneg {h : ℍ[ℝ]} {p r : V} (hr : Rotates h p r) : Rotates h (vneg p) (vneg r) := by
  unfold Rotates at *
  have e : ∀ v : V, vecH (vneg v) = - vecH v := by
    intro v; ext <;> simp [vneg]
  rw [e, e, H_mul_neg, H_neg_mul, hr]

theorem dirEquiv_trans {n : ℕ} {p q r : V} (h : DirEquiv n p q) (h' : DirEquiv n q r) : DirEquiv n p r := by
  obtain ⟨a, ha, u, hu, hq⟩ := h
  obtain ⟨b, hb, v, hv, hr⟩ := h'
  have key : ∀ w, Rotates b u w → Rotates (b * a) p w := by
    intro w hw
    unfold Rotates at *
    rw [← hw, ← hu, star_mul]; simp only [mul_assoc]
  rcases hq with rfl | rfl
  · exact ⟨b * a, mul_mem hb ha, v, key v hv, hr⟩
  · have h3 : Rotates b u (vneg v) := by
      have := rotates_vneg hv
      have e : vneg (⟨-u.x, -u.y, -u.z⟩ : V) = u := by ext <;> simp [vneg]
      rwa [e] at this
    refine ⟨b * a, mul_mem hb ha, vneg v, key _ h3, ?_⟩
    rcases hr with rfl | rfl
    · right; ext <;> simp [vneg]
    · left; rfl

theorem dirEquiv_refl (n : ℕ) (p : V) : DirEquiv n p p :=
  ⟨1, one_mem _, p, by simp [Rotates], Or.inl rfl⟩

theorem dirEquiv_inv (n : ℕ) (p : V) : DirEquiv n p ⟨-p.x, -p.y, -p.z⟩ :=
  ⟨1, one_mem _, p, by simp [Rotates], Or.inr rfl⟩

theorem dirEquiv_symm {n : ℕ} (h1 : 1 ≤ n) (h2 : n ≤ 11) {p q : V} (h : DirEquiv n p q) : DirEquiv n q p := by
  obtain ⟨a, ha, u, hu, hq⟩ := h
  obtain ⟨hs, h3, h4⟩ := rot_star h1 h2 ha
  have key : Rotates (star a) u p := by
    unfold Rotates at *
    rw [← hu, star_star]
    calc star a * (a * vecH p * star a) * a = (star a * a) * vecH p * (star a * a) := by
          simp only [mul_assoc]
      _ = vecH p := by rw [h4]; simp
  rcases hq with rfl | rfl
  · exact ⟨star a, hs, p, key, Or.inl rfl⟩
  · exact ⟨star a, hs, vneg p, rotates_vneg key, Or.inr (by ext <;> simp [vneg])⟩

theorem dirEquiv_unit {n : ℕ} (h1 : 1 ≤ n) (h2 : n ≤ 11) {p q : V} (h : DirEquiv n p q) (hp : IsUnit3 p) :
    IsUnit3 q := by
  obtain ⟨a, ha, u, hu, hq⟩ := h
  obtain ⟨_, _, h4⟩ := rot_star h1 h2 ha
  obtain ⟨l, _, _, he⟩ := laueElements_some n h1 h2
  rw [gen_laue h1 h2 he] at ha
  obtain ⟨g, hg, hs⟩ := ha
  have hug := (rotGroup_laue h1 h2 he).unit g hg
  rw [rotates_same hs, rotates_iff] at hu
  have : u.x ^ 2 + u.y ^ 2 + u.z ^ 2 = 1 := by
    have e : u.x ^ 2 + u.y ^ 2 + u.z ^ 2 = (g.w ^ 2 + g.x ^ 2 + g.y ^ 2 + g.z ^ 2) ^ 2 * (p.x ^ 2 + p.y ^ 2 + p.z ^ 2) := by
      rw [hu]; simp only [quApply]; ring
    unfold IsUnit4 at hug; unfold IsUnit3 at hp
    rw [e, hug, hp]; norm_num
  unfold IsUnit3
  rcases hq with rfl | rfl
  · exact this
  · simp only; linarith

/-- images under a listed element -/
theorem dirEquiv_mem {n : ℕ} {G : List Q} (h1 : 1 ≤ n) (h2 : n ≤ 11) (he : laueElements n = some G) {g : Q}
    (hg : g ∈ G) (p : V) {q : V} (h : quApply g p = q) : DirEquiv n p q :=
  ⟨toH g, mem_rot h1 h2 he hg, q, h ▸ C03_apply g p, Or.inl rfl⟩

theorem R2sq : R2 * R2 = 1 / 2 := by
  rw [R2_eq]; have := s2_facts.2.1; linear_combination this / 4
theorem R3sq : R3 * R3 = 3 / 4 := by
  unfold R3; have := s3_facts.2.1; linear_combination this / 4

/-! ### coverage by the closed sectors -/

/-- tables by id -/
theorem lel (n : ℕ) (h1 : 1 ≤ n) : laueElements n = laueGroups[n-1]? := by
  unfold laueElements; rw [pyIndex_nat _ _ h1]

theorem e1 : laueElements (1:ℕ) = some laueC1 := by rw [lel _ (by norm_num)]; rfl
theorem e2 : laueElements (2:ℕ) = some laueC2 := by rw [lel _ (by norm_num)]; rfl
theorem e3 : laueElements (3:ℕ) = some laueD2 := by rw [lel _ (by norm_num)]; rfl
theorem e4 : laueElements (4:ℕ) = some laueC4 := by rw [lel _ (by norm_num)]; rfl
theorem e5 : laueElements (5:ℕ) = some laueD4 := by rw [lel _ (by norm_num)]; rfl
theorem e6 : laueElements (6:ℕ) = some laueC3 := by rw [lel _ (by norm_num)]; rfl
theorem e7 : laueElements (7:ℕ) = some laueD3 := by rw [lel _ (by norm_num)]; rfl
theorem e8 : laueElements (8:ℕ) = some laueC6 := by rw [lel _ (by norm_num)]; rfl
theorem e9 : laueElements (9:ℕ) = some laueD6 := by rw [lel _ (by norm_num)]; rfl
theorem e10 : laueElements (10:ℕ) = some laueT := by rw [lel _ (by norm_num)]; rfl
theorem e11 : laueElements (11:ℕ) = some laueO := by rw [lel _ (by norm_num)]; rfl

/-- images of the elements used below -/
theorem ap_z2 (p : V) : quApply ⟨0, 0, 0, 1⟩ p = ⟨-p.x, -p.y, p.z⟩ := by ext <;> simp [quApply]
theorem ap_x2 (p : V) : quApply ⟨0, 1, 0, 0⟩ p = ⟨p.x, -p.y, -p.z⟩ := by ext <;> simp [quApply]
theorem ap_z4 (p : V) : quApply ⟨R2, 0, 0, R2⟩ p = ⟨-p.y, p.x, p.z⟩ := by
  have h := R2sq
  ext <;> simp only [quApply]
  · linear_combination (-2 * p.y) * h
  · linear_combination (2 * p.x) * h
  · linear_combination (2 * p.z) * h
theorem ap_xy2 (p : V) : quApply ⟨0, R2, R2, 0⟩ p = ⟨p.y, p.x, -p.z⟩ := by
  have h := R2sq
  ext <;> simp only [quApply]
  · linear_combination (2 * p.y) * h
  · linear_combination (2 * p.x) * h
  · linear_combination (-2 * p.z) * h
theorem ap_d3 (p : V) : quApply ⟨1/2, 1/2, 1/2, 1/2⟩ p = ⟨p.z, p.x, p.y⟩ := by
  ext <;> simp only [quApply] <;> ring
theorem ap_z3 (p : V) : quApply ⟨1/2, 0, 0, R3⟩ p = ⟨-(1/2) * p.x - R3 * p.y, R3 * p.x - 1/2 * p.y, p.z⟩ := by
  have h := R3sq
  ext <;> simp only [quApply]
  · linear_combination (-p.x) * h
  · linear_combination (-p.y) * h
  · linear_combination p.z * h
theorem ap_z6 (p : V) : quApply ⟨R3, 0, 0, 1/2⟩ p = ⟨(1/2) * p.x - R3 * p.y, R3 * p.x + 1/2 * p.y, p.z⟩ := by
  have h := R3sq
  ext <;> simp only [quApply]
  · linear_combination (p.x) * h
  · linear_combination (p.y) * h
  · linear_combination p.z * h

/-- inversion brings any direction to the upper hemisphere -/
theorem up (n : ℕ) (p : V) : ∃ q, DirEquiv n p q ∧ 0 ≤ q.z := by
  by_cases h : 0 ≤ p.z
  · exact ⟨p, dirEquiv_refl n p, h⟩
  · exact ⟨_, dirEquiv_inv n p, by simp only; linarith⟩

/-- with the two-fold rotation about z also `0 ≤ y` -/
theorem upY {n : ℕ} {G : List Q} (h1 : 1 ≤ n) (h2 : n ≤ 11) (he : laueElements n = some G)
    (hz : (⟨0, 0, 0, 1⟩ : Q) ∈ G) (p : V) : ∃ q, DirEquiv n p q ∧ 0 ≤ q.y ∧ 0 ≤ q.z := by
  obtain ⟨q, hq, h⟩ := up n p
  by_cases hy : 0 ≤ q.y
  · exact ⟨q, hq, hy, h⟩
  · exact ⟨_, dirEquiv_trans hq (dirEquiv_mem h1 h2 he hz q (ap_z2 q)), by simp only; linarith, h⟩

/-- with the two-fold rotation about x: mirror `x ↦ -x` -/
theorem mirX {n : ℕ} {G : List Q} (h1 : 1 ≤ n) (h2 : n ≤ 11) (he : laueElements n = some G)
    (hx : (⟨0, 1, 0, 0⟩ : Q) ∈ G) (q : V) : DirEquiv n q ⟨-q.x, q.y, q.z⟩ := by
  have := dirEquiv_trans (dirEquiv_mem h1 h2 he hx q (ap_x2 q)) (dirEquiv_inv n _)
  simpa using this

theorem upXY {n : ℕ} {G : List Q} (h1 : 1 ≤ n) (h2 : n ≤ 11) (he : laueElements n = some G)
    (hz : (⟨0, 0, 0, 1⟩ : Q) ∈ G) (hx : (⟨0, 1, 0, 0⟩ : Q) ∈ G) (p : V) :
    ∃ q, DirEquiv n p q ∧ 0 ≤ q.x ∧ 0 ≤ q.y ∧ 0 ≤ q.z := by
  obtain ⟨q, hq, h, h'⟩ := upY h1 h2 he hz p
  by_cases hy : 0 ≤ q.x
  · exact ⟨q, hq, hy, h, h'⟩
  · exact ⟨_, dirEquiv_trans hq (mirX h1 h2 he hx q), by simp only; linarith, h, h'⟩

theorem isq2 : 0 < 1 / Real.sqrt 2 := by have := s2_facts.1; positivity

theorem cover1 (p : V) : ∃ q, DirEquiv 1 p q ∧ Above 1 0 q := by
  obtain ⟨q, hq, h⟩ := up 1 p
  exact ⟨q, hq, by simpa [Above, wallNormals] using h⟩

theorem cover2 (p : V) : ∃ q, DirEquiv 2 p q ∧ Above 2 0 q := by
  obtain ⟨q, hq, h⟩ := upY (by norm_num) (by norm_num) e2 (by simp [laueC2]) p
  exact ⟨q, hq, by simpa [Above, wallNormals] using h⟩

theorem cover3 (p : V) : ∃ q, DirEquiv 3 p q ∧ Above 3 0 q := by
  obtain ⟨q, hq, h⟩ := upXY (by norm_num) (by norm_num) e3 (by simp [laueD2]) (by simp [laueD2]) p
  exact ⟨q, hq, by simpa [Above, wallNormals] using h⟩

theorem cover4 (p : V) : ∃ q, DirEquiv 4 p q ∧ Above 4 0 q := by
  obtain ⟨q, hq, hy, hz⟩ := upY (by norm_num) (by norm_num) e4 (by simp [laueC4]) p
  by_cases hx : 0 ≤ q.x
  · exact ⟨q, hq, by simp only [Above, wallNormals]; simp; exact ⟨hx, hy, hz⟩⟩
  · have h4 := dirEquiv_mem (g := ⟨R2, 0, 0, R2⟩) (by norm_num) (by norm_num) e4 (by simp [laueC4]) q (ap_z4 q)
    have h5 := dirEquiv_mem (g := ⟨0, 0, 0, 1⟩) (by norm_num) (by norm_num) e4 (by simp [laueC4]) _ (ap_z2 ⟨-q.y, q.x, q.z⟩)
    refine ⟨_, dirEquiv_trans hq (dirEquiv_trans h4 h5), ?_⟩
    simp only [Above, wallNormals]; simp; exact ⟨hy, by linarith, hz⟩

theorem cover5 (p : V) : ∃ q, DirEquiv 5 p q ∧ Above 5 0 q := by
  obtain ⟨q, hq, hx, hy, hz⟩ := upXY (by norm_num) (by norm_num) e5 (by simp [laueD4]) (by simp [laueD4]) p
  have hi := isq2
  by_cases hxy : q.y ≤ q.x
  · refine ⟨q, hq, ?_⟩
    simp only [Above, wallNormals, List.forall_mem_cons, List.not_mem_nil, false_imp_iff, implies_true, and_true]
    have := mul_le_mul_of_nonneg_left hxy hi.le
    refine ⟨by linarith, by linarith, by linarith⟩
  · have h4 := dirEquiv_mem (g := ⟨0, R2, R2, 0⟩) (by norm_num) (by norm_num) e5 (by simp [laueD4]) q (ap_xy2 q)
    have h5 := dirEquiv_mem (g := ⟨0, 0, 0, 1⟩) (by norm_num) (by norm_num) e5 (by simp [laueD4]) _ (ap_z2 ⟨q.y, q.x, -q.z⟩)
    refine ⟨_, dirEquiv_trans hq (dirEquiv_trans (dirEquiv_trans h4 h5) (dirEquiv_inv 5 _)), ?_⟩
    simp only [Above, wallNormals, List.forall_mem_cons, List.not_mem_nil, false_imp_iff, implies_true, and_true]
    have := mul_le_mul_of_nonneg_left (not_le.mp hxy).le hi.le
    refine ⟨by linarith, by linarith, by linarith⟩

theorem r3pos : 0 < R3 := by unfold R3; have := s3_facts.1; positivity

theorem cover6 (p : V) : ∃ q, DirEquiv 6 p q ∧ Above 6 0 q := by
  obtain ⟨q, hq, hz⟩ := up 6 p
  have g1 := fun v : V => dirEquiv_mem (g := ⟨1/2, 0, 0, R3⟩) (n := 6) (by norm_num) (by norm_num) e6 (by simp [laueC3]) v (ap_z3 v)
  have h := R3sq
  have hs : Real.sqrt 3 / 2 = R3 := rfl
  have hx2 : R3 * R3 * q.x = 3 / 4 * q.x := by rw [h]
  have hy2 : R3 * R3 * q.y = 3 / 4 * q.y := by rw [h]
  have hx4 : R3 * R3 * R3 * q.x = 3 / 4 * R3 * q.x := by rw [h]
  have hy4 : R3 * R3 * R3 * q.y = 3 / 4 * R3 * q.y := by rw [h]
  by_cases ha : 0 ≤ -q.y ∧ 0 ≤ R3 * q.x - 1/2 * q.y
  · refine ⟨q, hq, ?_⟩
    simp only [Above, wallNormals, List.forall_mem_cons, List.not_mem_nil, false_imp_iff, implies_true, and_true, hs]
    refine ⟨by linarith, by linarith, by linarith⟩
  · by_cases hb : 0 ≤ R3 * q.x + 1 / 2 * q.y ∧ 0 ≤ q.y
    · refine ⟨_, dirEquiv_trans hq (dirEquiv_trans (g1 q) (g1 _)), ?_⟩
      simp only [Above, wallNormals, List.forall_mem_cons, List.not_mem_nil, false_imp_iff, implies_true, and_true, hs]
      refine ⟨by linarith, by linarith, by linarith⟩
    · refine ⟨_, dirEquiv_trans hq (g1 q), ?_⟩
      simp only [Above, wallNormals, List.forall_mem_cons, List.not_mem_nil, false_imp_iff, implies_true, and_true, hs]
      rw [not_and_or, not_le, not_le] at ha hb
      refine ⟨?_, ?_, by linarith⟩ <;> rcases ha with ha | ha <;> rcases hb with hb | hb <;> linarith

theorem cover7 (p : V) : ∃ q, DirEquiv 7 p q ∧ Above 7 0 q := by
  obtain ⟨q, hq, hz⟩ := up 7 p
  have g1 := fun v : V => dirEquiv_mem (g := ⟨1/2, 0, 0, R3⟩) (n := 7) (by norm_num) (by norm_num) e7 (by simp [laueD3]) v (ap_z3 v)
  have hm := fun v : V => mirX (n := 7) (by norm_num) (by norm_num) e7 (by simp [laueD3]) v
  have h := R3sq
  have hs : Real.sqrt 3 / 2 = R3 := rfl
  -- first into the lune of class 6
  obtain ⟨r, hr, hr1, hr2, hr3⟩ : ∃ r, DirEquiv 7 p r ∧ 0 ≤ -r.y ∧ 0 ≤ R3 * r.x - 1/2 * r.y ∧ 0 ≤ r.z := by
    have hx2 : R3 * R3 * q.x = 3 / 4 * q.x := by rw [h]
    have hy2 : R3 * R3 * q.y = 3 / 4 * q.y := by rw [h]
    have hx4 : R3 * R3 * R3 * q.x = 3 / 4 * R3 * q.x := by rw [h]
    have hy4 : R3 * R3 * R3 * q.y = 3 / 4 * R3 * q.y := by rw [h]
    by_cases ha : 0 ≤ -q.y ∧ 0 ≤ R3 * q.x - 1/2 * q.y
    · exact ⟨q, hq, ha.1, ha.2, hz⟩
    · by_cases hb : 0 ≤ R3 * q.x + 1 / 2 * q.y ∧ 0 ≤ q.y
      · refine ⟨_, dirEquiv_trans hq (dirEquiv_trans (g1 q) (g1 _)), ?_⟩
        simp only
        refine ⟨by linarith, by linarith, by linarith⟩
      · refine ⟨_, dirEquiv_trans hq (g1 q), ?_⟩
        simp only
        rw [not_and_or, not_le, not_le] at ha hb
        refine ⟨?_, ?_, by linarith⟩ <;> rcases ha with ha | ha <;> rcases hb with hb | hb <;> linarith
  have hx2 : R3 * R3 * r.x = 3 / 4 * r.x := by rw [h]
  have hy2 : R3 * R3 * r.y = 3 / 4 * r.y := by rw [h]
  have hx4 : R3 * R3 * R3 * r.x = 3 / 4 * R3 * r.x := by rw [h]
  have hy4 : R3 * R3 * R3 * r.y = 3 / 4 * R3 * r.y := by rw [h]
  have hy3 : 0 ≤ R3 * (-r.y) := mul_nonneg r3pos.le hr1
  by_cases ha : 0 ≤ r.x
  · have hx3 : 0 ≤ R3 * r.x := mul_nonneg r3pos.le ha
    by_cases hb : 0 ≤ -(1/2) * r.x - R3 * r.y
    · refine ⟨r, hr, ?_⟩
      simp only [Above, wallNormals, List.forall_mem_cons, List.not_mem_nil, false_imp_iff, implies_true, and_true, hs]
      refine ⟨by linarith, by linarith, by linarith⟩
    · refine ⟨_, dirEquiv_trans hr (dirEquiv_trans (hm r) (g1 _)), ?_⟩
      simp only [Above, wallNormals, List.forall_mem_cons, List.not_mem_nil, false_imp_iff, implies_true, and_true, hs]
      have : 0 ≤ R3 * (- (r.y)) := hy3
      refine ⟨by linarith, by linarith, by linarith⟩
  · refine ⟨_, dirEquiv_trans hr (hm _), ?_⟩
    simp only [Above, wallNormals, List.forall_mem_cons, List.not_mem_nil, false_imp_iff, implies_true, and_true, hs]
    have hx3 : 0 ≤ R3 * (-r.x) := mul_nonneg r3pos.le (by linarith)
    have hk : 0 ≤ R3 * (R3 * r.x - 1/2 * r.y) := mul_nonneg r3pos.le hr2
    refine ⟨by linarith, by linarith, by linarith⟩

theorem cover8 (p : V) : ∃ q, DirEquiv 8 p q ∧ Above 8 0 q := by
  obtain ⟨q, hq, hy, hz⟩ := upY (by norm_num) (by norm_num) e8 (by simp [laueC6]) p
  have g1 := fun v : V => dirEquiv_mem (g := ⟨R3, 0, 0, 1/2⟩) (n := 8) (by norm_num) (by norm_num) e8 (by simp [laueC6]) v (ap_z6 v)
  have g2 := fun v : V => dirEquiv_mem (g := ⟨0, 0, 0, 1⟩) (n := 8) (by norm_num) (by norm_num) e8 (by simp [laueC6]) v (ap_z2 v)
  have h := R3sq
  have hs : Real.sqrt 3 / 2 = R3 := rfl
  have hx2 : R3 * R3 * q.x = 3 / 4 * q.x := by rw [h]
  have hy2 : R3 * R3 * q.y = 3 / 4 * q.y := by rw [h]
  have hx4 : R3 * R3 * R3 * q.x = 3 / 4 * R3 * q.x := by rw [h]
  have hy4 : R3 * R3 * R3 * q.y = 3 / 4 * R3 * q.y := by rw [h]
  by_cases ha : 0 ≤ R3 * q.x - 1/2 * q.y
  · refine ⟨q, hq, ?_⟩
    simp only [Above, wallNormals, List.forall_mem_cons, List.not_mem_nil, false_imp_iff, implies_true, and_true, hs]
    refine ⟨by linarith, by linarith, by linarith⟩
  · by_cases hb : 0 ≤ R3 * q.x + 1/2 * q.y
    · -- rotate by -60 = 120 + 180
      refine ⟨_, dirEquiv_trans hq (dirEquiv_trans (dirEquiv_trans (g1 q) (g1 _)) (g2 _)), ?_⟩
      simp only [Above, wallNormals, List.forall_mem_cons, List.not_mem_nil, false_imp_iff, implies_true, and_true, hs]
      refine ⟨by linarith, by linarith, by linarith⟩
    · refine ⟨_, dirEquiv_trans hq (dirEquiv_trans (g1 q) (g2 _)), ?_⟩
      simp only [Above, wallNormals, List.forall_mem_cons, List.not_mem_nil, false_imp_iff, implies_true, and_true, hs]
      refine ⟨by linarith, by linarith, by linarith⟩

theorem cover9 (p : V) : ∃ q, DirEquiv 9 p q ∧ Above 9 0 q := by
  obtain ⟨q, hq, hx, hy, hz⟩ := upXY (by norm_num) (by norm_num) e9 (by simp [laueD6]) (by simp [laueD6]) p
  have g1 := fun v : V => dirEquiv_mem (g := ⟨R3, 0, 0, 1/2⟩) (n := 9) (by norm_num) (by norm_num) e9 (by simp [laueD6]) v (ap_z6 v)
  have g2 := fun v : V => dirEquiv_mem (g := ⟨0, 0, 0, 1⟩) (n := 9) (by norm_num) (by norm_num) e9 (by simp [laueD6]) v (ap_z2 v)
  have hm := fun v : V => mirX (n := 9) (by norm_num) (by norm_num) e9 (by simp [laueD6]) v
  have h := R3sq
  have hs : Real.sqrt 3 / 2 = R3 := rfl
  have hx2 : R3 * R3 * q.x = 3 / 4 * q.x := by rw [h]
  have hy2 : R3 * R3 * q.y = 3 / 4 * q.y := by rw [h]
  have hx4 : R3 * R3 * R3 * q.x = 3 / 4 * R3 * q.x := by rw [h]
  have hy4 : R3 * R3 * R3 * q.y = 3 / 4 * R3 * q.y := by rw [h]
  have hx3 : 0 ≤ R3 * q.x := mul_nonneg r3pos.le hx
  have hy3 : 0 ≤ R3 * q.y := mul_nonneg r3pos.le hy
  by_cases ha : 0 ≤ 1/2 * q.x - R3 * q.y
  · refine ⟨q, hq, ?_⟩
    simp only [Above, wallNormals, List.forall_mem_cons, List.not_mem_nil, false_imp_iff, implies_true, and_true, hs]
    refine ⟨by linarith, by linarith, by linarith⟩
  · by_cases hb : 0 ≤ R3 * q.x - 1/2 * q.y
    · -- mirror at 30 degrees = mirror x, then rotate by -120
      refine ⟨_, dirEquiv_trans hq (dirEquiv_trans (hm q) (dirEquiv_trans (g2 _) (g1 _))), ?_⟩
      simp only [Above, wallNormals, List.forall_mem_cons, List.not_mem_nil, false_imp_iff, implies_true, and_true, hs]
      refine ⟨by linarith, by linarith, by linarith⟩
    · refine ⟨_, dirEquiv_trans hq (dirEquiv_trans (dirEquiv_trans (g1 q) (g1 _)) (g2 _)), ?_⟩
      simp only [Above, wallNormals, List.forall_mem_cons, List.not_mem_nil, false_imp_iff, implies_true, and_true, hs]
      refine ⟨by linarith, by linarith, by linarith⟩

theorem cover10 (p : V) : ∃ q, DirEquiv 10 p q ∧ Above 10 0 q := by
  obtain ⟨q, hq, hx, hy, hz⟩ := upXY (by norm_num) (by norm_num) e10 (by simp [laueT]) (by simp [laueT]) p
  have g1 := fun v : V => dirEquiv_mem (g := ⟨1/2, 1/2, 1/2, 1/2⟩) (n := 10) (by norm_num) (by norm_num) e10 (by simp [laueT]) v (ap_d3 v)
  have key : ∀ v : V, 0 ≤ v.x → 0 ≤ v.y → v.x ≤ v.z → v.y ≤ v.z → Above 10 0 v := by
    intro v a b c d
    have c' := mul_le_mul_of_nonneg_left c isq2.le
    have d' := mul_le_mul_of_nonneg_left d isq2.le
    simp only [Above, wallNormals, List.forall_mem_cons, List.not_mem_nil, false_imp_iff, implies_true, and_true]
    refine ⟨by linarith, by linarith, by linarith, by linarith⟩
  by_cases ha : q.x ≤ q.z ∧ q.y ≤ q.z
  · exact ⟨q, hq, key q hx hy ha.1 ha.2⟩
  · by_cases hb : q.x ≤ q.y ∧ q.z ≤ q.y
    · exact ⟨_, dirEquiv_trans hq (g1 q), key _ hz hx hb.2 hb.1⟩
    · refine ⟨_, dirEquiv_trans hq (dirEquiv_trans (g1 q) (g1 _)), key _ hy hz ?_ ?_⟩ <;> simp only <;>
      · rw [not_and_or, not_le, not_le] at ha hb
        rcases ha with ha | ha <;> rcases hb with hb | hb <;> linarith

/-- the closed cubic triangle in coordinates -/
theorem above11_of {d : ℝ} (v : V) (a : d ≤ v.y) (b : Real.sqrt 2 * d ≤ v.x - v.y) (c : Real.sqrt 2 * d ≤ v.z - v.x) :
    Above 11 d v := by
  have e : 1 / Real.sqrt 2 * (Real.sqrt 2 * d) = d := by have := s2_facts.1; field_simp
  have c' := mul_le_mul_of_nonneg_left c isq2.le
  have b' := mul_le_mul_of_nonneg_left b isq2.le
  rw [e] at c' b'
  simp only [Above, wallNormals, List.forall_mem_cons, List.not_mem_nil, false_imp_iff, implies_true, and_true]
  refine ⟨by linarith, by linarith, by linarith⟩

theorem cover11' (p : V) : ∃ q, DirEquiv 11 p q ∧ 0 ≤ q.y ∧ q.y ≤ q.x ∧ q.x ≤ q.z := by
  obtain ⟨q, hq, hx, hy, hz⟩ := upXY (by norm_num) (by norm_num) e11 (by simp [laueO]) (by simp [laueO]) p
  have g1 := fun v : V => dirEquiv_mem (g := ⟨1/2, 1/2, 1/2, 1/2⟩) (n := 11) (by norm_num) (by norm_num) e11 (by simp [laueO]) v (ap_d3 v)
  have g2 : ∀ v : V, DirEquiv 11 v ⟨v.y, v.x, v.z⟩ := by
    intro v
    have h4 := dirEquiv_mem (g := ⟨0, R2, R2, 0⟩) (n := 11) (by norm_num) (by norm_num) e11 (by simp [laueO]) v (ap_xy2 v)
    have h5 := dirEquiv_mem (g := ⟨0, 0, 0, 1⟩) (n := 11) (by norm_num) (by norm_num) e11 (by simp [laueO]) _ (ap_z2 ⟨v.y, v.x, -v.z⟩)
    have := dirEquiv_trans (dirEquiv_trans h4 h5) (dirEquiv_inv 11 _)
    simpa using this
  obtain ⟨r, hr, hrx, hry, h1, h2⟩ : ∃ r, DirEquiv 11 p r ∧ 0 ≤ r.x ∧ 0 ≤ r.y ∧ r.x ≤ r.z ∧ r.y ≤ r.z := by
    by_cases ha : q.x ≤ q.z ∧ q.y ≤ q.z
    · exact ⟨q, hq, hx, hy, ha⟩
    · by_cases hb : q.x ≤ q.y ∧ q.z ≤ q.y
      · exact ⟨_, dirEquiv_trans hq (g1 q), hz, hx, hb.2, hb.1⟩
      · refine ⟨_, dirEquiv_trans hq (dirEquiv_trans (g1 q) (g1 _)), hy, hz, ?_, ?_⟩ <;> simp only <;>
        · rw [not_and_or, not_le, not_le] at ha hb
          rcases ha with ha | ha <;> rcases hb with hb | hb <;> linarith
  by_cases hb : r.y ≤ r.x
  · exact ⟨r, hr, hry, hb, h1⟩
  · exact ⟨_, dirEquiv_trans hr (g2 r), hrx, (not_le.mp hb).le, h2⟩

theorem cover11 (p : V) : ∃ q, DirEquiv 11 p q ∧ Above 11 0 q := by
  obtain ⟨q, hq, a, b, c⟩ := cover11' p
  exact ⟨q, hq, above11_of q a (by linarith) (by linarith)⟩

theorem cover {n : ℕ} (h1 : 1 ≤ n) (h2 : n ≤ 11) (p : V) : ∃ q, DirEquiv n p q ∧ Above n 0 q := by
  interval_cases n
  exacts [cover1 p, cover2 p, cover3 p, cover4 p, cover5 p, cover6 p, cover7 p, cover8 p, cover9 p, cover10 p,
    cover11 p]

end Verif.S2
