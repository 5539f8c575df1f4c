import Verif.Props.Fz
import Verif.Props.Laue
import Verif.Props.HoVolume
import Mathlib.MeasureTheory.Measure.Lebesgue.VolumeOfBalls
/-! C160: the fundamental zones share the space of orientations equally, and the reduction keeps a uniform distribution uniform. -/
open Quaternion
namespace Verif.Cubo
open Verif Verif.Spec Real MeasureTheory

/-- Components of a quaternion. -/
def comp4 (q : Q) : Fin 4 → ℝ := ![q.w, q.x, q.y, q.z]

/-- The fundamental zone of a Laue class as the code tests it, on quaternions with non-negative scalar part. -/
def Zone (n : ℕ) : Set Q := {q | 0 ≤ q.w ∧ oriInFz q n = some true}

/-- The cone over a set of unit quaternions, within the unit ball. -/
noncomputable def coneOf (S : Set Q) : Set (Fin 4 → ℝ) := {x | 0 < norm4 x ∧ norm4 x < 1 ∧ unitQ x ∈ S}

theorem haar_cone (S : Set Q) : haar S = 4 * volume (coneOf S) := rfl

/-! ### Right multiplication -/

theorem right_matrix_det (a b c d : ℝ) :
    (Matrix.of ![![a, -b, -c, -d], ![b, a, d, -c], ![c, -d, a, b], ![d, c, -b, a]]).det = (a ^ 2 + b ^ 2 + c ^ 2 + d ^ 2) ^ 2 := by
  rw [Matrix.det_succ_row_zero]
  simp [Fin.sum_univ_succ, Matrix.det_fin_three, Matrix.submatrix, Fin.succAbove]
  ring

/-- Right multiplication by a quaternion as a linear map. -/
noncomputable def rightMap (p : Q) : (Fin 4 → ℝ) →ₗ[ℝ] (Fin 4 → ℝ) :=
  Matrix.toLin' (Matrix.of ![![p.w, -p.x, -p.y, -p.z], ![p.x, p.w, p.z, -p.y], ![p.y, -p.z, p.w, p.x], ![p.z, p.y, -p.x, p.w]])

theorem rightMap_zero (p : Q) (x : Fin 4 → ℝ) : rightMap p x 0 = x 0 * p.w - x 1 * p.x - x 2 * p.y - x 3 * p.z := by
  simp [rightMap, Matrix.mulVec, dotProduct, Fin.sum_univ_four]; ring
theorem rightMap_one (p : Q) (x : Fin 4 → ℝ) : rightMap p x 1 = x 0 * p.x + x 1 * p.w + x 2 * p.z - x 3 * p.y := by
  simp [rightMap, Matrix.mulVec, dotProduct, Fin.sum_univ_four]; ring
theorem rightMap_two (p : Q) (x : Fin 4 → ℝ) : rightMap p x 2 = x 0 * p.y - x 1 * p.z + x 2 * p.w + x 3 * p.x := by
  simp [rightMap, Matrix.mulVec, dotProduct, Fin.sum_univ_four]; ring
theorem rightMap_three (p : Q) (x : Fin 4 → ℝ) : rightMap p x 3 = x 0 * p.z + x 1 * p.y - x 2 * p.x + x 3 * p.w := by
  simp [rightMap, Matrix.mulVec, dotProduct, Fin.sum_univ_four]; ring

theorem rightMap_norm {p : Q} (hp : IsUnit4 p) (x : Fin 4 → ℝ) : norm4 (rightMap p x) = norm4 x := by
  unfold norm4
  rw [rightMap_zero, rightMap_one, rightMap_two, rightMap_three]
  congr 1
  unfold IsUnit4 at hp
  linear_combination (x 0 ^ 2 + x 1 ^ 2 + x 2 ^ 2 + x 3 ^ 2) * hp

theorem rightMap_unitQ {p : Q} (hp : IsUnit4 p) (x : Fin 4 → ℝ) : unitQ (rightMap p x) = quProdRaw (unitQ x) p := by
  unfold unitQ quProdRaw
  rw [rightMap_norm hp, rightMap_zero, rightMap_one, rightMap_two, rightMap_three]
  ext <;> simp only <;> ring

theorem cone_right {p : Q} (hp : IsUnit4 p) (S : Set Q) : coneOf {q | quProdRaw q p ∈ S} = rightMap p ⁻¹' coneOf S := by
  ext x
  simp only [coneOf, Set.mem_ofPred_eq, Set.mem_preimage, rightMap_norm hp, rightMap_unitQ hp]

theorem volume_right {p : Q} (hp : IsUnit4 p) (S : Set Q) : volume (coneOf {q | quProdRaw q p ∈ S}) = volume (coneOf S) := by
  have hdet : LinearMap.det (rightMap p) = 1 := by
    unfold IsUnit4 at hp
    rw [rightMap, LinearMap.det_toLin', right_matrix_det, hp]; norm_num
  rw [cone_right hp]
  have key := Measure.addHaar_preimage_linearMap volume (f := rightMap p) (by rw [hdet]; norm_num) (coneOf S)
  rw [hdet] at key
  simpa only [inv_one, abs_one, ENNReal.ofReal_one, one_mul] using key

/-- The uniform measure does not change when all quaternions are multiplied by a unit quaternion from the right. -/
theorem haar_right (p : Q) (hp : p.w ^ 2 + p.x ^ 2 + p.y ^ 2 + p.z ^ 2 = 1) (S : Set Q) :
    haar {q | (⟨q.w * p.w - q.x * p.x - q.y * p.y - q.z * p.z, q.w * p.x + q.x * p.w + q.y * p.z - q.z * p.y,
      q.w * p.y - q.x * p.z + q.y * p.w + q.z * p.x, q.w * p.z + q.x * p.y - q.y * p.x + q.z * p.w⟩ : Q) ∈ S} = haar S := by
  have := volume_right (p := p) hp S
  rw [haar_cone, haar_cone, ← this]
  rfl

/-! ### The whole sphere -/

theorem haar_all : haar Set.univ = ENNReal.ofReal (2 * π ^ 2) := by
  have hball : volume {x : Fin 4 → ℝ | norm4 x < 1} = ENNReal.ofReal (π ^ 2 / 2) := by
    have h := EuclideanSpace.volume_ball (Fin 4) (0 : EuclideanSpace ℝ (Fin 4)) 1
    rw [← (PiLp.volume_preserving_toLp (Fin 4)).measure_preimage measurableSet_ball.nullMeasurableSet] at h
    have hs : (WithLp.toLp 2 ⁻¹' (Metric.ball (0 : EuclideanSpace ℝ (Fin 4)) 1) : Set (Fin 4 → ℝ)) = {x : Fin 4 → ℝ | norm4 x < 1} := by
      ext x
      simp [EuclideanSpace.norm_eq, Fin.sum_univ_four, norm4]
    rw [hs] at h
    rw [h]
    have hg : Real.Gamma ((Fintype.card (Fin 4) : ℝ) / 2 + 1) = 2 := by
      have := Real.Gamma_nat_eq_factorial 2
      norm_num [Nat.factorial] at this ⊢
    have hp : √π ^ (4 : ℕ) = π ^ 2 := by
      rw [show (4 : ℕ) = 2 * 2 by norm_num, pow_mul, sq_sqrt pi_pos.le]
    rw [hg]
    simp only [Fintype.card_fin, hp]
    simp
  have h0 : volume ({0} : Set (Fin 4 → ℝ)) = 0 := measure_singleton 0
  have e : coneOf Set.univ = {x : Fin 4 → ℝ | norm4 x < 1} \ {0} := by
    ext x
    have hn : 0 ≤ norm4 x := sqrt_nonneg _
    have hz : norm4 x = 0 ↔ x = 0 := by
      constructor
      · intro h
        unfold norm4 at h
        rw [sqrt_eq_zero (by positivity)] at h
        have s0 := sq_nonneg (x 0)
        have s1 := sq_nonneg (x 1)
        have s2 := sq_nonneg (x 2)
        have s3 := sq_nonneg (x 3)
        ext i
        have z : ∀ t : ℝ, t ^ 2 = 0 → t = 0 := fun t ht => pow_eq_zero_iff (two_ne_zero) |>.mp ht
        fin_cases i
        · exact z (x 0) (by linarith)
        · exact z (x 1) (by linarith)
        · exact z (x 2) (by linarith)
        · exact z (x 3) (by linarith)
      · rintro rfl
        simp [norm4]
    simp only [coneOf, Set.mem_ofPred_eq, Set.mem_univ, and_true, Set.mem_sdiff, Set.mem_singleton_iff]
    constructor
    · rintro ⟨a, b⟩
      exact ⟨b, fun h => a.ne' (hz.mpr h)⟩
    · rintro ⟨a, b⟩
      exact ⟨lt_of_le_of_ne hn fun h => b (hz.mp h.symm), a⟩
  rw [haar_cone, e, measure_sdiff_null h0, hball, show (4 : ENNReal) = ENNReal.ofReal 4 by norm_num, ← ENNReal.ofReal_mul (by norm_num)]
  congr 1; ring

/-! ### Ties are negligible -/

/-- The rotations of a Laue class as quaternions. -/
def rots (n : ℕ) : Set Q := {p | toH p ∈ laueRotations n}

theorem rots_unit {n : ℕ} (h1 : 1 ≤ n) (h2 : n ≤ 11) {p : Q} (hp : p ∈ rots n) : IsUnit4 p := by
  have := (rot_star h1 h2 hp).2.1
  have h := congrArg QuaternionAlgebra.re this
  simp at h
  unfold IsUnit4; linarith

theorem rots_neg {n : ℕ} (h1 : 1 ≤ n) (h2 : n ≤ 11) {p : Q} (hp : p ∈ rots n) : p.neg ∈ rots n :=
  mem_of_same h1 h2 (Or.inr (by rw [toH_neg])) hp

theorem hyper_null (p : Q) (hp : p ≠ ⟨0, 0, 0, 0⟩) : volume {x : Fin 4 → ℝ | x 0 * p.w - x 1 * p.x - x 2 * p.y - x 3 * p.z = 0} = 0 := by
  have := Measure.addHaar_submodule (volume : Measure (Fin 4 → ℝ)) (LinearMap.ker ((LinearMap.proj 0 : (Fin 4 → ℝ) →ₗ[ℝ] ℝ) ∘ₗ rightMap p)) (by
    intro h
    rw [LinearMap.ker_eq_top] at h
    have h0 := LinearMap.congr_fun h ![1, 0, 0, 0]
    have h1 := LinearMap.congr_fun h ![0, 1, 0, 0]
    have h2 := LinearMap.congr_fun h ![0, 0, 1, 0]
    have h3 := LinearMap.congr_fun h ![0, 0, 0, 1]
    simp [rightMap_zero] at h0 h1 h2 h3
    exact hp (by ext <;> assumption))
  convert this using 2
  ext x
  simp [rightMap_zero]

/-- The set where two different rotations give the same scalar part. -/
def tie (p p' : Q) : Set (Fin 4 → ℝ) :=
  {x | x 0 * (p.w - p'.w) - x 1 * (p.x - p'.x) - x 2 * (p.y - p'.y) - x 3 * (p.z - p'.z) = 0}

theorem tie_null {p p' : Q} (h : p ≠ p') : volume (tie p p') = 0 := by
  refine hyper_null ⟨p.w - p'.w, p.x - p'.x, p.y - p'.y, p.z - p'.z⟩ fun e => h ?_
  have := (Q.mk.injEq ..).mp e
  ext <;> linarith [this.1, this.2.1, this.2.2.1, this.2.2.2]

open Classical in
theorem ties_null (P : Finset Q) : volume (⋃ p ∈ P, ⋃ p' ∈ P.erase p, tie p p') = 0 := by
  refine (measure_biUnion_null_iff (s := fun p => ⋃ p' ∈ P.erase p, tie p p') P.countable_toSet).mpr fun p _ => ?_
  exact (measure_biUnion_null_iff (s := fun p' => tie p p') (P.erase p).countable_toSet).mpr fun p' hp' =>
    tie_null (Finset.ne_of_mem_erase hp').symm

theorem tie_of {p p' : Q} {x : Fin 4 → ℝ} (hx : 0 < norm4 x) (h : (quProdRaw (unitQ x) p).w = (quProdRaw (unitQ x) p').w) : x ∈ tie p p' := by
  simp only [quProdRaw, unitQ] at h
  unfold tie
  rw [Set.mem_ofPred_eq]
  field_simp at h
  linarith

theorem zone_iff {n : ℕ} (h1 : 1 ≤ n) (h2 : n ≤ 11) (q : Q) :
    q ∈ Zone n ↔ ∀ g ∈ rots n, |(quProdRaw q g).w| ≤ q.w := by
  have key : ∀ g, (toH q * toH g).re = (quProdRaw q g).w := fun g => by rw [← toH_prodRaw]; rfl
  constructor
  · rintro ⟨h0, h⟩ g hg
    obtain ⟨b, hb, hbi⟩ := C09_closed_form q h0 n h1 h2
    rw [hb] at h
    have := hbi.mp (Option.some.inj h) _ hg
    rwa [toH_re, abs_of_nonneg h0, key] at this
  · intro h
    have h1' : (⟨1, 0, 0, 0⟩ : Q) ∈ rots n := by
      have : toH ⟨1, 0, 0, 0⟩ = 1 := by ext <;> simp
      unfold rots
      rw [Set.mem_ofPred_eq, this]
      exact (laueRotations n).one_mem
    have h0 : 0 ≤ q.w := (abs_nonneg _).trans (h _ h1')
    refine ⟨h0, ?_⟩
    obtain ⟨b, hb, hbi⟩ := C09_closed_form q h0 n h1 h2
    rw [hb, hbi.mpr]
    intro g hg
    rw [toH_re, abs_of_nonneg h0]
    have := h ⟨g.re, g.imI, g.imJ, g.imK⟩ hg
    rwa [← key] at this

/-- Two symmetric copies of a quaternion that both lie in the zone are the same, outside the ties. -/
theorem zone_unique {n : ℕ} (h1 : 1 ≤ n) (h2 : n ≤ 11) {p p' q : Q} (hp : p ∈ rots n) (hp' : p' ∈ rots n)
    (h : quProdRaw q p ∈ Zone n) (h' : quProdRaw q p' ∈ Zone n) : (quProdRaw q p).w = (quProdRaw q p').w := by
  have key : ∀ {p p' : Q}, p ∈ rots n → p' ∈ rots n → quProdRaw q p ∈ Zone n → (quProdRaw q p').w ≤ (quProdRaw q p).w := by
    intro p p' hp hp' h
    have hz := (zone_iff h1 h2 _).mp h
    have hg : (⟨(star (toH p) * toH p').re, (star (toH p) * toH p').imI, (star (toH p) * toH p').imJ, (star (toH p) * toH p').imK⟩ : Q) ∈ rots n :=
      (laueRotations n).mul_mem (rot_star h1 h2 hp).1 hp'
    have := hz _ hg
    have e : (quProdRaw (quProdRaw q p) ⟨(star (toH p) * toH p').re, (star (toH p) * toH p').imI, (star (toH p) * toH p').imJ, (star (toH p) * toH p').imK⟩).w =
        (quProdRaw q p').w := by
      have : toH (quProdRaw (quProdRaw q p) ⟨(star (toH p) * toH p').re, (star (toH p) * toH p').imI, (star (toH p) * toH p').imJ, (star (toH p) * toH p').imK⟩) =
          toH (quProdRaw q p') := by
        rw [toH_prodRaw, toH_prodRaw, toH_prodRaw]
        show toH q * toH p * (star (toH p) * toH p') = _
        rw [mul_assoc, ← mul_assoc (toH p), (rot_star h1 h2 hp).2.1, one_mul]
      exact congrArg QuaternionAlgebra.re this
    rw [e] at this
    exact (le_abs_self _).trans this
  exact le_antisymm (key hp' hp h') (key hp hp' h)

/-! ### The finite set of rotations -/

theorem rots_finite {n : ℕ} (h1 : 1 ≤ n) (h2 : n ≤ 11) : ∃ P : Finset Q, P.card = laueOrder n ∧ ∀ p, p ∈ P ↔ p ∈ rots n := by
  classical
  obtain ⟨G, he, -, hu, -, -, hd, -, hl, hm⟩ := C06_group n h1 h2
  have nd1 : G.Nodup := hd.imp fun h e => h (Or.inl (by rw [e]))
  have hpair : ∀ a ∈ G, ∀ b ∈ G, a.neg = b → False := by
    intro a ha b hb e
    by_cases hab : a = b
    · subst hab
      have ua := hu a ha
      have := (Q.mk.injEq ..).mp e
      unfold IsUnit4 at ua
      have e1 : a.w = 0 := by linarith [this.1]
      have e2 : a.x = 0 := by linarith [this.2.1]
      have e3 : a.y = 0 := by linarith [this.2.2.1]
      have e4 : a.z = 0 := by linarith [this.2.2.2]
      rw [e1, e2, e3, e4] at ua
      norm_num at ua
    · have : Std.Symm fun a b : Q => ¬ SameUpToSign (toH a) (toH b) := ⟨fun a b h h' => h h'.symm⟩
      have := hd.forall ha hb hab
      exact this (Or.inr (by rw [← e, toH_neg, H_neg_neg]))
  have ninj : Function.Injective Q.neg := by
    intro a b h
    have := (Q.mk.injEq ..).mp h
    ext <;> linarith [this.1, this.2.1, this.2.2.1, this.2.2.2]
  have nd : (G ++ G.map Q.neg).Nodup := by
    rw [List.nodup_append]
    refine ⟨nd1, nd1.map ninj, ?_⟩
    intro a ha b hb e
    subst e
    obtain ⟨c, hc, e⟩ := List.mem_map.mp hb
    exact hpair c hc a ha e
  refine ⟨(G ++ G.map Q.neg).toFinset, ?_, ?_⟩
  · rw [List.toFinset_card_of_nodup nd, List.length_append, List.length_map, ← hl]; ring
  · intro p
    rw [List.mem_toFinset, List.mem_append, List.mem_map]
    unfold rots
    rw [Set.mem_ofPred_eq, hm]
    constructor
    · rintro (h | ⟨g, hg, rfl⟩)
      · exact ⟨p, h, Or.inl rfl⟩
      · exact ⟨g, hg, Or.inr (toH_neg g)⟩
    · rintro ⟨g, hg, h | h⟩
      · left; rw [toH_inj h]; exact hg
      · right; exact ⟨g, hg, by rw [← toH_neg] at h; exact (toH_inj h).symm⟩

theorem toFz_is {n : ℕ} (h1 : 1 ≤ n) (h2 : n ≤ 11) (q : Q) : ∃ p ∈ rots n, oriToFz q n = some (quProdRaw q p) ∧ quProdRaw q p ∈ Zone n := by
  obtain ⟨r, hr, ⟨h, hh, e⟩, h0, -⟩ := C07_reduce q n h1 h2
  obtain ⟨r', hr', hz, -⟩ := C10_inside q n h1 h2
  rw [hr] at hr'
  obtain rfl := Option.some.inj hr'
  have er : r = quProdRaw q ⟨h.re, h.imI, h.imJ, h.imK⟩ := by
    apply toH_inj
    rw [toH_prodRaw, e]
    rfl
  exact ⟨⟨h.re, h.imI, h.imJ, h.imK⟩, hh, by rw [hr, er], by rw [← er]; exact ⟨h0, hz⟩⟩

/-! ### Measurability -/

theorem norm4_meas : Measurable norm4 := by
  unfold norm4
  fun_prop

theorem comp_meas : Measurable fun x => comp4 (unitQ x) := by
  apply measurable_pi_lambda
  intro i
  have := norm4_meas
  fin_cases i <;> simp only [comp4, unitQ] <;> simp <;> fun_prop

theorem zone_meas {n : ℕ} (h1 : 1 ≤ n) (h2 : n ≤ 11) (B : Set (Fin 4 → ℝ)) (hB : MeasurableSet B) :
    MeasurableSet (coneOf {q | q ∈ Zone n ∧ comp4 q ∈ B}) := by
  obtain ⟨P, -, hP⟩ := rots_finite h1 h2
  have e : coneOf {q | q ∈ Zone n ∧ comp4 q ∈ B} = ({x | 0 < norm4 x} ∩ {x | norm4 x < 1} ∩ (fun x => comp4 (unitQ x)) ⁻¹' B) ∩
      ⋂ p ∈ P, {x | |(quProdRaw (unitQ x) p).w| ≤ (unitQ x).w} := by
    ext x
    simp only [coneOf, Set.mem_ofPred_eq, Set.mem_inter_iff, Set.mem_preimage, Set.mem_iInter, zone_iff h1 h2, hP]
    tauto
  have hn := norm4_meas
  rw [e]
  refine ((((measurableSet_lt measurable_const hn).inter (measurableSet_lt hn measurable_const))).inter (comp_meas hB)).inter ?_
  refine Finset.measurableSet_biInter P fun p _ => ?_
  apply measurableSet_le
  · refine continuous_abs.measurable.comp (g := fun t : ℝ => |t|) ?_
    simp only [quProdRaw, unitQ]
    fun_prop
  · simp only [unitQ]
    fun_prop

/-! ### The theorems -/

/-- **C160**: `ori_to_fz_laue` keeps a uniform distribution uniform: the quaternions whose reduction lies in a region `B` have the measure
of the part of `B` in the fundamental zone, times the order of the Laue group (both signs of the quaternion counted). -/
theorem C160_uniform (n : ℕ) (h1 : 1 ≤ n) (h2 : n ≤ 11) (B : Set (Fin 4 → ℝ)) (hB : MeasurableSet B) :
    haar {q | ∃ r, oriToFz q n = some r ∧ comp4 r ∈ B} = laueOrder n * haar {r | 0 ≤ r.w ∧ oriInFz r n = some true ∧ comp4 r ∈ B} := by
  classical
  obtain ⟨P, hc, hP⟩ := rots_finite h1 h2
  let S : Set Q := {q | q ∈ Zone n ∧ comp4 q ∈ B}
  have hS : {r : Q | 0 ≤ r.w ∧ oriInFz r n = some true ∧ comp4 r ∈ B} = S := by
    ext r; simp only [S, Zone, Set.mem_ofPred_eq]; tauto
  let F : Q → Set (Fin 4 → ℝ) := fun p => coneOf {q | quProdRaw q p ∈ S}
  have hF : ∀ p ∈ P, volume (F p) = volume (coneOf S) := fun p hp => volume_right (rots_unit h1 h2 ((hP p).mp hp)) S
  have hFm : ∀ p ∈ P, NullMeasurableSet (F p) volume := by
    intro p hp
    have : MeasurableSet (F p) := by
      simp only [F]
      rw [cone_right (rots_unit h1 h2 ((hP p).mp hp))]
      exact (LinearMap.continuous_of_finiteDimensional (rightMap p)).measurable (zone_meas h1 h2 B hB)
    exact this.nullMeasurableSet
  have hsub : ∀ p ∈ P, ∀ p' ∈ P, F p ∩ F p' ⊆ tie p p' := by
    rintro p hp p' hp' x ⟨⟨a1, a2, a3⟩, ⟨b1, b2, b3⟩⟩
    exact tie_of a1 (zone_unique h1 h2 ((hP p).mp hp) ((hP p').mp hp') a3.1 b3.1)
  have hd : Set.Pairwise (↑P) (Function.onFun (AEDisjoint volume) F) := by
    intro p hp p' hp' hne
    exact measure_mono_null (hsub p hp p' hp') (tie_null hne)
  have hsum := measure_biUnion_finset₀ hd hFm
  have hae : volume (coneOf {q | ∃ r, oriToFz q n = some r ∧ comp4 r ∈ B}) = volume (⋃ p ∈ P, F p) := by
    have hN := ties_null P
    apply le_antisymm
    · apply measure_mono
      rintro x ⟨a1, a2, r, hr, hb⟩
      obtain ⟨p, hp, hr', hz⟩ := toFz_is h1 h2 (unitQ x)
      rw [hr] at hr'
      obtain rfl := Option.some.inj hr'
      simp only [Set.mem_iUnion]
      exact ⟨p, (hP p).mpr hp, a1, a2, hz, hb⟩
    · rw [← measure_sdiff_null (s := ⋃ p ∈ P, F p) hN]
      apply measure_mono
      rintro x ⟨hx, hx'⟩
      simp only [Set.mem_iUnion] at hx
      obtain ⟨p, hp, a1, a2, hz, hb⟩ := hx
      refine ⟨a1, a2, ?_⟩
      obtain ⟨p', hp', hr', hz'⟩ := toFz_is h1 h2 (unitQ x)
      by_cases hpp : p' = p
      · subst hpp; exact ⟨_, hr', hb⟩
      · exfalso
        apply hx'
        simp only [Set.mem_iUnion]
        exact ⟨p, hp, p', Finset.mem_erase.mpr ⟨hpp, (hP p').mpr hp'⟩, tie_of a1 (zone_unique h1 h2 ((hP p).mp hp) hp' hz hz')⟩
  rw [haar_cone, hS, haar_cone, hae, hsum, Finset.sum_congr rfl hF, Finset.sum_const, hc, nsmul_eq_mul]
  ring

/-- **C160**: every fundamental zone holds the same share of all orientations: the measure `2π²` of the unit quaternions divided by the order
of the Laue group. -/
theorem C160_share (n : ℕ) (h1 : 1 ≤ n) (h2 : n ≤ 11) :
    haar {q | 0 ≤ q.w ∧ oriInFz q n = some true} = ENNReal.ofReal (2 * π ^ 2 / laueOrder n) := by
  have h := C160_uniform n h1 h2 Set.univ MeasurableSet.univ
  have e : {q : Q | ∃ r, oriToFz q n = some r ∧ comp4 r ∈ Set.univ} = Set.univ := by
    ext q
    obtain ⟨p, -, hr, -⟩ := toFz_is h1 h2 q
    simp [hr]
  rw [e, haar_all] at h
  simp only [Set.mem_univ, and_true] at h
  have ho : 0 < (laueOrder n : ℝ) := by
    interval_cases n <;> norm_num [laueOrder]
  have hne : (laueOrder n : ENNReal) ≠ 0 := by
    have : laueOrder n ≠ 0 := by exact_mod_cast ho.ne'
    exact_mod_cast this
  rw [ENNReal.ofReal_div_of_pos ho, h, ENNReal.ofReal_natCast, mul_comm, ENNReal.mul_div_cancel_right hne (ENNReal.natCast_ne_top _)]

/-- **C160**: almost every orientation has exactly one symmetric equivalent in the fundamental zone: those with two form a set of measure 0. -/
theorem C160_unique (n : ℕ) (h1 : 1 ≤ n) (h2 : n ≤ 11) :
    haar {q | ∃ r r', SymEquiv n q r ∧ SymEquiv n q r' ∧ (0 ≤ r.w ∧ oriInFz r n = some true) ∧ (0 ≤ r'.w ∧ oriInFz r' n = some true) ∧ r ≠ r'} = 0 := by
  classical
  obtain ⟨P, hc, hP⟩ := rots_finite h1 h2
  have hN := ties_null P
  have e : ∀ {q r : Q} {h : ℍ[ℝ]}, toH r = toH q * h → r = quProdRaw q ⟨h.re, h.imI, h.imJ, h.imK⟩ := by
    intro q r h e
    apply toH_inj
    rw [toH_prodRaw, e]
    rfl
  rw [haar_cone, measure_mono_null _ hN, mul_zero]
  rintro x ⟨a1, a2, r, r', ⟨h, hh, er⟩, ⟨h', hh', er'⟩, hz, hz', hne⟩
  have er := e er
  have er' := e er'
  rw [er] at hz hne
  rw [er'] at hz' hne
  simp only [Set.mem_iUnion]
  refine ⟨⟨h.re, h.imI, h.imJ, h.imK⟩, (hP _).mpr hh, ⟨h'.re, h'.imI, h'.imJ, h'.imK⟩, Finset.mem_erase.mpr ⟨?_, (hP _).mpr hh'⟩, ?_⟩
  · intro c
    rw [c] at hne
    exact hne rfl
  · exact tie_of a1 (zone_unique h1 h2 hh hh' hz hz')

/-- **C160**: `sample_ori_fz_laue` chooses the largest cubochoric grid whose expected number of points in the fundamental zone is at most the
target: with `e` points per edge, `e³` points spread over the orientations (measure `π²`) of which the zone holds its share. -/
theorem C160_target (n m : ℕ) (h1 : 1 ≤ n) (h2 : n ≤ 11) (hm : getLaueMult n = some m) (target : ℤ) (h0 : 0 ≤ target) :
    0 ≤ sampleEdge m target ∧
      (sampleEdge m target : ℝ) ^ 3 * ((haar {q | 0 ≤ q.w ∧ oriInFz q n = some true}).toReal / π ^ 2) ≤ target ∧
      target < ((sampleEdge m target : ℝ) + 1) ^ 3 * ((haar {q | 0 ≤ q.w ∧ oriInFz q n = some true}).toReal / π ^ 2) := by
  obtain ⟨G, he, -, -, -, -, -, hm', hl, -⟩ := C06_group n h1 h2
  rw [hm] at hm'
  obtain rfl := Option.some.inj hm'
  have ho : 0 < (laueOrder n : ℝ) := by
    interval_cases n <;> norm_num [laueOrder]
  rw [C160_share n h1 h2, ENNReal.toReal_ofReal (by positivity)]
  have hp := pi_pos
  have e : 2 * π ^ 2 / (laueOrder n : ℝ) / π ^ 2 = 2 / laueOrder n := by field_simp
  rw [e]
  have ht : (0 : ℝ) ≤ target := by exact_mod_cast h0
  let c : ℝ := ((target : ℝ) * 0.5 * laueOrder n) ^ ((1 : ℝ) / 3)
  have hb : 0 ≤ (target : ℝ) * 0.5 * laueOrder n := by positivity
  have hc0 : 0 ≤ c := rpow_nonneg hb _
  have hc3 : c ^ 3 = (target : ℝ) * 0.5 * laueOrder n := by
    simp only [c]
    rw [← rpow_natCast, ← rpow_mul hb]; norm_num
  have hs : sampleEdge (laueOrder n) target = ⌊c⌋ := rfl
  rw [hs]
  have hf0 : (0 : ℤ) ≤ ⌊c⌋ := Int.floor_nonneg.mpr hc0
  have hf0' : (0 : ℝ) ≤ (⌊c⌋ : ℝ) := by exact_mod_cast hf0
  have hf1 := Int.floor_le c
  have hf2 := Int.lt_floor_add_one c
  have k1 : (⌊c⌋ : ℝ) ^ 3 ≤ c ^ 3 := pow_le_pow_left₀ hf0' hf1 3
  have k2 : c ^ 3 < ((⌊c⌋ : ℝ) + 1) ^ 3 := pow_lt_pow_left₀ hf2 hc0 (by norm_num)
  rw [hc3] at k1 k2
  refine ⟨hf0, ?_, ?_⟩
  · rw [← mul_div_assoc, div_le_iff₀ ho]; linarith
  · rw [← mul_div_assoc, lt_div_iff₀ ho]; linarith

/-! ### Non-vacuity -/

example : getLaueMult (11 : ℕ) = some 48 ∧ (0 : ℤ) ≤ 10000 := ⟨rfl, by norm_num⟩

/-- The cubic zone holds one 24th of the orientations (the hemisphere of positive scalar parts has measure `π²`). -/
example : haar {q | 0 ≤ q.w ∧ oriInFz q (11 : ℕ) = some true} = ENNReal.ofReal (2 * π ^ 2 / (48 : ℕ)) := C160_share 11 (by norm_num) (by norm_num)

example : haar {q | ∃ r, oriToFz q (9 : ℕ) = some r ∧ comp4 r ∈ {x | 0.9 < x 0}} =
    (24 : ℕ) * haar {r | 0 ≤ r.w ∧ oriInFz r (9 : ℕ) = some true ∧ comp4 r ∈ {x | 0.9 < x 0}} :=
  C160_uniform 9 (by norm_num) (by norm_num) _ (measurableSet_lt measurable_const (measurable_pi_apply 0))

end Verif.Cubo
