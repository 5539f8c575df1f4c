import Verif.Props.UniformQuat
import Verif.Props.HoAccuracy
/-! C169: `so3_cu_rand` draws orientations uniformly up to the accuracy of its conversion. -/
namespace Verif.Cubo
open Verif Verif.Samp Verif.Spec Real MeasureTheory

/-! ### Specification -/

/-- The orientations (scalar part positive) that differ from a member of `S` by a rotation of less than `δ`. -/
def Near (δ : ℝ) (S : Set Q) : Set Q :=
  {p | 0 < p.w ∧ ∃ r ∈ S, IsUnit4 r ∧ cos (δ / 2) < |p.w * r.w + p.x * r.x + p.y * r.y + p.z * r.z|}

/-- Accuracy of the conversion, in radians. -/
noncomputable def acc (single : Bool) : ℝ := if single then 4e-7 else 2e-8

/-- The draws (rows of `torch.rand`) for which the orientation is in `S`. -/
def drawsInto (A : Argsort) (single : Bool) (S : Set Q) : Set (Fin 3 → ℝ) :=
  {d | (∀ i, 0 ≤ d i ∧ d i < 1) ∧ ∀ q ∈ so3CuRand A single [ofComp d], q ∈ S}

/-! ### Proof -/

theorem near_open (δ : ℝ) (S : Set Q) : IsOpen {y : Fin 4 → ℝ | (⟨y 0, y 1, y 2, y 3⟩ : Q) ∈ Near δ S} := by
  have e : {y : Fin 4 → ℝ | (⟨y 0, y 1, y 2, y 3⟩ : Q) ∈ Near δ S} =
      {y | 0 < y 0} ∩ ⋃ r ∈ {r | r ∈ S ∧ IsUnit4 r}, {y | cos (δ / 2) < |y 0 * r.w + y 1 * r.x + y 2 * r.y + y 3 * r.z|} := by
    ext y; simp [Near, and_assoc]
  rw [e]
  refine (isOpen_lt continuous_const (continuous_apply 0)).inter (isOpen_biUnion fun r _ => isOpen_lt continuous_const ?_)
  fun_prop

theorem near_meas (δ : ℝ) (S : Set Q) : MeasurableSet {x : Fin 4 → ℝ | unitQ x ∈ Near δ S} := by
  have := comp_meas (near_open δ S).measurableSet
  exact this

theorem hoMap_measurable : Measurable hoMap := by
  rw [measurable_pi_iff]
  intro i
  refine Fin.cases ?_ (fun j => ?_) i
  · have : (fun x => hoMap x 0) = fun x => norm4 x ^ 4 / 4 := funext fun x => hoMap_zero
    rw [this]
    exact (norm4_measurable.pow_const 4).div_const 4
  · exact (measurable_pi_apply j).comp tail_measurable

/-- Homochoric vectors of a set of orientations. -/
def hoSet (T : Set Q) : Set (Fin 3 → ℝ) :=
  {h | (Fin.cons (1 / 4) h : Fin 4 → ℝ) ∈ hoMap '' {x | 0 < vlen x ∧ unitQ x ∈ T}}

theorem hoSet_meas {T : Set Q} (hT : MeasurableSet {x : Fin 4 → ℝ | unitQ x ∈ T}) : MeasurableSet (hoSet T) := by
  have h1 : MeasurableSet {x : Fin 4 → ℝ | 0 < vlen x ∧ unitQ x ∈ T} := (measurableSet_lt measurable_const vlen_measurable).inter hT
  have h2 := h1.image_of_measurable_injOn hoMap_measurable (hoMap_inj.mono fun x hx => hx.1)
  have h3 : Measurable fun h : Fin 3 → ℝ => (Fin.cons (1 / 4) h : Fin 4 → ℝ) := by
    rw [measurable_pi_iff]
    intro i
    refine Fin.cases ?_ (fun j => ?_) i
    · exact measurable_const
    · exact measurable_pi_apply j
  exact h3 h2

theorem normalized {x : Fin 4 → ℝ} (h : 0 < vlen x) :
    ∃ y, 0 < vlen y ∧ unitQ y = unitQ x ∧ hoMap y = (Fin.cons (1 / 4) (tail4 (hoMap x)) : Fin 4 → ℝ) := by
  obtain ⟨n0, -⟩ := facts4 h
  set y : Fin 4 → ℝ := fun i => x i / norm4 x with hy
  have hn : norm4 y = 1 := by
    have : norm4 y = √((x 0 ^ 2 + x 1 ^ 2 + x 2 ^ 2 + x 3 ^ 2) / norm4 x ^ 2) := by
      unfold norm4; congr 1; simp only [hy]; unfold norm4; ring
    rw [this, sqrt_div' _ (by positivity), sqrt_sq n0.le]
    exact div_self n0.ne'
  have hv : vlen y = vlen x / norm4 x := by
    have : vlen y = √((x 1 * x 1 + x 2 * x 2 + x 3 * x 3) / norm4 x ^ 2) := by
      unfold vlen; congr 1; simp only [hy]; ring
    rw [this, sqrt_div' _ (by positivity), sqrt_sq n0.le]
    rfl
  have hh : half y = half x := by
    unfold half; rw [hn]; simp [hy]
  refine ⟨y, by rw [hv]; positivity, ?_, ?_⟩
  · unfold unitQ; rw [hn]; simp [hy]
  · funext i
    refine Fin.cases ?_ (fun j => ?_) i
    · rw [hoMap_zero, hn]; norm_num
    · change tail4 (hoMap y) j = tail4 (hoMap x) j
      rw [hoMap_tail, hoMap_tail, hh, hv]
      simp only [hy]
      field_simp

theorem hoSet_volume {T : Set Q} (hT : MeasurableSet {x : Fin 4 → ℝ | unitQ x ∈ T}) :
    volume (hoSet T ∩ {h | radiusOf 1e-8 ≤ len3 h ∧ len3 h < radiusOf π}) ≤ haar T := by
  rw [← C157_standard _ (hoSet_meas hT).nullMeasurableSet]
  unfold haar
  refine mul_le_mul' le_rfl (measure_mono ?_)
  rintro x ⟨h1, h2, h3, h4, h5⟩
  refine ⟨h1, h2, ?_⟩
  have hw : 0 < x 0 := by
    have := mul_pos h3 h1
    rwa [show (unitQ x).w * norm4 x = x 0 from div_mul_cancel₀ _ h1.ne'] at this
  have hv : 0 < vlen x := by
    have hv : 0 ≤ vlen x := sqrt_nonneg _
    rcases hv.lt_or_eq with h | h
    · exact h
    · exfalso
      have e := norm4_sq x
      rw [← h] at e
      have e2 : norm4 x = x 0 := (pow_left_inj₀ h1.le hw.le (by norm_num : (2 : ℕ) ≠ 0)).mp (by linarith)
      have : (unitQ x).w = 1 := by change x 0 / norm4 x = 1; rw [e2]; exact div_self hw.ne'
      rw [this, arccos_one] at h4
      norm_num at h4
  rw [qu2ho_unitQ hv h4] at h5
  obtain ⟨x', ⟨a1, a2⟩, a3⟩ := h5
  obtain ⟨y, b1, b2, b3⟩ := normalized hv
  have : x' = y := hoMap_inj a1 b1 (a3.trans b3.symm)
  rw [← b2, ← this]
  exact a2

theorem qu2ho_inj_ofComp {q : Q} {h : Fin 3 → ℝ} (e : comp (qu2ho q) = h) : qu2ho q = ofComp h := by
  rw [← e, ofComp_comp]

/-- The result of one row of draws, from the cubochoric vector. -/
noncomputable def outOf (A : Argsort) (single : Bool) (u : Fin 3 → ℝ) : Q :=
  quStd ((cu2qu A single (ofComp u)).sdiv (cu2qu A single (ofComp u)).norm)

noncomputable def edge : ℝ := π ^ ((2 : ℝ) / 3)

theorem edge_cube : edge ^ 3 = π ^ 2 := by
  unfold edge
  rw [← rpow_natCast, ← rpow_mul pi_pos.le, ← rpow_natCast]; norm_num

theorem edge_pos : 0 < edge := by unfold edge; positivity

theorem outOf_pm (A : Argsort) (single : Bool) (u : Fin 3 → ℝ) :
    outOf A single u = cu2qu A single (ofComp u) ∨ outOf A single u = (cu2qu A single (ofComp u)).neg := by
  have hu := Samp.C62_cu2qu_unit A single (ofComp u)
  unfold outOf
  generalize cu2qu A single (ofComp u) = q at *
  have hn : q.norm = 1 := by unfold Q.norm; unfold IsUnit4 at hu; rw [hu, sqrt_one]
  have e : q.sdiv q.norm = q := by rw [hn]; unfold Q.sdiv; simp
  rw [e]
  unfold quStd
  split
  · exact Or.inl rfl
  · exact Or.inr rfl

theorem outOf_one (A : Argsort) (single : Bool) (u : Fin 3 → ℝ) (h : cu2qu A single (ofComp u) = ⟨1, 0, 0, 0⟩) :
    outOf A single u = ⟨1, 0, 0, 0⟩ := by
  unfold outOf
  rw [h]
  unfold Q.sdiv Q.norm quStd
  simp

theorem draws_eq (A : Argsort) (single : Bool) (S : Set Q) :
    drawsInto A single S = {d | (∀ i, 0 ≤ d i ∧ d i < 1) ∧ outOf A single (fun i => edge * d i - 0.5 * edge) ∈ S} := by
  ext d
  have e : so3CuRand A single [ofComp d] = [outOf A single (fun i => edge * d i - 0.5 * edge)] := by
    unfold so3CuRand outOf edge ofComp
    simp only [List.map_cons, List.map_nil, mul_comm]
  unfold drawsInto
  rw [Set.mem_ofPred_eq, Set.mem_ofPred_eq, e]
  simp

/-- Scaling of the draws to the cube. -/
theorem scale_volume (W : Set (Fin 3 → ℝ)) :
    ENNReal.ofReal (π ^ 2) * volume {d : Fin 3 → ℝ | (fun i => edge * d i - 0.5 * edge) ∈ W} = volume W := by
  have h1 : {d : Fin 3 → ℝ | (fun i => edge * d i - 0.5 * edge) ∈ W} = (fun d : Fin 3 → ℝ => edge • d) ⁻¹' ((fun u => u + fun _ => -(0.5 * edge)) ⁻¹' W) := by
    ext d
    simp only [Set.mem_ofPred_eq, Set.mem_preimage]
    congr! 1
  have e0 := edge_pos
  rw [h1, Measure.addHaar_preimage_smul volume e0.ne', measure_preimage_add_right, Module.finrank_fin_fun, abs_of_pos (by positivity), edge_cube,
    ← mul_assoc, ← ENNReal.ofReal_mul (by positivity), mul_inv_cancel₀ (by positivity), ENNReal.ofReal_one, one_mul]

theorem tiny_radius : radiusOf 0.0021 ≤ 1.21e-3 := by
  have hs := sin_gt_sub_cube (x := 0.0021) (by norm_num)
  have : 3 * ((0.0021 : ℝ) - sin 0.0021) / 4 ≤ (1.21e-3) ^ 3 := by
    norm_num at hs ⊢; linarith
  have h0 : 0 ≤ 3 * ((0.0021 : ℝ) - sin 0.0021) / 4 := by
    have := sin_le (x := 0.0021) (by norm_num)
    linarith
  unfold radiusOf
  calc _ ≤ ((1.21e-3 : ℝ) ^ 3) ^ ((1 : ℝ) / 3) := rpow_le_rpow h0 this (by norm_num)
    _ = 1.21e-3 := by rw [← rpow_natCast, ← rpow_mul (by norm_num)]; norm_num

theorem K_ge_one : 1 ≤ K := by
  unfold K
  apply one_le_rpow _ (by norm_num)
  rw [le_div_iff₀ pi_pos]; linarith [pi_lt_four]

/-- What a cubochoric vector inside the cube is mapped to. -/
theorem point_cases (A : Argsort) (single : Bool) (u : Fin 3 → ℝ) (hu : ∀ i, |u i| < 0.5 * edge) :
    (outOf A single u = ⟨1, 0, 0, 0⟩ ∧ ∀ i, |u i| ≤ 1.21e-3) ∨
    ∀ S : Set Q, outOf A single u ∈ S →
      comp (cu2ho A (ofComp u)) ∈ hoSet (Near (acc single) S) ∩ {h | radiusOf 1e-8 ≤ len3 h ∧ len3 h < radiusOf π} := by
  have hr := C84_radius A (ofComp u)
  change _ = K * max (max |u 0| |u 1|) |u 2| at hr
  set h := comp (cu2ho A (ofComp u)) with hh
  have hc : cu2ho A (ofComp u) = ofComp h := by rw [hh, ofComp_comp]
  rw [hc, norm_len] at hr
  have hK := K_pos
  have hπ : len3 h < radiusOf π := by
    rw [hr, radius_pi]
    refine (mul_lt_mul_iff_right₀ hK).mpr ?_
    have e : 1 / 2 * π ^ ((2 : ℝ) / 3) = 0.5 * edge := by unfold edge; norm_num
    rw [e, max_lt_iff, max_lt_iff]
    exact ⟨⟨hu 0, hu 1⟩, hu 2⟩
  have small : len3 h ≤ 1.21e-3 → ∀ i, |u i| ≤ 1.21e-3 := by
    intro hl i
    have h1 : |u i| ≤ max (max |u 0| |u 1|) |u 2| := by
      fin_cases i
      · exact (le_max_left _ _).trans (le_max_left _ _)
      · exact (le_max_right _ _).trans (le_max_left _ _)
      · exact le_max_right _ _
    have h0 : 0 ≤ max (max |u 0| |u 1|) |u 2| := (abs_nonneg _).trans h1
    have h2 : max (max |u 0| |u 1|) |u 2| ≤ K * max (max |u 0| |u 1|) |u 2| := le_mul_of_one_le_left h0 K_ge_one
    linarith
  rcases lt_or_ge (len3 h) (radiusOf 1e-8) with hl | hl
  · left
    have h1 : len3 h < 1e-6 := by
      have hs := small_radius
      have : radiusOf 1e-8 ≤ radiusOf 0.0021 := by
        have e1 : radiusOf 1e-8 = hoRadius 5e-9 := by rw [hoRadius_eq]; norm_num
        have e2 : radiusOf 0.0021 = hoRadius 0.00105 := by rw [hoRadius_eq]; norm_num
        rw [e1, e2]; exact (hoRadius_mono (by norm_num) (by norm_num)).le
      have hk3 : K ≤ 2 := by
        have : K ^ 3 = 6 / π := by
          unfold K
          rw [← rpow_natCast, ← rpow_mul (by positivity)]; norm_num
        by_contra hc
        have : (2 : ℝ) ^ 3 < K ^ 3 := pow_lt_pow_left₀ (not_le.mp hc) (by norm_num) (by norm_num)
        have h6 : 6 / π ≤ 2 := by rw [div_le_iff₀ pi_pos]; linarith [pi_gt_three]
        linarith
      change radiusOf 1e-8 / K ≤ 1e-8 at hs
      rw [div_le_iff₀ hK] at hs
      linarith
    refine ⟨outOf_one A single u ?_, small (by linarith)⟩
    unfold cu2qu
    rw [hc]
    have hn : (ofComp h).x ^ 2 + (ofComp h).y ^ 2 + (ofComp h).z ^ 2 = len3 h ^ 2 := by
      unfold len3 ofComp; rw [sq_sqrt (by positivity)]
    have h0 : 0 ≤ len3 h := sqrt_nonneg _
    unfold ho2qu ho2ax
    dsimp only
    rw [hn, if_pos (by rw [abs_of_nonneg (by positivity)]; nlinarith)]
    unfold ax2qu; ext <;> simp
  · have hr2 : radiusOf π < radiusOf (2 * π) := by
      have e : radiusOf π = hoRadius (π / 2) := by rw [hoRadius_eq]; congr 1; ring
      rw [e, ← hoRadius_eq]
      exact hoRadius_mono (by linarith [pi_pos]) (by linarith [pi_pos])
    obtain ⟨x, x1, x2, x3, x4⟩ := hoMap_onto (1 / 4) h (by norm_num) hl (hπ.trans hr2)
    have hx : hoMap x = (Fin.cons (1 / 4) h : Fin 4 → ℝ) := by
      funext i
      exact Fin.cases x3 (fun j => congrFun x4 j) i
    have hq : qu2ho (unitQ x) = ofComp h := qu2ho_inj_ofComp ((qu2ho_unitQ x1 x2).trans x4)
    obtain ⟨n0, c0, -⟩ := facts4 x1
    have hw : 0 < (unitQ x).w := div_pos ((radius_half x1).mp (by rw [x4]; exact hπ)) n0
    have hU : IsUnit4 (unitQ x) := by
      unfold IsUnit4 unitQ
      have : norm4 x ^ 2 = x 0 ^ 2 + x 1 ^ 2 + x 2 ^ 2 + x 3 ^ 2 := by unfold norm4; rw [sq_sqrt (by positivity)]
      field_simp
      linarith
    have hcu : cu2qu A single (ofComp u) = ho2qu single (qu2ho (unitQ x)) := by unfold cu2qu; rw [hc, hq]
    rcases HoAcc.C106_quaternion single _ hU hw.le with ⟨k1, k2⟩ | k
    · left
      refine ⟨outOf_one A single u (hcu.trans k2), small ?_⟩
      have hψ : half x < 0.00105 := by
        by_contra hc
        have h1 : half x ≤ π := (facts4 x1).2.2.2.2.le
        have := cos_le_cos_of_nonneg_of_le_pi (by norm_num) h1 (not_lt.mp hc)
        rw [c0] at this
        change cos (0.0021 / 2) < x 0 / norm4 x at k1
        norm_num at k1 this
        linarith
      have e2 : radiusOf 0.0021 = hoRadius 0.00105 := by rw [hoRadius_eq]; norm_num
      have := hoRadius_mono (facts4 x1).2.2.2.1 hψ
      rw [← e2, ← hoMap_len x1, x4] at this
      linarith [tiny_radius]
    · right
      intro S hS
      refine ⟨⟨x, ⟨x1, hw, _, hS, (Samp.quStd_unit (Samp.sdiv_unit (Samp.C62_cu2qu_unit A single (ofComp u)))).1, ?_⟩, hx⟩, hl, hπ⟩
      rw [← hcu] at k
      have hacc : cos (acc single / 2) < cos ((if single then 3e-7 else 1.2e-8) / 2) := by
        have := pi_gt_three
        unfold acc
        cases single <;> exact cos_lt_cos_of_nonneg_of_le_pi (by norm_num) (by norm_num; linarith) (by norm_num)
      refine lt_of_lt_of_le (hacc.trans_le k) ?_
      rcases outOf_pm A single u with e | e
      · rw [e]; exact le_abs_self _
      · rw [e, ← abs_neg]
        refine le_of_eq_of_le ?_ (le_abs_self _)
        unfold Q.neg
        ring

/-- **C169**, upper bound: the probability (times `π²`) of an orientation in a set is at most the uniform measure of the set enlarged by the
accuracy of the conversion, plus `2e-8` when the identity is in the set (rotations of less than 0.0021 rad become the identity). -/
theorem C169_upper (A : Argsort) (single : Bool) (S : Set Q) :
    ENNReal.ofReal (π ^ 2) * volume (drawsInto A single S) ≤
      haar (Near (acc single) S) + open Classical in (if (⟨1, 0, 0, 0⟩ : Q) ∈ S then ENNReal.ofReal 2e-8 else 0) := by
  classical
  let W : Set (Fin 3 → ℝ) := {u | (∀ i, -(0.5 * edge) ≤ u i ∧ u i < 0.5 * edge) ∧ outOf A single u ∈ S}
  have hE := edge_pos
  have e1 : drawsInto A single S = {d : Fin 3 → ℝ | (fun i => edge * d i - 0.5 * edge) ∈ W} := by
    rw [draws_eq]
    ext d
    have : ∀ i, (0 ≤ d i ∧ d i < 1) ↔ (-(0.5 * edge) ≤ edge * d i - 0.5 * edge ∧ edge * d i - 0.5 * edge < 0.5 * edge) := by
      intro i
      constructor
      · rintro ⟨a, b⟩
        constructor <;> nlinarith
      · rintro ⟨a, b⟩
        constructor
        · by_contra hc
          nlinarith
        · by_contra hc
          nlinarith
    simp only [W, Set.mem_ofPred_eq, this]
  rw [e1, scale_volume]
  have hN : ∀ i : Fin 3, volume {u : Fin 3 → ℝ | u i = -(0.5 * edge)} = 0 := by
    intro i
    have h1 : {u : Fin 3 → ℝ | u i = -(0.5 * edge)} = (fun u => u + fun _ => 0.5 * edge) ⁻¹' {x : Fin 3 → ℝ | x i = 0} := by
      ext u
      simp only [Set.mem_ofPred_eq, Set.mem_preimage, Pi.add_apply]
      constructor <;> intro h <;> linarith
    rw [h1, measure_preimage_add_right, coord_null]
  have hNU : volume (⋃ i : Fin 3, {u : Fin 3 → ℝ | u i = -(0.5 * edge)}) = 0 := measure_iUnion_null hN
  let C : Set (Fin 3 → ℝ) := {u | (⟨1, 0, 0, 0⟩ : Q) ∈ S ∧ ∀ i, |u i| ≤ 1.21e-3}
  have hsub : W ⊆ (⋃ i : Fin 3, {u : Fin 3 → ℝ | u i = -(0.5 * edge)}) ∪ ({u | comp (cu2ho A (ofComp u)) ∈ hoSet (Near (acc single) S) ∩ {h | radiusOf 1e-8 ≤ len3 h ∧ len3 h < radiusOf π}} ∪ C) := by
    rintro u ⟨hu, hS⟩
    by_cases hb : ∃ i, u i = -(0.5 * edge)
    · left
      obtain ⟨i, hi⟩ := hb
      exact Set.mem_iUnion.mpr ⟨i, hi⟩
    · right
      push Not at hb
      have : ∀ i, |u i| < 0.5 * edge := fun i => abs_lt.mpr ⟨lt_of_le_of_ne (hu i).1 (Ne.symm (hb i)), (hu i).2⟩
      rcases point_cases A single u this with ⟨h1, h2⟩ | h1
      · right
        exact ⟨by rw [← h1]; exact hS, h2⟩
      · left
        exact h1 S hS
  have hC : volume C ≤ if (⟨1, 0, 0, 0⟩ : Q) ∈ S then ENNReal.ofReal 2e-8 else 0 := by
    split_ifs with h
    · have : C ⊆ Set.univ.pi fun _ : Fin 3 => Set.Icc (-1.21e-3 : ℝ) 1.21e-3 := by
        rintro u ⟨-, hu⟩ i -
        exact abs_le.mp (hu i)
      refine (measure_mono this).trans ?_
      rw [volume_pi_pi]
      simp only [Real.volume_Icc, Fin.prod_univ_three]
      rw [← ENNReal.ofReal_mul (by norm_num), ← ENNReal.ofReal_mul (by norm_num)]
      exact ENNReal.ofReal_le_ofReal (by norm_num)
    · have : C = ∅ := by ext u; simp [C, h]
      rw [this, measure_empty]
  have hT := near_meas (acc single) S
  have hm : MeasurableSet (hoSet (Near (acc single) S) ∩ {h | radiusOf 1e-8 ≤ len3 h ∧ len3 h < radiusOf π}) :=
    (hoSet_meas hT).inter ((measurableSet_le measurable_const len3_measurable).inter (measurableSet_lt len3_measurable measurable_const))
  refine (measure_mono hsub).trans ((measure_union_le _ _).trans ?_)
  rw [hNU, zero_add]
  refine (measure_union_le _ _).trans (add_le_add ?_ hC)
  rw [C156_cu2ho A _ hm]
  exact hoSet_volume hT

theorem haar_half : haar {p | 0 < p.w} ≤ ENNReal.ofReal (π ^ 2) := by
  have hm : MeasurableSet {x : Fin 4 → ℝ | unitQ x ∈ {p : Q | 0 < p.w}} := by
    have := comp_meas (measurableSet_lt measurable_const (measurable_pi_apply 0) : MeasurableSet {y : Fin 4 → ℝ | 0 < y 0})
    exact this
  have e1 := haar_right ⟨-1, 0, 0, 0⟩ (by norm_num) {p | 0 < p.w}
  have e2 : haar {p | 0 < p.w} + haar {q : Q | (⟨q.w * -1 - q.x * 0 - q.y * 0 - q.z * 0, q.w * 0 + q.x * -1 + q.y * 0 - q.z * 0,
      q.w * 0 - q.x * 0 + q.y * -1 + q.z * 0, q.w * 0 + q.x * 0 - q.y * 0 + q.z * -1⟩ : Q) ∈ {p : Q | 0 < p.w}} ≤ haar Set.univ := by
    unfold haar
    rw [← mul_add]
    refine mul_le_mul' le_rfl ?_
    have hd : MeasurableSet {x : Fin 4 → ℝ | 0 < norm4 x ∧ norm4 x < 1 ∧ unitQ x ∈ {p : Q | 0 < p.w}} :=
      (measurableSet_lt measurable_const norm4_meas).inter ((measurableSet_lt norm4_meas measurable_const).inter hm)
    rw [← measure_union' _ hd]
    · refine measure_mono ?_
      rintro x (⟨a, b, -⟩ | ⟨a, b, -⟩) <;> exact ⟨a, b, trivial⟩
    · rw [Set.disjoint_left]
      rintro x ⟨-, -, a⟩ ⟨-, -, b⟩
      simp only [Set.mem_ofPred_eq] at a b
      linarith
  rw [e1, haar_all, show 2 * π ^ 2 = π ^ 2 + π ^ 2 by ring, ENNReal.ofReal_add (by positivity) (by positivity)] at e2
  by_contra hc
  have hc := not_le.mp hc
  exact absurd e2 (not_le.mpr (ENNReal.add_lt_add hc hc))

/-- **C169**, lower bound: it is at least the measure of the orientations that stay in the set under every such displacement. -/
theorem C169_lower (A : Argsort) (single : Bool) (S : Set Q) :
    haar {p | 0 < p.w ∧ p ∉ Near (acc single) Sᶜ} ≤
      ENNReal.ofReal (π ^ 2) * volume (drawsInto A single S) + open Classical in (if (⟨1, 0, 0, 0⟩ : Q) ∈ S then 0 else ENNReal.ofReal 2e-8) := by
  classical
  have hup := C169_upper A single Sᶜ
  have hT := near_meas (acc single) Sᶜ
  have hcube : volume {d : Fin 3 → ℝ | ∀ i, 0 ≤ d i ∧ d i < 1} = 1 := by
    have : {d : Fin 3 → ℝ | ∀ i, 0 ≤ d i ∧ d i < 1} = Set.univ.pi fun _ => Set.Ico 0 1 := by ext d; simp
    rw [this, volume_pi_pi]; simp
  have hone : 1 ≤ volume (drawsInto A single S) + volume (drawsInto A single Sᶜ) := by
    rw [← hcube]
    refine (measure_mono ?_).trans (measure_union_le _ _)
    intro d hd
    rw [draws_eq, draws_eq]
    by_cases h : outOf A single (fun i => edge * d i - 0.5 * edge) ∈ S
    · exact Or.inl ⟨hd, h⟩
    · exact Or.inr ⟨hd, h⟩
  have hsum : haar {p | 0 < p.w ∧ p ∉ Near (acc single) Sᶜ} + haar (Near (acc single) Sᶜ) ≤ ENNReal.ofReal (π ^ 2) := by
    refine le_trans ?_ haar_half
    unfold haar
    rw [← mul_add]
    refine mul_le_mul' le_rfl ?_
    have hd : MeasurableSet {x : Fin 4 → ℝ | 0 < norm4 x ∧ norm4 x < 1 ∧ unitQ x ∈ Near (acc single) Sᶜ} :=
      (measurableSet_lt measurable_const norm4_meas).inter ((measurableSet_lt norm4_meas measurable_const).inter hT)
    rw [← measure_union _ hd]
    · refine measure_mono ?_
      rintro x (⟨a, b, c, -⟩ | ⟨a, b, c, -⟩) <;> exact ⟨a, b, c⟩
    · rw [Set.disjoint_left]
      rintro x ⟨-, -, -, a⟩ ⟨-, -, b⟩
      exact a b
  have hfin : haar (Near (acc single) Sᶜ) ≠ ⊤ := ne_top_of_le_ne_top ENNReal.ofReal_ne_top (le_add_self.trans hsum)
  have hmul : ENNReal.ofReal (π ^ 2) ≤ ENNReal.ofReal (π ^ 2) * volume (drawsInto A single S) +
      ENNReal.ofReal (π ^ 2) * volume (drawsInto A single Sᶜ) := by
    rw [← mul_add]
    exact le_mul_of_one_le_right' hone
  have key := hsum.trans (hmul.trans (add_le_add le_rfl hup))
  rw [← add_assoc, add_right_comm] at key
  have := (ENNReal.add_le_add_iff_right hfin).mp key
  refine this.trans_eq ?_
  congr 1
  by_cases h : (⟨1, 0, 0, 0⟩ : Q) ∈ S
  · rw [if_neg (by simpa using h), if_pos h]
  · rw [if_pos (by simpa using h), if_neg h]

/-! ### Non-vacuity -/

/-- The quarter turn about `x` is near itself, and is not near the complement of a cap of 0.01 rad (scalar product 0.99) around it. -/
example : (⟨√2 / 2, √2 / 2, 0, 0⟩ : Q) ∈ Near (acc true) {⟨√2 / 2, √2 / 2, 0, 0⟩} ∧
    (⟨√2 / 2, √2 / 2, 0, 0⟩ : Q) ∉ Near (acc true) {r | ¬ (0.99 < |√2 / 2 * r.w + √2 / 2 * r.x|)} := by
  have h2 : √2 * √2 = 2 := mul_self_sqrt (by norm_num)
  have hp : 0 < √2 := by positivity
  have hb : 1 - (2e-7 : ℝ) ^ 2 / 2 ≤ cos 2e-7 := one_sub_sq_div_two_le_cos
  have hacc : acc true / 2 = 2e-7 := by unfold acc; norm_num
  constructor
  · refine ⟨by positivity, _, rfl, by unfold IsUnit4; ring_nf; rw [sq_sqrt (by norm_num)]; norm_num, ?_⟩
    have e : √2 / 2 * (√2 / 2) + √2 / 2 * (√2 / 2) + 0 * 0 + 0 * 0 = 1 := by linarith
    dsimp only
    rw [e, abs_one, hacc]
    have := cos_lt_cos_of_nonneg_of_le_pi (x := 0) (y := 2e-7) le_rfl (by linarith [pi_gt_three]) (by norm_num)
    rwa [cos_zero] at this
  · rintro ⟨-, r, hr, -, h⟩
    apply hr
    dsimp only at h
    rw [hacc, zero_mul, zero_mul, add_zero, add_zero] at h
    norm_num at hb h ⊢
    linarith

/-- The upper bound for orientations that turn by more than a right angle. -/
example (A : Argsort) : ENNReal.ofReal (π ^ 2) * volume (drawsInto A false {r | r.w < √2 / 2}) ≤ haar (Near 2e-8 {r | r.w < √2 / 2}) := by
  classical
  have := C169_upper A false {r | r.w < √2 / 2}
  have h2 : ¬ ((1 : ℝ) < √2 / 2) := by
    have : √2 ≤ 2 := by rw [sqrt_le_left (by norm_num)]; norm_num
    linarith
  rw [if_neg (by simpa using h2), add_zero] at this
  simpa [acc] using this

end Verif.Cubo
