import Verif.Model.Diffraction
import Verif.Props.Cell
/-!
C92: excitation errors and electron wavelengths.
-/
namespace Verif.Diff
open Cryst Matrix
open SG (Err)

lemma form_eq (l : Lattice) (p q : Vec) : form l.rmt p q = calcDot l p q .r := rfl

/-- The Cartesian vector of reciprocal components. -/
noncomputable abbrev cart (l : Lattice) (p : Vec) : Vec := cartesian l .r p

lemma cart_add (l : Lattice) (p q : Vec) : cart l (p + q) = cart l p + cart l q := by
  exact Matrix.mulVec_add _ _ _

lemma cart_smul (l : Lattice) (a : ℝ) (p : Vec) : cart l (a • p) = a • cart l p := by
  exact Matrix.mulVec_smul _ _ _

lemma form_cart {l : Lattice} (h : 0 < l.dmt.det) (p q : Vec) : form l.rmt p q = cart l p ⬝ᵥ cart l q := by
  rw [form_eq]; exact calcDot_cartesian h p q .r

lemma dot_pos {v : Vec} (h : v ≠ 0) : 0 < v ⬝ᵥ v := by
  rcases lt_or_eq_of_le (show 0 ≤ v ⬝ᵥ v by
    simp only [dotProduct, Fin.sum_univ_three]
    nlinarith [mul_self_nonneg (v 0), mul_self_nonneg (v 1), mul_self_nonneg (v 2)]) with h0 | h0
  · exact h0
  · exfalso; apply h
    have e := h0.symm
    simp only [dotProduct, Fin.sum_univ_three] at e
    have h0 := mul_self_nonneg (v 0); have h1 := mul_self_nonneg (v 1); have h2 := mul_self_nonneg (v 2)
    ext i
    fin_cases i
    · exact mul_self_eq_zero.1 (by linarith : v 0 * v 0 = 0)
    · exact mul_self_eq_zero.1 (by linarith : v 1 * v 1 = 0)
    · exact mul_self_eq_zero.1 (by linarith : v 2 * v 2 = 0)

/-- The value returned by `calc_sg_batched` in terms of Cartesian scalar products. -/
lemma sgBatched_eq {l : Lattice} (h : 0 < l.dmt.det) (g k : Vec) (hk : (cart l k + cart l g) ⬝ᵥ cart l k ≠ 0) :
    sgBatched l.rmt g k = -(2 * (cart l g ⬝ᵥ cart l k) + cart l g ⬝ᵥ cart l g) * Real.sqrt (cart l k ⬝ᵥ cart l k) /
      (2 * ((cart l k + cart l g) ⬝ᵥ cart l k)) := by
  unfold sgBatched
  simp only [form_cart h, cart_add, cart_smul]
  have hq : cart l k + cart l g ≠ 0 := by intro e; rw [e] at hk; simp at hk
  have hk0 : cart l k ≠ 0 := by intro e; rw [e] at hk; simp at hk
  have p1 := dot_pos hq
  have p2 := dot_pos hk0
  have s1 : Real.sqrt ((cart l k + cart l g) ⬝ᵥ (cart l k + cart l g)) ≠ 0 := (Real.sqrt_pos.2 p1).ne'
  have s2 : Real.sqrt (cart l k ⬝ᵥ cart l k) ≠ 0 := (Real.sqrt_pos.2 p2).ne'
  rw [dotProduct_add, dotProduct_smul, smul_eq_mul]
  generalize Real.sqrt ((cart l k + cart l g) ⬝ᵥ (cart l k + cart l g)) = a at *
  generalize Real.sqrt (cart l k ⬝ᵥ cart l k) = b at *
  generalize (cart l k + cart l g) ⬝ᵥ cart l k = d at *
  field_simp

/-- **C92**.  The excitation error computed by `calc_sg_batched` is the distance to the Ewald sphere along the beam, to
first order, with the exact remainder: moving the reciprocal lattice point `k + g` by `s` along the unit vector of `k`
gives a vector whose squared length is `|k|² + s²`. -/
theorem C92_ewald (l : Lattice) (h : 0 < l.dmt.det) (g k : Vec) (hk : (cart l k + cart l g) ⬝ᵥ cart l k ≠ 0) :
    let s := sgBatched l.rmt g k
    let K := cart l k
    let n : Vec := (1 / Real.sqrt (K ⬝ᵥ K)) • K
    (K + cart l g + s • n) ⬝ᵥ (K + cart l g + s • n) = K ⬝ᵥ K + s ^ 2 := by
  intro s K n
  have hk0 : K ≠ 0 := by intro e; rw [show cart l k = K from rfl, e] at hk; simp at hk
  have p2 := dot_pos hk0
  have s2 : Real.sqrt (K ⬝ᵥ K) ≠ 0 := (Real.sqrt_pos.2 p2).ne'
  have sq : Real.sqrt (K ⬝ᵥ K) * Real.sqrt (K ⬝ᵥ K) = K ⬝ᵥ K := Real.mul_self_sqrt p2.le
  have hs : s * (2 * ((K + cart l g) ⬝ᵥ K)) = -(2 * (cart l g ⬝ᵥ K) + cart l g ⬝ᵥ cart l g) * Real.sqrt (K ⬝ᵥ K) := by
    show sgBatched l.rmt g k * _ = _
    rw [sgBatched_eq h g k hk, div_mul_cancel₀]
    exact mul_ne_zero two_ne_zero hk
  have nn : n ⬝ᵥ n = 1 := by
    simp only [n, dotProduct_smul, smul_dotProduct, smul_eq_mul]
    field_simp; rw [pow_two, sq]
  have nq : (K + cart l g) ⬝ᵥ n = ((K + cart l g) ⬝ᵥ K) / Real.sqrt (K ⬝ᵥ K) := by
    simp only [n, dotProduct_smul, smul_eq_mul]; ring
  have ex : (K + cart l g + s • n) ⬝ᵥ (K + cart l g + s • n) =
      (K + cart l g) ⬝ᵥ (K + cart l g) + 2 * s * ((K + cart l g) ⬝ᵥ n) + s ^ 2 * (n ⬝ᵥ n) := by
    simp only [dotProduct, Fin.sum_univ_three, Pi.add_apply, Pi.smul_apply, smul_eq_mul]; ring
  have e2 : (K + cart l g) ⬝ᵥ (K + cart l g) = K ⬝ᵥ K + (2 * (cart l g ⬝ᵥ K) + cart l g ⬝ᵥ cart l g) := by
    simp only [dotProduct, Fin.sum_univ_three, Pi.add_apply]; ring
  have e3 : 2 * s * (((K + cart l g) ⬝ᵥ K) / Real.sqrt (K ⬝ᵥ K)) = -(2 * (cart l g ⬝ᵥ K) + cart l g ⬝ᵥ cart l g) := by
    have : 2 * s * (((K + cart l g) ⬝ᵥ K) / Real.sqrt (K ⬝ᵥ K)) = s * (2 * ((K + cart l g) ⬝ᵥ K)) / Real.sqrt (K ⬝ᵥ K) := by
      ring
    rw [this, hs]; field_simp
  rw [ex, nn, nq, e2, e3]; ring

/-- **C92**.  The excitation error vanishes exactly on the Ewald sphere `|k + g| = |k|`, and (for a beam that does not run
backwards) is positive exactly for the lattice points inside the sphere. -/
theorem C92_sign (l : Lattice) (h : 0 < l.dmt.det) (g k : Vec) :
    ((cart l k + cart l g) ⬝ᵥ cart l k ≠ 0 → (sgBatched l.rmt g k = 0 ↔ calcLength l (k + g) .r = calcLength l k .r)) ∧
    (0 < (cart l k + cart l g) ⬝ᵥ cart l k → (0 < sgBatched l.rmt g k ↔ calcLength l (k + g) .r < calcLength l k .r)) := by
  have e2 : cart l (k + g) ⬝ᵥ cart l (k + g) =
      cart l k ⬝ᵥ cart l k + (2 * (cart l g ⬝ᵥ cart l k) + cart l g ⬝ᵥ cart l g) := by
    rw [cart_add]; simp only [dotProduct, Fin.sum_univ_three, Pi.add_apply]; ring
  have nn : ∀ v : Vec, 0 ≤ v ⬝ᵥ v := fun v => by
    by_cases hv : v = 0
    · rw [hv]; simp
    · exact (dot_pos hv).le
  have hl : ∀ p : Vec, calcLength l p .r = Real.sqrt (cart l p ⬝ᵥ cart l p) := fun p => by
    unfold calcLength; rw [calcDot_cartesian h]
  constructor
  · intro hk
    have hk0 : cart l k ≠ 0 := by intro e; rw [e] at hk; simp at hk
    have s2 : Real.sqrt (cart l k ⬝ᵥ cart l k) ≠ 0 := (Real.sqrt_pos.2 (dot_pos hk0)).ne'
    rw [sgBatched_eq h g k hk, hl, hl, Real.sqrt_inj (nn _) (nn _), e2,
      div_eq_zero_iff, or_iff_left (mul_ne_zero two_ne_zero hk), mul_eq_zero, or_iff_left s2]
    constructor <;> intro e <;> linarith
  · intro hk
    have hk0 : cart l k ≠ 0 := by intro e; rw [e] at hk; simp at hk
    have s2 := Real.sqrt_pos.2 (dot_pos hk0)
    rw [sgBatched_eq h g k hk.ne', hl, hl, Real.sqrt_lt_sqrt_iff (nn _), e2]
    constructor
    · intro e
      have := (div_pos_iff_of_pos_right (mul_pos two_pos hk)).1 e
      have := (mul_pos_iff_of_pos_right s2).1 this
      linarith
    · intro e
      exact div_pos (mul_pos (by linarith) s2) (mul_pos two_pos hk)

/-- **C92**.  `calc_sg` raises exactly when `k` or `k + g` vanishes, and otherwise agrees with `calc_sg_batched`. -/
theorem C92_agree (l : Lattice) (h : 0 < l.dmt.det) (g k : Vec) :
    (calcSg l g k = .error .valueError ↔ k = 0 ∨ k + g = 0) ∧
    (k ≠ 0 → k + g ≠ 0 → calcSg l g k = .ok (sgBatched l.rmt g k)) := by
  obtain ⟨-, -, hr, ha, -⟩ := C78_length_angle l h (k + g) k .r
  constructor
  · unfold calcSg
    constructor
    · intro e
      cases hc : calcAngle l (k + g) k .r with
      | error x =>
        have hx : x = .valueError := by
          simp only [hc, Except.map, Except.error.injEq] at e; exact e
        rw [hx] at hc
        exact (hr.1 hc).symm
      | ok x => simp only [hc, Except.map] at e; cases e
    · intro e
      simp only [hr.2 e.symm, Except.map]
  · intro h0 h1
    obtain ⟨θ, e, -, -, hc⟩ := ha h1 h0
    unfold calcSg sgBatched
    simp only [e, Except.map, Except.ok.injEq]
    have hn : calcLength l (k + g) .r * calcLength l k .r ≠ 0 :=
      mul_ne_zero (fun e => h1 ((calcLength_zero h _ _).1 e)) (fun e => h0 ((calcLength_zero h _ _).1 e))
    have hcos : Real.cos θ = calcDot l (k + g) k .r / (calcLength l (k + g) .r * calcLength l k .r) := by
      rw [eq_div_iff hn, hc, calcDot_cartesian h]
    rw [hcos]
    rfl

/-- A symmetry of the metric leaves the excitation error unchanged. -/
theorem C92_symmetric (rmt : M3) (W : Vec →ₗ[ℝ] Vec) (hW : ∀ p q, form rmt (W p) (W q) = form rmt p q) (g k : Vec) :
    sgBatched rmt (W g) (W k) = sgBatched rmt g k := by
  unfold sgBatched
  have e1 : W k + W g = W (k + g) := (map_add W k g).symm
  have e2 : (2:ℝ) • W k + W g = W ((2:ℝ) • k + g) := by rw [map_add, map_smul]
  simp only [e1, e2, hW]

/-- **C92**.  `calc_lambda`: for every positive voltage the wavelength is positive and satisfies `λ² ψ = temp1²`; the
relativistic factor satisfies `γ² - 1 = κ ψ`; a higher voltage gives a shorter wavelength, a larger `γ` and a larger
potential. -/
theorem C92_wavelength (v : ℝ) (hv : 0 < v) :
    0 < (calcLambda v).1 ∧ (calcLambda v).1 ^ 2 * (calcLambda v).2.2 = 1.22642584554 ^ 2 ∧
    (calcLambda v).2.1 ^ 2 - 1 = 4 * 0.00097847561649 / 1000 * (calcLambda v).2.2 ∧ v * 1000 < (calcLambda v).2.2 ∧
    ∀ w, v < w → (calcLambda w).1 < (calcLambda v).1 ∧ (calcLambda v).2.1 < (calcLambda w).2.1 ∧
      (calcLambda v).2.2 < (calcLambda w).2.2 := by
  have pos : ∀ x : ℝ, 0 < x → 0 < x * (1 + 0.00097847561649 * x) * 1000 := fun x hx => by positivity
  have hp := pos v hv
  refine ⟨?_, ?_, ?_, ?_, ?_⟩
  · simp only [calcLambda]; exact div_pos (by norm_num) (Real.sqrt_pos.2 hp)
  · simp only [calcLambda]
    rw [div_pow, Real.sq_sqrt hp.le, div_mul_cancel₀ _ hp.ne']
  · simp only [calcLambda]; ring
  · simp only [calcLambda]; nlinarith [mul_pos hv hv]
  · intro w hw
    have key : v * (1 + 0.00097847561649 * v) * 1000 < w * (1 + 0.00097847561649 * w) * 1000 := by
      nlinarith [mul_pos hv hv, mul_pos hv (sub_pos.2 hw), mul_pos (hv.trans hw) (sub_pos.2 hw)]
    refine ⟨?_, ?_, ?_⟩
    · simp only [calcLambda]
      exact div_lt_div_of_pos_left (by norm_num) (Real.sqrt_pos.2 hp) (Real.sqrt_lt_sqrt hp.le key)
    · simp only [calcLambda]; linarith
    · simp only [calcLambda]; exact key

/-- **C92**.  The wave vectors of the master pattern have length `1/λ` and the direction of the requested direction. -/
theorem C92_wave_vector (l : Lattice) (h : 0 < l.dmt.det) (lam : ℝ) (hl : 0 < lam) (d : Vec) (hd : d ≠ 0) :
    calcLength l (waveVector l lam d) .r = 1 / lam ∧ ∃ a : ℝ, 0 < a ∧ cart l (waveVector l lam d) = a • d := by
  obtain ⟨f1, f2⟩ := dsm_inv h
  have hc : ∀ v : Vec, cart l (transformSpace l v .c .r) = v := fun v => by
    show l.rsmᵀ.mulVec (Matrix.vecMul v l.dsm) = v
    rw [← Matrix.mulVec_transpose, Matrix.mulVec_mulVec, ← Matrix.transpose_mul, f2, Matrix.transpose_one, Matrix.one_mulVec]
  have hn : calcLength l d .c ≠ 0 := fun e => hd ((calcLength_zero h d .c).1 e)
  have hp : 0 < calcLength l d .c := lt_of_le_of_ne (Real.sqrt_nonneg _) hn.symm
  have hv : (fun i => normVec l d .c i / lam) = (1 / (calcLength l d .c * lam)) • d := by
    ext i
    unfold normVec
    rw [if_pos hn]
    simp only [Pi.smul_apply, smul_eq_mul]; field_simp
  have hcw : cart l (waveVector l lam d) = (1 / (calcLength l d .c * lam)) • d := by
    unfold waveVector; rw [hc, hv]
  refine ⟨?_, _, by positivity, hcw⟩
  have hdd : calcLength l d .c ^ 2 = d ⬝ᵥ d := (C78_length_angle l h d d .c).1
  have : calcLength l (waveVector l lam d) .r = Real.sqrt (cart l (waveVector l lam d) ⬝ᵥ cart l (waveVector l lam d)) := by
    unfold calcLength; rw [calcDot_cartesian h]
  rw [this, hcw, dotProduct_smul, smul_dotProduct, smul_eq_mul, smul_eq_mul, ← hdd]
  rw [show 1 / (calcLength l d .c * lam) * (1 / (calcLength l d .c * lam) * calcLength l d .c ^ 2) = (1 / lam) ^ 2 by
    field_simp]
  exact Real.sqrt_sq (by positivity)

/-- A concrete case of `C92_ewald` and `C92_sign`: a right-angled cell of edge 1, `k = (2,0,0)`, `g = (-1, 1, 0)`: the
excitation error is positive. -/
example : let l : Lattice := ⟨1, 1, 1, Real.pi / 2, Real.pi / 2, Real.pi / 2⟩
    0 < l.dmt.det ∧ 0 < (cart l ![2, 0, 0] + cart l ![-1, 1, 0]) ⬝ᵥ cart l ![2, 0, 0] ∧
      sgBatched l.rmt ![-1, 1, 0] ![2, 0, 0] = 1 := by
  intro l
  have hd : l.dmt = 1 := by ext i j; fin_cases i <;> fin_cases j <;> simp [Lattice.dmt, l]
  have h : 0 < l.dmt.det := by rw [hd]; simp
  have hr : l.rmt = 1 := by unfold Lattice.rmt; rw [hd, inv_one]
  have hdot : (cart l ![2, 0, 0] + cart l ![-1, 1, 0]) ⬝ᵥ cart l ![2, 0, 0] = 2 := by
    rw [← cart_add, ← form_cart h, hr]
    simp [form, Fin.sum_univ_three, Matrix.one_apply]
    norm_num
  refine ⟨h, by rw [hdot]; norm_num, ?_⟩
  rw [sgBatched_eq h _ _ (by rw [hdot]; norm_num), hdot, ← form_cart h, ← form_cart h, ← form_cart h, hr]
  have : Real.sqrt 4 = 2 := by rw [show (4:ℝ) = 2 ^ 2 by norm_num]; exact Real.sqrt_sq (by norm_num)
  simp [form, Fin.sum_univ_three, Matrix.one_apply]
  norm_num [this]

/-- `C92_wavelength` at 20 kV. -/
example : 0 < (calcLambda 20).1 := (C92_wavelength 20 (by norm_num)).1

end Verif.Diff
