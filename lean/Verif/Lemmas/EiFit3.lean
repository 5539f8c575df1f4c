import Verif.Lemmas.EiFit2
/-!
The fits on (6, 10] and (10, 20], by integration of the error of the derivative; the gap above 20.
-/
namespace Verif.EiFit
open Real Verif.Scat Verif.PolyCert Verif.Spec.Scatter Verif.Ei Filter Set
open scoped Topology

local notation "γ" => eulerMascheroniConstant

/-- If the derivative of an error is small relative to that of the exponential integral, so is the error. -/
lemma grow {D d : ℝ → ℝ} {a b δ : ℝ} (ha : 0 < a) (hd : ∀ x, a ≤ x → x ≤ b → HasDerivAt D (d x * (exp x / x)) x)
    (hb : ∀ x, a ≤ x → x ≤ b → |d x| ≤ δ) (h0 : |D a| ≤ δ * eiWith γ a) {x : ℝ} (hax : a ≤ x) (hxb : x ≤ b) :
    |D x| ≤ δ * eiWith γ x := by
  have key : ∀ σ : ℝ, |σ| = 1 → σ * D x - δ * eiWith γ x ≤ σ * D a - δ * eiWith γ a := by
    intro σ hσ
    have h1 : ∀ x, a ≤ x → x ≤ b → HasDerivAt (fun x => σ * D x - δ * eiWith γ x)
        (σ * (d x * (exp x / x)) - δ * (exp x / x)) x := fun x h h' =>
      ((hd x h h').const_mul σ).sub ((hasDerivAt_eiWith γ (by linarith : x ≠ 0)).const_mul δ)
    have hanti : AntitoneOn (fun x => σ * D x - δ * eiWith γ x) (Icc a b) := by
      apply antitoneOn_of_deriv_nonpos (convex_Icc a b)
      · intro x hx; exact (h1 x hx.1 hx.2).continuousAt.continuousWithinAt
      · intro x hx; rw [interior_Icc] at hx
        exact (h1 x hx.1.le hx.2.le).differentiableAt.differentiableWithinAt
      · intro x hx; rw [interior_Icc] at hx; rw [(h1 x hx.1.le hx.2.le).deriv]
        have hx0 : 0 < x := ha.trans hx.1
        have h2 : σ * d x ≤ δ := (le_abs_self _).trans (by rw [abs_mul, hσ, one_mul]; exact hb x hx.1.le hx.2.le)
        have h3 : 0 < exp x / x := div_pos (exp_pos x) hx0
        have h4 := mul_le_mul_of_nonneg_right h2 h3.le
        linarith
    exact hanti ⟨le_rfl, hax.trans hxb⟩ ⟨hax, hxb⟩ hax
  have h1 := key 1 (by norm_num)
  have h2 := key (-1) (by norm_num)
  rw [abs_le] at *
  constructor <;> linarith [h0.1, h0.2]

/-- value of a branch: factor times `exp x / x` plus `x` -/
noncomputable def branch (N Q : List ℤ) (hw c0 x : ℝ) : ℝ := ev N (x / hw - c0) / ev Q (x / hw - c0) * exp x / x + x

lemma branch_deriv {N Q N1 Q1 : List ℤ} (hN : dv N = N1) (hQ : dv Q = Q1) {hw c0 x : ℝ} (hx : 0 < x) (hh : 0 < hw)
    (hp : 0 < ev Q (x / hw - c0)) :
    HasDerivAt (fun x => branch N Q hw c0 x - eiWith γ x)
      ((hw * (ev N (x / hw - c0) * ev Q (x / hw - c0) * (x - 1) - x * ev Q (x / hw - c0) ^ 2)
        + x * (ev N1 (x / hw - c0) * ev Q (x / hw - c0) - ev N (x / hw - c0) * ev Q1 (x / hw - c0))
        + hw * x ^ 2 * ev Q (x / hw - c0) ^ 2 * exp (-x)) / (hw * x * ev Q (x / hw - c0) ^ 2) * (exp x / x)) x := by
  have hs : HasDerivAt (fun x : ℝ => x / hw - c0) (1 / hw) x := ((hasDerivAt_id x).div_const hw).sub_const c0
  have h1 := ((hasDerivAt_ev N (x / hw - c0)).div (hasDerivAt_ev Q (x / hw - c0)) hp.ne').comp x hs
  rw [hN, hQ] at h1
  have h2 := (((h1.mul (hasDerivAt_exp x)).div (hasDerivAt_id x) hx.ne').add (hasDerivAt_id x)).sub
    (hasDerivAt_eiWith γ hx.ne')
  refine h2.congr_deriv ?_
  simp only [Function.comp_apply, id, Pi.div_apply, Pi.mul_apply]
  have he : exp (-x) * exp x = 1 := by rw [← exp_add]; simp
  generalize ev N (x / hw - c0) = n at *
  generalize ev Q (x / hw - c0) = q at *
  generalize ev N1 (x / hw - c0) = n1 at *
  generalize ev Q1 (x / hw - c0) = q1 at *
  have e : exp (-x) = 1 / exp x := by rw [exp_neg, one_div]
  rw [e]
  have hE := exp_pos x
  generalize exp x = E at *
  field_simp
  ring

/-! ### (6, 10] -/

lemma dN1_eq : dv dN = dN1 := by decide +kernel
lemma dQ1_eq : dv dQ = dQ1 := by decide +kernel

lemma dQ_pos {s : ℝ} (h0 : -1 ≤ s) (h1 : s ≤ 1) : 0 < ev dQ s := by
  have h := RE.nonneg dQpos_ok0 (by norm_num) (x := s) (by push_cast; linarith) (by push_cast; linarith)
  simp only [dQpos, RE.eval, one, ev] at h
  push_cast at h
  linarith

lemma d_exp : |exp (-8) - 2683701023220094710571113 / 8000000000000000000000000000| ≤ 1 / 10 ^ 24 := by
  have h := exp_trunc (x := -8) 85 (by norm_num)
  rw [abs_le] at *
  norm_num [Finset.sum_range_succ, Nat.factorial] at h
  constructor <;> norm_num <;> linarith [h.1, h.2]

lemma dT_eq (s : ℝ) : ev dT s = 702680110433872696125000000000000000000000000000000 * (2683701023220094710571113 / 8000000000000000000000000000
    * ∑ m ∈ Finset.range 30, (-(2 * s)) ^ m / (m.factorial : ℝ)) := by
  simp only [dT, ev, Finset.sum_range_succ, Finset.sum_range_zero, Nat.factorial]
  push_cast
  ring

lemma dT_bound {s : ℝ} (h0 : -1 ≤ s) (h1 : s ≤ 1) :
    |exp (-(8 + 2 * s)) - ev dT s / 702680110433872696125000000000000000000000000000000| ≤ 1 / 10 ^ 20 := by
  rw [dT_eq, mul_div_cancel_left₀ _ (by norm_num)]
  have ha : |-(2 * s)| ≤ 2 := by rw [abs_le]; constructor <;> linarith
  have ht := exp_trunc (x := -(2 * s)) 30 (ha.trans (by norm_num))
  have hr : |-(2 * s)| ^ 30 / (30 : ℕ).factorial * 2 ≤ 1 / 10 ^ 21 := by
    have : |-(2 * s)| ^ 30 ≤ 2 ^ 30 := pow_le_pow_left₀ (abs_nonneg _) ha _
    norm_num [Nat.factorial] at this ⊢
    linarith
  have ht := ht.trans hr
  have he := d_exp
  have hm : exp (-(2 * s)) ≤ 200 := by
    have h5 : exp (-(2 * s)) ≤ exp 5 := exp_le_exp.mpr (by linarith)
    have h6 : exp 5 ≤ 200 := by
      have e5 : exp 5 = exp 1 ^ 5 := by rw [← exp_nat_mul]; norm_num
      have e1 := exp_one_lt_d9
      rw [e5]
      calc exp 1 ^ 5 ≤ (2.7182818286 : ℝ) ^ 5 := pow_le_pow_left₀ (exp_pos 1).le e1.le 5
        _ ≤ 200 := by norm_num
    linarith
  have hm0 := exp_pos (-(2 * s))
  rw [show -(8 + 2 * s) = -8 + -(2 * s) by ring, exp_add]
  generalize exp (-(2 * s)) = B at *
  generalize exp (-8 : ℝ) = A at *
  generalize ∑ m ∈ Finset.range 30, (-(2 * s)) ^ m / (m.factorial : ℝ) = t at *
  have e : A * B - 2683701023220094710571113 / 8000000000000000000000000000 * t = (A - 2683701023220094710571113 / 8000000000000000000000000000) * B + 2683701023220094710571113 / 8000000000000000000000000000 * (B - t) := by ring
  rw [e]
  refine (abs_add_le _ _).trans ?_
  rw [abs_mul, abs_mul, abs_of_pos hm0]
  have h3 := mul_le_mul he hm hm0.le (by norm_num)
  have h4 : |(2683701023220094710571113 / 8000000000000000000000000000 : ℝ)| ≤ 1 := by norm_num [abs_le]
  have h5 := mul_le_mul h4 ht (abs_nonneg _) zero_le_one
  norm_num at *
  linarith

lemma d_bound {s : ℝ} (h0 : -1 ≤ s) (h1 : s ≤ 1) :
    abs (2 * (ev dN s * ev dQ s * ((8 + 2 * s) - 1) - (8 + 2 * s) * ev dQ s ^ 2)
        + (8 + 2 * s) * (ev dN1 s * ev dQ s - ev dN s * ev dQ1 s)
        + 2 * (8 + 2 * s) ^ 2 * ev dQ s ^ 2 * exp (-(8 + 2 * s)))
      ≤ 12 / 10 ^ 15 * (2 * (8 + 2 * s) * ev dQ s ^ 2) := by
  have hp : 0 ≤ dFitp.eval s := by
    rcases lt_or_ge s 0 with h | h
    · exact RE.nonneg dFitp_ok0 (by norm_num) (by push_cast; linarith) (by push_cast; linarith)
    · exact RE.nonneg dFitp_ok1 (by norm_num) (by push_cast; linarith) (by push_cast; linarith)
  have hm : 0 ≤ dFitm.eval s := by
    rcases lt_or_ge s 0 with h | h
    · exact RE.nonneg dFitm_ok0 (by norm_num) (by push_cast; linarith) (by push_cast; linarith)
    · exact RE.nonneg dFitm_ok1 (by norm_num) (by push_cast; linarith) (by push_cast; linarith)
  have hX : ev dX s = 8 + 2 * s := by simp only [dX, ev]; push_cast; ring
  have h1' : ev one s = 1 := by simp only [one, ev]; push_cast; ring
  have hT := dT_bound h0 h1
  have hQ := dQ_pos h0 h1
  simp only [dFitp, dFitm, RE.eval, hX, h1'] at hp hm
  push_cast at hp hm
  have hxl : 6 ≤ 8 + 2 * s := by linarith
  have hxu : 8 + 2 * s ≤ 10 := by linarith
  generalize 8 + 2 * s = x at *
  generalize exp (-x) = E at *
  obtain ⟨τ, hτ⟩ : ∃ τ, τ = ev dT s / 702680110433872696125000000000000000000000000000000 := ⟨_, rfl⟩
  have hτ' : ev dT s = 702680110433872696125000000000000000000000000000000 * τ := by rw [hτ]; field_simp
  rw [hτ'] at hp hm
  rw [← hτ] at hT
  generalize ev dQ s = q at *
  generalize ev dN s = n at *
  generalize ev dQ1 s = q1 at *
  generalize ev dN1 s = n1 at *
  have hk : |2 * x ^ 2 * q ^ 2 * (E - τ)| ≤ 2 * x * q ^ 2 * (1 / 10 ^ 18) := by
    rw [abs_mul, abs_of_nonneg (by positivity)]
    have h3 : x * |E - τ| ≤ 1 / 10 ^ 18 := by
      have := mul_le_mul hxu hT (abs_nonneg _) (by norm_num)
      norm_num at *; linarith
    have h4 := mul_le_mul_of_nonneg_left h3 (show 0 ≤ 2 * x * q ^ 2 by positivity)
    linarith
  rw [abs_le] at *
  have hpos : 0 ≤ 2 * x * q ^ 2 := by positivity
  constructor <;> linarith [hk.1, hk.2]

/-- the error of the branch -/
theorem d_grow (h0 : |branch dN dQ 2 4 6 - eiWith γ 6| ≤ 12 / 10 ^ 15 * eiWith γ 6) {x : ℝ} (h1 : 6 ≤ x)
    (h2 : x ≤ 10) : |branch dN dQ 2 4 x - eiWith γ x| ≤ 12 / 10 ^ 15 * eiWith γ x := by
  refine grow (D := fun x => branch dN dQ 2 4 x - eiWith γ x) (a := 6) (b := 10) (by norm_num)
    (fun x ha hb => branch_deriv dN1_eq dQ1_eq (by linarith) (by norm_num) (dQ_pos (by linarith) (by linarith)))
    (fun x ha hb => ?_) h0 h1 h2
  have hs1 : -1 ≤ x / 2 - 4 := by linarith
  have hs2 : x / 2 - 4 ≤ 1 := by linarith
  have h := d_bound hs1 hs2
  have hQ := dQ_pos hs1 hs2
  rw [show (8 : ℝ) + 2 * (x / 2 - 4) = x by ring] at h
  have hx0 : 0 < x := by linarith
  have hpos : 0 < 2 * x * ev dQ (x / 2 - 4) ^ 2 := by positivity
  rw [abs_div, abs_of_pos hpos, div_le_iff₀ hpos]
  exact h

lemma dQ_horner (w : ℝ) : ev dQ w = 13107200000000000000000000000000 * horner eiQ2 w :=
  ev_horner (by unfold dQ eiQ2; repeat' constructor
                all_goals norm_num) w

lemma dP_horner (w : ℝ) : ev dP w = 13107200000000000000000000000000 * horner eiP2 w :=
  ev_horner (by unfold dP eiP2; repeat' constructor
                all_goals norm_num) w

lemma dN_split (w : ℝ) : ev dN w = 13107200000000000000000000000000 * (1.158985137939453125 * horner eiQ2 w + horner eiP2 w) := by
  have h : smul 13107200000000000000000000000000 dN = add (smul 15191050000000000000000000000000 dQ) (smul 13107200000000000000000000000000 dP) := by decide +kernel
  have h2 := congrArg (fun p => ev p w) h
  simp only [ev_add, ev_smul, dQ_horner, dP_horner] at h2
  push_cast at h2
  linarith

lemma d_branch {x : ℝ} (h1 : 6 ≤ x) (h2 : x ≤ 10) :
    (1.158985137939453125 + horner eiP2 (x / 2 - 4) / horner eiQ2 (x / 2 - 4)) * exp x / x + x = branch dN dQ 2 4 x := by
  have hQ := dQ_pos (s := x / 2 - 4) (by linarith) (by linarith)
  rw [dQ_horner] at hQ
  have hq : horner eiQ2 (x / 2 - 4) ≠ 0 := by
    intro h; rw [h] at hQ; norm_num at hQ
  rw [branch, dN_split, dQ_horner, mul_div_mul_left _ _ (by norm_num), add_div, mul_div_cancel_right₀ _ hq]

/-! ### (10, 20] -/

lemma eN1_eq : dv eN = eN1 := by decide +kernel
lemma eQ1_eq : dv eQ = eQ1 := by decide +kernel

lemma eQ_pos {s : ℝ} (h0 : -1 ≤ s) (h1 : s ≤ 1) : 0 < ev eQ s := by
  have h := RE.nonneg eQpos_ok0 (by norm_num) (x := s) (by push_cast; linarith) (by push_cast; linarith)
  simp only [eQpos, RE.eval, one, ev] at h
  push_cast at h
  linarith

lemma e_exp : |exp (-15) - 305902320501825788371479 / 1000000000000000000000000000000| ≤ 1 / 10 ^ 24 := by
  have h := exp_trunc (x := -15) 85 (by norm_num)
  rw [abs_le] at *
  norm_num [Finset.sum_range_succ, Nat.factorial] at h
  constructor <;> norm_num <;> linarith [h.1, h.2]

lemma eT_eq (s : ℝ) : ev eT s = 3436957187605267094036203068786574080413270016000000000000000000000000000000 * (305902320501825788371479 / 1000000000000000000000000000000
    * ∑ m ∈ Finset.range 44, (-(5 * s)) ^ m / (m.factorial : ℝ)) := by
  simp only [eT, ev, Finset.sum_range_succ, Finset.sum_range_zero, Nat.factorial]
  push_cast
  ring

lemma eT_bound {s : ℝ} (h0 : -1 ≤ s) (h1 : s ≤ 1) :
    |exp (-(15 + 5 * s)) - ev eT s / 3436957187605267094036203068786574080413270016000000000000000000000000000000| ≤ 1 / 10 ^ 20 := by
  rw [eT_eq, mul_div_cancel_left₀ _ (by norm_num)]
  have ha : |-(5 * s)| ≤ 5 := by rw [abs_le]; constructor <;> linarith
  have ht := exp_trunc (x := -(5 * s)) 44 (ha.trans (by norm_num))
  have hr : |-(5 * s)| ^ 44 / (44 : ℕ).factorial * 2 ≤ 1 / 10 ^ 21 := by
    have : |-(5 * s)| ^ 44 ≤ 5 ^ 44 := pow_le_pow_left₀ (abs_nonneg _) ha _
    norm_num [Nat.factorial] at this ⊢
    linarith
  have ht := ht.trans hr
  have he := e_exp
  have hm : exp (-(5 * s)) ≤ 200 := by
    have h5 : exp (-(5 * s)) ≤ exp 5 := exp_le_exp.mpr (by linarith)
    have h6 : exp 5 ≤ 200 := by
      have e5 : exp 5 = exp 1 ^ 5 := by rw [← exp_nat_mul]; norm_num
      have e1 := exp_one_lt_d9
      rw [e5]
      calc exp 1 ^ 5 ≤ (2.7182818286 : ℝ) ^ 5 := pow_le_pow_left₀ (exp_pos 1).le e1.le 5
        _ ≤ 200 := by norm_num
    linarith
  have hm0 := exp_pos (-(5 * s))
  rw [show -(15 + 5 * s) = -15 + -(5 * s) by ring, exp_add]
  generalize exp (-(5 * s)) = B at *
  generalize exp (-15 : ℝ) = A at *
  generalize ∑ m ∈ Finset.range 44, (-(5 * s)) ^ m / (m.factorial : ℝ) = t at *
  have e : A * B - 305902320501825788371479 / 1000000000000000000000000000000 * t = (A - 305902320501825788371479 / 1000000000000000000000000000000) * B + 305902320501825788371479 / 1000000000000000000000000000000 * (B - t) := by ring
  rw [e]
  refine (abs_add_le _ _).trans ?_
  rw [abs_mul, abs_mul, abs_of_pos hm0]
  have h3 := mul_le_mul he hm hm0.le (by norm_num)
  have h4 : |(305902320501825788371479 / 1000000000000000000000000000000 : ℝ)| ≤ 1 := by norm_num [abs_le]
  have h5 := mul_le_mul h4 ht (abs_nonneg _) zero_le_one
  norm_num at *
  linarith

lemma e_bound {s : ℝ} (h0 : -1 ≤ s) (h1 : s ≤ 1) :
    abs (5 * (ev eN s * ev eQ s * ((15 + 5 * s) - 1) - (15 + 5 * s) * ev eQ s ^ 2)
        + (15 + 5 * s) * (ev eN1 s * ev eQ s - ev eN s * ev eQ1 s)
        + 5 * (15 + 5 * s) ^ 2 * ev eQ s ^ 2 * exp (-(15 + 5 * s)))
      ≤ 15 / 10 ^ 15 * (5 * (15 + 5 * s) * ev eQ s ^ 2) := by
  have hp : 0 ≤ eFitp.eval s := by
    exact RE.nonneg eFitp_ok0 (by norm_num) (by push_cast; linarith) (by push_cast; linarith)
  have hm : 0 ≤ eFitm.eval s := by
    exact RE.nonneg eFitm_ok0 (by norm_num) (by push_cast; linarith) (by push_cast; linarith)
  have hX : ev eX s = 15 + 5 * s := by simp only [eX, ev]; push_cast; ring
  have h1' : ev one s = 1 := by simp only [one, ev]; push_cast; ring
  have hT := eT_bound h0 h1
  have hQ := eQ_pos h0 h1
  simp only [eFitp, eFitm, RE.eval, hX, h1'] at hp hm
  push_cast at hp hm
  have hxl : 10 ≤ 15 + 5 * s := by linarith
  have hxu : 15 + 5 * s ≤ 20 := by linarith
  generalize 15 + 5 * s = x at *
  generalize exp (-x) = E at *
  obtain ⟨τ, hτ⟩ : ∃ τ, τ = ev eT s / 3436957187605267094036203068786574080413270016000000000000000000000000000000 := ⟨_, rfl⟩
  have hτ' : ev eT s = 3436957187605267094036203068786574080413270016000000000000000000000000000000 * τ := by rw [hτ]; field_simp
  rw [hτ'] at hp hm
  rw [← hτ] at hT
  generalize ev eQ s = q at *
  generalize ev eN s = n at *
  generalize ev eQ1 s = q1 at *
  generalize ev eN1 s = n1 at *
  have hk : |5 * x ^ 2 * q ^ 2 * (E - τ)| ≤ 5 * x * q ^ 2 * (1 / 10 ^ 18) := by
    rw [abs_mul, abs_of_nonneg (by positivity)]
    have h3 : x * |E - τ| ≤ 1 / 10 ^ 18 := by
      have := mul_le_mul hxu hT (abs_nonneg _) (by norm_num)
      norm_num at *; linarith
    have h4 := mul_le_mul_of_nonneg_left h3 (show 0 ≤ 5 * x * q ^ 2 by positivity)
    linarith
  rw [abs_le] at *
  have hpos : 0 ≤ 5 * x * q ^ 2 := by positivity
  constructor <;> linarith [hk.1, hk.2]

/-- the error of the branch -/
theorem e_grow (h0 : |branch eN eQ 5 3 10 - eiWith γ 10| ≤ 15 / 10 ^ 15 * eiWith γ 10) {x : ℝ} (h1 : 10 ≤ x)
    (h2 : x ≤ 20) : |branch eN eQ 5 3 x - eiWith γ x| ≤ 15 / 10 ^ 15 * eiWith γ x := by
  refine grow (D := fun x => branch eN eQ 5 3 x - eiWith γ x) (a := 10) (b := 20) (by norm_num)
    (fun x ha hb => branch_deriv eN1_eq eQ1_eq (by linarith) (by norm_num) (eQ_pos (by linarith) (by linarith)))
    (fun x ha hb => ?_) h0 h1 h2
  have hs1 : -1 ≤ x / 5 - 3 := by linarith
  have hs2 : x / 5 - 3 ≤ 1 := by linarith
  have h := e_bound hs1 hs2
  have hQ := eQ_pos hs1 hs2
  rw [show (15 : ℝ) + 5 * (x / 5 - 3) = x by ring] at h
  have hx0 : 0 < x := by linarith
  have hpos : 0 < 5 * x * ev eQ (x / 5 - 3) ^ 2 := by positivity
  rw [abs_div, abs_of_pos hpos, div_le_iff₀ hpos]
  exact h

lemma eQ_horner (w : ℝ) : ev eQ w = 250000000000000000000000000000000000000000 * horner eiQ3 w :=
  ev_horner (by unfold eQ eiQ3; repeat' constructor
                all_goals norm_num) w

lemma eP_horner (w : ℝ) : ev eP w = 250000000000000000000000000000000000000000 * horner eiP3 w :=
  ev_horner (by unfold eP eiP3; repeat' constructor
                all_goals norm_num) w

lemma eN_split (w : ℝ) : ev eN w = 250000000000000000000000000000000000000000 * (1.086973190307617188 * horner eiQ3 w + horner eiP3 w) := by
  have h : smul 250000000000000000000000000000000000000000 eN = add (smul 271743297576904297000000000000000000000000 eQ) (smul 250000000000000000000000000000000000000000 eP) := by decide +kernel
  have h2 := congrArg (fun p => ev p w) h
  simp only [ev_add, ev_smul, eQ_horner, eP_horner] at h2
  push_cast at h2
  linarith

lemma e_branch {x : ℝ} (h1 : 10 ≤ x) (h2 : x ≤ 20) :
    (1.086973190307617188 + horner eiP3 (x / 5 - 3) / horner eiQ3 (x / 5 - 3)) * exp x / x + x = branch eN eQ 5 3 x := by
  have hQ := eQ_pos (s := x / 5 - 3) (by linarith) (by linarith)
  rw [eQ_horner] at hQ
  have hq : horner eiQ3 (x / 5 - 3) ≠ 0 := by
    intro h; rw [h] at hQ; norm_num at hQ
  rw [branch, eN_split, eQ_horner, mul_div_mul_left _ _ (by norm_num), add_div, mul_div_cancel_right₀ _ hq]

/-! ### the ends of the intervals -/

lemma exp_six : |exp 6 - 403.42879349273512260838718054338827| ≤ 1 / 10 ^ 18 := by
  have h := exp_trunc (x := 6) 60 (by norm_num)
  rw [abs_le] at *
  norm_num [Finset.sum_range_succ, Nat.factorial] at h
  constructor <;> norm_num <;> linarith [h.1, h.2]

lemma log_six : |log 6 - 1.791759469228055000812477358380702272723| ≤ 1 / 10 ^ 18 := by
  have h := exp_trunc (x := 1.791759469228055000812477358380702272723) 40 (by norm_num [abs_le])
  have he : |exp 1.791759469228055000812477358380702272723 - 6| ≤ 1 / 10 ^ 20 := by
    rw [abs_le] at *
    norm_num [Finset.sum_range_succ, Nat.factorial] at h
    norm_num
    constructor <;> linarith [h.1, h.2]
  have hl := log_near (a := 6) (l := 1.791759469228055000812477358380702272723) (by norm_num)
  generalize exp 1.791759469228055000812477358380702272723 = E at *
  rw [abs_le] at he
  have hE : 5 < E := by norm_num at *; linarith [he.1]
  have h1 : 6 / E - 1 ≤ 1 / 10 ^ 18 := by
    rw [sub_le_iff_le_add, div_le_iff₀ (by linarith)]; norm_num at *; linarith [he.1]
  have h2 : E / 6 - 1 ≤ 1 / 10 ^ 18 := by norm_num at *; linarith [he.2]
  rw [abs_le]
  constructor <;> linarith [hl.1, hl.2]

lemma ein_six : |ein 6 - 83.620787008309616942164410859527585| ≤ 1 / 10 ^ 16 := by
  have h := ein_trunc (x := 6) 60 (by norm_num)
  rw [abs_le] at *
  norm_num [Finset.sum_range_succ, Nat.factorial] at h
  constructor <;> norm_num <;> linarith [h.1, h.2]

lemma d_start : |branch dN dQ 2 4 6 - eiWith γ 6| ≤ 12 / 10 ^ 15 * eiWith γ 6 := by
  have h1 := exp_six
  have h2 := log_six
  have h3 := ein_six
  have h4 := gamma_near
  have hb : branch dN dQ 2 4 6 = ev dN (-1) / ev dQ (-1) * exp 6 / 6 + 6 := by
    rw [branch, show (6 : ℝ) / 2 - 4 = -1 by norm_num]
  have hr : |ev dN (-1) / ev dQ (-1) - 1.189648782129572650231659307320| ≤ 1 / 10 ^ 18 := by
    simp only [dN, dQ, ev]
    norm_num [abs_le]
  rw [hb, eiWith_eq, abs_of_pos (by norm_num : (0 : ℝ) < 6)]
  generalize ev dN (-1) / ev dQ (-1) = R at *
  generalize ein 6 = I at *
  generalize log 6 = L at *
  have hE0 := exp_pos (6 : ℝ)
  generalize exp 6 = E at *
  rw [abs_le] at *
  norm_num at *
  have hE1 : E ≤ 404 := by linarith [h1.2]
  have hp1 : (R - 1.189648782129572650231659307320) * E ≤ 404 / 10 ^ 18 := by
    have : (R - 1.189648782129572650231659307320) * E ≤ 1 / 10 ^ 18 * E := mul_le_mul_of_nonneg_right (by norm_num; linarith [hr.2]) hE0.le
    norm_num at *; linarith
  have hp2 : -(404 / 10 ^ 18) ≤ (R - 1.189648782129572650231659307320) * E := by
    have : -(1 / 10 ^ 18) * E ≤ (R - 1.189648782129572650231659307320) * E := mul_le_mul_of_nonneg_right (by norm_num; linarith [hr.1]) hE0.le
    norm_num at *; linarith
  norm_num at hp1 hp2
  constructor <;> linarith [h1.1, h1.2, h2.1, h2.2, h3.1, h3.2, h4.1, h4.2]

theorem d_all {x : ℝ} (h1 : 6 ≤ x) (h2 : x ≤ 10) : |branch dN dQ 2 4 x - eiWith γ x| ≤ 12 / 10 ^ 15 * eiWith γ x :=
  d_grow d_start h1 h2

lemma e_start : |branch eN eQ 5 3 10 - eiWith γ 10| ≤ 15 / 10 ^ 15 * eiWith γ 10 := by
  have h := d_all (x := 10) (by norm_num) le_rfl
  have hb : branch dN dQ 2 4 10 = ev dN 1 / ev dQ 1 * exp 10 / 10 + 10 := by
    rw [branch, show (10 : ℝ) / 2 - 4 = 1 by norm_num]
  have hb' : branch eN eQ 5 3 10 = ev eN (-1) / ev eQ (-1) * exp 10 / 10 + 10 := by
    rw [branch, show (10 : ℝ) / 5 - 3 = -1 by norm_num]
  have hr : |ev eN (-1) / ev eQ (-1) - ev dN 1 / ev dQ 1| ≤ 1 / 10 ^ 16 := by
    simp only [dN, dQ, eN, eQ, ev]
    norm_num [abs_le]
  have hr1 : 1.1 ≤ ev dN 1 / ev dQ 1 := by
    simp only [dN, dQ, ev]
    norm_num
  rw [hb] at h
  rw [hb']
  generalize ev dN 1 / ev dQ 1 = R at *
  generalize ev eN (-1) / ev eQ (-1) = R' at *
  have hE0 := exp_pos (10 : ℝ)
  generalize exp 10 = E at *
  generalize eiWith γ 10 = I at *
  rw [abs_le] at *
  have h3 : 1.1 * E ≤ R * E := mul_le_mul_of_nonneg_right hr1 hE0.le
  have h4 : (R' - R) * E ≤ 1 / 10 ^ 16 * E := mul_le_mul_of_nonneg_right hr.2 hE0.le
  have h5 : -(1 / 10 ^ 16) * E ≤ (R' - R) * E := mul_le_mul_of_nonneg_right hr.1 hE0.le
  norm_num at *
  constructor <;> linarith [h.1, h.2]

theorem e_all {x : ℝ} (h1 : 10 ≤ x) (h2 : x ≤ 20) : |branch eN eQ 5 3 x - eiWith γ x| ≤ 15 / 10 ^ 15 * eiWith γ x :=
  e_grow e_start h1 h2

/-- `expi` on (6, 20]. -/
theorem expi_large {x : ℝ} (h1 : 6 < x) (h2 : x ≤ 20) : |expi x - eiWith γ x| ≤ 15 / 10 ^ 15 * eiWith γ x := by
  rcases le_or_gt x 10 with h | h
  · have hd := d_all h1.le h
    rw [← d_branch h1.le h] at hd
    rw [expi, if_neg (by linarith), if_neg (by linarith), if_pos h]
    refine hd.trans (mul_le_mul_of_nonneg_right (by norm_num) ?_)
    have h3 := (abs_nonneg _).trans hd
    linarith
  · have hd := e_all h.le h2
    rw [← e_branch h.le h2] at hd
    rw [expi, if_neg (by linarith), if_neg (by linarith), if_neg (by linarith), if_pos h2]
    exact hd

/-- the branch used above 20 -/
noncomputable def last (x : ℝ) : ℝ := (1.013065338134765625 + horner eiP4 (1 / x) / horner eiQ4 (1 / x)) * (exp x / x) + x

/-- The branch used above 20 misses the exponential integral at 20 by eight parts in ten million. -/
lemma last_twenty : 8 / 10 ^ 7 * eiWith γ 20 < last 20 - eiWith γ 20 := by
  have h := e_all (x := 20) (by norm_num) le_rfl
  have hb : branch eN eQ 5 3 20 = ev eN 1 / ev eQ 1 * exp 20 / 20 + 20 := by
    rw [branch, show (20 : ℝ) / 5 - 3 = 1 by norm_num]
  have hl : last 20 = (1.013065338134765625 + horner eiP4 (1 / 20) / horner eiQ4 (1 / 20)) * exp 20 / 20 + 20 := by
    rw [last, mul_div_assoc]
  have hr : 8.05 / 10 ^ 7 * (ev eN 1 / ev eQ 1) ≤ 1.013065338134765625 + horner eiP4 (1 / 20) / horner eiQ4 (1 / 20) - ev eN 1 / ev eQ 1 := by
    simp only [eN, eQ, ev, horner, eiP4, eiQ4, List.foldr]
    norm_num
  have hr1 : 1 ≤ ev eN 1 / ev eQ 1 := by
    simp only [eN, eQ, ev]
    norm_num
  rw [hb] at h
  rw [hl]
  generalize 1.013065338134765625 + horner eiP4 (1 / 20) / horner eiQ4 (1 / 20) = R' at *
  generalize ev eN 1 / ev eQ 1 = R at *
  have hE : (2 : ℝ) ^ 20 ≤ exp 20 := by
    have h2 : (2 : ℝ) ≤ exp 1 := by linarith [exp_one_gt_d9]
    have e : exp 20 = exp 1 ^ 20 := by rw [← exp_nat_mul]; norm_num
    rw [e]
    exact pow_le_pow_left₀ (by norm_num) h2 20
  have hE0 := exp_pos (20 : ℝ)
  generalize exp 20 = E at *
  generalize eiWith γ 20 = I at *
  rw [abs_le] at h
  have h3 : 1 * E ≤ R * E := mul_le_mul_of_nonneg_right hr1 hE0.le
  have h4 := mul_le_mul_of_nonneg_right hr hE0.le
  norm_num at *
  linarith [h.1, h.2]

end Verif.EiFit
