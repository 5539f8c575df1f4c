import Verif.Lemmas.EiFit
/-!
Euler's constant from the fit below -1; the fits on [-1, 0) and (0, 6].
-/
namespace Verif.EiFit
open Real Verif.Scat Verif.PolyCert Verif.Spec.Scatter Verif.Ei Filter Set
open scoped Topology

local notation "γ" => eulerMascheroniConstant

lemma exp_m1 : |exp (-1) - 0.36787944117144232159552377016146086| ≤ 1 / 10 ^ 20 := by
  have h := exp_trunc (x := -1) 23 (by norm_num)
  rw [abs_le] at *
  norm_num [Finset.sum_range_succ, Nat.factorial] at h
  constructor <;> norm_num <;> linarith [h.1, h.2]

lemma ein_m1 : |ein (-1) + 0.79659959929705313428367586082312| ≤ 1 / 10 ^ 20 := by
  have h := ein_trunc (x := -1) 22 (by norm_num)
  rw [abs_le] at *
  norm_num [Finset.sum_range_succ, Nat.factorial] at h
  constructor <;> norm_num <;> linarith [h.1, h.2]

/-- Euler's constant to fifteen digits. -/
theorem gamma_near : |γ - 0.57721566490153286060651209008240243| ≤ 5 / 10 ^ 16 := by
  have h := cD_bound (y := 1) le_rfl
  have e : cR 1⁻¹ = 0.5963473623231940743410784993692793 + (cR 1 - 0.5963473623231940743410784993692793) := by
    rw [inv_one]; ring
  have hr : |cR 1 - 0.5963473623231940743410784993692793| ≤ 1 / 10 ^ 17 := by
    simp only [cR, cN, cQ, ev]
    norm_num [abs_le]
  rw [cD, e, eiWith_eq, abs_neg, abs_one, log_one] at h
  generalize cR 1 - 0.5963473623231940743410784993692793 = d at *
  have h1 := exp_m1
  have h2 := ein_m1
  have hE0 := exp_pos (-1 : ℝ)
  rw [abs_le] at *
  generalize exp (-1 : ℝ) = E at *
  generalize ein (-1) = I at *
  have hE1 : E ≤ 1 := by norm_num at h1; linarith [h1.2]
  have hd1 : d * E ≤ 1 / 10 ^ 17 := by nlinarith [hr.2]
  have hd2 : -(1 / 10 ^ 17) ≤ d * E := by nlinarith [hr.1]
  norm_num at *
  constructor <;> linarith [h.1, h.2, h1.1, h1.2, h2.1, h2.2]

/-! ### [-1, 0) -/

lemma aQ_horner (w : ℝ) : ev aQ w = 62500000000000000000000000 * horner e1Q w :=
  ev_horner (by unfold aQ e1Q; repeat' constructor
                all_goals norm_num) w

lemma aP_horner (w : ℝ) : ev aP w = 62500000000000000000000000 * horner e1P w :=
  ev_horner (by unfold aP e1P; repeat' constructor
                all_goals norm_num) w

lemma aQ_pos {y : ℝ} (h0 : 0 ≤ y) (h1 : y ≤ 1) : 0 < horner e1Q y := by
  have h := RE.nonneg aQpos_ok0 (by norm_num) (x := y) (by push_cast; linarith) (by push_cast; linarith)
  simp only [aQpos, RE.eval, one, ev, aQ_horner] at h
  push_cast at h
  linarith

lemma aE_eq (y : ℝ) : ev aE y = 4320995229435584700000000000000000000000000000000000
    * (y - 66373538970947265625 / 10 ^ 20 + 57721566490153286060651209008240243 / 10 ^ 35
      + ∑ k ∈ Finset.range 20, (-y) ^ (k + 1) / ((k + 1 : ℝ) * (k + 1).factorial)) := by
  simp only [aE, ev, Finset.sum_range_succ, Finset.sum_range_zero, Nat.factorial]
  push_cast
  ring

lemma a_bound {y : ℝ} (h0 : 0 ≤ y) (h1 : y ≤ 1) :
    |horner e1P y / horner e1Q y + ev aE y / 4320995229435584700000000000000000000000000000000000| ≤ 1 / 10 ^ 16 := by
  have hp := RE.nonneg aFitp_ok0 (by norm_num) (x := y) (by push_cast; linarith) (by push_cast; linarith)
  have hm := RE.nonneg aFitm_ok0 (by norm_num) (x := y) (by push_cast; linarith) (by push_cast; linarith)
  have hQ := aQ_pos h0 h1
  simp only [aFitp, aFitm, RE.eval, aQ_horner, aP_horner] at hp hm
  push_cast at hp hm
  generalize horner e1Q y = q at *
  generalize horner e1P y = p at *
  generalize ev aE y = E at *
  have e : p / q + E / 4320995229435584700000000000000000000000000000000000
      = (p + q * (E / 4320995229435584700000000000000000000000000000000000)) / q := by field_simp
  rw [e, abs_div, abs_of_pos hQ, div_le_iff₀ hQ, abs_le]
  constructor <;> linarith

/-- `expi` on [-1, 0). -/
theorem expi_small_neg {x : ℝ} (h1 : -1 ≤ x) (h0 : x < 0) : |expi x - eiWith γ x| ≤ 7 / 10 ^ 16 := by
  have hb := a_bound (y := -x) (by linarith) (by linarith)
  have ht := ein_trunc (x := x) 20 (by rw [abs_of_neg h0]; norm_num; linarith)
  have hr : 2 * (|x| ^ (20 + 1) / (((20 : ℕ) + 1 : ℝ) * (20 + 1).factorial)) ≤ 1 / 10 ^ 20 := by
    have : |x| ^ 21 ≤ 1 := pow_le_one₀ (abs_nonneg _) (by rw [abs_of_neg h0]; linarith)
    norm_num [Nat.factorial]
    linarith
  have hg := gamma_near
  rw [aE_eq, neg_neg, mul_div_cancel_left₀ _ (by norm_num)] at hb
  rw [expi, if_pos h0, exp1, if_pos (by linarith), eiWith_eq, abs_of_neg h0]
  generalize horner e1P (-x) / horner e1Q (-x) = R at *
  have ht := ht.trans hr
  generalize ∑ k ∈ Finset.range 20, x ^ (k + 1) / ((k + 1 : ℝ) * (k + 1).factorial) = s at *
  generalize ein x = I at *
  generalize log (-x) = L at *
  rw [abs_le] at *
  norm_num at *
  constructor <;> linarith [hb.1, hb.2, ht.1, ht.2, hg.1, hg.2]

/-! ### (0, 6] -/

lemma log_near {a l : ℝ} (ha : 0 < a) : log a - l ≤ a / exp l - 1 ∧ l - log a ≤ exp l / a - 1 := by
  have h1 := log_le_sub_one_of_pos (div_pos ha (exp_pos l))
  have h2 := log_le_sub_one_of_pos (div_pos (exp_pos l) ha)
  rw [log_div ha.ne' (exp_pos l).ne', log_exp] at h1
  rw [log_div (exp_pos l).ne' ha.ne', log_exp] at h2
  exact ⟨h1, h2⟩

lemma log_root : |log eiRoot + 9874983466453418518440 / 10 ^ 22| ≤ 1 / 10 ^ 18 := by
  have h := exp_trunc (x := -(9874983466453418518440 / 10 ^ 22)) 26 (by norm_num)
  have he : |exp (-(9874983466453418518440 / 10 ^ 22)) - eiRoot| ≤ 1 / 10 ^ 19 := by
    unfold eiRoot
    rw [abs_le] at *
    norm_num [Finset.sum_range_succ, Nat.factorial] at h
    norm_num
    constructor <;> linarith [h.1, h.2]
  have hr : 0.37 < eiRoot := by unfold eiRoot; norm_num
  have hl := log_near (a := eiRoot) (l := -(9874983466453418518440 / 10 ^ 22)) (by linarith)
  generalize exp (-(9874983466453418518440 / 10 ^ 22)) = E at *
  rw [abs_le] at he
  have hE : 0.36 < E := by norm_num at *; linarith [he.1]
  have h1 : eiRoot / E - 1 ≤ 1 / 10 ^ 18 := by
    rw [sub_le_iff_le_add, div_le_iff₀ (by linarith)]; norm_num at *; linarith [he.1]
  have h2 : E / eiRoot - 1 ≤ 1 / 10 ^ 18 := by
    rw [sub_le_iff_le_add, div_le_iff₀ (by linarith)]; norm_num at *; linarith [he.2]
  rw [abs_le]
  constructor <;> linarith [hl.1, hl.2]

lemma bQ0_horner (w : ℝ) : ev bQ0 w = 20000000000000000000000000 * horner eiQ w :=
  ev_horner (by unfold bQ0 eiQ; repeat' constructor
                all_goals norm_num) w

lemma bP0_horner (w : ℝ) : ev bP0 w = 20000000000000000000000000 * horner eiP w :=
  ev_horner (by unfold bP0 eiP; repeat' constructor
                all_goals norm_num) w

lemma bP_eq (x : ℝ) : ev bP x = 131220000000000000000000000000 * horner eiP (x / 3 - 1) := by
  have h : ev bP x = 6561 * ev bP0 (x / 3 - 1) := by
    simp only [bP, bP0, ev]; push_cast; ring
  rw [h, bP0_horner]; ring

lemma bQ_eq (x : ℝ) : ev bQ x = 131220000000000000000000000000 * horner eiQ (x / 3 - 1) := by
  have h : ev bQ x = 6561 * ev bQ0 (x / 3 - 1) := by
    simp only [bQ, bQ0, ev]; push_cast; ring
  rw [h, bQ0_horner]; ring

lemma bQ_pos {x : ℝ} (h0 : 0 ≤ x) (h1 : x ≤ 6) : 0 < horner eiQ (x / 3 - 1) := by
  have h := RE.nonneg bQpos_ok0 (by norm_num) (x := x) (by push_cast; linarith) (by push_cast; linarith)
  simp only [bQpos, RE.eval, one, ev, bQ_eq] at h
  push_cast at h
  linarith

lemma bE_eq (x : ℝ) : ev bE x = 254794050206932993817126909558372676907692354950400000000000000000000000000000000000
    * (57721566490153286060651209008240243 / 10 ^ 35 - 9874983466453418518440 / 10 ^ 22
      + ∑ k ∈ Finset.range 42, x ^ (k + 1) / ((k + 1 : ℝ) * (k + 1).factorial)) := by
  simp only [bE, ev, Finset.sum_range_succ, Finset.sum_range_zero, Nat.factorial]
  push_cast
  ring

lemma bX_eq (x : ℝ) : ev bX x = 125000000000000000000000000000000000000000000000000000000000000000000000000000000000000000000000000000 * (x - eiRoot) := by
  have h : eiRoot = 372507410781366634461991866580119133535689497771654051555657435242200120636201854384926049951548942392 / 10 ^ 102 := by
    unfold eiRoot; norm_num
  rw [h]
  simp only [bX, ev]
  push_cast
  ring

lemma b_bound {x : ℝ} (h0 : 0 ≤ x) (h1 : x ≤ 6) :
    |horner eiP (x / 3 - 1) / horner eiQ (x / 3 - 1) * (x - eiRoot) - ev bE x / 254794050206932993817126909558372676907692354950400000000000000000000000000000000000| ≤ 5 / 10 ^ 15 := by
  have hp : 0 ≤ bFitp.eval x := by
    rcases lt_or_ge x 3 with h | h
    · exact RE.nonneg bFitp_ok0 (by norm_num) (by push_cast; linarith) (by push_cast; linarith)
    · exact RE.nonneg bFitp_ok1 (by norm_num) (by push_cast; linarith) (by push_cast; linarith)
  have hm : 0 ≤ bFitm.eval x := by
    rcases lt_or_ge x 3 with h | h
    · exact RE.nonneg bFitm_ok0 (by norm_num) (by push_cast; linarith) (by push_cast; linarith)
    · exact RE.nonneg bFitm_ok1 (by norm_num) (by push_cast; linarith) (by push_cast; linarith)
  have hQ := bQ_pos h0 h1
  simp only [bFitp, bFitm, RE.eval, bQ_eq, bP_eq, bX_eq] at hp hm
  push_cast at hp hm
  generalize horner eiQ (x / 3 - 1) = q at *
  generalize horner eiP (x / 3 - 1) = p at *
  generalize ev bE x = E at *
  generalize x - eiRoot = d at *
  have e : p / q * d - E / 254794050206932993817126909558372676907692354950400000000000000000000000000000000000 = (p * d - q * (E / 254794050206932993817126909558372676907692354950400000000000000000000000000000000000)) / q := by field_simp
  rw [e, abs_div, abs_of_pos hQ, div_le_iff₀ hQ, abs_le]
  constructor <;> linarith

/-- `expi` on (0, 6]. -/
theorem expi_mid {x : ℝ} (h0 : 0 < x) (h6 : x ≤ 6) : |expi x - eiWith γ x| ≤ 6 / 10 ^ 15 := by
  have hb := b_bound h0.le h6
  have ht := ein_trunc (x := x) 42 (by rw [abs_of_pos h0]; norm_num; linarith)
  have hr : 2 * (|x| ^ (42 + 1) / (((42 : ℕ) + 1 : ℝ) * (42 + 1).factorial)) ≤ 1 / 10 ^ 20 := by
    have : |x| ^ 43 ≤ 6 ^ 43 := pow_le_pow_left₀ (abs_nonneg _) (by rw [abs_of_pos h0]; exact h6) _
    norm_num [Nat.factorial] at this ⊢
    linarith
  have hg := gamma_near
  have hl := log_root
  have hr0 : 0 < eiRoot := by unfold eiRoot; norm_num
  rw [bE_eq, mul_div_cancel_left₀ _ (by norm_num)] at hb
  rw [expi, if_neg (by linarith), if_pos h6, eiWith_eq, abs_of_pos h0, log_div h0.ne' hr0.ne']
  generalize horner eiP (x / 3 - 1) / horner eiQ (x / 3 - 1) * (x - eiRoot) = R at *
  have ht := ht.trans hr
  generalize ∑ k ∈ Finset.range 42, x ^ (k + 1) / ((k + 1 : ℝ) * (k + 1).factorial) = s at *
  generalize ein x = I at *
  generalize log x = L at *
  generalize log eiRoot = L' at *
  rw [abs_le] at *
  norm_num at *
  constructor <;> linarith [hb.1, hb.2, ht.1, ht.2, hg.1, hg.2, hl.1, hl.2]

end Verif.EiFit
