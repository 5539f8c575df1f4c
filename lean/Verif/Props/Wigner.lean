import Verif.Props.WignerIndex
import Verif.Props.WignerXnum
import Mathlib.Analysis.Real.Pi.Bounds
/-!
C47-C50, C70, C71: the Wigner d tables of harmonics/wigner_d_xnum.py and wigner_d_logspace.py.
-/
namespace Verif
open Wigner Verif.Spec

/-! ## C49 -/

/-- For every degree `L`, every seed, second seed and three-term step: the run never leaves the allocated table, never
reads uninitialised memory, writes every entry of the table, and entry `(l, m, n)` is the value of the scalar recurrence. -/
theorem C49_fill {α : Type} (seed : ℕ → ℕ → α) (second : ℕ → ℕ → α → α) (comb : ℕ → ℕ → ℕ → α → α → α) (L : ℕ) :
    ∃ t, fillTable seed second comb (tableSize L) L = some t ∧
      (∀ i, i < tableSize L → t i ≠ none) ∧
      ∀ l m n, n ≤ m → m ≤ l → l ≤ L → t (idx l m n) = some (recD seed second comb m n (l - m)) := by
  rw [tableSize_eq]
  obtain ⟨t, h1, h2⟩ := fillTable_spec seed second comb L
  have h3 : ∀ l m n, n ≤ m → m ≤ l → l ≤ L → t (idx l m n) = some (recD seed second comb m n (l - m)) :=
    fun l m n a b c => h2 l m n a b c (by omega)
  refine ⟨t, h1, ?_, h3⟩
  intro i hi
  obtain ⟨l, m, n, a, b, c, rfl⟩ := exists_coords_lt hi
  rw [h3 l m n a b c]; simp

/-- Instance: the X-number table. -/
theorem C49_xnum (β : ℝ) (L : ℕ) :
    ∃ t, wignerXnumTable β L = some t ∧ (∀ i, i < tableSize L → t i ≠ none) ∧
      ∀ l m n, n ≤ m → m ≤ l → l ≤ L → t (idx l m n) = some (recD (seedX β) (secondX β) (combX β) m n (l - m)) :=
  C49_fill _ _ _ L

/-- A table with one entry too few is detected by the model (the theorem is not vacuous). -/
example : (fillTable (fun _ _ => (0:ℕ)) (fun _ _ d => d + 1) (fun _ _ _ a b => a + b) 3 1).isNone = true := by decide
example : ((fillTable (fun _ _ => (0:ℕ)) (fun _ _ d => d + 1) (fun _ _ _ a b => a + b) (tableSize 3) 3).bind
    fun t => t (idx 3 0 0)) = some 2 := by decide

/-! ## C50 -/

/-- `signedlogsumexp` returns the logarithm of the magnitude of the signed sum, and its sign. -/
theorem C50_signed_log_sum_exp (a b : LogR) (sa sb : Bool) :
    lexp (signedLogSumExp a b sa sb).1 = |lexp a * sgnB sa + lexp b * sgnB sb| ∧
    ((signedLogSumExp a b sa sb).2 = true ↔ 0 ≤ lexp a * sgnB sa + lexp b * sgnB sb) :=
  ⟨slse_mag a b sa sb, slse_sign a b sa sb⟩

/-- In particular for finite real arguments. -/
theorem C50_real (a b : ℝ) (sa sb : Bool) :
    slogToFp (signedLogSumExp (some a) (some b) sa sb) =
      (if sa then 1 else -1) * Real.exp a + (if sb then 1 else -1) * Real.exp b := by
  rw [slse_val]; simp only [lexp, sgnB]; ring

/-- Exact cancellation yields `-inf`, sign `True`. -/
example : signedLogSumExp (some 1) (some 1) true false = (none, true) := by
  simp [signedLogSumExp, lmax, lshift, lexp, sgnB, llog, ladd]

/-! ## C70: the tables contain Wigner's small d -/

theorem sin_half_pos {β : ℝ} (h0 : 0 < β) (h1 : β < Real.pi) : 0 < Real.sin (β / 2) :=
  Real.sin_pos_of_pos_of_lt_pi (by linarith) (by linarith [Real.pi_pos])
theorem cos_half_pos {β : ℝ} (h0 : 0 < β) (h1 : β < Real.pi) : 0 < Real.cos (β / 2) :=
  Real.cos_pos_of_mem_Ioo ⟨by linarith [Real.pi_pos], by linarith [Real.pi_pos]⟩

theorem cos_eq_tc (β : ℝ) : Real.cos β = 1 - 2 * Real.sin (β / 2) ^ 2 := by
  rw [cos_half, ← Real.cos_sq_add_sin_sq (β / 2)]; ring

theorem log_table (seed : ℕ → ℕ → SLog) (second : ℕ → ℕ → SLog → SLog) (comb : ℕ → ℕ → ℕ → SLog → SLog → SLog) (β : ℝ) (L : ℕ)
    (h0 : ∀ m n, n ≤ m → slogToFp (seed m n) = WW β m n 0)
    (h1 : ∀ m n, n ≤ m → slogToFp (second m n (seed m n)) = sec m n * ((2 * m + 2) * Real.cos β - 2 * n) * slogToFp (seed m n))
    (h2 : ∀ l m n d1 d2, 1 ≤ l → slogToFp (comb l m n d1 d2) =
      (4 * l - 2) * (2 * l * (2 * l - 2) * Real.cos β - 4 * m * n) * wC l m n * slogToFp d1 - bC l m n * slogToFp d2) :
    ∃ t, (fillTable seed second comb (tableSize L) L).map expTable = some t ∧
      (∀ i, i < tableSize L → t i ≠ none) ∧
      ∀ l m n : ℕ, n ≤ m → m ≤ l → l ≤ L → t (idx l m n) = some (wignerD l n m β) := by
  obtain ⟨t, e1, e2, e3⟩ := C49_fill seed second comb L
  refine ⟨expTable t, by rw [e1]; rfl, ?_, ?_⟩
  · intro i hi h
    apply e2 i hi
    unfold expTable at h
    rwa [Option.map_eq_none_iff] at h
  · intro l m n hn hm hl
    unfold expTable
    rw [e3 l m n hn hm hl, Option.map_some,
      (recD_val slogToFp seed second comb β hn (h0 m n hn) (h1 m n hn) (fun l d1 d2 h => h2 l m n d1 d2 h) (l - m)).1,
      WW_spec β hn, show m + (l - m) = l by omega]

/-- `wigner_d_lt_half_pi(β, L)` for `0 < β < π/2`. Missing: `β = 0` (see `C70_zero_fails`). -/
theorem C70_lt_partial (β : ℝ) (h0 : 0 < β) (h1 : β < Real.pi / 2) (L : ℕ) :
    ∃ t, wignerLt β L = some t ∧ (∀ i, i < tableSize L → t i ≠ none) ∧
      ∀ l m n : ℕ, n ≤ m → m ≤ l → l ≤ L → t (idx l m n) = some (wignerD l n m β) := by
  have hp := Real.pi_pos
  have hs := sin_half_pos h0 (by linarith)
  have hc := cos_half_pos h0 (by linarith)
  unfold wignerLt
  rw [if_neg (by push Not; exact ⟨hs, hc⟩), tableSizeLog_eq, ← tableSize_eq]
  have htc : (2.0:ℝ) * Real.sin (β / 2.0) ^ 2 = 2 * Real.sin (β / 2) ^ 2 := by norm_num
  apply log_table
  · intro m n h; rw [slog_seedL hc hs h, WW_zero β h]
  · intro m n h; rw [slog_secondL _ h, u2lt, htc, cos_eq_tc β]; ring
  · intro l m n d1 d2 hl; rw [slog_combL _ hl, u3lt, htc, cos_eq_tc β]; ring

/-- `wigner_d_eq_half_pi(L)`. -/
theorem C70_eq (L : ℕ) :
    ∃ t, wignerEq L = some t ∧ (∀ i, i < tableSize L → t i ≠ none) ∧
      ∀ l m n : ℕ, n ≤ m → m ≤ l → l ≤ L → t (idx l m n) = some (wignerD l n m (Real.pi / 2)) := by
  unfold wignerEq
  apply log_table
  · intro m n h; rw [slog_seedLhalf h, WW_zero _ h]
  · intro m n h; rw [slog_secondLhalf h _ rfl, Real.cos_pi_div_two]; ring
  · intro l m n d1 d2 hl; rw [slog_combLhalf hl, Real.cos_pi_div_two]; ring

/-- `wigner_d_gt_half_pi(β, L)` for `π/2 < β < π`. Missing: `β = π` in exact arithmetic, where the function takes the
logarithm of zero (see `C70_pi_fails`). -/
theorem C70_gt_partial (β : ℝ) (h0 : Real.pi / 2 < β) (h1 : β < Real.pi) (L : ℕ) :
    ∃ t, wignerGt β L = some t ∧ (∀ i, i < tableSize L → t i ≠ none) ∧
      ∀ l m n : ℕ, n ≤ m → m ≤ l → l ≤ L → t (idx l m n) = some (wignerD l n m β) := by
  have hp := Real.pi_pos
  have hs := sin_half_pos (by linarith) h1
  have hc := cos_half_pos (by linarith) h1
  unfold wignerGt
  rw [if_neg (by push Not; exact ⟨hs, hc⟩), tableSizeLog_eq, ← tableSize_eq]
  apply log_table
  · intro m n h; rw [slog_seedL hc hs h, WW_zero β h]
  · intro m n h; rw [slog_secondL _ h, u2gt]
  · intro l m n d1 d2 hl; rw [slog_combL _ hl, u3gt]

/-- At `β = 0`, inside the documented range `[0, π/2)`, no table is returned: `math.log(math.sin(0))`. -/
theorem C70_zero_fails (L : ℕ) : wignerLt 0 L = none := by
  unfold wignerLt; rw [if_pos]; left; simp

/-- At `β = π`, inside the documented range `(π/2, π]`, no table is returned in exact arithmetic. -/
theorem C70_pi_fails (L : ℕ) : wignerGt Real.pi L = none := by
  unfold wignerGt; rw [if_pos]; right; simp

/-- `wigner_d_xnum` at `β = 0`, inside its documented range: every entry on the diagonal `l = m` is NaN (for all degrees). -/
theorem C70_xnum_zero_fails (m n : ℕ) : seedX 0 m n = none := by
  unfold seedX
  rw [if_neg (by exact Real.pi_pos.ne)]
  have : trigPower (Real.sin (0 / 2)) (m - n) = none := by unfold trigPower; simp
  rw [this]
  cases trigPower (Real.cos (0 / 2)) (m + n) <;> rfl

/-- `trig_powers_xnum`: the X-number of the `k`-th power of a positive number represents that power. -/
theorem C70_trig_power (h : ℝ) (hh : 0 < h) (k : ℕ) : ∃ a, trigPower h k = some a ∧ xval a = h ^ k := by
  unfold trigPower
  rw [if_neg hh.ne', abs_of_pos hh]
  refine ⟨_, rfl, ?_⟩
  rw [C48_norm]
  unfold xval
  simp only
  have hk : (h:ℝ) ^ k = (2:ℝ) ^ (Real.logb 2 h * k) := by
    rw [Real.rpow_mul (by norm_num), Real.rpow_logb (by norm_num) (by norm_num) hh, Real.rpow_natCast]
  have k0 : (0:ℝ) ≤ k := by positivity
  have z : ∀ i : ℤ, (2:ℝ) ^ (460 * i) = (2:ℝ) ^ ((460:ℝ) * i) := by
    intro i
    have := Real.rpow_intCast 2 (460 * i)
    rw [← this]; push_cast; rfl
  rw [hk, z, ← Real.rpow_add (by norm_num)]
  congr 1
  rcases lt_trichotomy (Real.logb 2 h) 0 with hlm | hlm | hlm
  · rw [if_neg (not_lt.mpr hlm.le), if_pos hlm, if_neg (not_lt.mpr hlm.le), if_pos hlm,
      abs_of_nonpos (mul_nonpos_of_nonpos_of_nonneg hlm.le k0)]
    push_cast; ring
  · rw [hlm]; simp
  · rw [if_pos hlm, if_pos hlm, abs_of_nonneg (mul_nonneg hlm.le k0)]
    ring

theorem u2_eq (β : ℝ) (m n : ℕ) : u2 β m n = (2 * m + 2) * Real.cos β - 2 * n := by
  unfold u2
  split
  · rw [cos_eq_tc β]; ring
  · split
    · next h => rw [h, Real.cos_pi_div_two]; ring
    · rfl
theorem u3_eq (β : ℝ) (l m n : ℕ) : u3 β l m n = 2 * l * (2 * l - 2) * Real.cos β - 4 * m * n := by
  unfold u3
  split
  · rw [cos_eq_tc β]; ring
  · split
    · next h => rw [h, Real.cos_pi_div_two]; ring
    · ring

/-- The value of an entry, `0` standing for NaN. -/
noncomputable def xoval (a : Option XNum) : ℝ := (a.map xval).getD 0

/-- The step of the X-number recurrence drops no term. -/
def NoDrop (β : ℝ) (l m n : ℕ) (d1 d2 : Option XNum) : Prop :=
  ∀ x1 x2, d1 = some x1 → d2 = some x2 →
    |(xnumNorm ⟨(4 * l - 2) * u3 β l m n * Real.exp (wLog l m n) * x1.x, x1.i⟩).i
      - (xnumNorm ⟨Real.exp (wLog l m n + vLog l m n) * x2.x, x2.i⟩).i| ≤ 1

theorem combX_val (β : ℝ) (l m n : ℕ) (x1 x2 : XNum) (h : NoDrop β l m n (some x1) (some x2)) :
    ∃ a, combX β l m n (some x1) (some x2) = some a ∧ xval a =
      (4 * l - 2) * (2 * l * (2 * l - 2) * Real.cos β - 4 * m * n) * wC l m n * xval x1 - bC l m n * xval x2 := by
  unfold combX
  refine ⟨_, rfl, ?_⟩
  rw [C48_sum _ _ _ _ (h x1 x2 rfl rfl), C48_norm, C48_norm, u3_eq]
  unfold xval wC bC
  ring

/-- `wigner_d_xnum`, `0 < β < π`: the X-number of entry `(m + d, m, n)` represents Wigner's small d as long as no step
on the way drops a term. Missing: steps that drop a term, which `C48_sum_error` bounds by `2^-460` relative to the larger
term, and the final conversion, for which see C48. -/
theorem C70_xnum_partial (β : ℝ) (h0 : 0 < β) (h1 : β < Real.pi) (m n : ℕ) (hn : n ≤ m) (d : ℕ)
    (hd : ∀ e, e + 2 ≤ d → NoDrop β (m + e + 2) m n (recD (seedX β) (secondX β) (combX β) m n (e + 1))
      (recD (seedX β) (secondX β) (combX β) m n e)) :
    ∃ a, recD (seedX β) (secondX β) (combX β) m n d = some a ∧ xval a = wignerD (m + d) n m β := by
  have seed : ∃ a, recD (seedX β) (secondX β) (combX β) m n 0 = some a ∧ xval a = WW β m n 0 := by
    obtain ⟨c, c1, c2⟩ := C70_trig_power _ (cos_half_pos h0 h1) (m + n)
    obtain ⟨s, s1, s2⟩ := C70_trig_power _ (sin_half_pos h0 h1) (m - n)
    rw [recD, seedX, if_neg h1.ne, c1, s1]
    refine ⟨_, rfl, ?_⟩
    rw [C48_norm, WW_zero β hn, ← exp_lgammaHalf hn, ← c2, ← s2]
    unfold xval
    simp only
    rw [mul_add, zpow_add₀ (by norm_num)]; ring
  have second : ∃ a, recD (seedX β) (secondX β) (combX β) m n 1 = some a ∧ xval a = WW β m n 1 := by
    obtain ⟨a, a1, a2⟩ := seed
    rw [recD] at a1
    rw [recD, a1]
    refine ⟨_, rfl, ?_⟩
    rw [C48_norm, WW_one β hn, ← a2, u2_eq]
    unfold xval sec
    simp only
    ring
  have all : ∀ d, (∀ e, e + 2 ≤ d + 1 → NoDrop β (m + e + 2) m n (recD (seedX β) (secondX β) (combX β) m n (e + 1))
      (recD (seedX β) (secondX β) (combX β) m n e)) →
      (∃ a, recD (seedX β) (secondX β) (combX β) m n d = some a ∧ xval a = WW β m n d) ∧
      (∃ a, recD (seedX β) (secondX β) (combX β) m n (d + 1) = some a ∧ xval a = WW β m n (d + 1)) := by
    intro d
    induction d with
    | zero => intro _; exact ⟨seed, second⟩
    | succ d ih =>
      intro hd
      obtain ⟨⟨b, b1, b2⟩, ⟨a, a1, a2⟩⟩ := ih (fun e he => hd e (by omega))
      refine ⟨⟨a, a1, a2⟩, ?_⟩
      have hnd := hd d (by omega)
      rw [recD, a1, b1]
      rw [a1, b1] at hnd
      obtain ⟨c, c1, c2⟩ := combX_val β (m + d + 2) m n a b hnd
      exact ⟨c, c1, by rw [c2, a2, b2, ← WW_rec β hn d]⟩
  cases d with
  | zero => obtain ⟨a, a1, a2⟩ := seed; exact ⟨a, a1, by rw [a2, WW_spec β hn]⟩
  | succ d =>
    obtain ⟨a, a1, a2⟩ := (all d hd).2
    exact ⟨a, a1, by rw [a2, WW_spec β hn]⟩

/-- **C70 fails** at `β = π`, which the code has a branch for (meant for `π/2`): the entry `(m, m, n)` is Wigner's small d at
`π/2`, never 0, and not the value at `π`, 0 for `m > 0`. -/
theorem C70_xnum_pi_fails (m n : ℕ) (hn : n ≤ m) :
    ∃ a, seedX Real.pi m n = some a ∧ xval a = wignerD m n m (Real.pi / 2) ∧ xval a ≠ 0 ∧
      (0 < m → wignerD m n m Real.pi = 0) := by
  obtain ⟨a, a1, a2⟩ := C70_trig_power (1 / 2) (by norm_num) m
  rw [seedX, if_pos rfl, halfPower, a1]
  have hw : ∀ β, wignerD m n m β = WW β m n 0 := fun β => (WW_spec β hn 0).symm
  have hv : xval (xnumNorm ⟨Real.exp (lgammaHalf m n) * a.x, a.i⟩) = Real.exp (lgammaHalf m n) * (1 / 2) ^ m := by
    rw [C48_norm, ← a2]; unfold xval; ring
  refine ⟨_, rfl, ?_, ?_, ?_⟩
  · rw [hv, hw, WW_zero _ hn, ← exp_lgammaHalf hn, mul_assoc]
    congr 1
    rw [show Real.pi / 2 / 2 = Real.pi / 4 by ring, Real.cos_pi_div_four, Real.sin_pi_div_four, ← pow_add,
      show m + n + (m - n) = 2 * m by omega, pow_mul, show (√2 / 2 : ℝ) ^ 2 = 1 / 2 by rw [div_pow, Real.sq_sqrt (by norm_num)]; norm_num]
  · rw [hv]; positivity
  · intro hm
    rw [hw, WW_zero _ hn, Real.cos_pi_div_two, zero_pow (by omega)]
    ring

example : ∃ a, seedX Real.pi 3 1 = some a ∧ xval a ≠ wignerD 3 1 3 Real.pi := by
  obtain ⟨a, h1, -, h3, h4⟩ := C70_xnum_pi_fails 3 1 (by norm_num)
  have := h4 (by norm_num)
  exact ⟨a, h1, fun h => h3 (h.trans (by exact_mod_cast this))⟩

/-- The hypothesis is met: no step is needed for the two seeds, of any order. -/
example (m n : ℕ) (hn : n ≤ m) : ∃ a, recD (seedX 1) (secondX 1) (combX 1) m n 1 = some a ∧ xval a = wignerD (m + 1) n m 1 :=
  C70_xnum_partial 1 one_pos (by linarith [Real.pi_gt_three]) m n hn 1 (fun e he => by omega)

/-- The values are the familiar ones: `d^1_{00}(β) = cos β`. -/
theorem wignerD_100 (β : ℝ) : wignerD 1 0 0 β = Real.cos β := by
  unfold wignerD zfact
  have : Finset.Icc (max (0:ℤ) (0 - 0)) (min (((1:ℕ):ℤ) + 0) (((1:ℕ):ℤ) - 0)) = {0, 1} := by decide
  rw [this, Finset.sum_pair (by decide), cos_half β]
  simp
  ring

example (β : ℝ) (h0 : 0 < β) (h1 : β < Real.pi / 2) :
    ∃ t, wignerLt β 7 = some t ∧ t 1 = some (Real.cos β) := by
  obtain ⟨t, e1, _, e2⟩ := C70_lt_partial β h0 h1 7
  exact ⟨t, e1, by have := e2 1 0 0 le_rfl (by norm_num) (by norm_num); rw [← wignerD_100]; exact this⟩

/-! ## C71: table readers -/

theorem te_form (l a b : ℕ) : l * (l + 1) / 2 * (l + 2) / 3 + a * (a + 1) / 2 + b = idx l a b := rfl

/-- Reading the `π/2` table at any signed orders gives Wigner's small d for these orders; with `swap_mn` the two
orders are exchanged. -/
theorem C71_read_half_pi (L : ℕ) (l : ℕ) (m n : ℤ) (hl : l ≤ L) (hm : |m| ≤ l) (hn : |n| ≤ l) :
    ∃ t, wignerEq L = some t ∧
      (t (readHalfPi l m n false).1).map (· * (readHalfPi l m n false).2) = some (wignerD l n m (Real.pi / 2)) ∧
      (t (readHalfPi l m n true).1).map (· * (readHalfPi l m n true).2) = some (wignerD l m n (Real.pi / 2)) := by
  obtain ⟨t, e1, _, e2⟩ := C70_eq L
  refine ⟨t, e1, ?_⟩
  -- the value for `|n| ≤ |m|`, any signs
  have core : ∀ m n : ℤ, |n| ≤ |m| → |m| ≤ l →
      t (idx l m.natAbs n.natAbs) = some (wignerD l n.natAbs m.natAbs (Real.pi / 2)) := by
    intro m n h1 h2
    rw [Int.abs_eq_natAbs, Int.abs_eq_natAbs] at h1
    rw [Int.abs_eq_natAbs] at h2
    exact e2 l m.natAbs n.natAbs (by omega) (by omega) hl
  have signs : ∀ m n : ℤ, wignerD l n.natAbs m.natAbs (Real.pi / 2) *
      ((if m < 0 ∧ n < 0 then sgnPow (m - n) else 1) * (if m < 0 ∧ 0 ≤ n then sgnPow (l - n) else 1)
        * (if n < 0 ∧ 0 ≤ m then sgnPow (l + m) else 1)) = wignerD l n m (Real.pi / 2) := by
    intro m n
    by_cases hm0 : m < 0 <;> by_cases hn0 : n < 0
    · rw [if_pos ⟨hm0, hn0⟩, if_neg (by omega), if_neg (by omega), mul_one, mul_one,
        show (n.natAbs : ℤ) = -n by omega, show (m.natAbs : ℤ) = -m by omega, wignerD_neg, wignerD_swap, mul_comm, ← mul_assoc,
        sgnPow_add, sgnPow_congr (b := 0) (by omega)]
      simp [sgnPow]
    · rw [if_neg (by omega), if_pos (by omega), if_neg (by omega), mul_one, one_mul,
        show (n.natAbs : ℤ) = n by omega, show (m.natAbs : ℤ) = -m by omega, wignerD_half_neg, mul_comm, ← mul_assoc,
        sgnPow_add, sgnPow_congr (b := 0) (by omega)]
      simp [sgnPow]
    · rw [if_neg (by omega), if_neg (by omega), if_pos (by omega), one_mul, one_mul,
        show (n.natAbs : ℤ) = -n by omega, show (m.natAbs : ℤ) = m by omega, wignerD_swap, wignerD_half_neg,
        wignerD_swap l n m, ← mul_assoc, ← mul_assoc, sgnPow_add, sgnPow_add, mul_comm, ← mul_assoc, sgnPow_add,
        sgnPow_congr (b := 0) (by omega)]
      simp [sgnPow]
    · rw [if_neg (by omega), if_neg (by omega), if_neg (by omega), show (n.natAbs : ℤ) = n by omega,
        show (m.natAbs : ℤ) = m by omega]
      ring
  have main : (t (readHalfPi l m n false).1).map (· * (readHalfPi l m n false).2) = some (wignerD l n m (Real.pi / 2)) := by
    unfold readHalfPi
    by_cases hsw : |m| < |n|
    · simp only [hsw, decide_true, if_true, Bool.false_eq_true, if_false, te_form]
      rw [core n m hsw.le hn, Option.map_some, ← mul_assoc, signs n m, wignerD_swap l n m, mul_comm,
        ← mul_assoc, sgnPow_add, sgnPow_congr (b := 0) (by omega)]
      simp [sgnPow]
    · simp only [hsw, decide_false, if_false, Bool.false_eq_true, te_form, mul_one]
      rw [core m n (not_lt.mp hsw) hm, Option.map_some, signs m n]
  refine ⟨main, ?_⟩
  have hpos : (readHalfPi l m n true).1 = (readHalfPi l m n false).1 := rfl
  have hpre : (readHalfPi l m n true).2 = (readHalfPi l m n false).2 * sgnPow (m - n) := by
    unfold readHalfPi
    simp only [if_true, Bool.false_eq_true, if_false]
    congr 1
    split
    · exact sgnPow_congr (by omega)
    · rfl
  rw [hpos, hpre]
  have e : (fun x : ℝ => x * ((readHalfPi l m n false).2 * sgnPow (m - n))) =
      (fun x => x * sgnPow (m - n)) ∘ (fun x => x * (readHalfPi l m n false).2) := by
    funext x; simp only [Function.comp]; ring
  rw [e, ← Option.map_map, main, Option.map_some, wignerD_swap l m n, mul_comm, ← mul_assoc, sgnPow_add,
    sgnPow_congr (b := 0) (by omega)]
  simp [sgnPow]

example : ∃ t, wignerEq 2 = some t ∧
    (t (readHalfPi 2 (-1) 2 false).1).map (· * (readHalfPi 2 (-1) 2 false).2) = some (wignerD 2 2 (-1) (Real.pi / 2)) := by
  obtain ⟨t, h1, h2, _⟩ := C71_read_half_pi 2 2 (-1) 2 le_rfl (by norm_num) (by norm_num)
  exact ⟨t, h1, h2⟩

/-- `retrieve_wigner_d` on a table of values of any angle is right for non-negative orders. Missing: negative orders
(documented as supported; see `C71_retrieve_fails`). -/
theorem C71_retrieve_partial (β : ℝ) (t : ℕ → ℝ) (L l m n : ℕ) (hl : l ≤ L) (hm : m ≤ l) (hn : n ≤ l)
    (ht : ∀ l m n : ℕ, n ≤ m → m ≤ l → l ≤ L → t (idx l m n) = wignerD l n m β) :
    0 ≤ (retrieve l m n false).1 ∧
    t (retrieve l m n false).1.toNat * (retrieve l m n false).2 = wignerD l n m β ∧
    t (retrieve l m n true).1.toNat * (retrieve l m n true).2 = wignerD l m n β := by
  have cast : ∀ a b : ℕ, (l:ℤ) * (l + 1) / 2 * (l + 2) / 3 + (a:ℤ) * (a + 1) / 2 + b = ((idx l a b : ℕ) : ℤ) := by
    intro a b; unfold idx; push_cast; rfl
  have sq : ∀ k : ℤ, sgnPow k * sgnPow k = 1 := sgnPow_sq
  by_cases hsw : m < n
  · have hs : |(m:ℤ)| < |(n:ℤ)| := by
      rw [abs_of_nonneg (by omega), abs_of_nonneg (by omega)]; exact_mod_cast hsw
    unfold retrieve
    simp only [hs, decide_true, if_true, cast, Bool.false_eq_true, if_false, Int.toNat_natCast]
    rw [ht l n m hsw.le hn hl]
    refine ⟨by omega, ?_, ?_⟩
    · rw [wignerD_swap l m n, mul_comm, sgnPow_congr (a := (n:ℤ) - m) (b := m - n) (by omega)]
    · rw [sq, mul_one]
  · have hs : ¬ |(m:ℤ)| < |(n:ℤ)| := by
      rw [abs_of_nonneg (by omega), abs_of_nonneg (by omega)]; omega
    unfold retrieve
    simp only [hs, decide_false, cast, Bool.false_eq_true, if_false, if_true, Int.toNat_natCast]
    rw [ht l m n (by omega) hm hl]
    refine ⟨by omega, by ring, ?_⟩
    rw [wignerD_swap l m n β, one_mul, mul_comm, ← mul_assoc, sgnPow_add, sgnPow_congr (b := 0) (by omega)]
    simp [sgnPow]

/-- Wigner's value for `(1, -1, 0)`. -/
theorem wignerD_1_0_m1 : wignerD 1 0 (-1) (Real.pi / 2) ≠ 0 := by
  unfold wignerD zfact
  have : Finset.Icc (max (0:ℤ) (-1 - 0)) (min (((1:ℕ):ℤ) + -1) (((1:ℕ):ℤ) - 0)) = {0} := by decide
  rw [this, Finset.sum_singleton, cos_quarter, sin_quarter]
  have : Real.sqrt 2 ≠ 0 := by positivity
  simp

/-- For the orders `(1, -1, 0)` `retrieve_wigner_d` reads the entry of `(1, 0, 0)`: on the table for `π/2` it returns
`0`, Wigner's value is not `0`. -/
theorem C71_retrieve_fails : ∃ t, wignerEq 1 = some t ∧
    (t (retrieve 1 (-1) 0 false).1.toNat).map (· * (retrieve 1 (-1) 0 false).2) = some 0 ∧
    wignerD 1 0 (-1) (Real.pi / 2) ≠ 0 := by
  obtain ⟨t, e1, _, e2⟩ := C70_eq 1
  refine ⟨t, e1, ?_, wignerD_1_0_m1⟩
  have h := e2 1 0 0 le_rfl (by norm_num) le_rfl
  have hi : (retrieve 1 (-1) 0 false).1.toNat = idx 1 0 0 := by simp [retrieve, idx]
  rw [hi, h]
  simp only [Nat.cast_zero, wignerD_100, Real.cos_pi_div_two, Option.map_some, zero_mul]

end Verif
