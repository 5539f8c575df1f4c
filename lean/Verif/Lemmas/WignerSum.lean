import Verif.Lemmas.WignerLog
import Verif.Spec.Wigner
import Mathlib.Tactic.LinearCombination
/-! The real recurrence of the Wigner table produces Wigner's explicit sum. -/
namespace Verif.Wigner
open Finset Verif.Spec

/-- Explicit value for `l = m + N`. -/
noncomputable def WW (β : ℝ) (m n N : ℕ) : ℝ :=
  Real.sqrt ((N + 2 * m).factorial * N.factorial * (N + (m - n)).factorial * (N + (m + n)).factorial)
    * Real.cos (β / 2) ^ (m + n) * Real.sin (β / 2) ^ (m - n)
    * QJ (m - n) (m + n) (Real.cos (β / 2) ^ 2) (-Real.sin (β / 2) ^ 2) N

theorem cos_half (β : ℝ) : Real.cos β = Real.cos (β / 2) ^ 2 - Real.sin (β / 2) ^ 2 := by
  rw [← Real.cos_two_mul']; congr 1; ring

theorem WW_zero (β : ℝ) {m n : ℕ} (_h : n ≤ m) : WW β m n 0 =
    Real.sqrt ((2 * m).factorial / ((m + n).factorial * (m - n).factorial))
      * Real.cos (β / 2) ^ (m + n) * Real.sin (β / 2) ^ (m - n) := by
  rw [WW, QJ_zero]
  simp only [Nat.zero_add, Nat.factorial_zero, Nat.cast_one, mul_one]
  have p2 : (0:ℝ) < (m + n).factorial := by positivity
  have p3 : (0:ℝ) < (m - n).factorial := by positivity
  have e : Real.sqrt (((2 * m).factorial : ℝ) * (m - n).factorial * (m + n).factorial) =
      Real.sqrt (((2 * m).factorial : ℝ) / ((m + n).factorial * (m - n).factorial)) * ((m + n).factorial * (m - n).factorial) := by
    have : ((2 * m).factorial : ℝ) * (m - n).factorial * (m + n).factorial =
      ((2 * m).factorial : ℝ) / ((m + n).factorial * (m - n).factorial) * ((m + n).factorial * (m - n).factorial) ^ 2 := by
      field_simp
    rw [this, Real.sqrt_mul (by positivity), Real.sqrt_sq (by positivity)]
  rw [e]; field_simp

theorem WW_norm (m n N : ℕ) (h : n ≤ m) :
    Real.sqrt ((N + 1 + 2 * m).factorial * (N + 1).factorial * (N + 1 + (m - n)).factorial * (N + 1 + (m + n)).factorial) =
    Real.sqrt ((N + 2 * m).factorial * N.factorial * (N + (m - n)).factorial * (N + (m + n)).factorial) *
    Real.sqrt ((((m + N + 1 : ℕ):ℝ) + m) * (((m + N + 1 : ℕ):ℝ) - m) * (((m + N + 1 : ℕ):ℝ) + n) * (((m + N + 1 : ℕ):ℝ) - n)) := by
  rw [← Real.sqrt_mul (by positivity)]
  congr 1
  rw [show N + 1 + 2 * m = (N + 2 * m) + 1 by omega, show N + 1 + (m - n) = (N + (m - n)) + 1 by omega,
    show N + 1 + (m + n) = (N + (m + n)) + 1 by omega]
  simp only [Nat.factorial_succ]
  push_cast [Nat.cast_sub h]
  ring

theorem WW_one (β : ℝ) {m n : ℕ} (h : n ≤ m) :
    WW β m n 1 = sec m n * ((2 * m + 2) * Real.cos β - 2 * n) * WW β m n 0 := by
  have hh : (n:ℝ) ≤ m := by exact_mod_cast h
  have e := WW_norm m n 0 h
  have q := QJ_one (m - n) (m + n) (Real.cos (β / 2) ^ 2) (-Real.sin (β / 2) ^ 2)
  rw [Nat.cast_sub h, Nat.cast_add] at q
  have pa : 0 < (m:ℝ) - n + 1 := by linarith
  have pb : 0 < (m:ℝ) + n + 1 := by positivity
  have es : sec m n * (2 * (((m:ℝ) - n + 1) * (m + n + 1))) =
      Real.sqrt ((((m + 0 + 1 : ℕ):ℝ) + m) * (((m + 0 + 1 : ℕ):ℝ) - m) * (((m + 0 + 1 : ℕ):ℝ) + n) * (((m + 0 + 1 : ℕ):ℝ) - n)) := by
    rw [sec, ← Real.sqrt_sq (show 0 ≤ 2 * (((m:ℝ) - n + 1) * (m + n + 1)) by positivity), ← Real.sqrt_mul (by
      apply div_nonneg (by positivity); exact mul_nonneg (by positivity) (by linarith))]
    congr 1
    rw [show (2 * ((m:ℝ) + n) + 2) * (2 * (m - n) + 2) = 4 * ((m + n + 1) * (m - n + 1)) by ring]
    push_cast
    field_simp
    ring
  have t := cos_half β
  have t1 : Real.cos (β / 2) ^ 2 + Real.sin (β / 2) ^ 2 = 1 := Real.cos_sq_add_sin_sq _
  unfold WW
  rw [show 0 + 1 + 2 * m = 1 + 2 * m by omega, show 0 + 1 + (m - n) = 1 + (m - n) by omega,
    show 0 + 1 + (m + n) = 1 + (m + n) by omega, show 0 + 1 = 1 from rfl] at e
  rw [e, ← es]
  set q1 := QJ (m - n) (m + n) (Real.cos (β / 2) ^ 2) (-Real.sin (β / 2) ^ 2) 1
  set q0 := QJ (m - n) (m + n) (Real.cos (β / 2) ^ 2) (-Real.sin (β / 2) ^ 2) 0
  set R := Real.sqrt (((0 + 2 * m).factorial : ℝ) * Nat.factorial 0 * (0 + (m - n)).factorial * (0 + (m + n)).factorial)
  have u : 2 * (((m:ℝ) - n + 1) * Real.cos (β / 2) ^ 2 + (m + n + 1) * -Real.sin (β / 2) ^ 2) =
      (2 * m + 2) * Real.cos β - 2 * n := by
    rw [t]; linear_combination (-2 * (n:ℝ)) * t1
  rw [← u]
  linear_combination (2 * sec m n * R * Real.cos (β / 2) ^ (m + n) * Real.sin (β / 2) ^ (m - n)) * q

theorem WW_rec (β : ℝ) {m n : ℕ} (h : n ≤ m) (N : ℕ) :
    WW β m n (N + 2) =
      (4 * ((m + N + 2 : ℕ) : ℝ) - 2) * (2 * ((m + N + 2 : ℕ) : ℝ) * (2 * ((m + N + 2 : ℕ) : ℝ) - 2) * Real.cos β - 4 * m * n)
        * wC (m + N + 2) m n * WW β m n (N + 1) - bC (m + N + 2) m n * WW β m n N := by
  have hh : (n:ℝ) ≤ m := by exact_mod_cast h
  have hn : (0:ℝ) ≤ n := by positivity
  have hN : (0:ℝ) ≤ N := by positivity
  have e1 := WW_norm m n N h
  have e2 := WW_norm m n (N + 1) h
  have q := QJ_rec (m - n) (m + n) N (Real.cos (β / 2) ^ 2) (-Real.sin (β / 2) ^ 2)
  rw [Nat.cast_sub h, Nat.cast_add] at q
  have t := cos_half β
  have t1 : Real.cos (β / 2) ^ 2 + Real.sin (β / 2) ^ 2 = 1 := Real.cos_sq_add_sin_sq _
  rw [show Real.cos (β / 2) ^ 2 - -Real.sin (β / 2) ^ 2 = 1 by rw [sub_neg_eq_add, t1],
    show Real.cos (β / 2) ^ 2 + -Real.sin (β / 2) ^ 2 = Real.cos β by rw [t]; ring] at q
  have ew := wC_eq (l := m + N + 2) h (by omega)
  have ev := vC_eq (l := m + N + 2) h (by omega)
  have eb : bC (m + N + 2) m n = wC (m + N + 2) m n * Real.exp (vLog (m + N + 2) m n) := by
    rw [bC, Real.exp_add]; rfl
  rw [eb, ev, ew]
  unfold WW
  rw [show N + 2 + 2 * m = N + 1 + 1 + 2 * m by omega, show N + 2 + (m - n) = N + 1 + 1 + (m - n) by omega,
    show N + 2 + (m + n) = N + 1 + 1 + (m + n) by omega, show (N + 2).factorial = (N + 1 + 1).factorial by rfl, e2, e1]
  set q2 := QJ (m - n) (m + n) (Real.cos (β / 2) ^ 2) (-Real.sin (β / 2) ^ 2) (N + 2)
  set q1 := QJ (m - n) (m + n) (Real.cos (β / 2) ^ 2) (-Real.sin (β / 2) ^ 2) (N + 1)
  set q0 := QJ (m - n) (m + n) (Real.cos (β / 2) ^ 2) (-Real.sin (β / 2) ^ 2) N
  set R := Real.sqrt (((N + 2 * m).factorial : ℝ) * N.factorial * (N + (m - n)).factorial * (N + (m + n)).factorial)
  have a1 : ((m + N + 2 : ℕ):ℝ) = m + N + 2 := by push_cast; ring
  have a2 : ((m + N + 1 : ℕ):ℝ) = m + N + 1 := by push_cast; ring
  have a3 : ((m + (N + 1) + 1 : ℕ):ℝ) = m + N + 2 := by push_cast; ring
  rw [a1, a2, a3]
  rw [show ((m:ℝ) + N + 2 - 1 + m) * (m + N + 2 - 1 - m) * (m + N + 2 - 1 + n) * (m + N + 2 - 1 - n) =
    ((m:ℝ) + N + 1 + m) * (m + N + 1 - m) * (m + N + 1 + n) * (m + N + 1 - n) by ring]
  have hr : 0 < ((m:ℝ) + N + 2 + m) * (m + N + 2 - m) * (m + N + 2 + n) * (m + N + 2 - n) := by
    apply mul_pos (mul_pos (mul_pos _ _) _) _ <;> linarith
  have hsq := Real.sq_sqrt hr.le
  have hpos := Real.sqrt_pos.mpr hr
  set ρ := Real.sqrt (((m:ℝ) + N + 2 + m) * (m + N + 2 - m) * (m + N + 2 + n) * (m + N + 2 - n))
  set ρ1 := Real.sqrt (((m:ℝ) + N + 1 + m) * (m + N + 1 - m) * (m + N + 1 + n) * (m + N + 1 - n))
  have hl : 0 < 2 * ((m:ℝ) + N + 2) - 2 := by linarith
  have key : ρ ^ 2 * (2 * ((m:ℝ) + N + 2) - 2) * q2 =
      (4 * ((m:ℝ) + N + 2) - 2) * (2 * (m + N + 2) * (2 * (m + N + 2) - 2) * Real.cos β - 4 * m * n) / 4 * q1
        - 2 * (m + N + 2) * q0 := by
    rw [hsq]; linear_combination q / 2
  set X := Real.cos (β / 2) ^ (m + n) * Real.sin (β / 2) ^ (m - n)
  have hX : ∀ y z : ℝ, y * Real.cos (β / 2) ^ (m + n) * Real.sin (β / 2) ^ (m - n) * z = y * X * z := by
    intro y z; ring
  rw [hX, hX, hX]
  clear_value X R ρ1 q0 q1 q2
  clear hX hsq q t t1 ew ev eb e1 e2 hr
  generalize (4 * ((m:ℝ) + N + 2) - 2) * (2 * (m + N + 2) * (2 * (m + N + 2) - 2) * Real.cos β - 4 * m * n) = U at key ⊢
  generalize 2 * ((m:ℝ) + N + 2) - 2 = D at key hl ⊢
  have hD := hl.ne'
  have hρ := hpos.ne'
  field_simp
  linear_combination (4 * ρ1 * X * R) * key

/-- Any representation of the recurrence by reals follows the explicit sum. -/
theorem recD_val {α : Type} (φ : α → ℝ) (seed : ℕ → ℕ → α) (second : ℕ → ℕ → α → α)
    (comb : ℕ → ℕ → ℕ → α → α → α) (β : ℝ) {m n : ℕ} (h : n ≤ m)
    (h0 : φ (seed m n) = WW β m n 0)
    (h1 : φ (second m n (seed m n)) = sec m n * ((2 * m + 2) * Real.cos β - 2 * n) * φ (seed m n))
    (h2 : ∀ l d1 d2, 1 ≤ l → φ (comb l m n d1 d2) =
      (4 * l - 2) * (2 * l * (2 * l - 2) * Real.cos β - 4 * m * n) * wC l m n * φ d1 - bC l m n * φ d2) :
    ∀ d, φ (recD seed second comb m n d) = WW β m n d ∧ φ (recD seed second comb m n (d + 1)) = WW β m n (d + 1) := by
  intro d
  induction d with
  | zero => exact ⟨h0, by rw [recD, h1, h0, WW_one β h]⟩
  | succ d ih =>
    refine ⟨ih.2, ?_⟩
    rw [recD, h2 _ _ _ (by omega), ih.1, ih.2, ← WW_rec β h d]

theorem WW_spec (β : ℝ) {m n : ℕ} (h : n ≤ m) (N : ℕ) : WW β m n N = wignerD (m + N) n m β := by
  have hs : Real.sqrt (((N + 2 * m).factorial : ℝ) * N.factorial * (N + (m - n)).factorial * (N + (m + n)).factorial) =
      Real.sqrt (zfact ((m + N : ℕ) + n) * zfact ((m + N : ℕ) - n) * zfact ((m + N : ℕ) + m) * zfact ((m + N : ℕ) - m)) := by
    unfold zfact
    rw [show (((m + N : ℕ) : ℤ) + n).toNat = N + (m + n) by omega, show (((m + N : ℕ) : ℤ) - n).toNat = N + (m - n) by omega,
      show (((m + N : ℕ) : ℤ) + m).toNat = N + 2 * m by omega, show (((m + N : ℕ) : ℤ) - m).toNat = N by omega]
    congr 1; ring
  rw [WW, hs, wignerD, mul_assoc, mul_assoc]
  congr 1
  rw [QJ, RJ, Finset.mul_sum, Finset.mul_sum]
  apply Finset.sum_nbij' (fun p : ℕ × ℕ => (p.2 : ℤ) + (m - n)) (fun s : ℤ => ((((m + N : ℕ) : ℤ) - n - s).toNat, (s - (m - n)).toNat))
  · intro p hp
    rw [mem_antidiagonal] at hp
    rw [Finset.mem_Icc]; omega
  · intro s hs
    rw [Finset.mem_Icc] at hs
    rw [mem_antidiagonal]; simp only; omega
  · intro p hp
    rw [mem_antidiagonal] at hp
    ext <;> simp only <;> omega
  · intro s hs
    rw [Finset.mem_Icc] at hs
    simp only; omega
  · intro p hp
    rw [mem_antidiagonal] at hp
    unfold zfact gj
    rw [show ((n:ℤ) - m + (p.2 + (m - n))).toNat = p.2 by omega,
      show (2 * ((m + N : ℕ):ℤ) + m - n - 2 * (p.2 + (m - n))).toNat = 2 * p.1 + (m + n) by omega,
      show ((n:ℤ) - m + 2 * (p.2 + (m - n))).toNat = 2 * p.2 + (m - n) by omega,
      show (((m + N : ℕ):ℤ) + m - (p.2 + (m - n))).toNat = p.1 + (m + n) by omega,
      show ((p.2:ℤ) + (m - n)).toNat = p.2 + (m - n) by omega,
      show (((m + N : ℕ):ℤ) - n - (p.2 + (m - n))).toNat = p.1 by omega]
    rw [neg_pow, pow_add _ (2 * p.1), pow_add _ (2 * p.2), pow_mul, pow_mul]
    field_simp

/-! ### Symmetries of the explicit sum -/

theorem sgnPow_sq (k : ℤ) : sgnPow k * sgnPow k = 1 := by unfold sgnPow; split <;> norm_num
theorem sgnPow_congr {a b : ℤ} (h : (a - b) % 2 = 0) : sgnPow a = sgnPow b := by
  unfold sgnPow
  by_cases h1 : a % 2 = 0
  · rw [if_pos h1, if_pos (by omega)]
  · rw [if_neg h1, if_neg (by omega)]
theorem sgnPow_add (a b : ℤ) : sgnPow a * sgnPow b = sgnPow (a + b) := by
  unfold sgnPow
  by_cases h1 : a % 2 = 0 <;> by_cases h2 : b % 2 = 0
  · rw [if_pos h1, if_pos h2, if_pos (by omega)]; norm_num
  · rw [if_pos h1, if_neg h2, if_neg (by omega)]; norm_num
  · rw [if_neg h1, if_pos h2, if_neg (by omega)]; norm_num
  · rw [if_neg h1, if_neg h2, if_pos (by omega)]; norm_num
theorem neg_one_pow_toNat {k : ℤ} (h : 0 ≤ k) : (-1 : ℝ) ^ k.toNat = sgnPow k := by
  unfold sgnPow
  by_cases h1 : k % 2 = 0
  · rw [if_pos h1]; exact Even.neg_one_pow (by rw [Nat.even_iff]; omega)
  · rw [if_neg h1]; exact Odd.neg_one_pow (by rw [Nat.odd_iff]; omega)

theorem wignerD_swap (l : ℕ) (m n : ℤ) (β : ℝ) : wignerD l n m β = sgnPow (m - n) * wignerD l m n β := by
  unfold wignerD
  rw [mul_left_comm, show zfact (l + n) * zfact (l - n) * zfact (l + m) * zfact (l - m) =
    zfact (l + m) * zfact (l - m) * zfact (l + n) * zfact (l - n) by ring]
  congr 1
  rw [Finset.mul_sum]
  apply Finset.sum_nbij' (fun s : ℤ => s + (n - m)) (fun s : ℤ => s - (n - m))
  · intro s hs; rw [Finset.mem_Icc] at *; omega
  · intro s hs; rw [Finset.mem_Icc] at *; omega
  · intro s _; ring
  · intro s _; ring
  · intro s hs
    rw [Finset.mem_Icc] at hs
    rw [neg_one_pow_toNat (by omega), neg_one_pow_toNat (by omega),
      show m - n + (s + (n - m)) = s by ring, show 2 * (l:ℤ) + n - m - 2 * (s + (n - m)) = 2 * l + m - n - 2 * s by ring,
      show m - n + 2 * (s + (n - m)) = n - m + 2 * s by ring, show (l:ℤ) + n - (s + (n - m)) = l + m - s by ring,
      show (l:ℤ) - m - (s + (n - m)) = l - n - s by ring, show s + (n - m) = n - m + s by ring,
      mul_div_assoc', ← mul_assoc, ← mul_assoc, sgnPow_add, sgnPow_congr (a := m - n + s) (b := n - m + s) (by omega)]
    congr 1
    ring

theorem wignerD_neg (l : ℕ) (m n : ℤ) (β : ℝ) : wignerD l (-m) (-n) β = wignerD l n m β := by
  unfold wignerD
  rw [show zfact (l + -m) * zfact (l - -m) * zfact (l + -n) * zfact (l - -n) =
    zfact (l + n) * zfact (l - n) * zfact (l + m) * zfact (l - m) by
      rw [sub_neg_eq_add, sub_neg_eq_add, ← sub_eq_add_neg, ← sub_eq_add_neg]; ring]
  congr 1
  apply Finset.sum_nbij' (fun s : ℤ => s) (fun s : ℤ => s)
  · intro s hs; rw [Finset.mem_Icc] at *; omega
  · intro s hs; rw [Finset.mem_Icc] at *; omega
  · intro s _; rfl
  · intro s _; rfl
  · intro s hs
    rw [show -m - -n + s = n - m + s by ring, show 2 * (l:ℤ) + -n - -m - 2 * s = 2 * l + m - n - 2 * s by ring,
      show -m - -n + 2 * s = n - m + 2 * s by ring, show (l:ℤ) + -n - s = l - n - s by ring,
      show (l:ℤ) - -m - s = l + m - s by ring]
    congr 1
    ring

theorem wignerD_half_neg (l : ℕ) (m n : ℤ) :
    wignerD l m (-n) (Real.pi / 2) = sgnPow (l + m) * wignerD l m n (Real.pi / 2) := by
  unfold wignerD
  rw [mul_left_comm, show zfact (l + m) * zfact (l - m) * zfact (l + -n) * zfact (l - -n) =
    zfact (l + m) * zfact (l - m) * zfact (l + n) * zfact (l - n) by
      rw [sub_neg_eq_add, ← sub_eq_add_neg]; ring]
  congr 1
  rw [Finset.mul_sum]
  apply Finset.sum_nbij' (fun s : ℤ => l - m - s) (fun s : ℤ => l - m - s)
  · intro s hs; rw [Finset.mem_Icc] at *; omega
  · intro s hs; rw [Finset.mem_Icc] at *; omega
  · intro s _; ring
  · intro s _; ring
  · intro s hs
    rw [Finset.mem_Icc] at hs
    have hcs : ∀ a b c d : ℤ, 0 ≤ a → 0 ≤ b → 0 ≤ c → 0 ≤ d → a + b = c + d →
        Real.cos (Real.pi / 2 / 2) ^ a.toNat * Real.sin (Real.pi / 2 / 2) ^ b.toNat =
        Real.cos (Real.pi / 2 / 2) ^ c.toNat * Real.sin (Real.pi / 2 / 2) ^ d.toNat := by
      intro a b c d ha hb hc hd he
      rw [cos_quarter, sin_quarter, ← pow_add, ← pow_add]
      congr 1
      omega
    have c := hcs (2 * l + -n - m - 2 * s) (m - -n + 2 * s) (2 * l + n - m - 2 * (l - m - s)) (m - n + 2 * (l - m - s))
        (by omega) (by omega) (by omega) (by omega) (by ring)
    have sg : sgnPow (m - -n + s) = sgnPow (l + m) * sgnPow (m - n + (l - m - s)) := by
      rw [sgnPow_add]; exact sgnPow_congr (by omega)
    rw [neg_one_pow_toNat (by omega), neg_one_pow_toNat (by omega), mul_assoc (sgnPow (m - -n + s)), c, sg,
      show (l:ℤ) + -n - s = m - n + (l - m - s) by ring, show m - -n + s = l + n - (l - m - s) by ring,
      show (l:ℤ) - m - (l - m - s) = s by ring]
    ring

end Verif.Wigner
