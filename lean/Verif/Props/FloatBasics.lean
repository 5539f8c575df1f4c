import Mathlib.Algebra.Order.Archimedean.Real.Basic
import Mathlib.Algebra.Order.Round
import Mathlib.Data.Int.Log
import Mathlib.Tactic.Linarith
import Mathlib.Tactic.Positivity
import Mathlib.Tactic.NormNum
import Mathlib.Tactic.FieldSimp
import Mathlib.Tactic.Ring
import Verif.Spec.Float
/-! Rounding to nearest exists, is monotone, and has a relative error of at most `2^-p`. -/
namespace Verif.Spec

theorem Rep.neg {p : ℕ} {x : ℝ} (h : Rep p x) : Rep p (-x) := by
  obtain ⟨m, e, hm, rfl⟩ := h
  exact ⟨-m, e, by rwa [abs_neg], by push_cast; ring⟩

theorem Rep.zero (p : ℕ) : Rep p 0 := ⟨0, 0, by simp, by simp⟩

theorem Rep.one {p : ℕ} (hp : 0 < p) : Rep p 1 := ⟨1, 0, by
  have : (2 : ℤ) ^ 1 ≤ 2 ^ p := pow_le_pow_right₀ (by norm_num) hp
  rw [abs_one]; linarith, by simp⟩

/-- the spacing of the floating-point numbers around `x`: `2^(e - p + 1)` for `2^e ≤ |x| < 2^(e+1)` -/
noncomputable def ulp (p : ℕ) (x : ℝ) : ℝ := (2 : ℝ) ^ (Int.log 2 |x| - p + 1)

/-- rounding to nearest, constructed -/
noncomputable def rnd (p : ℕ) (x : ℝ) : ℝ := round (x / ulp p x) * ulp p x

theorem ulp_pos (p : ℕ) (x : ℝ) : 0 < ulp p x := by unfold ulp; exact zpow_pos (by norm_num) _

theorem binade {x : ℝ} (hx : x ≠ 0) : (2 : ℝ) ^ Int.log 2 |x| ≤ |x| ∧ |x| < (2 : ℝ) ^ (Int.log 2 |x| + 1) := by
  have h := abs_pos.mpr hx
  have h1 := Int.zpow_log_le_self (b := 2) (by norm_num) h
  have h2 := Int.lt_zpow_succ_log_self (b := 2) (by norm_num) |x|
  exact ⟨by exact_mod_cast h1, by exact_mod_cast h2⟩

theorem ulp_le {p : ℕ} {x : ℝ} (hx : x ≠ 0) : ulp p x * 2 ^ p ≤ 2 * |x| ∧ |x| < ulp p x * 2 ^ p := by
  obtain ⟨h1, h2⟩ := binade hx
  have e : ulp p x * 2 ^ p = 2 * 2 ^ Int.log 2 |x| := by
    unfold ulp
    rw [zpow_add₀ (by norm_num), zpow_sub₀ (by norm_num), zpow_natCast, zpow_one]
    field_simp
  rw [zpow_add₀ (by norm_num), zpow_one] at h2
  rw [e]
  constructor <;> linarith

theorem rnd_err (p : ℕ) (x : ℝ) : |rnd p x - x| ≤ ulp p x / 2 := by
  have hu := ulp_pos p x
  have h := abs_sub_round (x / ulp p x)
  have e : rnd p x - x = -(x / ulp p x - round (x / ulp p x)) * ulp p x := by
    unfold rnd; field_simp; ring
  rw [e, abs_mul, abs_neg, abs_of_pos hu]
  nlinarith

theorem rnd_rep {p : ℕ} (hp : 0 < p) (x : ℝ) : Rep p (rnd p x) := by
  by_cases hx : x = 0
  · subst hx; simpa [rnd] using Rep.zero p
  have hu := ulp_pos p x
  obtain ⟨-, h2⟩ := ulp_le (p := p) hx
  have hlt : |x / ulp p x| < 2 ^ p := by
    rw [abs_div, abs_of_pos hu, div_lt_iff₀ hu]; linarith
  have hle : |round (x / ulp p x)| ≤ (2 : ℤ) ^ p := by
    rw [abs_lt] at hlt
    rw [abs_le]
    constructor
    · have : ((-(2 ^ p) : ℤ) : ℝ) ≤ x / ulp p x := by push_cast; linarith
      rw [round_eq, Int.le_floor]
      linarith
    · have : x / ulp p x ≤ ((2 ^ p : ℤ) : ℝ) := by push_cast; linarith
      rw [round_eq, ← Int.lt_add_one_iff, Int.floor_lt]
      push_cast at this ⊢
      linarith
  rcases hle.lt_or_eq with h | h
  · exact ⟨_, _, h, rfl⟩
  · obtain ⟨k, rfl⟩ := Nat.exists_eq_add_of_lt hp
    have hk : (0 + k + 1) = k + 1 := by ring
    rw [hk] at h ⊢
    have hpk : (2 : ℤ) ^ k < 2 ^ (k + 1) := by
      have : (0 : ℤ) < 2 ^ k := by positivity
      rw [pow_succ]; linarith
    have habs : |(2 : ℤ) ^ k| < 2 ^ (k + 1) := by rwa [abs_of_pos (by positivity)]
    rcases (abs_eq (by positivity)).mp h with h' | h'
    · refine ⟨2 ^ k, Int.log 2 |x| - (k + 1 : ℕ) + 1 + 1, habs, ?_⟩
      unfold rnd
      rw [h', zpow_add₀ (by norm_num : (2 : ℝ) ≠ 0) _ 1]
      unfold ulp
      push_cast
      rw [pow_succ]; ring
    · refine ⟨-2 ^ k, Int.log 2 |x| - (k + 1 : ℕ) + 1 + 1, by rwa [abs_neg], ?_⟩
      unfold rnd
      rw [h', zpow_add₀ (by norm_num : (2 : ℝ) ≠ 0) _ 1]
      unfold ulp
      push_cast
      rw [pow_succ]; ring

/-- every floating-point number of at least the size of the binade of `x` is a multiple of the spacing at `x` -/
theorem multiple_of_large {p : ℕ} {y : ℝ} {k : ℤ} (hy : Rep p y) (h : (2 : ℝ) ^ (k - 1) * 2 ^ p ≤ |y|) :
    ∃ n : ℤ, y = n * (2 : ℝ) ^ k := by
  obtain ⟨m, e, hm, rfl⟩ := hy
  have h2 : (0 : ℝ) < 2 ^ e := zpow_pos (by norm_num) _
  have hm' : |(m : ℝ)| < 2 ^ p := by exact_mod_cast hm
  have he : (2 : ℝ) ^ (k - 1) < 2 ^ e := by
    rw [abs_mul, abs_of_pos h2] at h
    have h3 : |(m : ℝ)| * 2 ^ e < 2 ^ p * 2 ^ e := mul_lt_mul_of_pos_right hm' h2
    have : (2 : ℝ) ^ (k - 1) * 2 ^ p < 2 ^ e * 2 ^ p := by linarith
    exact lt_of_mul_lt_mul_right this (by positivity)
  have hk : k ≤ e := by
    have := (zpow_lt_zpow_iff_right₀ (by norm_num : (1 : ℝ) < 2)).mp he
    omega
  obtain ⟨d, rfl⟩ := Int.le.dest hk
  refine ⟨m * 2 ^ d, ?_⟩
  rw [zpow_add₀ (by norm_num), zpow_natCast]
  push_cast; ring

theorem rnd_nearest {p : ℕ} (hp : 0 < p) : Nearest p (rnd p) := by
  refine ⟨rnd_rep hp, fun x y hy => ?_⟩
  by_cases hx : x = 0
  · subst hx; simp [rnd]
  have hu := ulp_pos p x
  obtain ⟨h1, h2⟩ := binade hx
  have key : ∀ n : ℤ, |rnd p x - x| ≤ |n * ulp p x - x| := by
    intro n
    have h := round_le (x / ulp p x) n
    have e1 : rnd p x - x = -(x / ulp p x - round (x / ulp p x)) * ulp p x := by
      unfold rnd; field_simp; ring
    have e2 : n * ulp p x - x = -(x / ulp p x - n) * ulp p x := by
      field_simp; ring
    rw [e1, e2, abs_mul, abs_mul, abs_neg, abs_neg]
    exact mul_le_mul_of_nonneg_right h (abs_nonneg _)
  have e0 : (2 : ℝ) ^ (Int.log 2 |x|) = ((2 ^ (p - 1) : ℤ) : ℝ) * ulp p x := by
    unfold ulp
    push_cast
    rw [← zpow_natCast, ← zpow_add₀ (by norm_num)]
    congr 1
    omega
  by_cases hl : (2 : ℝ) ^ Int.log 2 |x| ≤ |y|
  · obtain ⟨n, hn⟩ := multiple_of_large (k := Int.log 2 |x| - p + 1) hy (by
      have : (2 : ℝ) ^ (Int.log 2 |x| - p + 1 - 1) * 2 ^ p = 2 ^ Int.log 2 |x| := by
        rw [← zpow_natCast, ← zpow_add₀ (by norm_num)]
        congr 1; ring
      rwa [this])
    rw [hn]; exact key n
  · push Not at hl
    rcases lt_or_gt_of_ne hx with hneg | hpos
    · rw [abs_of_neg hneg] at h1 hl e0
      refine (key (-(2 ^ (p - 1)))).trans ?_
      rw [Int.cast_neg, neg_mul, ← e0]
      rw [abs_of_nonneg (by linarith)]
      have := neg_abs_le y
      rw [abs_of_nonneg (by linarith)]
      linarith
    · rw [abs_of_pos hpos] at h1 hl e0
      refine (key (2 ^ (p - 1))).trans ?_
      rw [← e0, abs_of_nonpos (by linarith)]
      have := le_abs_self y
      rw [abs_of_nonpos (by linarith)]
      linarith

namespace Nearest
variable {p : ℕ} {fl : ℝ → ℝ}

theorem err (h : Nearest p fl) (hp : 0 < p) (x : ℝ) : |fl x - x| ≤ (2 ^ p)⁻¹ * |x| := by
  refine (h.near x _ (rnd_rep hp x)).trans ?_
  by_cases hx : x = 0
  · subst hx; simp [rnd]
  refine (rnd_err p x).trans ?_
  have := (ulp_le (p := p) hx).1
  have h2 : (0 : ℝ) < 2 ^ p := by positivity
  rw [inv_mul_eq_div, div_le_div_iff₀ (by norm_num) h2]
  linarith

theorem of_rep (h : Nearest p fl) {x : ℝ} (hx : Rep p x) : fl x = x := by
  have := h.near x x hx
  rw [sub_self, abs_zero] at this
  exact sub_eq_zero.mp (abs_nonpos_iff.mp this)

theorem zero (h : Nearest p fl) : fl 0 = 0 := h.of_rep (Rep.zero p)
theorem one (h : Nearest p fl) (hp : 0 < p) : fl 1 = 1 := h.of_rep (Rep.one hp)

/-- rounding is monotone -/
theorem mono (h : Nearest p fl) : Monotone fl := by
  intro x y hxy
  by_contra hc
  push Not at hc
  have h1 := h.near x _ (h.rep y)
  have h2 := h.near y _ (h.rep x)
  rcases eq_or_lt_of_le hxy with rfl | hlt
  · exact lt_irrefl _ hc
  rcases abs_cases (fl x - x) with ⟨a1, b1⟩ | ⟨a1, b1⟩ <;> rcases abs_cases (fl y - x) with ⟨a2, b2⟩ | ⟨a2, b2⟩ <;>
    rcases abs_cases (fl y - y) with ⟨a3, b3⟩ | ⟨a3, b3⟩ <;> rcases abs_cases (fl x - y) with ⟨a4, b4⟩ | ⟨a4, b4⟩ <;>
    rw [a1, a2] at h1 <;> rw [a3, a4] at h2 <;> linarith

/-- evaluation of a rounding that is no tie -/
theorem eval (h : Nearest p fl) {x : ℝ} {m e : ℤ} (h1 : 2 ^ p < 2 * |m|) (h2 : |m| < 2 ^ p)
    (hx : |x - m * (2 : ℝ) ^ e| < (2 : ℝ) ^ e / 2) : fl x = m * (2 : ℝ) ^ e := by
  have he : (0 : ℝ) < 2 ^ e := zpow_pos (by norm_num) _
  have hn := h.near x _ ⟨m, e, h2, rfl⟩
  rw [abs_sub_comm] at hx
  have hd : |fl x - m * (2 : ℝ) ^ e| < 2 ^ e := by
    have := abs_sub_le (fl x) x (m * (2 : ℝ) ^ e)
    rw [abs_sub_comm x] at this
    linarith
  have hm : (2 : ℝ) ^ p + 1 ≤ 2 * |(m : ℝ)| := by exact_mod_cast h1
  have hp1 : (2 : ℝ) ^ p + 2 ≤ 2 * |(m : ℝ)| ∨ p = 0 := by
    rcases Nat.eq_zero_or_pos p with h0 | h0
    · exact Or.inr h0
    · left
      obtain ⟨k, rfl⟩ := Nat.exists_eq_add_of_lt h0
      have : (2 : ℤ) ^ (0 + k + 1) + 2 ≤ 2 * |m| := by
        have : (2 : ℤ) ^ (0 + k + 1) = 2 * 2 ^ k := by rw [zero_add, pow_succ]; ring
        omega
      exact_mod_cast this
  rcases hp1 with hp1 | rfl
  swap
  · simp at h2; subst h2; simp at h1
  obtain ⟨n, hn'⟩ := multiple_of_large (k := e) (h.rep x) (by
    have h3 : |(m : ℝ)| * 2 ^ e - 2 ^ e ≤ |fl x| := by
      have h4 := abs_sub_abs_le_abs_sub (m * (2 : ℝ) ^ e) (fl x)
      rw [abs_sub_comm, abs_mul, abs_of_pos he] at h4
      linarith
    have h5 : (2 : ℝ) ^ (e - 1) * 2 ^ p = 2 ^ p / 2 * 2 ^ e := by
      rw [zpow_sub₀ (by norm_num), zpow_one]; ring
    rw [h5]
    nlinarith)
  rw [hn'] at hd ⊢
  rw [← sub_mul, abs_mul, abs_of_pos he] at hd
  have h6 : |(n : ℝ) - m| < 1 := by
    by_contra hc
    push Not at hc
    nlinarith
  have h7 : |n - m| < 1 := by exact_mod_cast h6
  have : n = m := by rw [Int.abs_lt_one_iff] at h7; omega
  rw [this]

end Nearest
end Verif.Spec
