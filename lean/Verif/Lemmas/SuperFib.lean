import Verif.Lemmas.Golden
import Mathlib.NumberTheory.DiophantineApproximation.Basic
import Mathlib.NumberTheory.Real.Irrational
import Mathlib.Topology.Algebra.Order.Floor
import Mathlib.Tactic.NormNum.GCD
/-! Counting the points of `so3_fibonacci` in a box. -/
namespace Verif.SuperFib
open Verif.Golden

/-- digits of the second constant of `so3_fibonacci` -/
def P : ℕ := 1533751168755204288118041
def M : ℕ := 500000000000000000000000

theorem P_pos : 0 < P := by unfold P; norm_num

/-- The second angle takes `P` values. -/
def jj (i : ℕ) : ℕ := (2 * i + 1) * M % P

theorem residue (j : ℕ) (hj : j < P) : ∃ r < P, ∀ i, jj i = j ↔ i % P = r := by
  refine ⟨((j + (P - M)) * 226868701855133197975393) % P, Nat.mod_lt _ P_pos, fun i => ?_⟩
  have e1 : jj i = j ↔ (P : ℤ) ∣ (2 * i + 1) * M - j := by
    rw [← Int.modEq_iff_dvd, Int.modEq_comm]
    unfold jj
    constructor
    · intro h
      have : ((2 * i + 1) * M) ≡ j [MOD P] := by rw [Nat.ModEq, h, Nat.mod_eq_of_lt hj]
      exact_mod_cast (Int.natCast_modEq_iff.mpr this)
    · intro h
      have : ((2 * i + 1) * M) ≡ j [MOD P] := Int.natCast_modEq_iff.mp (by exact_mod_cast h)
      rw [Nat.ModEq, Nat.mod_eq_of_lt hj] at this
      exact this
  have e2 : i % P = ((j + (P - M)) * 226868701855133197975393) % P ↔ (P : ℤ) ∣ i - (j + (P - M)) * 226868701855133197975393 := by
    rw [← Int.modEq_iff_dvd, Int.modEq_comm]
    have hPM : ((P - M : ℕ) : ℤ) = P - M := by rw [Nat.cast_sub]; unfold P M; norm_num
    constructor
    · intro h
      have : i ≡ (j + (P - M)) * 226868701855133197975393 [MOD P] := h
      have := Int.natCast_modEq_iff.mpr this
      push_cast [hPM] at this
      exact this
    · intro h
      have : i ≡ (j + (P - M)) * 226868701855133197975393 [MOD P] := Int.natCast_modEq_iff.mp (by push_cast [hPM]; exact h)
      exact this
  rw [e1, e2]
  obtain ⟨t, ht⟩ : ∃ t : ℤ, (10 ^ 24 : ℤ) * 226868701855133197975393 = P * t + 1 :=
    ⟨((10 ^ 24 * 226868701855133197975393 - 1) / 1533751168755204288118041 : ℤ), by unfold P; norm_num⟩
  have hM : (2 * M : ℤ) = 10 ^ 24 := by unfold M; norm_num
  constructor
  · rintro ⟨s, hs⟩
    refine ⟨s * 226868701855133197975393 - i * t - 226868701855133197975393, ?_⟩
    linear_combination 226868701855133197975393 * hs - i * ht - 226868701855133197975393 * i * hM
  · rintro ⟨s, hs⟩
    refine ⟨10 ^ 24 * s + 1 + (j + P - M) * t, ?_⟩
    linear_combination 10 ^ 24 * hs + (j + P - M) * ht + i * hM

/-- Rational approximations with large denominators. -/
theorem approx {ξ : ℝ} (h : Irrational ξ) (Q : ℕ) : ∃ (p : ℤ) (q : ℕ), Q ≤ q ∧ 0 < q ∧ IsCoprime p (q : ℤ) ∧ |q * ξ - p| ≤ 1 / q := by
  have hD : Irrational ((Q.factorial : ℕ) * ξ) := h.natCast_mul (Nat.factorial_ne_zero _)
  set D : ℕ := Q.factorial with hDdef
  have h0 : 0 < |(D : ℝ) * ξ - round ((D : ℝ) * ξ)| := abs_pos.mpr (sub_ne_zero.mpr (hD.ne_int _))
  obtain ⟨n, hn⟩ := exists_nat_gt ((D : ℝ) / |(D : ℝ) * ξ - round ((D : ℝ) * ξ)|)
  have hn0 : 0 < n := by
    have : (0 : ℝ) < n := lt_of_le_of_lt (by positivity) hn
    exact_mod_cast this
  obtain ⟨r, hr, hle⟩ := Real.exists_rat_abs_sub_le_and_den_le ξ hn0
  have hd0 : (0 : ℝ) < r.den := by exact_mod_cast r.den_pos
  have e : r.den * ξ - r.num = r.den * (ξ - r) := by
    have hr' : (r : ℝ) * r.den = r.num := by exact_mod_cast Rat.mul_den_eq_num r
    rw [mul_sub, ← hr']; ring
  have hb : |r.den * ξ - r.num| ≤ 1 / (n + 1) := by
    rw [e, abs_mul, abs_of_pos hd0]
    refine (mul_le_mul_of_nonneg_left hr hd0.le).trans_eq ?_
    field_simp
  refine ⟨r.num, r.den, ?_, r.den_pos, ?_, ?_⟩
  · by_contra hc
    have hc' : r.den ≤ Q := (not_le.mp hc).le
    obtain ⟨k, hk⟩ : r.den ∣ D := Nat.dvd_factorial r.den_pos hc'
    have h1 := round_le ((D : ℝ) * ξ) (k * r.num)
    have h2 : (D : ℝ) * ξ - ((k * r.num : ℤ) : ℝ) = k * (r.den * ξ - r.num) := by rw [hk]; push_cast; ring
    rw [h2, abs_mul, abs_of_nonneg (by positivity : (0 : ℝ) ≤ k)] at h1
    have hkD : (k : ℝ) ≤ D := by
      rw [hk]; push_cast
      have : (1 : ℝ) ≤ r.den := by exact_mod_cast r.den_pos
      nlinarith [(by positivity : (0 : ℝ) ≤ k)]
    have h3 : (k : ℝ) * |r.den * ξ - r.num| ≤ D * (1 / (n + 1)) := by gcongr
    rw [div_lt_iff₀ h0] at hn
    have h4 : (D : ℝ) * (1 / (n + 1)) < |(D : ℝ) * ξ - round ((D : ℝ) * ξ)| := by
      rw [mul_one_div, div_lt_iff₀ (by positivity)]
      nlinarith
    linarith
  · have := r.reduced
    exact (Int.isCoprime_iff_gcd_eq_one).mpr (by simpa [Int.gcd, Nat.Coprime] using this)
  · refine hb.trans ?_
    apply one_div_le_one_div_of_le hd0
    have : (r.den : ℝ) ≤ n := by exact_mod_cast hle
    linarith

/-- members of the residue class up to a share of the range -/
noncomputable def below (n r : ℕ) (b : ℝ) : ℕ := ⌈(b * n - 1 / 2 - r) / P⌉₊

theorem mem_below {n r : ℕ} (hn : 0 < n) (b : ℝ) (k : ℕ) : k < below n r b ↔ ((r + P * k : ℕ) + 1 / 2 : ℝ) / n < b := by
  have hP : (0 : ℝ) < P := by exact_mod_cast P_pos
  have hn' : (0 : ℝ) < n := by exact_mod_cast hn
  unfold below
  rw [Nat.lt_ceil, lt_div_iff₀ hP, div_lt_iff₀ hn']
  push_cast
  constructor <;> intro h <;> linarith

theorem below_near {n r : ℕ} (hr : r < P) {b : ℝ} (h0 : 0 ≤ b) : |(below n r b : ℝ) - b * n / P| ≤ 2 := by
  have hP : (0 : ℝ) < P := by exact_mod_cast P_pos
  have hr' : (r : ℝ) + 1 ≤ P := by exact_mod_cast hr
  have hr0 : (0 : ℝ) ≤ r := by positivity
  have hbn : 0 ≤ b * n / P := by positivity
  have e : (b * n - 1 / 2 - r) / P = b * n / P - (1 / 2 + r) / P := by ring
  have h1 : (1 / 2 + r) / (P : ℝ) ≤ 1 := by rw [div_le_one hP]; linarith
  have h2 : 0 ≤ (1 / 2 + r) / (P : ℝ) := by positivity
  unfold below
  rw [e]
  have h3 := Nat.le_ceil (b * n / P - (1 / 2 + r) / P)
  rw [abs_le]
  constructor
  · linarith
  · rcases le_or_gt 0 (b * n / P - (1 / 2 + r) / P) with h | h
    · have := Nat.ceil_lt_add_one h; linarith
    · rw [Nat.ceil_eq_zero.mpr h.le]; push_cast; linarith

/-- Indices of the points in a box. -/
noncomputable def inBox (n : ℕ) (a b c d : ℝ) (j : ℕ) : Finset ℕ :=
  (Finset.range n).filter fun i : ℕ => (a ≤ ((i : ℝ) + 1 / 2) / n ∧ ((i : ℝ) + 1 / 2) / n < b) ∧
    (c ≤ Int.fract (((i : ℝ) + 1 / 2) / √2) ∧ Int.fract (((i : ℝ) + 1 / 2) / √2) < d) ∧ jj i = j

theorem inBox_card {n : ℕ} (hn : 0 < n) {a b c d : ℝ} (hab : a ≤ b) (hb : b ≤ 1) {j r : ℕ} (hrP : r < P) (hr : ∀ i, jj i = j ↔ i % P = r) :
    ((inBox n a b c d j).card : ℝ) = cnt (P / √2) c d ((r + 1 / 2) / √2) (below n r b) - cnt (P / √2) c d ((r + 1 / 2) / √2) (below n r a) := by
  have hle : below n r a ≤ below n r b := by
    by_contra h
    have h1 := (mem_below hn a _).mp (not_le.mp h)
    have h2 := (mem_below hn b _).mpr (h1.trans_le hab)
    exact lt_irrefl _ h2
  have e1 : inBox n a b c d j = ((Finset.Ico (below n r a) (below n r b)).filter fun k : ℕ =>
      c ≤ Int.fract ((r + 1 / 2) / √2 + k * (P / √2)) ∧ Int.fract ((r + 1 / 2) / √2 + k * (P / √2)) < d).image fun k => r + P * k := by
    have ef : ∀ k : ℕ, (((r + P * k : ℕ) : ℝ) + 1 / 2) / √2 = (r + 1 / 2) / √2 + k * (P / √2) := fun k => by push_cast; ring
    ext i
    unfold inBox
    simp only [Finset.mem_filter, Finset.mem_range, Finset.mem_image, Finset.mem_Ico]
    constructor
    · rintro ⟨h1, ⟨h2, h3⟩, h4, h5⟩
      have hi : r + P * (i / P) = i := by
        have := Nat.mod_add_div i P
        rw [(hr i).mp h5] at this
        exact this
      refine ⟨i / P, ⟨⟨?_, ?_⟩, ?_⟩, hi⟩
      · by_contra hc
        have := (mem_below hn a _).mp (not_le.mp hc)
        rw [hi] at this
        exact absurd this (not_lt.mpr h2)
      · rw [mem_below hn, hi]; exact h3
      · rw [← ef, hi]; exact h4
    · rintro ⟨k, ⟨⟨h1, h2⟩, h3⟩, rfl⟩
      have h2' := (mem_below hn b _).mp h2
      refine ⟨?_, ⟨?_, h2'⟩, ?_, ?_⟩
      · have hn' : (0 : ℝ) < n := by exact_mod_cast hn
        have := h2'.trans_le hb
        rw [div_lt_one hn'] at this
        have h3 : ((r + P * k : ℕ) : ℝ) < n := by linarith
        exact_mod_cast h3
      · by_contra hc
        have := (mem_below (r := r) hn a k).mpr (not_le.mp hc)
        omega
      · rw [ef]; exact h3
      · rw [hr, Nat.add_mul_mod_self_left, Nat.mod_eq_of_lt hrP]
  rw [e1, Finset.card_image_of_injective _ (fun x y h => by
    have : P * x = P * y := by simpa using h
    exact Nat.eq_of_mul_eq_mul_left P_pos this)]
  unfold cnt
  have hs : Finset.range (below n r b) = Finset.range (below n r a) ∪ Finset.Ico (below n r a) (below n r b) := by
    ext k; simp only [Finset.mem_range, Finset.mem_union, Finset.mem_Ico]; omega
  have hd : Disjoint (Finset.range (below n r a)) (Finset.Ico (below n r a) (below n r b)) := by
    rw [Finset.disjoint_left]; intro k h1 h2
    simp only [Finset.mem_range, Finset.mem_Ico] at h1 h2; omega
  rw [hs, Finset.filter_union, Finset.card_union_of_disjoint (Finset.disjoint_filter_filter hd)]
  push_cast
  ring

/-- A box gets its share of the points in the limit. -/
theorem box_count {a b c d : ℝ} (ha : 0 ≤ a) (hab : a ≤ b) (hb : b ≤ 1) (hc : 0 ≤ c) (hcd : c ≤ d) (hd : d ≤ 1) {j : ℕ} (hj : j < P) {ε : ℝ} (hε : 0 < ε) :
    ∀ᶠ n : ℕ in Filter.atTop, |((inBox n a b c d j).card : ℝ) - n * ((b - a) * (d - c) / P)| ≤ ε * n := by
  have hP : (0 : ℝ) < P := by exact_mod_cast P_pos
  have hP1 : (1 : ℝ) ≤ P := by exact_mod_cast P_pos
  obtain ⟨r, hrP, hr⟩ := residue j hj
  have hirr : Irrational ((P : ℝ) / √2) := irrational_sqrt_two.natCast_div P_pos.ne'
  obtain ⟨Q, hQ⟩ := exists_nat_gt (48 / ε)
  obtain ⟨p, q, hq, hq0, hco, hap⟩ := approx hirr Q
  have hq0' : (0 : ℝ) < q := by exact_mod_cast hq0
  have hqQ : (Q : ℝ) ≤ q := by exact_mod_cast hq
  have hqe : 24 / q ≤ ε / 2 := by
    rw [div_le_iff₀ hq0']
    rw [div_lt_iff₀ hε] at hQ
    nlinarith
  obtain ⟨n0, hn0⟩ := exists_nat_gt ((2 * (24 / q + q) + 4) / (ε / 2))
  filter_upwards [Filter.eventually_gt_atTop 0, Filter.eventually_ge_atTop n0] with n hn hge
  have hn' : (0 : ℝ) < n := by exact_mod_cast hn
  have hge' : (n0 : ℝ) ≤ n := by exact_mod_cast hge
  rw [inBox_card hn hab hb hrP hr]
  have key := blocks (c := c) (d := d) hq0 hco hap hc hcd hd
  have k1 := key (below n r b) ((r + 1 / 2) / √2)
  have k2 := key (below n r a) ((r + 1 / 2) / √2)
  have b1 := below_near (n := n) hrP (ha.trans hab)
  have b2 := below_near (n := n) hrP ha
  generalize (cnt _ c d _ (below n r b) : ℝ) = x at *
  generalize (cnt _ c d _ (below n r a) : ℝ) = y at *
  generalize (below n r b : ℝ) = u at *
  generalize (below n r a : ℝ) = v at *
  have up : ∀ t : ℝ, 0 ≤ t → t ≤ 1 → ∀ w : ℝ, |w - t * n / P| ≤ 2 → 12 * (w / q) ≤ 12 * (n / q) + 24 / q := by
    intro t t0 t1 w hw
    have h1 := (abs_le.mp hw).2
    have h2 : t * n / P ≤ n := by rw [div_le_iff₀ hP]; nlinarith
    have h3 : w ≤ n + 2 := by linarith
    have h4 : w / q ≤ (n + 2) / q := by gcongr
    calc 12 * (w / q) ≤ 12 * ((n + 2) / q) := by linarith
      _ = _ := by ring
  have u1 := up b (ha.trans hab) hb u b1
  have u2 := up a ha (hab.trans hb) v b2
  have e : x - y - n * ((b - a) * (d - c) / P) = (x - u * (d - c)) - (y - v * (d - c)) + ((u - b * n / P) - (v - a * n / P)) * (d - c) := by ring
  have hdc : |d - c| ≤ 1 := by rw [abs_le]; constructor <;> linarith
  have t1 : |((u - b * n / P) - (v - a * n / P)) * (d - c)| ≤ 4 := by
    rw [abs_mul]
    have := abs_sub (u - b * n / P) (v - a * n / P)
    calc _ ≤ 4 * 1 := mul_le_mul (by linarith) hdc (abs_nonneg _) (by norm_num)
      _ = 4 := by norm_num
  have t2 := abs_sub (x - u * (d - c)) (y - v * (d - c))
  have t3 := abs_add_le ((x - u * (d - c)) - (y - v * (d - c))) (((u - b * n / P) - (v - a * n / P)) * (d - c))
  rw [e]
  have hfin : 2 * (24 / q + q) + 4 ≤ ε / 2 * n := by
    rw [div_lt_iff₀ (by linarith)] at hn0
    nlinarith
  have hnq : 24 * ((n : ℝ) / q) ≤ ε / 2 * n := by
    calc 24 * ((n : ℝ) / q) = 24 / q * n := by ring
      _ ≤ ε / 2 * n := by gcongr
  linarith

end Verif.SuperFib
