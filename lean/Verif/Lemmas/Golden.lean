import Mathlib.NumberTheory.Real.GoldenRatio
import Mathlib.Data.Int.Interval
import Mathlib.Tactic.Linarith
import Mathlib.Tactic.LinearCombination
import Mathlib.Data.Nat.Fib.Zeckendorf
import Mathlib.Analysis.Real.Sqrt
import Mathlib.Tactic.FieldSimp
import Mathlib.Tactic.Positivity
/-! Counting the multiples of a number in an arc of the circle. -/
namespace Verif.Golden
open Int

/-- Number of the first `N` points of a rotation orbit in an arc. -/
noncomputable def cnt (α c d β : ℝ) (N : ℕ) : ℕ := ((Finset.range N).filter fun j : ℕ => c ≤ fract (β + j * α) ∧ fract (β + j * α) < d).card

theorem ioo_card (lo hi : ℝ) (h : lo ≤ hi) : ((Finset.Ioo ⌊lo⌋ ⌈hi⌉).card : ℝ) ≤ hi - lo + 1 := by
  rw [Int.card_Ioo]
  have h1 := Int.ceil_lt_add_one hi
  have h2 := Int.lt_floor_add_one lo
  have h3 : (((⌈hi⌉ - ⌊lo⌋ - 1).toNat : ℤ) : ℝ) = (max (⌈hi⌉ - ⌊lo⌋ - 1) 0 : ℤ) := by rw [Int.toNat_eq_max]
  rw [show (((⌈hi⌉ - ⌊lo⌋ - 1).toNat : ℕ) : ℝ) = (((⌈hi⌉ - ⌊lo⌋ - 1).toNat : ℤ) : ℝ) by norm_cast, h3]
  push_cast
  exact max_le (by linarith) (by linarith)

theorem block_upper {α c d : ℝ} (β : ℝ) {p : ℤ} {q : ℕ} (hq : 0 < q) (hco : IsCoprime p (q : ℤ)) (ha : |q * α - p| ≤ 1 / q)
    (_hc : 0 ≤ c) (hcd : c ≤ d) (_hd : d ≤ 1) : (cnt α c d β q : ℝ) ≤ q * (d - c) + 6 := by
  have hq0 : (0 : ℝ) < q := by exact_mod_cast hq
  have hqz : (0 : ℤ) < q := by exact_mod_cast hq
  let m : ℕ → ℤ := fun j => ((j : ℤ) * p + ⌊q * β⌋) % q
  have hinj : Set.InjOn m (↑(Finset.range q)) := by
    intro a ha b hb e
    simp only [Finset.coe_range, Set.mem_Iio] at ha hb
    have e1 : (((a : ℤ) * p + ⌊q * β⌋) - ((b : ℤ) * p + ⌊q * β⌋)) % q = 0 := Int.emod_eq_emod_iff_emod_sub_eq_zero.mp e
    have e2 : (q : ℤ) ∣ ((a : ℤ) - b) * p := by
      have := Int.dvd_of_emod_eq_zero e1
      convert this using 1; ring
    have e3 : (q : ℤ) ∣ (a : ℤ) - b := hco.symm.dvd_of_dvd_mul_right e2
    obtain ⟨k, hk⟩ := e3
    have : k = 0 := by
      by_contra hk0
      rcases lt_or_gt_of_ne hk0 with h | h
      · nlinarith
      · nlinarith
    rw [this, mul_zero] at hk
    omega
  have hmap : ∀ j ∈ (Finset.range q).filter fun j : ℕ => c ≤ fract (β + j * α) ∧ fract (β + j * α) < d,
      m j ∈ Finset.Ioo ⌊q * c - 2⌋ ⌈q * d + 1⌉ ∪ {0, (q : ℤ) - 1} := by
    intro j hj
    simp only [Finset.mem_filter, Finset.mem_range] at hj
    obtain ⟨hjq, hc1, hd1⟩ := hj
    have hjr : (j : ℝ) < q := by exact_mod_cast hjq
    have hf0 := Int.fract_nonneg (β + j * α)
    have hf1 := Int.fract_lt_one (β + j * α)
    have hfl : fract (β + j * α) = β + j * α - ⌊β + j * α⌋ := rfl
    have hm0 : 0 ≤ m j := Int.emod_nonneg _ hqz.ne'
    have hm1 : m j < q := Int.emod_lt_of_pos _ hqz
    have hdm := Int.mul_ediv_add_emod ((j : ℤ) * p + ⌊q * β⌋) q
    have hb0 := Int.floor_le (q * β)
    have hb1 := Int.lt_floor_add_one (q * β)
    obtain ⟨t, ht⟩ : ∃ t, t = ((j : ℤ) * p + ⌊q * β⌋) / q := ⟨_, rfl⟩
    rw [← ht] at hdm
    change (q : ℤ) * t + m j = _ at hdm
    have hdm' : (q : ℝ) * t + (m j : ℝ) = j * p + (⌊q * β⌋ : ℝ) := by exact_mod_cast hdm
    have hk : |j * (q * α - p)| ≤ 1 := by
      rw [abs_mul, abs_of_nonneg (by positivity : (0 : ℝ) ≤ j)]
      calc (j : ℝ) * |q * α - p| ≤ q * (1 / q) := by gcongr
        _ = 1 := by field_simp
    obtain ⟨k0, k1⟩ := abs_le.mp hk
    obtain ⟨f, hf⟩ : ∃ f, f = fract (β + j * α) := ⟨_, rfl⟩
    rw [← hf] at hc1 hd1 hf0 hf1 hfl
    obtain ⟨w, hw⟩ : ∃ w : ℤ, w = t - ⌊β + j * α⌋ := ⟨_, rfl⟩
    have hw' : (w : ℝ) = t - ⌊β + j * α⌋ := by rw [hw]; push_cast; ring
    have key : q * f = m j + (q * β - ⌊q * β⌋ + j * (q * α - p)) + q * w := by
      rw [hfl, hw']
      linear_combination -hdm'
    simp only [Finset.mem_union, Finset.mem_Ioo, Finset.mem_insert, Finset.mem_singleton]
    have qf : q * c ≤ q * f := by gcongr
    have qf' : q * f < q * d := by gcongr
    have qf1 : q * f < q := by nlinarith
    have qf0 : 0 ≤ q * f := by positivity
    rcases lt_trichotomy w 0 with h | h | h
    · right; right
      have : (w : ℝ) ≤ -1 := by exact_mod_cast (by omega : w ≤ -1)
      have h3 : (q : ℝ) * w ≤ -q := by nlinarith
      have h4 : ((q : ℤ) : ℝ) - 2 < m j := by push_cast; linarith
      have h5 : (q : ℤ) - 2 < m j := by exact_mod_cast h4
      omega
    · left
      rw [h] at key
      constructor
      · rw [Int.floor_lt]; push_cast at key ⊢; linarith
      · rw [Int.lt_ceil]; push_cast at key ⊢; linarith
    · right; left
      have : (1 : ℝ) ≤ w := by exact_mod_cast (by omega : 1 ≤ w)
      have h3 : (q : ℝ) ≤ q * w := by nlinarith
      have h4 : (m j : ℝ) < 1 := by linarith
      have h5 : m j < 1 := by exact_mod_cast h4
      omega
  have hle := Finset.card_le_card_of_injOn m hmap (hinj.mono (by
    intro j hj
    exact Finset.mem_of_mem_filter j hj))
  have hu := Finset.card_union_le (Finset.Ioo ⌊q * c - 2⌋ ⌈q * d + 1⌉) {0, (q : ℤ) - 1}
  have h2 : ({0, (q : ℤ) - 1} : Finset ℤ).card ≤ 2 := Finset.card_le_two
  have hi := ioo_card (q * c - 2) (q * d + 1) (by nlinarith)
  have : (cnt α c d β q : ℝ) ≤ ((Finset.Ioo ⌊q * c - 2⌋ ⌈q * d + 1⌉).card : ℝ) + 2 := by
    unfold cnt
    exact_mod_cast hle.trans (hu.trans (by omega))
  linarith

theorem block {α c d : ℝ} (β : ℝ) {p : ℤ} {q : ℕ} (hq : 0 < q) (hco : IsCoprime p (q : ℤ)) (ha : |q * α - p| ≤ 1 / q)
    (hc : 0 ≤ c) (hcd : c ≤ d) (hd : d ≤ 1) : |(cnt α c d β q : ℝ) - q * (d - c)| ≤ 12 := by
  have h1 := block_upper β hq hco ha hc hcd hd
  have h2 := block_upper β hq hco ha le_rfl hc (hcd.trans hd)
  have h3 := block_upper β hq hco ha (hc.trans hcd) hd le_rfl
  have hs : (q : ℝ) ≤ cnt α 0 c β q + cnt α c d β q + cnt α d 1 β q := by
    have : Finset.range q ⊆ (((Finset.range q).filter fun j : ℕ => 0 ≤ fract (β + j * α) ∧ fract (β + j * α) < c) ∪
        ((Finset.range q).filter fun j : ℕ => c ≤ fract (β + j * α) ∧ fract (β + j * α) < d)) ∪
        ((Finset.range q).filter fun j : ℕ => d ≤ fract (β + j * α) ∧ fract (β + j * α) < 1) := by
      intro j hj
      simp only [Finset.mem_union, Finset.mem_filter]
      have h0 := Int.fract_nonneg (β + j * α)
      have h1 := Int.fract_lt_one (β + j * α)
      rcases lt_or_ge (fract (β + j * α)) c with h | h
      · exact Or.inl (Or.inl ⟨hj, h0, h⟩)
      · rcases lt_or_ge (fract (β + j * α)) d with h' | h'
        · exact Or.inl (Or.inr ⟨hj, h, h'⟩)
        · exact Or.inr ⟨hj, h', h1⟩
    have := (Finset.card_le_card this).trans ((Finset.card_union_le _ _).trans (Nat.add_le_add_right (Finset.card_union_le _ _) _))
    rw [Finset.card_range] at this
    unfold cnt
    exact_mod_cast this
  rw [abs_le]
  constructor <;> linarith

theorem cnt_le (α c d β : ℝ) (N : ℕ) : cnt α c d β N ≤ N := by
  unfold cnt
  exact (Finset.card_filter_le _ _).trans (by rw [Finset.card_range])

theorem cnt_add (α c d β : ℝ) (q N : ℕ) : cnt α c d β (q + N) = cnt α c d β q + cnt α c d (β + q * α) N := by
  unfold cnt
  simp only [Finset.card_filter]
  rw [Finset.sum_range_add]
  congr 1
  refine Finset.sum_congr rfl fun j _ => ?_
  push_cast
  rw [show β + (q + j) * α = β + q * α + j * α by ring]

/-- Many blocks and a rest. -/
theorem blocks {α c d : ℝ} {p : ℤ} {q : ℕ} (hq : 0 < q) (hco : IsCoprime p (q : ℤ)) (ha : |q * α - p| ≤ 1 / q)
    (hc : 0 ≤ c) (hcd : c ≤ d) (hd : d ≤ 1) (N : ℕ) : ∀ β : ℝ, |(cnt α c d β N : ℝ) - N * (d - c)| ≤ 12 * (N / q) + q := by
  have hq0 : (0 : ℝ) < q := by exact_mod_cast hq
  induction N using Nat.strong_induction_on with
  | _ N ih =>
    intro β
    rcases lt_or_ge N q with h | h
    · have h1 : (cnt α c d β N : ℝ) ≤ N := by exact_mod_cast cnt_le α c d β N
      have h2 : (0 : ℝ) ≤ cnt α c d β N := by positivity
      have h3 : (N : ℝ) ≤ q := by exact_mod_cast h.le
      have h4 : (0 : ℝ) ≤ N := by positivity
      have h5 : (N : ℝ) * (d - c) ≤ N := by nlinarith
      have h6 : 0 ≤ (N : ℝ) * (d - c) := mul_nonneg h4 (by linarith)
      have h7 : 0 ≤ 12 * ((N : ℝ) / q) := by positivity
      rw [abs_le]
      constructor <;> linarith
    · obtain ⟨M, rfl⟩ := Nat.exists_eq_add_of_le h
      have h1 := abs_le.mp (ih M (by omega) (β + q * α))
      have h2 := abs_le.mp (block β hq hco ha hc hcd hd)
      rw [cnt_add]
      push_cast
      rw [show 12 * (((q : ℝ) + M) / q) = 12 + 12 * (M / q) by field_simp, abs_le]
      constructor <;> linarith

open Real in
/-- Consecutive Fibonacci numbers approximate the golden section. -/
theorem golden_near (k : ℕ) : |(Nat.fib (k + 1) : ℝ) * (1 / goldenRatio) - (Nat.fib k : ℤ)| ≤ 1 / (Nat.fib (k + 1) : ℝ) := by
  have h1 := goldenConj_mul_fib_succ_add_fib k
  have h2 := goldenRatio_mul_fib_succ_add_fib k
  have hφ := one_lt_goldenRatio
  have hφ0 := goldenRatio_pos
  have hF : (0 : ℝ) < Nat.fib (k + 1) := by exact_mod_cast Nat.fib_pos.mpr (Nat.succ_pos k)
  have hF' : (0 : ℝ) ≤ Nat.fib k := by positivity
  have hle : (Nat.fib (k + 1) : ℝ) ≤ goldenRatio ^ (k + 1) := by nlinarith
  have hψ : goldenConj = -(1 / goldenRatio) := by
    have := goldenRatio_mul_goldenConj
    have h3 : goldenConj = -1 / goldenRatio := by rw [eq_div_iff hφ0.ne']; linarith
    rw [h3]; ring
  have e : (Nat.fib (k + 1) : ℝ) * (1 / goldenRatio) - (Nat.fib k : ℤ) = -(goldenConj ^ (k + 1)) := by
    rw [← h1, hψ]; push_cast; ring
  rw [e, abs_neg, abs_pow, hψ, abs_neg, abs_of_pos (by positivity), one_div_pow]
  exact one_div_le_one_div_of_le hF hle

/-- Points of the golden rotation in an arc: at most `25 √n` off among the first `N ≤ n`, from any start. -/
theorem golden_count {c d : ℝ} (hc : 0 ≤ c) (hcd : c ≤ d) (hd : d ≤ 1) (n N : ℕ) (hN : N ≤ n) (β : ℝ) :
    |(cnt (1 / Real.goldenRatio) c d β N : ℝ) - N * (d - c)| ≤ 25 * √(n : ℝ) := by
  rcases Nat.eq_zero_or_pos n with rfl | hn
  · have : N = 0 := by omega
    subst this
    simp [cnt]
  have hs : 1 ≤ Nat.sqrt n := Nat.sqrt_pos.mpr hn
  obtain ⟨g, hg⟩ : ∃ g, g = Nat.greatestFib (Nat.sqrt n) := ⟨_, rfl⟩
  have g1 : Nat.fib g ≤ Nat.sqrt n := by rw [hg]; exact Nat.fib_greatestFib_le _
  have g2 : Nat.sqrt n < Nat.fib (g + 1) := by rw [hg]; exact Nat.lt_fib_greatestFib_add_one _
  have g0 : g ≠ 0 := by
    rintro rfl
    simp at g2; omega
  obtain ⟨k, rfl⟩ := Nat.exists_eq_succ_of_ne_zero g0
  simp only [Nat.succ_eq_add_one] at g1 g2
  have hq : 0 < Nat.fib (k + 1) := Nat.fib_pos.mpr (Nat.succ_pos k)
  have h2 : Nat.fib (k + 1 + 1) ≤ 2 * Nat.fib (k + 1) := by
    rw [Nat.fib_add_two]
    have := Nat.fib_le_fib_succ (n := k)
    omega
  have hco : IsCoprime ((Nat.fib k : ℕ) : ℤ) ((Nat.fib (k + 1) : ℕ) : ℤ) := Nat.isCoprime_iff_coprime.mpr (Nat.fib_coprime_fib_succ k)
  have hb := blocks hq hco (golden_near k) hc hcd hd N β
  have hq0 : (0 : ℝ) < Nat.fib (k + 1) := by exact_mod_cast hq
  have u1 : (Nat.fib (k + 1) : ℝ) ≤ √(n : ℝ) := by
    apply Real.le_sqrt_of_sq_le
    have : Nat.fib (k + 1) * Nat.fib (k + 1) ≤ n := (Nat.mul_le_mul g1 g1).trans (Nat.sqrt_le n)
    rw [sq]; exact_mod_cast this
  have u2 : √(n : ℝ) ≤ 2 * Nat.fib (k + 1) := by
    rw [Real.sqrt_le_left (by positivity)]
    have h3 : Nat.sqrt n + 1 ≤ 2 * Nat.fib (k + 1) := by omega
    have : n < (2 * Nat.fib (k + 1)) * (2 * Nat.fib (k + 1)) := (Nat.lt_succ_sqrt n).trans_le (Nat.mul_le_mul h3 h3)
    have : (n : ℝ) < (2 * Nat.fib (k + 1)) * (2 * Nat.fib (k + 1)) := by exact_mod_cast this
    nlinarith
  have hNr : (N : ℝ) ≤ n := by exact_mod_cast hN
  have hsq := Real.sq_sqrt (show (0 : ℝ) ≤ n by positivity)
  have hs0 := Real.sqrt_nonneg (n : ℝ)
  have u3 : (N : ℝ) / Nat.fib (k + 1) ≤ 2 * √(n : ℝ) := by
    rw [div_le_iff₀ hq0]
    nlinarith
  linarith

end Verif.Golden
