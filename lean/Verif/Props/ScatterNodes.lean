import Verif.Props.ScatterRih
import Verif.Lemmas.EiFit3
import Mathlib.Algebra.BigOperators.Field
/-!
C115: the entries of the table behind the exponential integral of large arguments.
-/
namespace Verif.Scat
open Real Verif.Spec.Scatter Verif.Ei Verif.EiFit Verif.PolyCert

/-- `x e^{-x} Ei(x)` on [10, 20] from the certified rational approximation -/
theorem scaled_mid {X : ℝ} (h1 : 10 ≤ X) (h2 : X ≤ 20) :
    let v := 1.086973190307617188 + horner eiP3 (X / 5 - 3) / horner eiQ3 (X / 5 - 3) + X ^ 2 * exp (-X)
    v * (1 - 2e-14) ≤ scaledEi X ∧ scaledEi X ≤ v * (1 + 2e-14) := by
  intro v
  have hX : 0 < X := by linarith
  have h := e_all h1 h2
  rw [← e_branch h1 h2] at h
  have hv : X * exp (-X) * ((1.086973190307617188 + horner eiP3 (X / 5 - 3) / horner eiQ3 (X / 5 - 3)) * exp X / X + X) = v := by
    have : exp (-X) * exp X = 1 := by rw [← exp_add]; simp
    simp only [v]
    generalize horner eiP3 (X / 5 - 3) / horner eiQ3 (X / 5 - 3) = r
    field_simp
    linear_combination (1.086973190307617188 + r) * this
  generalize (1.086973190307617188 + horner eiP3 (X / 5 - 3) / horner eiQ3 (X / 5 - 3)) * exp X / X + X = b at *
  have hp : 0 < X * exp (-X) := by positivity
  rw [abs_le] at h
  have l1 := mul_le_mul_of_nonneg_left h.1 hp.le
  have l2 := mul_le_mul_of_nonneg_left h.2 hp.le
  have hs : scaledEi X = X * exp (-X) * eiWith eulerMascheroniConstant X := rfl
  have hE : 0 ≤ eiWith eulerMascheroniConstant X := by nlinarith [h.1, h.2]
  have hs0 : 0 ≤ scaledEi X := by rw [hs]; positivity
  have l1' : -(15 / 10 ^ 15 * scaledEi X) ≤ v - scaledEi X := by rw [hs, ← hv]; nlinarith [l1]
  have l2' : v - scaledEi X ≤ 15 / 10 ^ 15 * scaledEi X := by rw [hs, ← hv]; nlinarith [l2]
  constructor <;> norm_num at * <;> linarith

/-- partial sums of the divergent series `Σ k! / x^(k+1)` -/
noncomputable def asym (n : ℕ) (x : ℝ) : ℝ := ∑ k ∈ Finset.range n, (k.factorial : ℝ) / x ^ (k + 1)

theorem asym_der (n : ℕ) {x : ℝ} (hx : 0 < x) : HasDerivAt (fun y => exp y * asym n y) (exp x * (1 / x - n.factorial / x ^ (n + 1))) x := by
  have h1 : HasDerivAt (asym n) (∑ k ∈ Finset.range n, -(((k + 1).factorial : ℝ) / x ^ (k + 2))) x := by
    have := HasDerivAt.fun_sum (u := Finset.range n) (A := fun (k : ℕ) (y : ℝ) => (k.factorial : ℝ) / y ^ (k + 1))
      (A' := fun k => -(((k + 1).factorial : ℝ) / x ^ (k + 2))) (x := x) (fun k _ => by
      have h := (hasDerivAt_const x (k.factorial : ℝ)).div (hasDerivAt_pow (k + 1) x) (by positivity)
      refine HasDerivAt.congr_deriv h ?_
      rw [Nat.factorial_succ]
      push_cast
      field_simp
      ring)
    exact this
  have h2 := (Real.hasDerivAt_exp x).mul h1
  refine HasDerivAt.congr_deriv h2 ?_
  rw [← mul_add, asym, ← Finset.sum_add_distrib]
  congr 1
  have := Finset.sum_range_sub' (fun k : ℕ => (k.factorial : ℝ) / x ^ (k + 1)) n
  simp only [Nat.factorial_zero, zero_add, pow_one, Nat.cast_one] at this
  rw [← this]
  exact Finset.sum_congr rfl fun k _ => by ring

/-- Ei against the partial sum of 12 terms above 20 -/
theorem ei_asym {x : ℝ} (hx : 20 ≤ x) :
    eiWith eulerMascheroniConstant 20 - exp 20 * asym 12 20 ≤ eiWith eulerMascheroniConstant x - exp x * asym 12 x ∧
    eiWith eulerMascheroniConstant x - exp x * asym 12 x - 1368576000 * (exp x / x ^ 13) ≤
      eiWith eulerMascheroniConstant 20 - exp 20 * asym 12 20 - 1368576000 * (exp 20 / 20 ^ 13) := by
  have hd : ∀ y : ℝ, 20 ≤ y → HasDerivAt (fun y => eiWith eulerMascheroniConstant y - exp y * asym 12 y) (exp y * (479001600 / y ^ 13)) y := by
    intro y hy
    have hy0 : 0 < y := by linarith
    have := (hasDerivAt_eiWith eulerMascheroniConstant hy0.ne').sub (asym_der 12 hy0)
    refine HasDerivAt.congr_deriv this ?_
    simp only [Nat.factorial]
    push_cast
    ring
  have he : ∀ y : ℝ, 20 ≤ y → HasDerivAt (fun y => 1368576000 * (exp y / y ^ 13)) (1368576000 * (exp y / y ^ 13 * (1 - 13 / y))) y := by
    intro y hy
    have hy0 : 0 < y := by linarith
    have := ((Real.hasDerivAt_exp y).div (hasDerivAt_pow 13 y) (by positivity)).const_mul 1368576000
    refine HasDerivAt.congr_deriv this ?_
    push_cast
    field_simp
  constructor
  · refine monotoneOn_of_deriv_nonneg (convex_Ici 20) (fun y hy => (hd y hy).continuousAt.continuousWithinAt)
      (fun y hy => ((hd y (interior_subset hy)).differentiableAt).differentiableWithinAt) (fun y hy => ?_) Set.self_mem_Ici hx hx
    have hy' : 20 ≤ y := interior_subset hy
    have hy0 : 0 < y := by linarith
    rw [(hd y hy').deriv]
    positivity
  · have hde : ∀ y : ℝ, 20 ≤ y → HasDerivAt (fun y => eiWith eulerMascheroniConstant y - exp y * asym 12 y - 1368576000 * (exp y / y ^ 13))
        (exp y * (479001600 / y ^ 13) - 1368576000 * (exp y / y ^ 13 * (1 - 13 / y))) y := fun y hy => (hd y hy).sub (he y hy)
    refine antitoneOn_of_deriv_nonpos (convex_Ici 20) (fun y hy => (hde y hy).continuousAt.continuousWithinAt)
      (fun y hy => ((hde y (interior_subset hy)).differentiableAt).differentiableWithinAt) (fun y hy => ?_) Set.self_mem_Ici hx hx
    have hy' : 20 ≤ y := interior_subset hy
    have hy0 : 0 < y := by linarith
    rw [(hde y hy').deriv]
    have h13 : 0.35 ≤ 1 - 13 / y := by
      have : 13 / y ≤ 13 / 20 := div_le_div_of_nonneg_left (by norm_num) (by norm_num) hy'
      norm_num at *; linarith
    have hp : 0 < exp y / y ^ 13 := by positivity
    have e : exp y * (479001600 / y ^ 13) = 479001600 * (exp y / y ^ 13) := by ring
    rw [e]
    nlinarith [mul_le_mul_of_nonneg_left h13 hp.le]

theorem exp20 : |exp (-20) - 0.0000000020611536224385578280| ≤ 1 / 10 ^ 20 := by
  have h := exp_trunc (x := -20) 90 (by norm_num)
  rw [abs_le] at *
  norm_num [Finset.sum_range_succ, Nat.factorial] at h
  constructor <;> norm_num <;> linarith [h.1, h.2]

theorem scaled20 : 3.8e-7 ≤ scaledEi 20 - 20 * asym 12 20 ∧ scaledEi 20 - 20 * asym 12 20 ≤ 3.9e-7 := by
  obtain ⟨l, u⟩ := scaled_mid (X := 20) (by norm_num) le_rfl
  have h := exp20
  rw [abs_le] at h
  norm_num [horner, eiP3, eiQ3, List.foldr] at l u
  norm_num [asym, Finset.sum_range_succ, Nat.factorial] at *
  constructor <;> linarith [h.1, h.2]

/-- `x e^{-x} Ei(x)` against the partial sum of 12 terms above 20 -/
theorem scaled_asym {x : ℝ} (hx : 20 ≤ x) :
    x * asym 12 x ≤ scaledEi x ∧ scaledEi x ≤ x * asym 12 x + 1368576000 / x ^ 12 + 6e-8 := by
  obtain ⟨h1, h2⟩ := ei_asym hx
  obtain ⟨a1, a2⟩ := scaled20
  have hx0 : 0 < x := by linarith
  have hs : ∀ y, scaledEi y = y * exp (-y) * eiWith eulerMascheroniConstant y := fun _ => rfl
  have e1 : ∀ y : ℝ, exp (-y) * exp y = 1 := fun y => by rw [← exp_add]; simp
  have hv : ∀ y : ℝ, scaledEi y - y * asym 12 y = y * exp (-y) * (eiWith eulerMascheroniConstant y - exp y * asym 12 y) := by
    intro y
    rw [hs]; linear_combination y * asym 12 y * e1 y
  have hw : x * exp (-x) * (1368576000 * (exp x / x ^ 13)) = 1368576000 / x ^ 12 := by
    have : x * exp (-x) * (1368576000 * (exp x / x ^ 13)) = exp (-x) * exp x * (1368576000 / x ^ 12) := by field_simp
    rw [this, e1, one_mul]
  have hv20 := hv 20
  have hvx := hv x
  have hp : 0 < x * exp (-x) := by positivity
  have hdec : x * exp (-x) ≤ 20 * exp (-20) := by
    have : x / 20 ≤ exp (x - 20) := by
      have := add_one_le_exp (x - 20)
      linarith
    have h3 : exp (-20) = exp (x - 20) * exp (-x) := by rw [← exp_add]; ring_nf
    rw [h3]
    have := mul_le_mul_of_nonneg_right this (exp_pos (-x)).le
    linarith
  have hw20 : 20 * exp (-20) * (1368576000 * (exp 20 / 20 ^ 13)) = 1368576000 / 20 ^ 12 := by
    have := e1 20
    linear_combination 1368576000 / 20 ^ 12 * this
  generalize eiWith eulerMascheroniConstant 20 - exp 20 * asym 12 20 = D20 at *
  generalize eiWith eulerMascheroniConstant x - exp x * asym 12 x = Dx at *
  generalize 1368576000 * (exp x / x ^ 13) = ux at *
  generalize 1368576000 * (exp 20 / 20 ^ 13) = u20 at *
  have hp20 : 0 < 20 * exp (-20) := by positivity
  have hD20 : 0 ≤ D20 := by
    by_contra hc
    have := mul_neg_of_pos_of_neg hp20 (not_le.mp hc)
    norm_num at *; linarith
  have hdu : 0 ≤ D20 - u20 := by
    by_contra hc
    have := mul_neg_of_pos_of_neg hp20 (not_le.mp hc)
    norm_num at *; linarith
  constructor
  · have := mul_nonneg hp.le (hD20.trans h1)
    linarith
  · have l := mul_le_mul_of_nonneg_left h2 hp.le
    have l2 := mul_le_mul_of_nonneg_right hdec hdu
    norm_num at *
    linarith

/-- what is checked for the entry of index `i` -/
def NodeOk (i : ℕ) : Prop := |rih2Table.getD i 0 - scaledEi (200 / i)| ≤ 1e-6

theorem node_high {i : ℕ} (x : ℝ) (hi : (200 : ℝ) / i = x) (hx : 20 ≤ x)
    (l : rih2Table.getD i 0 - 1e-6 ≤ x * asym 12 x) (u : x * asym 12 x + 1368576000 / x ^ 12 + 6e-8 ≤ rih2Table.getD i 0 + 1e-6) : NodeOk i := by
  unfold NodeOk
  obtain ⟨a, b⟩ := scaled_asym hx
  rw [hi, abs_le]
  constructor <;> linarith

set_option maxHeartbeats 1600000 in
theorem nodes_high (i : ℕ) (h1 : 1 ≤ i) (h2 : i ≤ 9) : NodeOk i := by
  interval_cases i <;> refine node_high _ rfl ?_ ?_ ?_ <;>
    norm_num [asym, Finset.sum_range_succ, Nat.factorial, rih2Table, List.getD]

theorem node_mid {i : ℕ} (x e : ℝ) (hi : (200 : ℝ) / i = x) (h1 : 10 ≤ x) (h2 : x ≤ 20) (he : |exp (-x) - e| ≤ 1 / 10 ^ 12)
    (hb : |1.086973190307617188 + horner eiP3 (x / 5 - 3) / horner eiQ3 (x / 5 - 3) + x ^ 2 * e - rih2Table.getD i 0| ≤ 9.9e-7)
    (ht : rih2Table.getD i 0 ≤ 1.2) : NodeOk i := by
  unfold NodeOk
  obtain ⟨a, b⟩ := scaled_mid h1 h2
  rw [hi]
  rw [abs_le] at *
  generalize 1.086973190307617188 + horner eiP3 (x / 5 - 3) / horner eiQ3 (x / 5 - 3) = r at *
  generalize exp (-x) = E at *
  have hx2 : x ^ 2 ≤ 400 := by nlinarith
  have hx0 : 0 ≤ x ^ 2 := by positivity
  have m1 := mul_le_mul_of_nonneg_left he.1 hx0
  have m2 := mul_le_mul_of_nonneg_left he.2 hx0
  norm_num at *
  constructor <;> linarith [hb.1, hb.2]

theorem exp_node10 : |exp (-(20 / 1)) - 0.000000002061153622| ≤ 1 / 10 ^ 12 := by
  have h := exp_trunc (x := -(20 / 1)) 80 (by norm_num [abs_of_pos])
  rw [abs_le] at *
  norm_num [Finset.sum_range_succ, Nat.factorial] at h
  constructor <;> norm_num <;> linarith [h.1, h.2]

theorem node10 : NodeOk 10 := by
  refine node_mid (20 / 1) _ (by norm_num) (by norm_num) (by norm_num) exp_node10 ?_ ?_
  · rw [abs_le]; norm_num [horner, eiP3, eiQ3, List.foldr, rih2Table, List.getD]
  · norm_num [rih2Table, List.getD]

theorem exp_node11 : |exp (-(200 / 11)) - 0.000000012698040054| ≤ 1 / 10 ^ 12 := by
  have h := exp_trunc (x := -(200 / 11)) 80 (by norm_num [abs_of_pos])
  rw [abs_le] at *
  norm_num [Finset.sum_range_succ, Nat.factorial] at h
  constructor <;> norm_num <;> linarith [h.1, h.2]

theorem node11 : NodeOk 11 := by
  refine node_mid (200 / 11) _ (by norm_num) (by norm_num) (by norm_num) exp_node11 ?_ ?_
  · rw [abs_le]; norm_num [horner, eiP3, eiQ3, List.foldr, rih2Table, List.getD]
  · norm_num [rih2Table, List.getD]

theorem exp_node12 : |exp (-(50 / 3)) - 0.000000057777485194| ≤ 1 / 10 ^ 12 := by
  have h := exp_trunc (x := -(50 / 3)) 80 (by norm_num [abs_of_pos])
  rw [abs_le] at *
  norm_num [Finset.sum_range_succ, Nat.factorial] at h
  constructor <;> norm_num <;> linarith [h.1, h.2]

theorem node12 : NodeOk 12 := by
  refine node_mid (50 / 3) _ (by norm_num) (by norm_num) (by norm_num) exp_node12 ?_ ?_
  · rw [abs_le]; norm_num [horner, eiP3, eiQ3, List.foldr, rih2Table, List.getD]
  · norm_num [rih2Table, List.getD]

theorem exp_node13 : |exp (-(200 / 13)) - 0.000000208231502241| ≤ 1 / 10 ^ 12 := by
  have h := exp_trunc (x := -(200 / 13)) 80 (by norm_num [abs_of_pos])
  rw [abs_le] at *
  norm_num [Finset.sum_range_succ, Nat.factorial] at h
  constructor <;> norm_num <;> linarith [h.1, h.2]

theorem node13 : NodeOk 13 := by
  refine node_mid (200 / 13) _ (by norm_num) (by norm_num) (by norm_num) exp_node13 ?_ ?_
  · rw [abs_le]; norm_num [horner, eiP3, eiQ3, List.foldr, rih2Table, List.getD]
  · norm_num [rih2Table, List.getD]

theorem exp_node14 : |exp (-(100 / 7)) - 0.000000624874950946| ≤ 1 / 10 ^ 12 := by
  have h := exp_trunc (x := -(100 / 7)) 80 (by norm_num [abs_of_pos])
  rw [abs_le] at *
  norm_num [Finset.sum_range_succ, Nat.factorial] at h
  constructor <;> norm_num <;> linarith [h.1, h.2]

theorem node14 : NodeOk 14 := by
  refine node_mid (100 / 7) _ (by norm_num) (by norm_num) (by norm_num) exp_node14 ?_ ?_
  · rw [abs_le]; norm_num [horner, eiP3, eiQ3, List.foldr, rih2Table, List.getD]
  · norm_num [rih2Table, List.getD]

theorem exp_node15 : |exp (-(40 / 3)) - 0.000001619596792313| ≤ 1 / 10 ^ 12 := by
  have h := exp_trunc (x := -(40 / 3)) 80 (by norm_num [abs_of_pos])
  rw [abs_le] at *
  norm_num [Finset.sum_range_succ, Nat.factorial] at h
  constructor <;> norm_num <;> linarith [h.1, h.2]

theorem node15 : NodeOk 15 := by
  refine node_mid (40 / 3) _ (by norm_num) (by norm_num) (by norm_num) exp_node15 ?_ ?_
  · rw [abs_le]; norm_num [horner, eiP3, eiQ3, List.foldr, rih2Table, List.getD]
  · norm_num [rih2Table, List.getD]

theorem exp_node16 : |exp (-(25 / 2)) - 0.000003726653172079| ≤ 1 / 10 ^ 12 := by
  have h := exp_trunc (x := -(25 / 2)) 80 (by norm_num [abs_of_pos])
  rw [abs_le] at *
  norm_num [Finset.sum_range_succ, Nat.factorial] at h
  constructor <;> norm_num <;> linarith [h.1, h.2]

theorem node16 : NodeOk 16 := by
  refine node_mid (25 / 2) _ (by norm_num) (by norm_num) (by norm_num) exp_node16 ?_ ?_
  · rw [abs_le]; norm_num [horner, eiP3, eiQ3, List.foldr, rih2Table, List.getD]
  · norm_num [rih2Table, List.getD]

theorem exp_node17 : |exp (-(200 / 17)) - 0.000007774154262422| ≤ 1 / 10 ^ 12 := by
  have h := exp_trunc (x := -(200 / 17)) 80 (by norm_num [abs_of_pos])
  rw [abs_le] at *
  norm_num [Finset.sum_range_succ, Nat.factorial] at h
  constructor <;> norm_num <;> linarith [h.1, h.2]

theorem node17 : NodeOk 17 := by
  refine node_mid (200 / 17) _ (by norm_num) (by norm_num) (by norm_num) exp_node17 ?_ ?_
  · rw [abs_le]; norm_num [horner, eiP3, eiQ3, List.foldr, rih2Table, List.getD]
  · norm_num [rih2Table, List.getD]

theorem exp_node18 : |exp (-(100 / 9)) - 0.000014945338524781| ≤ 1 / 10 ^ 12 := by
  have h := exp_trunc (x := -(100 / 9)) 80 (by norm_num [abs_of_pos])
  rw [abs_le] at *
  norm_num [Finset.sum_range_succ, Nat.factorial] at h
  constructor <;> norm_num <;> linarith [h.1, h.2]

theorem node18 : NodeOk 18 := by
  refine node_mid (100 / 9) _ (by norm_num) (by norm_num) (by norm_num) exp_node18 ?_ ?_
  · rw [abs_le]; norm_num [horner, eiP3, eiQ3, List.foldr, rih2Table, List.getD]
  · norm_num [rih2Table, List.getD]

theorem exp_node19 : |exp (-(200 / 19)) - 0.000026821257636371| ≤ 1 / 10 ^ 12 := by
  have h := exp_trunc (x := -(200 / 19)) 80 (by norm_num [abs_of_pos])
  rw [abs_le] at *
  norm_num [Finset.sum_range_succ, Nat.factorial] at h
  constructor <;> norm_num <;> linarith [h.1, h.2]

theorem node19 : NodeOk 19 := by
  refine node_mid (200 / 19) _ (by norm_num) (by norm_num) (by norm_num) exp_node19 ?_ ?_
  · rw [abs_le]; norm_num [horner, eiP3, eiQ3, List.foldr, rih2Table, List.getD]
  · norm_num [rih2Table, List.getD]

theorem exp_node20 : |exp (-(10 / 1)) - 0.000045399929762485| ≤ 1 / 10 ^ 12 := by
  have h := exp_trunc (x := -(10 / 1)) 80 (by norm_num [abs_of_pos])
  rw [abs_le] at *
  norm_num [Finset.sum_range_succ, Nat.factorial] at h
  constructor <;> norm_num <;> linarith [h.1, h.2]

theorem node20 : NodeOk 20 := by
  refine node_mid (10 / 1) _ (by norm_num) (by norm_num) (by norm_num) exp_node20 ?_ ?_
  · rw [abs_le]; norm_num [horner, eiP3, eiQ3, List.foldr, rih2Table, List.getD]
  · norm_num [rih2Table, List.getD]


/-- C115, the table itself: each of its entries is `x e^{-x} Ei(x)` at `x = 200 / i`, to a millionth (the abscissa is `i / 200`, not the `i / 2000`
used when interpolating, see `C115_table_fails`). -/
theorem C115_nodes_partial (i : ℕ) (h1 : 1 ≤ i) (h2 : i ≤ 20) : |rih2Table.getD i 0 - scaledEi (200 / i)| ≤ 1e-6 := by
  rcases Nat.lt_or_ge i 10 with h | h
  · exact nodes_high i h1 (by omega)
  · interval_cases i
    · exact node10
    · exact node11
    · exact node12
    · exact node13
    · exact node14
    · exact node15
    · exact node16
    · exact node17
    · exact node18
    · exact node19
    · exact node20

/-- the entry for `x = 20` -/
example : |rih2Table.getD 10 0 - scaledEi (200 / (10 : ℕ))| ≤ 1e-6 := C115_nodes_partial 10 (by norm_num) (by norm_num)

end Verif.Scat
