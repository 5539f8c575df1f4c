import Verif.Props.ScatterNodes
/-!
C116 above 20: how far the value returned is off at most.
-/
namespace Verif.Scat
open Real Verif.Spec.Scatter Verif.Ei Verif.EiFit Verif.PolyCert

/-- `10^40` times the denominator of the last branch, less a quarter -/
def largeQ : List ℤ := [7500000000000000000000000000000000000000, 619733592849439884145000000000000000000000, -23545621132342019428300000000000000000000000, 223291459489893079041000000000000000000000000, -701262451403965671330000000000000000000000000, 547382833147775537106000000000000000000000000, 82971629635651840934700000000000000000000000]
/-- `10^40` times the distance to the upper bound of the truncated divergent series -/
def largeU : List ℤ := [4499999999993849000000000000000000, 278880117024408862302353271484375000, -10595530135342428156507583007812500000, 100481657282655326565611865234375000000, -315751915986731471177784667968750000000, 282890244877070819578254199218750000000, -4203814622007123722813439565429687500000, 291266235397169339100000000000000000000000, -11273344075126694779800000000000000000000000, 199902394293298496166600000000000000000000000, -25267975630934546325600000000000000000000000, -23356607793045987497724000000000000000000000000, -5132916254503235447116200000000000000000000000000, -361571266938134983769390232000000000000000000000000, 6570319045111027698472997184000000000000000000000000, -25975701450312983700256707264000000000000000000000000, 22150858523814979959936620160000000000000000000000000, 3311961945840387404222232960000000000000000000000000]
/-- `10^40` times the distance to the lower bound -/
def largeL : List ℤ := [100000000006151000000000000000000, 6197335686333484404346728515625000, -235455585534900780510416992187500000, 2232414082695489793248134765625000000, -6828811659092737634015332031250000000, -31094141629094072509494199218750000000, 4241981571639523569643401565429687500000, -291266235397169339100000000000000000000000, 11273344075126694779800000000000000000000000, -199902394293298496166600000000000000000000000, 25267975630934546325600000000000000000000000, 23356607793045987497724000000000000000000000000, 5132916254503235447116200000000000000000000000000, 361571266938134983769390232000000000000000000000000, -6570319045111027698472997184000000000000000000000000, 25975701450312983700256707264000000000000000000000000, -22150858523814979959936620160000000000000000000000000, -3311961945840387404222232960000000000000000000000000]

theorem large_ok : posOn 0 1 20 largeQ = true ∧ posOn 0 1 20 largeU = true ∧ posOn 0 1 20 largeL = true := by decide +kernel

/-- the rational part of the last branch against the truncated divergent series -/
theorem large_rational {y : ℝ} (h0 : 0 ≤ y) (h1 : y < 1 / 20) :
    ∀ A : ℝ, A = ∑ k ∈ Finset.range 12, (k.factorial : ℝ) * y ^ k → (-1e-8 : ℝ) ≤ 1.013065338134765625 + horner eiP4 y / horner eiQ4 y - A ∧
      1.013065338134765625 + horner eiP4 y / horner eiQ4 y - A ≤ 4.5e-7 := by
  intro A hA0
  obtain ⟨c1, c2, c3⟩ := large_ok
  have q := posOn_sound c1 (by norm_num) (x := y) (by norm_num; exact h0) (by norm_num; linarith)
  have u := posOn_sound c2 (by norm_num) (x := y) (by norm_num; exact h0) (by norm_num; linarith)
  have l := posOn_sound c3 (by norm_num) (x := y) (by norm_num; exact h0) (by norm_num; linarith)
  have hA : A = 1 + y + 2 * y ^ 2 + 6 * y ^ 3 + 24 * y ^ 4 + 120 * y ^ 5 + 720 * y ^ 6 + 5040 * y ^ 7 + 40320 * y ^ 8 + 362880 * y ^ 9 +
      3628800 * y ^ 10 + 39916800 * y ^ 11 := by
    simp only [hA0, Finset.sum_range_succ, Finset.sum_range_zero, Nat.factorial]
    push_cast
    ring
  have eq : ev largeQ y = 10 ^ 40 * (horner eiQ4 y - 1 / 4) := by
    simp only [largeQ, ev, horner, eiQ4, List.foldr]
    push_cast
    norm_num
    ring
  have eu : ev largeU y = 10 ^ 40 * (4.5e-7 * horner eiQ4 y - (1.013065338134765625 * horner eiQ4 y + horner eiP4 y - A * horner eiQ4 y)) := by
    rw [hA]
    simp only [largeU, ev, horner, eiQ4, eiP4, List.foldr]
    push_cast
    norm_num
    ring
  have el : ev largeL y = 10 ^ 40 * (1e-8 * horner eiQ4 y + (1.013065338134765625 * horner eiQ4 y + horner eiP4 y - A * horner eiQ4 y)) := by
    rw [hA]
    simp only [largeL, ev, horner, eiQ4, eiP4, List.foldr]
    push_cast
    norm_num
    ring
  rw [eq] at q
  rw [eu] at u
  rw [el] at l
  generalize horner eiQ4 y = Q at *
  generalize horner eiP4 y = P at *
  have hK : (0 : ℝ) < 10 ^ 40 := by positivity
  have q' := nonneg_of_mul_nonneg_right q hK
  have u' := nonneg_of_mul_nonneg_right u hK
  have l' := nonneg_of_mul_nonneg_right l hK
  have hQ : 0 < Q := by linarith
  have e : 1.013065338134765625 + P / Q - A = (1.013065338134765625 * Q + P - A * Q) / Q := by field_simp
  rw [e]
  constructor
  · rw [le_div_iff₀ hQ]; linarith
  · rw [div_le_iff₀ hQ]; linarith

/-- C116 above 20, what holds: the value returned is the exponential integral to 13 parts in ten million. -/
theorem C116_large_partial (x : ℝ) (hx : 20 < x) : |expi x - expInt x| ≤ 1.3e-6 * expInt x := by
  have hx0 : 0 < x := by linarith
  obtain ⟨s1, s2⟩ := scaled_asym hx.le
  have hy : 1 / x < 1 / 20 := one_div_lt_one_div_of_lt (by norm_num) hx
  obtain ⟨r1, r2⟩ := large_rational (y := 1 / x) (by positivity) hy _ rfl
  have hA : x * asym 12 x = ∑ k ∈ Finset.range 12, (k.factorial : ℝ) * (1 / x) ^ k := by
    unfold asym
    rw [Finset.mul_sum]
    refine Finset.sum_congr rfl fun k _ => ?_
    rw [one_div, inv_pow, pow_succ]
    field_simp
  have hA1 : 1 ≤ x * asym 12 x := by
    rw [hA, Finset.sum_range_succ', Nat.factorial_zero, pow_zero]
    have : 0 ≤ ∑ k ∈ Finset.range 11, ((k + 1).factorial : ℝ) * (1 / x) ^ (k + 1) := Finset.sum_nonneg fun k _ => by positivity
    push_cast at this ⊢
    linarith
  rw [← hA] at r1 r2
  have hd : 1368576000 / x ^ 12 ≤ 3.35e-7 := by
    have h12 : (20 : ℝ) ^ 12 ≤ x ^ 12 := pow_le_pow_left₀ (by norm_num) hx.le 12
    have := div_le_div_of_nonneg_left (by norm_num : (0 : ℝ) ≤ 1368576000) (by positivity : (0 : ℝ) < 20 ^ 12) h12
    refine this.trans ?_
    norm_num
  have he : x ^ 2 * exp (-x) ≤ 8.3e-7 := by
    have h1 := exp20
    rw [abs_le] at h1
    have h2 : x / 20 ≤ exp (x / 20 - 1) := by
      have := add_one_le_exp (x / 20 - 1)
      linarith
    have h3 : (x / 20) ^ 2 ≤ exp (x - 20) := by
      calc (x / 20) ^ 2 ≤ exp (x / 20 - 1) ^ 2 := pow_le_pow_left₀ (by positivity) h2 2
        _ = exp (2 * (x / 20 - 1)) := by rw [two_mul, exp_add, sq]
        _ ≤ exp (x - 20) := exp_le_exp.mpr (by linarith)
    have h4 : exp (-20) = exp (x - 20) * exp (-x) := by rw [← exp_add]; ring_nf
    have h5 := mul_le_mul_of_nonneg_right h3 (exp_pos (-x)).le
    have h6 : x ^ 2 * exp (-x) = 400 * ((x / 20) ^ 2 * exp (-x)) := by ring
    rw [h6]
    rw [← h4] at h5
    norm_num at *
    linarith [h1.1, h1.2]
  have he0 : 0 ≤ x ^ 2 * exp (-x) := by positivity
  have hv : x * exp (-x) * expi x = 1.013065338134765625 + horner eiP4 (1 / x) / horner eiQ4 (1 / x) + x ^ 2 * exp (-x) := by
    rw [expi, if_neg (by linarith), if_neg (by linarith), if_neg (by linarith), if_neg (by linarith)]
    have e1 : exp (-x) * exp x = 1 := by rw [← exp_add]; simp
    generalize 1.013065338134765625 + horner eiP4 (1 / x) / horner eiQ4 (1 / x) = r
    have : x * exp (-x) * (r * (exp x / x) + x) = r * (exp (-x) * exp x) + x ^ 2 * exp (-x) := by field_simp
    rw [this, e1, mul_one]
  have hs : scaledEi x = x * exp (-x) * expInt x := rfl
  have hp : 0 < x * exp (-x) := by positivity
  rw [hs] at s1 s2
  have key : |x * exp (-x) * expi x - x * exp (-x) * expInt x| ≤ 1.3e-6 * (x * exp (-x) * expInt x) := by
    rw [hv]
    generalize horner eiP4 (1 / x) / horner eiQ4 (1 / x) = r at *
    generalize x * exp (-x) * expInt x = E at *
    generalize x * asym 12 x = a at *
    generalize x ^ 2 * exp (-x) = t at *
    rw [abs_le]
    norm_num at *
    constructor <;> linarith
  rw [← mul_sub, abs_mul, abs_of_pos hp] at key
  have e : 1.3e-6 * (x * exp (-x) * expInt x) = x * exp (-x) * (1.3e-6 * expInt x) := by ring
  rw [e] at key
  exact le_of_mul_le_mul_left key hp

example : |expi 30 - expInt 30| ≤ 1.3e-6 * expInt 30 := C116_large_partial 30 (by norm_num)

end Verif.Scat
