import Verif.Props.Factorize
import Mathlib.Data.Int.GCD
import Mathlib.Data.Int.ModEq
import Mathlib.Data.ZMod.Basic
import Mathlib.Tactic.LinearCombination
import Mathlib.Tactic.NormNum
/-! Property C72: the modular arithmetic underneath the factorisation (utils/factorize.py). -/
namespace Verif

/-- Loop invariant of `egcd`: the first component of the result is the gcd, the second a Bezout coefficient. -/
theorem pyEgcd_spec (a n : ℤ) (ro r so s : ℤ) (hr : 0 ≤ r) (hro : 0 ≤ ro ∨ 0 < r)
    (h1 : n ∣ ro - so * a) (h2 : n ∣ r - s * a) :
    (pyEgcd ro r so s).1 = (Int.gcd ro r : ℤ) ∧ n ∣ (pyEgcd ro r so s).1 - (pyEgcd ro r so s).2 * a := by
  rw [pyEgcd]
  split
  · next h =>
    subst h
    have : 0 ≤ ro := by omega
    simp [abs_of_nonneg this, h1]
  · next h =>
    have hpos : 0 < r := by omega
    have hm : ro.fmod r = ro % r := Int.fmod_eq_emod_of_nonneg _ hr
    have hd : ro.fdiv r = ro / r := Int.fdiv_eq_ediv_of_nonneg _ hr
    have hlt := Int.emod_lt_of_pos ro hpos
    have hnn := Int.emod_nonneg ro h
    have ih := pyEgcd_spec a n r (ro.fmod r) s (so - ro.fdiv r * s) (by rw [hm]; exact hnn) (Or.inl hr) h2 (by
      rw [hm, hd]
      have he : ro % r = ro - r * (ro / r) := by have := Int.emod_add_mul_ediv ro r; omega
      have : ro % r - (so - ro / r * s) * a = (ro - so * a) - (ro / r) * (r - s * a) := by rw [he]; ring
      rw [this]
      exact dvd_sub h1 (Dvd.dvd.mul_left h2 _))
    refine ⟨?_, ih.2⟩
    rw [ih.1, hm, Int.gcd_comm]
    congr 1
    rw [Int.gcd_emod]
termination_by r.natAbs
decreasing_by
  rw [hm]; omega

/-- C72: for a positive modulus, `modular_inverse(a, n)` returns the inverse in `[0, n)` if `a` is coprime to `n`, and
otherwise raises `ValueError(a)` (so that `gcd(a, n)` is a non-trivial divisor or `n` itself). -/
theorem C72_modular_inverse (a n : ℤ) (hn : 0 < n) :
    (Int.gcd a n = 1 → ∃ x, modularInverse a n = .ok x ∧ 0 ≤ x ∧ x < n ∧ a * x ≡ 1 [ZMOD n]) ∧
    (Int.gcd a n ≠ 1 → modularInverse a n = .error a) := by
  have h := pyEgcd_spec a n a n 1 0 hn.le (Or.inr hn) (by simp) (by simp)
  unfold modularInverse
  constructor
  · intro hg
    rw [hg] at h
    simp only [Nat.cast_one] at h
    have h1 : ¬ (pyEgcd a n 1 0).1 ≠ 1 := by rw [h.1]; simp
    refine ⟨(pyEgcd a n 1 0).2.fmod n, by simp only [if_neg h1], ?_, ?_, ?_⟩
    · rw [Int.fmod_eq_emod_of_nonneg _ hn.le]; exact Int.emod_nonneg _ hn.ne'
    · rw [Int.fmod_eq_emod_of_nonneg _ hn.le]; exact Int.emod_lt_of_pos _ hn
    · rw [Int.fmod_eq_emod_of_nonneg _ hn.le]
      have h2 := h.2
      rw [h.1] at h2
      have h3 : a * ((pyEgcd a n 1 0).2 % n) ≡ a * (pyEgcd a n 1 0).2 [ZMOD n] :=
        Int.ModEq.mul_left _ (Int.mod_modEq _ _)
      refine h3.trans ?_
      have : a * (pyEgcd a n 1 0).2 = (pyEgcd a n 1 0).2 * a := mul_comm _ _
      rw [this]
      exact Int.modEq_iff_dvd.mpr h2
  · intro hg
    have h1 : (pyEgcd a n 1 0).1 ≠ 1 := by rw [h.1]; exact_mod_cast hg
    simp only [if_pos h1]

example : modularInverse (-3) 10 = .ok 3 ∧ modularInverse 4 10 = .error 4 := by
  have h := C72_modular_inverse (-3) 10 (by norm_num)
  obtain ⟨x, hx, h0, h1, h2⟩ := h.1 (by decide)
  refine ⟨?_, (C72_modular_inverse 4 10 (by norm_num)).2 (by decide)⟩
  rw [hx]
  have : x = 3 := by
    have h3 : (-3 * x) % 10 = 1 % 10 := h2
    omega
  rw [this]

/-- `(x, y)` satisfies `y² = x³ + A x + B` modulo `N`. -/
def OnCurve (N A B x y : ℤ) : Prop := y ^ 2 ≡ x ^ 3 + A * x + B [ZMOD N]

theorem fmod_modEq (x n : ℤ) (hn : 0 < n) : x.fmod n ≡ x [ZMOD n] := by
  rw [Int.fmod_eq_emod_of_nonneg _ hn.le]; exact Int.mod_modEq _ _

theorem chord {R : Type*} [CommRing R] {A B x0 y0 x1 y1 l v : R} (h0 : y0 ^ 2 = x0 ^ 3 + A * x0 + B)
    (h1 : y1 ^ 2 = x1 ^ 3 + A * x1 + B) (hv : (x1 - x0) * v = 1) (hl : l = (y1 - y0) * v) :
    (l * (x0 - (l ^ 2 - x0 - x1)) - y0) ^ 2 =
      (l ^ 2 - x0 - x1) ^ 3 + A * (l ^ 2 - x0 - x1) + B := by
  have hd : y1 - y0 = l * (x1 - x0) := by rw [hl]; linear_combination (-(y1 - y0)) * hv
  have h2 : l * (y0 + y1) = x1 ^ 2 + x1 * x0 + x0 ^ 2 + A := by
    have h3 : (x1 - x0) * (l * (y0 + y1)) = (x1 - x0) * (x1 ^ 2 + x1 * x0 + x0 ^ 2 + A) := by
      linear_combination h1 - h0 - (y0 + y1) * hd
    have h4 := congrArg (fun t => v * t) h3
    linear_combination h4 - (l * (y0 + y1) - (x1 ^ 2 + x1 * x0 + x0 ^ 2 + A)) * hv
  have h5 : 2 * l * y0 = x1 ^ 2 + x1 * x0 + x0 ^ 2 + A - l ^ 2 * (x1 - x0) := by
    linear_combination h2 - l * hd
  linear_combination h0 - (x0 - (l ^ 2 - x0 - x1)) * h5

theorem tangent {R : Type*} [CommRing R] {A B x0 y0 l v : R} (h0 : y0 ^ 2 = x0 ^ 3 + A * x0 + B)
    (hv : (2 * y0) * v = 1) (hl : l = (3 * x0 ^ 2 + A) * v) :
    (l * (x0 - (l ^ 2 - x0 - x0)) - y0) ^ 2 =
      (l ^ 2 - x0 - x0) ^ 3 + A * (l ^ 2 - x0 - x0) + B := by
  have h5 : 2 * l * y0 = 3 * x0 ^ 2 + A := by rw [hl]; linear_combination (3 * x0 ^ 2 + A) * hv
  linear_combination h0 - (x0 - (l ^ 2 - x0 - x0)) * h5

theorem onCurve_zmod {N : ℕ} {A B x y : ℤ} :
    OnCurve N A B x y ↔ (y : ZMod N) ^ 2 = (x : ZMod N) ^ 3 + A * x + B := by
  unfold OnCurve
  rw [← ZMod.intCast_eq_intCast_iff]
  push_cast
  rfl

theorem fmod_zmod {N : ℕ} (hN : 0 < N) (x : ℤ) : ((x.fmod N : ℤ) : ZMod N) = x :=
  (ZMod.intCast_eq_intCast_iff _ _ _).mpr (fmod_modEq x N (by exact_mod_cast hN))

theorem modularInverse_ok {N : ℕ} (hN : 0 < N) {a v : ℤ} (h : modularInverse a N = .ok v) :
    (a : ZMod N) * v = 1 := by
  have hs := C72_modular_inverse a N (by exact_mod_cast hN)
  by_cases hg : Int.gcd a N = 1
  · obtain ⟨x, hx, _, _, h1⟩ := hs.1 hg
    rw [hx] at h
    cases h
    have := (ZMod.intCast_eq_intCast_iff _ _ N).mpr h1
    push_cast at this
    exact this
  · rw [hs.2 hg] at h; cases h

theorem modularInverse_error {N : ℕ} (hN : 0 < N) {a e : ℤ} (h : modularInverse a N = .error e) :
    Int.gcd e N ≠ 1 := by
  have hs := C72_modular_inverse a N (by exact_mod_cast hN)
  by_cases hg : Int.gcd a N = 1
  · obtain ⟨x, hx, _⟩ := hs.1 hg
    rw [hx] at h; cases h
  · rw [hs.2 hg] at h; cases h; exact hg

/-- C72: adding two points of the curve `y² = x³ + A x + B` modulo `N` yields a point of the curve with reduced
coordinates, or fails with a number that has a common factor with `N`. -/
theorem C72_curve_add (N : ℕ) (hN : 0 < N) (A B X0 Y0 X1 Y1 : ℤ) (h0 : OnCurve N A B X0 Y0)
    (h1 : OnCurve N A B X1 Y1) :
    (∀ P, ecAdd N A X0 Y0 X1 Y1 = .ok P →
      OnCurve N A B P.1 P.2 ∧ (0 ≤ P.1 ∧ P.1 < N) ∧ (0 ≤ P.2 ∧ P.2 < N)) ∧
    (∀ e, ecAdd N A X0 Y0 X1 Y1 = .error e → Int.gcd e N ≠ 1) := by
  have hNz : (0 : ℤ) < N := by exact_mod_cast hN
  have fm : ∀ x : ℤ, 0 ≤ x.fmod N ∧ x.fmod N < N := by
    intro x
    rw [Int.fmod_eq_emod_of_nonneg _ hNz.le]
    exact ⟨Int.emod_nonneg _ hNz.ne', Int.emod_lt_of_pos _ hNz⟩
  unfold ecAdd
  by_cases hc : X0 = X1 ∧ Y0 = Y1
  · obtain ⟨rfl, rfl⟩ := hc
    simp only [and_self, if_true]
    cases hv : modularInverse (2 * Y0) N with
    | error e =>
      refine ⟨fun P h => (by cases h), fun e' h => ?_⟩
      cases h
      exact modularInverse_error hN hv
    | ok v =>
      refine ⟨fun P h => ?_, fun e' h => by cases h⟩
      cases h
      refine ⟨?_, fm _, fm _⟩
      rw [onCurve_zmod] at h0 ⊢
      have := modularInverse_ok hN hv
      push_cast at this
      have key := tangent h0 this rfl
      simp only [fmod_zmod hN]
      push_cast
      simp only [fmod_zmod hN]
      push_cast
      simp only [fmod_zmod hN]
      push_cast
      linear_combination key
  · simp only [if_neg hc]
    cases hv : modularInverse (X1 - X0) N with
    | error e =>
      refine ⟨fun P h => (by cases h), fun e' h => ?_⟩
      cases h
      exact modularInverse_error hN hv
    | ok v =>
      refine ⟨fun P h => ?_, fun e' h => by cases h⟩
      cases h
      refine ⟨?_, fm _, fm _⟩
      rw [onCurve_zmod] at h0 h1 ⊢
      have := modularInverse_ok hN hv
      push_cast at this
      have key := chord h0 h1 this rfl
      simp only [fmod_zmod hN]
      push_cast
      simp only [fmod_zmod hN]
      push_cast
      simp only [fmod_zmod hN]
      push_cast
      linear_combination key

theorem ecMulLoop_curve (N : ℕ) (hN : 0 < N) (A B : ℤ) (X Y BX BY : ℤ) (k : ℕ) (h0 : OnCurve N A B X Y)
    (h1 : OnCurve N A B BX BY) :
    (∀ P, ecMulLoop N A X Y BX BY k = .ok P → OnCurve N A B P.1 P.2) ∧
    (∀ e, ecMulLoop N A X Y BX BY k = .error e → Int.gcd e N ≠ 1) := by
  rw [ecMulLoop]
  split
  · refine ⟨fun P h => ?_, fun e h => by cases h⟩
    cases h; exact h0
  · next hk =>
    have hadd := C72_curve_add N hN A B X Y BX BY h0 h1
    have hdbl := C72_curve_add N hN A B BX BY BX BY h1 h1
    have hXY : (∀ P, (if k % 2 = 1 then ecAdd N A X Y BX BY else .ok (X, Y)) = .ok P → OnCurve N A B P.1 P.2) ∧
        (∀ e, (if k % 2 = 1 then ecAdd N A X Y BX BY else .ok (X, Y)) = .error e → Int.gcd e N ≠ 1) := by
      split_ifs
      · exact ⟨fun P h => (hadd.1 P h).1, hadd.2⟩
      · refine ⟨fun P h => ?_, fun e h => by cases h⟩
        cases h; exact h0
    revert hXY
    generalize (if k % 2 = 1 then ecAdd N A X Y BX BY else Except.ok (X, Y)) = e1
    intro hXY
    cases e1 with
    | error e =>
      refine ⟨fun P h => (by cases h), fun e' h => ?_⟩
      cases h; exact hXY.2 _ rfl
    | ok P1 =>
      have hP1 := hXY.1 P1 rfl
      cases he : ecAdd N A BX BY BX BY with
      | error e =>
        refine ⟨fun P h => (by cases h), fun e' h => ?_⟩
        cases h; exact hdbl.2 _ he
      | ok P2 =>
        have hP2 := (hdbl.1 P2 he).1
        exact ecMulLoop_curve N hN A B P1.1 P1.2 P2.1 P2.2 (k / 2) hP1 hP2
termination_by k
decreasing_by omega

/-- C72: multiplying a point by any `k` stays on the curve or fails with a number that has a common factor
with `N`: a failing multiplication always reveals a divisor greater than 1. -/
theorem C72_curve_mul (N : ℕ) (hN : 0 < N) (A B X Y : ℤ) (k : ℕ) (h : OnCurve N A B X Y) :
    (∀ P, ecMul N A X Y k = .ok P → OnCurve N A B P.1 P.2) ∧
    (∀ e, ecMul N A X Y k = .error e → 1 < (pyGcd e N).toNat ∧ (pyGcd e N).toNat ∣ N) := by
  have := ecMulLoop_curve N hN A B X Y X Y (k - 1) h h
  refine ⟨this.1, fun e he => ⟨?_, pyGcd_dvd e N hN⟩⟩
  have h2 := this.2 e he
  rw [pyGcd_eq e N (by positivity) (Or.inr (by exact_mod_cast hN)), Int.toNat_natCast]
  have : 0 < Int.gcd e N := Int.gcd_pos_of_ne_zero_right _ (by exact_mod_cast hN.ne')
  omega

/-- Non-vacuity: the point `(3, 6)` of `y² = x³ + 9` modulo 35. -/
example : OnCurve 35 0 9 3 6 ∧ ∃ P, ecMul 35 0 3 6 1 = .ok P := ⟨by unfold OnCurve; decide, by simp [ecMul, ecMulLoop]⟩

theorem pickCurve_onCurve (rand : ℕ → ℕ) (N : ℕ) (hN : 0 < N) : ∀ fuel i c,
    pickCurve rand N fuel i = some c → ∃ B, OnCurve N c.1.2.2 B c.1.1 c.1.2.1
  | 0, _, _, h => by simp [pickCurve] at h
  | fuel + 1, i, c, h => by
    rw [pickCurve] at h
    split_ifs at h with hd
    · simp only [Option.some.injEq] at h
      subst h
      refine ⟨((rand (i + 1) % N : ℕ) : ℤ) ^ 2 - ((rand i % N : ℕ) : ℤ) ^ 3
        - ((rand (i + 2) % N : ℕ) : ℤ) * ((rand i % N : ℕ) : ℤ), ?_⟩
      unfold OnCurve
      apply Int.ModEq.symm
      simp only
      have : ∀ a b c : ℤ, b + c + (a - b - c) = a := by intros; ring
      rw [this]
    · exact pickCurve_onCurve rand N hN fuel (i + 3) c h

/-- C72: whatever the random numbers, when a stage of the factorisation of `N` fails, the common factor it splits off
divides `N` and is greater than 1, so both recursive calls are on smaller numbers unless the factor is `N` itself. -/
theorem C72_ecm_progress (rand : ℕ → ℕ) (N fuel bound i : ℕ) (hN : 0 < N) (c : (ℤ × ℤ × ℤ) × ℕ)
    (hc : pickCurve rand N fuel i = some c) (e : ℤ)
    (he : ecStages N c.1.2.2 bound c.1.1 c.1.2.1 = .error e) :
    1 < (pyGcd e N).toNat ∧ (pyGcd e N).toNat ∣ N ∧
      ((pyGcd e N).toNat ≠ N → (pyGcd e N).toNat < N ∧ N / (pyGcd e N).toNat < N) := by
  obtain ⟨B, hB⟩ := pickCurve_onCurve rand N hN fuel i c hc
  have key : ∀ (ps : List ℕ) (X Y : ℤ), OnCurve N c.1.2.2 B X Y →
      ps.foldlM (fun (XY : ℤ × ℤ) p => ecMul N c.1.2.2 XY.1 XY.2
        (primePowerLoop p (Nat.sqrt bound + 1) (Nat.sqrt bound + 1) p)) (X, Y) = .error e →
      1 < (pyGcd e N).toNat ∧ (pyGcd e N).toNat ∣ N := by
    intro ps
    induction ps with
    | nil => intro X Y _ h; cases h
    | cons p ps ih =>
      intro X Y hXY h
      rw [List.foldlM_cons] at h
      have hm := C72_curve_mul N hN c.1.2.2 B X Y (primePowerLoop p (Nat.sqrt bound + 1) (Nat.sqrt bound + 1) p) hXY
      cases hr : ecMul N c.1.2.2 X Y (primePowerLoop p (Nat.sqrt bound + 1) (Nat.sqrt bound + 1) p) with
      | error e' =>
        simp only [hr] at h
        cases h
        exact hm.2 _ hr
      | ok P =>
        simp only [hr] at h
        exact ih P.1 P.2 (hm.1 P hr) h
  obtain ⟨h1, h2⟩ := key _ _ _ hB he
  refine ⟨h1, h2, fun hne => ⟨?_, Nat.div_lt_self hN h1⟩⟩
  exact lt_of_le_of_ne (Nat.le_of_dvd hN h2) hne

end Verif
