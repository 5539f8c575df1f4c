import Verif.Props.EllipticCurve
import Verif.Spec.ShortCurve
import Mathlib.Algebra.Field.ZMod
import Mathlib.GroupTheory.OrderOfElement
import Mathlib.Data.Nat.Log
import Mathlib.Algebra.BigOperators.Intervals
/-! Property C147: what the curve stage of the factorisation computes (utils/factorize.py). -/
namespace Verif
open Verif.Spec

lemma inv_mod {N q : ℕ} (hN : 0 < N) (hq : q ∣ N) {a v : ℤ} (h : modularInverse a N = .ok v) : (a : ZMod q) * (v : ZMod q) = 1 := by
  have hs := C72_modular_inverse a N (by exact_mod_cast hN)
  by_cases hg : Int.gcd a N = 1
  · obtain ⟨x, hx, _, _, h1⟩ := hs.1 hg
    rw [hx] at h
    cases h
    have h2 : a * v ≡ 1 [ZMOD q] := h1.of_dvd (by exact_mod_cast hq)
    have := (ZMod.intCast_eq_intCast_iff _ _ q).mpr h2
    push_cast at this
    exact this
  · rw [hs.2 hg] at h; cases h

lemma fmod_mod {N q : ℕ} (hN : 0 < N) (hq : q ∣ N) (x : ℤ) : ((x.fmod N : ℤ) : ZMod q) = (x : ZMod q) := by
  rw [ZMod.intCast_eq_intCast_iff, Int.fmod_eq_emod_of_nonneg _ (by positivity)]
  exact (Int.mod_modEq x N).of_dvd (by exact_mod_cast hq)

/-- Adding points modulo `N` is addition in the group of the curve modulo every prime factor of `N`. -/
theorem ecAdd_group {N q : ℕ} (hN : 0 < N) [Fact q.Prime] (hq : q ∣ N) (A B : ℤ) {X0 Y0 X1 Y1 : ℤ} {P0 P1 : (shortCurve q A B).Point}
    (h0 : Coordinates q A B X0 Y0 P0) (h1 : Coordinates q A B X1 Y1 P1) {R : ℤ × ℤ} (h : ecAdd N A X0 Y0 X1 Y1 = .ok R) :
    Coordinates q A B R.1 R.2 (P0 + P1) := by
  obtain ⟨n0, rfl⟩ := h0
  obtain ⟨n1, rfl⟩ := h1
  unfold ecAdd at h
  have fin : ∀ l : ℤ, (X0 : ZMod q) ≠ X1 ∨ (Y0 : ZMod q) ≠ -Y1 →
      (shortCurve q A B).slope (X0 : ZMod q) X1 Y0 Y1 = (l : ZMod q) →
      Coordinates q A B ((l ^ 2 - X0 - X1).fmod N) ((l * (X0 - (l ^ 2 - X0 - X1).fmod N) - Y0).fmod N)
        (.some _ _ n0 + .some _ _ n1) := by
    intro l hne hs
    have hxy : ¬((X0 : ZMod q) = X1 ∧ (Y0 : ZMod q) = (shortCurve q A B).negY X1 Y1) := by
      rintro ⟨e1, e2⟩
      rcases hne with h | h
      · exact h e1
      · apply h; rw [e2]; simp [WeierstrassCurve.Affine.negY, shortCurve]
    rw [WeierstrassCurve.Affine.Point.add_some hxy]
    have ex : (shortCurve q A B).addX (X0 : ZMod q) X1 ((shortCurve q A B).slope X0 X1 Y0 Y1) =
        (((l ^ 2 - X0 - X1).fmod N : ℤ) : ZMod q) := by
      rw [hs, fmod_mod hN hq]
      simp [WeierstrassCurve.Affine.addX, shortCurve]
    have ey : (shortCurve q A B).addY (X0 : ZMod q) X1 Y0 ((shortCurve q A B).slope X0 X1 Y0 Y1) =
        (((l * (X0 - (l ^ 2 - X0 - X1).fmod N) - Y0).fmod N : ℤ) : ZMod q) := by
      rw [hs, fmod_mod hN hq]
      push_cast
      rw [fmod_mod hN hq]
      simp [WeierstrassCurve.Affine.addX, WeierstrassCurve.Affine.addY, WeierstrassCurve.Affine.negY, WeierstrassCurve.Affine.negAddY, shortCurve]
      ring
    have key : ∀ (x x' y y' : ZMod q) (_ : x = x') (_ : y = y') (hn : (shortCurve q A B).Nonsingular x y),
        ∃ hn' : (shortCurve q A B).Nonsingular x' y', WeierstrassCurve.Affine.Point.some x y hn = .some x' y' hn' := by
      rintro x _ y _ rfl rfl hn
      exact ⟨hn, rfl⟩
    exact key _ _ _ _ ex ey _
  by_cases hc : X0 = X1 ∧ Y0 = Y1
  · obtain ⟨rfl, rfl⟩ := hc
    simp only [and_self, if_true] at h
    cases hv : modularInverse (2 * Y0) N with
    | error e => rw [hv] at h; cases h
    | ok v =>
      rw [hv] at h
      cases h
      have hi := inv_mod hN hq hv
      push_cast at hi
      have hy : (Y0 : ZMod q) ≠ -Y0 := by
        intro e
        have : (2 : ZMod q) * Y0 = 0 := by linear_combination e
        rw [this, zero_mul] at hi
        exact zero_ne_one hi
      refine fin _ (Or.inr hy) ?_
      rw [WeierstrassCurve.Affine.slope_of_Y_ne rfl (by
        intro e; exact hy (e.trans (by simp [WeierstrassCurve.Affine.negY, shortCurve])))]
      rw [fmod_mod hN hq]
      have h2 : (2 : ZMod q) * Y0 ≠ 0 := fun e => by rw [e, zero_mul] at hi; exact zero_ne_one hi
      have e3 : (Y0 : ZMod q) - (shortCurve q A B).negY X0 Y0 = 2 * Y0 := by
        simp [WeierstrassCurve.Affine.negY, shortCurve]; ring
      rw [e3, div_eq_iff h2]
      simp only [shortCurve]
      push_cast
      linear_combination -(3 * (X0 : ZMod q) ^ 2 + A) * hi
  · simp only [if_neg hc] at h
    cases hv : modularInverse (X1 - X0) N with
    | error e => rw [hv] at h; cases h
    | ok v =>
      rw [hv] at h
      cases h
      have hi := inv_mod hN hq hv
      push_cast at hi
      have hx : (X0 : ZMod q) ≠ X1 := by
        intro e
        rw [e, sub_self, zero_mul] at hi
        exact zero_ne_one hi
      refine fin _ (Or.inl hx) ?_
      rw [WeierstrassCurve.Affine.slope_of_X_ne hx, fmod_mod hN hq, div_eq_iff (sub_ne_zero.mpr hx)]
      push_cast
      linear_combination -((Y0 : ZMod q) - Y1) * hi

theorem ecMulLoop_group {N q : ℕ} (hN : 0 < N) [Fact q.Prime] (hq : q ∣ N) (A B : ℤ) (k : ℕ) {X Y BX BY : ℤ}
    {P D : (shortCurve q A B).Point} (h0 : Coordinates q A B X Y P) (h1 : Coordinates q A B BX BY D) {R : ℤ × ℤ}
    (h : ecMulLoop N A X Y BX BY k = .ok R) : Coordinates q A B R.1 R.2 (P + k • D) := by
  rw [ecMulLoop] at h
  split at h
  · next hk =>
    cases h
    subst hk
    simpa using h0
  · next hk =>
    cases he : (if k % 2 = 1 then ecAdd N A X Y BX BY else Except.ok (X, Y)) with
    | error e => rw [he] at h; cases h
    | ok P1 =>
      rw [he] at h
      cases hd : ecAdd N A BX BY BX BY with
      | error e => simp only [Except.bind, hd] at h; cases h
      | ok P2 =>
        simp only [Except.bind, hd] at h
        have c2 := ecAdd_group hN hq A B h1 h1 hd
        have c1 : Coordinates q A B P1.1 P1.2 (P + (k % 2) • D) := by
          split_ifs at he with hp
          · rw [hp, one_nsmul]; exact ecAdd_group hN hq A B h0 h1 he
          · cases he
            have : k % 2 = 0 := by omega
            rw [this, zero_nsmul, add_zero]; exact h0
        have := ecMulLoop_group hN hq A B (k / 2) c1 c2 h
        have e : P + (k % 2) • D + (k / 2) • (D + D) = P + k • D := by
          rw [add_assoc, ← two_smul ℕ D, smul_smul, ← add_smul]
          congr 2
          omega
        rwa [e] at this
termination_by k
decreasing_by omega

/-- C147: whenever `elliptic_curve_mul(N, A, B, X, Y, k)` returns, with `k ≥ 1`, the returned pair is, modulo every prime factor of `N` at which the
start is a regular point of the curve, the `k`-fold multiple of the start in the group of the curve. -/
theorem C147_multiple {N q : ℕ} (hN : 0 < N) [Fact q.Prime] (hq : q ∣ N) (A B : ℤ) (k : ℕ) (hk : 1 ≤ k) (X Y : ℤ)
    (P : (shortCurve q A B).Point) (h0 : Coordinates q A B X Y P) (R : ℤ × ℤ) (h : ecMul N A X Y k = .ok R) :
    Coordinates q A B R.1 R.2 (k • P) := by
  have := ecMulLoop_group hN hq A B (k - 1) h0 h0 h
  rwa [← succ_nsmul', show k - 1 + 1 = k by omega] at this

/-- `prime_power`: the largest power of the prime that is at most the integer root of the bound, or the prime itself. -/
lemma primePower_eq (p b : ℕ) (hp : 2 ≤ p) : ∀ (f mp e : ℕ), mp = p ^ e → 1 ≤ e → (e = 1 ∨ mp ≤ b) → b ≤ mp * 2 ^ f →
    primePowerLoop p (b + 1) f mp = p ^ (max 1 (Nat.log p b)) := by
  intro f
  induction f with
  | zero =>
    intro mp e he h1 hb hf
    have hpe : p ^ e ≠ 0 := by positivity
    rw [pow_zero, mul_one] at hf
    simp only [primePowerLoop]
    rw [he] at hf hb ⊢
    congr 1
    have hlog : Nat.log p b ≤ e := by
      have := Nat.log_mono_right (b := p) hf
      rwa [Nat.log_pow hp] at this
    rcases hb with rfl | hb
    · omega
    · have : e ≤ Nat.log p b := Nat.le_log_of_pow_le hp hb
      omega
  | succ f ih =>
    intro mp e he h1 hb hf
    simp only [primePowerLoop]
    split_ifs with hc
    · exact ih (mp * p) (e + 1) (by rw [he, pow_succ]) (by omega) (Or.inr (by omega)) (by
        rw [pow_succ] at hf
        calc b ≤ mp * (2 ^ f * 2) := hf
          _ ≤ mp * p * 2 ^ f := by nlinarith [Nat.zero_le (mp * 2 ^ f)])
    · rw [he] at hc hb ⊢
      congr 1
      have h2 : b < p ^ (e + 1) := by rw [pow_succ]; omega
      have hlog : Nat.log p b ≤ e := by
        have := Nat.log_lt_of_lt_pow' (b := p) (x := e + 1) (by omega) h2
        omega
      rcases hb with rfl | hb
      · omega
      · have : e ≤ Nat.log p b := Nat.le_log_of_pow_le hp hb
        omega

/-- C147: a stage of the factorisation that returns has multiplied the start by the product, over all primes below the bound, of the largest power of
the prime that is at most `√bound` (the prime itself if it exceeds that). -/
theorem C147_stage {N q : ℕ} (hN : 0 < N) [Fact q.Prime] (hq : q ∣ N) (A B : ℤ) (bound : ℕ) (X Y : ℤ)
    (P : (shortCurve q A B).Point) (h0 : Coordinates q A B X Y P) (R : ℤ × ℤ) (h : ecStages N A bound X Y = .ok R) :
    Coordinates q A B R.1 R.2 ((∏ p ∈ (Finset.range bound).filter Nat.Prime, p ^ max 1 (Nat.log p (Nat.sqrt bound))) • P) := by
  obtain ⟨hs1, hs2⟩ := C33_sieve bound
  have gen : ∀ (ps : List ℕ), (∀ p ∈ ps, p.Prime) → ∀ (X Y : ℤ) (P : (shortCurve q A B).Point), Coordinates q A B X Y P →
      ps.foldlM (fun (XY : ℤ × ℤ) p => ecMul N A XY.1 XY.2
        (primePowerLoop p (Nat.sqrt bound + 1) (Nat.sqrt bound + 1) p)) (X, Y) = .ok R →
      Coordinates q A B R.1 R.2 ((ps.map fun p => p ^ max 1 (Nat.log p (Nat.sqrt bound))).prod • P) := by
    intro ps
    induction ps with
    | nil => intro _ X Y P hP h; cases h; simpa using hP
    | cons p ps ih =>
      intro hp X Y P hP h
      rw [List.foldlM_cons] at h
      have hpp := hp p List.mem_cons_self
      have hpow : primePowerLoop p (Nat.sqrt bound + 1) (Nat.sqrt bound + 1) p = p ^ max 1 (Nat.log p (Nat.sqrt bound)) :=
        primePower_eq p _ hpp.two_le _ p 1 (by simp) le_rfl (Or.inl rfl) (by
          have : Nat.sqrt bound < 2 ^ (Nat.sqrt bound) := Nat.lt_two_pow_self
          rw [pow_succ]
          nlinarith [hpp.two_le])
      simp only [hpow] at h
      cases hr : ecMul N A X Y (p ^ max 1 (Nat.log p (Nat.sqrt bound))) with
      | error e' => simp only [hr] at h; cases h
      | ok P' =>
        simp only [hr] at h
        have := ih (fun p' hp' => hp p' (List.mem_cons_of_mem _ hp')) P'.1 P'.2 _
          (C147_multiple hN hq A B _ (Nat.one_le_pow _ _ hpp.pos) X Y P hP P' hr) h
        rw [smul_smul, mul_comm] at this
        rwa [List.map_cons, List.prod_cons]
  have := gen (genPrimes bound) (fun p hp => ((hs1 p).mp hp).1) X Y P h0 h
  have hnd : (genPrimes bound).Nodup := hs2.imp (fun h => h.ne)
  have e : (genPrimes bound).toFinset = (Finset.range bound).filter Nat.Prime := by
    ext p
    rw [List.mem_toFinset, hs1, Finset.mem_filter, Finset.mem_range, and_comm]
  rw [← e, List.prod_toFinset _ hnd]
  exact this

/-- C147: if, modulo some prime factor of `N`, the order of the start in the group of the curve divides the product of those prime powers, the stage does
not return: it raises, with a number that shares a factor with `N`. -/
theorem C147_smooth {N q : ℕ} (hN : 0 < N) [Fact q.Prime] (hq : q ∣ N) (A B : ℤ) (bound : ℕ) (X Y : ℤ)
    (P : (shortCurve q A B).Point) (h0 : Coordinates q A B X Y P)
    (hord : addOrderOf P ∣ ∏ p ∈ (Finset.range bound).filter Nat.Prime, p ^ max 1 (Nat.log p (Nat.sqrt bound))) :
    ∃ e, ecStages N A bound X Y = .error e := by
  cases h : ecStages N A bound X Y with
  | error e => exact ⟨e, rfl⟩
  | ok R =>
    obtain ⟨hn, he⟩ := C147_stage hN hq A B bound X Y P h0 R h
    rw [addOrderOf_dvd_iff_nsmul_eq_zero.mp hord] at he
    exact absurd he.symm (WeierstrassCurve.Affine.Point.some_ne_zero hn)

/-- **C147 fails** (choice of the curve): the test `4A³ - 27B² ≠ 0` has the wrong sign and is not taken modulo `N`, so for every `N ≥ 65536` the draws
`X = 2`, `Y = 2`, `A = N - 3` are accepted after three random numbers, although the curve through that point (`B = 2`) is singular modulo `N`. -/
theorem C147_singular_fails (rand : ℕ → ℕ) (N fuel i : ℕ) (hN : 65536 ≤ N) (h0 : rand i = 2) (h1 : rand (i + 1) = 2) (h2 : rand (i + 2) = N - 3) :
    pickCurve rand N (fuel + 1) i = some ((2, 2, (N : ℤ) - 3), i + 3) ∧
    (2 : ℤ) ^ 2 ≡ 2 ^ 3 + ((N : ℤ) - 3) * 2 + 2 [ZMOD N] ∧ 4 * ((N : ℤ) - 3) ^ 3 + 27 * 2 ^ 2 ≡ 0 [ZMOD N] := by
  have eA : ((rand (i + 2) % N : ℕ) : ℤ) = (N : ℤ) - 3 := by rw [h2, Nat.mod_eq_of_lt (by omega)]; omega
  have e0 : ((rand i % N : ℕ) : ℤ) = 2 := by rw [h0, Nat.mod_eq_of_lt (by omega)]; rfl
  have e1 : ((rand (i + 1) % N : ℕ) : ℤ) = 2 := by rw [h1, Nat.mod_eq_of_lt (by omega)]; rfl
  refine ⟨?_, ?_, ?_⟩
  · simp only [pickCurve]
    rw [eA, e0, e1, if_pos]
    have eB : ((2 : ℤ) ^ 2 - 2 ^ 3 - ((N : ℤ) - 3) * 2).fmod N = 2 := by
      rw [Int.fmod_eq_emod_of_nonneg _ (by positivity), show ((2 : ℤ) ^ 2 - 2 ^ 3 - ((N : ℤ) - 3) * 2) = 2 + N * (-2) by ring,
        Int.add_mul_emod_self_left, Int.emod_eq_of_lt (by norm_num) (by omega)]
    rw [eB]
    have hA : (4 : ℤ) ≤ (N : ℤ) - 3 := by omega
    have : (4 : ℤ) ^ 3 ≤ ((N : ℤ) - 3) ^ 3 := pow_le_pow_left₀ (by norm_num) hA 3
    omega
  · exact (Int.modEq_iff_dvd.mpr ⟨2, by ring⟩)
  · exact (Int.modEq_iff_dvd.mpr ⟨-(4 * ((N : ℤ) ^ 2 - 9 * N + 27)), by ring⟩)

/-- non-vacuity: doubling `(3, 6)` on `y² = x³ + 9` modulo 35, seen modulo 5 -/
example : ∃ (_ : Fact (Nat.Prime 5)) (P : (shortCurve 5 0 9).Point), Coordinates 5 0 9 3 6 P ∧ ∃ R, ecMul 35 0 3 6 2 = .ok R := by
  refine ⟨⟨by norm_num⟩, _, ⟨?_, rfl⟩, ?_⟩
  · rw [WeierstrassCurve.Affine.nonsingular_iff, WeierstrassCurve.Affine.equation_iff]
    simp only [shortCurve]
    decide
  · obtain ⟨x, hx, -⟩ := (C72_modular_inverse 12 35 (by norm_num)).1 (by decide)
    simp [ecMul, ecMulLoop, ecAdd, hx, Except.map, Except.bind]

/-- non-vacuity: the point `(1, 5)` of `y² = x³ - 1` has order 2 modulo 5, so the first stage raises for `N = 35` -/
example : ∃ e, ecStages (35 : ℕ) 0 512 1 5 = .error e := by
  have hn : (shortCurve 5 0 (-1)).Nonsingular ((1 : ℤ) : ZMod 5) ((5 : ℤ) : ZMod 5) := by
    rw [WeierstrassCurve.Affine.nonsingular_iff, WeierstrassCurve.Affine.equation_iff]
    simp only [shortCurve]
    decide
  have hy : ((5 : ℤ) : ZMod 5) = (shortCurve 5 0 (-1)).negY ((1 : ℤ) : ZMod 5) ((5 : ℤ) : ZMod 5) := by
    simp only [WeierstrassCurve.Affine.negY, shortCurve]
    decide
  have : Fact (Nat.Prime 5) := ⟨by norm_num⟩
  refine C147_smooth (N := 35) (q := 5) (by norm_num) (by norm_num) 0 (-1) 512 1 5 (.some _ _ hn) ⟨hn, rfl⟩ ?_
  have h2 : addOrderOf (WeierstrassCurve.Affine.Point.some _ _ hn) ∣ 2 := by
    rw [addOrderOf_dvd_iff_nsmul_eq_zero, two_nsmul]
    exact WeierstrassCurve.Affine.Point.add_self_of_Y_eq hy
  refine h2.trans ((dvd_pow_self 2 (by omega)).trans (Finset.dvd_prod_of_mem (fun p => p ^ max 1 (Nat.log p (Nat.sqrt 512))) (a := 2) ?_))
  simp [Nat.prime_two]

end Verif
