import Mathlib.Data.Nat.Sqrt
import Mathlib.Data.List.Sort
import Mathlib.Algebra.BigOperators.Group.List.Basic
/-!
Model of /repo/ebsdtorch/utils/factorize.py.  Python integers are `ℕ` / `ℤ`.  `random` is an arbitrary
stream `rand` of naturals, reduced into the requested range; the position in the stream is threaded.
Loops that may run forever take `fuel`; `none` means "has not returned yet".
`int(math.sqrt(x))` is the exact integer square root (x < 2^16 or x = the sieve bound, so the float
square root is exact enough).
-/
namespace Verif

/-- factorize.py:26-28 and :30-32: `while x % d == 0: factors.append(d); x //= d`. -/
def stripFactor : ℕ → ℕ → ℕ → Option (List ℕ × ℕ)
  | 0, _, _ => none
  | fuel + 1, d, x =>
    if x % d = 0 then (stripFactor fuel d (x / d)).map fun r => (d :: r.1, r.2) else some ([], x)

/-- factorize.py:29-32: the loop over the odd trial divisors. -/
def trialLoop (fuel : ℕ) : List ℕ → ℕ → Option (List ℕ × ℕ)
  | [], x => some ([], x)
  | d :: ds, x => do
    let r ← stripFactor fuel d x
    let r' ← trialLoop fuel ds r.2
    pure (r.1 ++ r'.1, r'.2)

/-- factorize.py:24-35 `factor_trial_division`; `range(3, int(math.sqrt(x)) + 1, 2)`. -/
def trialDivision (fuel x : ℕ) : Option (List ℕ) := do
  let r ← stripFactor fuel 2 x
  let r' ← trialLoop fuel (List.range' 3 ((Nat.sqrt r.2 - 1) / 2) 2) r.2
  let fs := r.1 ++ r'.1 ++ (if r'.2 > 1 then [r'.2] else [])
  pure (fs.insertionSort (· ≤ ·))

/-- factorize.py:37-41 `is_probably_prime_fermat`; `random.randint(2, n-2)`. -/
def fermatTest (rand : ℕ → ℕ) (n : ℕ) : ℕ → ℕ → Bool × ℕ
  | 0, i => (true, i)
  | t + 1, i => if (2 + rand i % (n - 3)) ^ (n - 1) % n ≠ 1 then (false, i + 1) else fermatTest rand n t (i + 1)

/-- factorize.py:48-49: `for i in range(p * p, end, p): composite[i] = True`. -/
def markMultiples (stop p : ℕ) (composite : ℕ → Bool) : ℕ → Bool := fun i =>
  composite i || (decide (p * p ≤ i) && decide (i < stop) && decide ((i - p * p) % p = 0))

/-- factorize.py:45-49: the outer sieve loop. -/
def sieveLoop (stop : ℕ) : List ℕ → (ℕ → Bool) → (ℕ → Bool)
  | [], c => c
  | p :: ps, c => if c p = true then sieveLoop stop ps c else sieveLoop stop ps (markMultiples stop p c)

/-- factorize.py:43-50 `gen_primes_sieve_of_eratosthenes`. -/
def genPrimes (stop : ℕ) : List ℕ :=
  let composite := sieveLoop stop (List.range' 2 (Nat.sqrt stop + 1 - 2)) fun _ => false
  (List.range' 2 (stop - 2)).filter fun p => !composite p

/-- factorize.py:52-55 `gcd`. -/
def pyGcd (a b : ℤ) : ℤ :=
  if h : b = 0 then a else pyGcd b (a.fmod b)
termination_by b.natAbs
decreasing_by
  rcases lt_or_gt_of_ne h with hb | hb
  · have : (a.fmod b).natAbs = ((-a).fmod (-b)).natAbs := by rw [Int.neg_fmod_neg, Int.natAbs_neg]
    rw [this, Int.fmod_eq_emod_of_nonneg _ (by omega)]
    have h2 := Int.emod_nonneg (-a) (show -b ≠ 0 by omega)
    have h3 := Int.emod_lt_of_pos (-a) (show 0 < -b by omega)
    omega
  · rw [Int.fmod_eq_emod_of_nonneg _ hb.le]
    have h2 := Int.emod_nonneg a h
    have h3 := Int.emod_lt_of_pos a hb
    omega

/-- factorize.py:57-62 `egcd` (the third component is never used): loop state `ro, r, so, s`. -/
def pyEgcd (ro r so s : ℤ) : ℤ × ℤ :=
  if h : r = 0 then (ro, so) else pyEgcd r (ro.fmod r) s (so - (ro.fdiv r) * s)
termination_by r.natAbs
decreasing_by
  rcases lt_or_gt_of_ne h with hb | hb
  · have : (ro.fmod r).natAbs = ((-ro).fmod (-r)).natAbs := by rw [Int.neg_fmod_neg, Int.natAbs_neg]
    rw [this, Int.fmod_eq_emod_of_nonneg _ (by omega)]
    have h2 := Int.emod_nonneg (-ro) (show -r ≠ 0 by omega)
    have h3 := Int.emod_lt_of_pos (-ro) (show 0 < -r by omega)
    omega
  · rw [Int.fmod_eq_emod_of_nonneg _ hb.le]
    have h2 := Int.emod_nonneg ro h
    have h3 := Int.emod_lt_of_pos ro hb
    omega

/-- factorize.py:64-68 `modular_inverse`; `Except.error a` is `raise ValueError(a)`. -/
def modularInverse (a n : ℤ) : Except ℤ ℤ :=
  let r := pyEgcd a n 1 0
  if r.1 ≠ 1 then .error a else .ok (r.2.fmod n)

/-- factorize.py:70-77 `elliptic_curve_add`. -/
def ecAdd (N A X0 Y0 X1 Y1 : ℤ) : Except ℤ (ℤ × ℤ) :=
  (if X0 = X1 ∧ Y0 = Y1 then (modularInverse (2 * Y0) N).map fun v => ((3 * X0 ^ 2 + A) * v).fmod N
    else (modularInverse (X1 - X0) N).map fun v => ((Y1 - Y0) * v).fmod N).map fun l =>
  let x := (l ^ 2 - X0 - X1).fmod N
  (x, (l * (X0 - x) - Y0).fmod N)

/-- factorize.py:82-86: the double-and-add loop of `elliptic_curve_mul`. -/
def ecMulLoop (N A X Y BX BY : ℤ) (k : ℕ) : Except ℤ (ℤ × ℤ) :=
  if h : k = 0 then .ok (X, Y) else
    (if k % 2 = 1 then ecAdd N A X Y BX BY else .ok (X, Y)).bind fun XY =>
    (ecAdd N A BX BY BX BY).bind fun B =>
    ecMulLoop N A XY.1 XY.2 B.1 B.2 (k / 2)
termination_by k
decreasing_by omega

/-- factorize.py:79-87 `elliptic_curve_mul`. -/
def ecMul (N A X Y : ℤ) (k : ℕ) : Except ℤ (ℤ × ℤ) := ecMulLoop N A X Y X Y (k - 1)

/-- factorize.py:93-97 `prime_power`; the product at least doubles, so `bound2` rounds suffice. -/
def primePowerLoop (p bound2 : ℕ) : ℕ → ℕ → ℕ
  | 0, mp => mp
  | f + 1, mp => if mp * p < bound2 then primePowerLoop p bound2 f (mp * p) else mp

/-- factorize.py:105-109: draw curves until the discriminant test passes. -/
def pickCurve (rand : ℕ → ℕ) (N : ℕ) : ℕ → ℕ → Option ((ℤ × ℤ × ℤ) × ℕ)
  | 0, _ => none
  | fuel + 1, i =>
    let X : ℤ := (rand i % N : ℕ)
    let Y : ℤ := (rand (i + 1) % N : ℕ)
    let A : ℤ := (rand (i + 2) % N : ℕ)
    let B := (Y ^ 2 - X ^ 3 - A * X).fmod N
    if 4 * A ^ 3 - 27 * B ^ 2 ≠ 0 then some ((X, Y, A), i + 3) else pickCurve rand N fuel (i + 3)

/-- factorize.py:111-114: multiply by one prime power after the other; stops at the first `ValueError`. -/
def ecStages (N A : ℤ) (bound : ℕ) (X Y : ℤ) : Except ℤ (ℤ × ℤ) :=
  (genPrimes bound).foldlM (fun XY p =>
    ecMul N A XY.1 XY.2 (primePowerLoop p (Nat.sqrt bound + 1) (Nat.sqrt bound + 1) p)) (X, Y)

/-- factorize.py:89-121 `factor_ecm` (the curve counter `icurve` is never read). -/
def factorEcm (rand : ℕ → ℕ) : ℕ → ℕ → ℕ → ℕ → Option (List ℕ × ℕ)
  | 0, _, _, _ => none
  | fuel + 1, N, bound, i =>
    if N < 65536 then (trialDivision fuel N).map fun l => (l, i)
    else
      let t := fermatTest rand N 32 i
      if t.1 = true then some ([N], t.2)
      else do
        let c ← pickCurve rand N fuel t.2
        match ecStages N c.1.2.2 bound c.1.1 c.1.2.1 with
        | .error a =>
          let g := (pyGcd a N).toNat
          if g ≠ N then do
            let l1 ← factorEcm rand fuel g (bound + 512) c.2
            let l2 ← factorEcm rand fuel (N / g) (bound + 512) l1.2
            pure ((l1.1 ++ l2.1).insertionSort (· ≤ ·), l2.2)
          else factorEcm rand fuel N (bound + 512) c.2
        | .ok _ => factorEcm rand fuel N (bound + 512) c.2

/-- factorize.py:23,123 `FactorECM`. -/
def factorECM (rand : ℕ → ℕ) (fuel N : ℕ) : Option (List ℕ) := (factorEcm rand fuel N 512 0).map Prod.fst

/-- factorize.py:126-140 `nearly_square_factors`. -/
def nearlySquareFactors (rand : ℕ → ℕ) (fuel n : ℕ) : Option (ℕ × ℕ) :=
  (factorECM rand fuel n).map fun fs =>
    fs.reverse.foldl (fun ab f => if ab.1 > ab.2 then (ab.1, ab.2 * f) else (ab.1 * f, ab.2)) (1, 1)

end Verif
