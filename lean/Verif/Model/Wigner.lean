import Mathlib.Analysis.SpecialFunctions.Pow.Real
import Mathlib.Analysis.SpecialFunctions.Log.Base
import Mathlib.Analysis.SpecialFunctions.Trigonometric.Basic
import Mathlib.Analysis.SpecialFunctions.Gamma.Basic
import Mathlib.Data.List.Basic
/-!
Models of /repo/ebsdtorch/harmonics/wigner_d_xnum.py and wigner_d_logspace.py: table layout, extended-exponent
numbers, signed log-sum-exp, and the vectorised recursions.  Integers are unbounded here; the int32 width of
the index arithmetic is modelled separately (`idxI32`).
-/
namespace Verif.Wigner

/-! ### Table layout -/

/-- wigner_d_xnum.py:229-276 and wigner_d_logspace.py:157-204 `index_from_coords`. -/
def idx (l m n : ℕ) : ℕ := ((l * (l + 1)) / 2 * (l + 2)) / 3 + (m * (m + 1)) / 2 + n

/-- Wrap-around of a 32-bit signed integer tensor. -/
def wrap32 (x : ℤ) : ℤ := (x + 2147483648) % 4294967296 - 2147483648

/-- `index_from_coords` on int32 tensors: every intermediate product and sum wraps around. -/
def idxI32 (l m n : ℤ) : ℤ :=
  wrap32 (wrap32 (wrap32 (wrap32 (wrap32 (l * wrap32 (l + 1)) / 2) * wrap32 (l + 2)) / 3
    + wrap32 (m * wrap32 (m + 1)) / 2) + n)

/-- wigner_d_xnum.py:300 and wigner_d_logspace.py:507 (also 313-317): the table size for the band limit `L`. -/
def tableSize (L : ℕ) : ℕ := (((L + 1) * (L + 2)) / 2) * (L + 3) / 3

/-- wigner_d_logspace.py:313-317: the same size, written differently. -/
def tableSizeLog (L : ℕ) : ℕ := ((L * (L + 1)) / 2) * (L + 2) / 3 + L * (L + 1) / 2 + L + 1

/-- The correction loops of wigner_d_logspace.py:250-257 and 272-275: decrease the estimate while the
figurate number `T` of the estimate exceeds the index. -/
def fixDown (T : ℕ → ℕ) (x : ℕ) : ℕ → ℕ
  | 0 => 0
  | k + 1 => if x < T (k + 1) then fixDown T x k else k + 1

/-- wigner_d_logspace.py:232-246: the floating-point estimate of `l` before correction. -/
noncomputable def estL (x : ℝ) : ℝ :=
  (3 * x + Real.sqrt (abs (9 * x * x - 1 / 27))) ^ (1 / 3 : ℝ)
    + (abs (3 * x - Real.sqrt (abs (9 * x * x - 1 / 27)))) ^ (1 / 3 : ℝ) - 1

/-- wigner_d_logspace.py:268: the estimate of `m` before correction. -/
noncomputable def estM (r : ℝ) : ℝ := (⌊(-1 + Real.sqrt (1 + 8 * r)) / 2⌋ : ℤ)

/-- wigner_d_logspace.py:207-281 `coords_from_index`, with the two estimates as functions so that rounding errors
of the floating-point formula can be considered. -/
def coordsFrom (e1 e2 : ℕ → ℕ) (i : ℕ) : ℕ × ℕ × ℕ :=
  let l := fixDown (fun l => l * (l + 1) * (l + 2) / 6) i (e1 i)
  let r := i - l * (l + 1) * (l + 2) / 6
  let m := fixDown (fun m => m * (m + 1) / 2) r (e2 r)
  (l, m, r - m * (m + 1) / 2)

/-- wigner_d_logspace.py:207-281 `coords_from_index` in real arithmetic. -/
noncomputable def coordsFromIndex (i : ℕ) : ℕ × ℕ × ℕ :=
  coordsFrom (fun i => (⌊estL i⌋ + 1).toNat) (fun r => (⌊estM r⌋ + 1).toNat) i

/-! ### X-numbers -/

/-- A mantissa and an exponent; represents `x * 2^(460 i)`. -/
structure XNum where
  x : ℝ
  i : ℤ

/-- wigner_d_xnum.py:27-50 `xnum_norm`. Both conditions test the original magnitude. -/
noncomputable def xnumNorm (a : XNum) : XNum :=
  let big : ℝ := 2 ^ 460
  let w := |a.x|
  let x1 := if w ≥ (2:ℝ) ^ 230 then a.x * (1 / big) else a.x
  let x2 := if w < 1 / (2:ℝ) ^ 230 then a.x * big else x1
  let i1 := if w ≥ (2:ℝ) ^ 230 then a.i + 1 else a.i
  let i2 := if w < 1 / (2:ℝ) ^ 230 then a.i - 1 else i1
  ⟨x2, i2⟩

/-- wigner_d_xnum.py:53-72 `xnum_to_fp`. -/
noncomputable def xnumToFp (a : XNum) : ℝ :=
  if a.i = 0 then a.x else if a.i < 0 then a.x * (1 / 2 ^ 460) else a.x * 2 ^ 460

/-- wigner_d_xnum.py:75-124 `xnum_sum`. -/
noncomputable def xnumSum (a b : XNum) (fa fb : ℝ) : XNum :=
  let d := a.i - b.i
  let z := if d = 0 then fa * a.x + fb * b.x
    else if d = 1 then fa * a.x + fb * b.x * (1 / 2 ^ 460)
    else if d = -1 then fb * b.x + fa * a.x * (1 / 2 ^ 460)
    else if d > 1 then fa * a.x else fb * b.x
  let iz := if d = 0 then a.i else if d = 1 then a.i else if d = -1 then b.i else if d > 1 then a.i else b.i
  xnumNorm ⟨z, iz⟩

/-- wigner_d_xnum.py:127-184 `trig_powers_xnum`, for the power `k` of a positive number `h` (`cos(beta/2)` or
`sin(beta/2)`). `none` models NaN: for `h = 0`, `log2` is `-inf` and `-inf * 0` or `inf % 460` is NaN. -/
noncomputable def trigPower (h : ℝ) (k : ℕ) : Option XNum :=
  if h = 0 then none else
  let lm := Real.logb 2 |h|
  let s : ℝ := if 0 < lm then 1 else if lm < 0 then -1 else 0
  let lp := lm * k
  let q : ℤ := ⌊|lp| / 460⌋
  let r := |lp| - 460 * q
  let i : ℤ := if 0 < lm then q else if lm < 0 then -q else 0
  some (xnumNorm ⟨(2:ℝ) ^ (r * s), i⟩)

/-! ### Signed log-sum-exp -/

/-- A logarithm that may be `-inf` (`none`). -/
abbrev LogR := Option ℝ

/-- `torch.exp`. -/
noncomputable def lexp : LogR → ℝ
  | none => 0
  | some x => Real.exp x

/-- `torch.log` of a non-negative number. -/
noncomputable def llog (x : ℝ) : LogR := if x = 0 then none else some (Real.log x)

/-- Addition of logarithms, `-inf` absorbing. -/
noncomputable def ladd : LogR → LogR → LogR
  | some a, some b => some (a + b)
  | _, _ => none

/-- `torch.max`. -/
noncomputable def lmax : LogR → LogR → LogR
  | none, b => b
  | a, none => a
  | some a, some b => some (max a b)

/-- `torch.where(~torch.isinf(a), a - m, a)` (wigner_d_logspace.py:73-74). -/
noncomputable def lshift (a m : LogR) : LogR :=
  match a, m with
  | some a, some m => some (a - m)
  | a, _ => a

/-- `2 * sign - 1`. -/
noncomputable def sgnB (s : Bool) : ℝ := if s then 1 else -1

/-- wigner_d_logspace.py:39-89 `signedlogsumexp` on arguments in `[-inf, inf)`. -/
noncomputable def signedLogSumExp (a b : LogR) (sa sb : Bool) : LogR × Bool :=
  let m := lmax a b
  let e := lexp (lshift a m) * sgnB sa + lexp (lshift b m) * sgnB sb
  open Classical in
  (ladd (llog |e|) m, decide (0 ≤ e))

/-! ### The vectorised recursion -/

/-- A table as allocated by `torch.empty`: `none` is uninitialised memory. -/
abbrev Table (α : Type) := ℕ → Option α

/-- `table[indices] = values` with bounds check; `none` is an `IndexError`. -/
def putAll {α : Type} (size : ℕ) : List (ℕ × α) → Table α → Option (Table α)
  | [], t => some t
  | (i, v) :: rest, t => if i < size then putAll size rest (Function.update t i (some v)) else none

/-- Lines 310-321 of wigner_d_xnum.py (334-343 of wigner_d_logspace.py): all `(m, n)` of the `meshgrid`, row by row,
with `m ≥ n`. -/
def mmn (L : ℕ) : List (ℕ × ℕ) :=
  ((List.range (L + 1)).flatMap fun m => (List.range (L + 1)).map fun n => (m, n)).filter fun p => p.2 ≤ p.1

/-- Lines 359-363 of wigner_d_xnum.py: the masked coordinates `(mm, mm - 1, nn - 1)`. -/
def mp1mn (L : ℕ) : List (ℕ × ℕ × ℕ) :=
  (((List.range (L + 1)).flatMap fun m : ℕ => (List.range (L + 1)).map fun n : ℕ =>
    ((m : ℤ), (m : ℤ) - 1, (n : ℤ) - 1)).filter fun p => p.2.2 ≤ p.2.1 ∧ 0 ≤ p.2.1 ∧ 0 ≤ p.2.2).map
      fun p => (p.1.toNat, p.2.1.toNat, p.2.2.toNat)

/-- One entry of `curr_coords` and `curr_indices`. -/
structure Cur where
  l : ℕ
  m : ℕ
  n : ℕ
  i : ℕ
  deriving DecidableEq

/-- The loop of lines 405-489 of wigner_d_xnum.py, from `step` on, `todo` iterations left. `comb l m n d1 d2` is the
three-term combination of `d_{l-1}` and `d_{l-2}`. A read of uninitialised memory or out of range yields `none`. -/
def recLoop {α : Type} (comb : ℕ → ℕ → ℕ → α → α → α) (size L : ℕ) : ℕ → ℕ → List Cur → Table α → Option (Table α)
  | 0, _, _, t => some t
  | todo + 1, step, cur, t =>
    (cur.mapM fun c => (t (c.i - c.l * (c.l + 1) / 2)).bind fun d1 => (t (c.i - c.l * c.l)).map fun d2 =>
      (c.i, comb c.l c.m c.n d1 d2)).bind fun vals =>
    (putAll size vals t).bind fun t' =>
      recLoop comb size L todo (step + 1)
        ((cur.take (cur.length - (L - 1 - step))).map fun c =>
          ⟨c.l + 1, c.m, c.n, c.i + (c.l + 1) * (c.l + 1 + 1) / 2⟩) t'

/-- Lines 300-491 of wigner_d_xnum.py, and the same text in wigner_d_logspace.py:284-479, 482-650, 653-844: seeds
`(m,m,n)`, seeds `(m+1,m,n)` computed from the truncated list of first seeds, then the loop. -/
def fillTable {α : Type} (seed : ℕ → ℕ → α) (second : ℕ → ℕ → α → α) (comb : ℕ → ℕ → ℕ → α → α → α)
    (size L : ℕ) : Option (Table α) :=
  let first := (mmn L).map fun p => idx p.1 p.1 p.2
  (putAll size ((mmn L).map fun p => (idx p.1 p.1 p.2, seed p.1 p.2)) (fun _ => none)).bind fun t1 =>
  let mp1 := mp1mn L
  ((mp1.zip (first.take mp1.length)).mapM fun q => (t1 q.2).map fun d =>
      (idx q.1.1 q.1.2.1 q.1.2.2, second q.1.2.1 q.1.2.2 d)).bind fun vals =>
  (putAll size vals t1).bind fun t2 =>
  let start := ((mmn L).zip first).take ((mmn L).length - (2 * L + 1))
  recLoop comb size L (L - 1) 0 (start.map fun q => ⟨q.1.1 + 2, q.1.1, q.1.2, q.2 + (q.1.1 + 2) ^ 2⟩) t2

/-! ### X-number instance: `wigner_d_xnum` -/

/-- wigner_d_xnum.py:331-337: `torch.lgamma` expression of the first seeds,
`exp(0.5 * (lgamma(2m+1) - lgamma(m+n+1) - lgamma(m-n+1)))`. -/
noncomputable def lgammaHalf (m n : ℕ) : ℝ :=
  0.5 * (Real.log (Real.Gamma (2 * m + 1)) - Real.log (Real.Gamma (m + n + 1)) - Real.log (Real.Gamma ((m:ℝ) - n + 1)))

/-- wigner_d_xnum.py:186-226 `half_powers_xnum`. -/
noncomputable def halfPower (k : ℕ) : Option XNum := trigPower (1 / 2) k

/-- wigner_d_xnum.py:326-357: the seed `d^m_{mn}` as an X-number. -/
noncomputable def seedX (β : ℝ) (m n : ℕ) : Option XNum :=
  if β = Real.pi then
    (halfPower m).map fun h => xnumNorm ⟨Real.exp (lgammaHalf m n) * h.x, h.i⟩
  else
    (trigPower (Real.cos (β / 2)) (m + n)).bind fun c => (trigPower (Real.sin (β / 2)) (m - n)).map fun s =>
      xnumNorm ⟨Real.exp (lgammaHalf m n) * c.x * s.x, c.i + s.i⟩

/-- wigner_d_xnum.py:376-386: `u_mn`. -/
noncomputable def u2 (β : ℝ) (m n : ℕ) : ℝ :=
  if β < Real.pi / 2 then (2 * m - 2 * n + 2) - (2 * m + 2) * (2 * Real.sin (β / 2) ^ 2)
  else if β = Real.pi / 2 then (-2) * n
  else (2 * m + 2) * Real.cos β - 2 * n

/-- wigner_d_xnum.py:388-406: the seed `d^{m+1}_{mn}`. -/
noncomputable def secondX (β : ℝ) (m n : ℕ) (d : Option XNum) : Option XNum :=
  d.map fun d => xnumNorm ⟨d.x * Real.sqrt ((2 * m + 1) / ((2 * ((m:ℝ) + n) + 2) * (2 * ((m:ℝ) - n) + 2))) * u2 β m n, d.i⟩

/-- wigner_d_xnum.py:416-422 and wigner_d_logspace.py:404-409, 578-583, 772-777: `w_log`. -/
noncomputable def wLog (l m n : ℕ) : ℝ :=
  (-1.0) * Real.log (2 * l - 2) - 0.5 * (Real.log (2 * l + 2 * m) + Real.log (2 * l - 2 * m)
    + Real.log (2 * l + 2 * n) + Real.log (2 * l - 2 * n))

/-- wigner_d_xnum.py:423-429 and wigner_d_logspace.py:412-417, 585-590, 780-785: `v_log`. -/
noncomputable def vLog (l m n : ℕ) : ℝ :=
  Real.log (2 * l) + 0.5 * (Real.log (2 * l + 2 * m - 2) + Real.log (2 * l - 2 * m - 2)
    + Real.log (2 * l + 2 * n - 2) + Real.log (2 * l - 2 * n - 2))

/-- wigner_d_xnum.py:434-450: `u`. -/
noncomputable def u3 (β : ℝ) (l m n : ℕ) : ℝ :=
  if β < Real.pi / 2 then (2 * l * (2 * l - 2) - 2 * m * 2 * n) - 2 * l * (2 * l - 2) * (2 * Real.sin (β / 2) ^ 2)
  else if β = Real.pi / 2 then (-4) * m * n
  else 2 * l * (2 * l - 2) * Real.cos β - 2 * m * 2 * n

/-- wigner_d_xnum.py:452-483: the three-term combination. -/
noncomputable def combX (β : ℝ) (l m n : ℕ) (d1 d2 : Option XNum) : Option XNum :=
  let b := Real.exp (wLog l m n + vLog l m n)
  let a := (4 * l - 2) * u3 β l m n * Real.exp (wLog l m n)
  d1.bind fun d1 => d2.map fun d2 =>
    xnumSum (xnumNorm ⟨a * d1.x, d1.i⟩) (xnumNorm ⟨b * d2.x, d2.i⟩) 1 (-1)

/-- wigner_d_xnum.py:279-492 `wigner_d_xnum`: the table before the final conversion. The outer `Option` models
an out-of-range access, the table's `none` uninitialised memory, and the inner `Option` NaN. -/
noncomputable def wignerXnumTable (β : ℝ) (L : ℕ) : Option (Table (Option XNum)) :=
  fillTable (seedX β) (secondX β) (combX β) (tableSize L) L

/-! ### Log-space instance: `wigner_d_lt_half_pi`, `wigner_d_eq_half_pi`, `wigner_d_gt_half_pi` -/

/-- Log-magnitude and sign (`True` is non-negative). -/
abbrev SLog := LogR × Bool

/-- wigner_d_logspace.py:120-153 `log_powers_trig_half_beta` (`math.log` of the half-angle cosine or sine, `h > 0`). -/
noncomputable def logPower (h : ℝ) (k : ℕ) : ℝ := k * Real.log h

/-- wigner_d_logspace.py:345-361 (and 713-729): first seeds, sign `True`. -/
noncomputable def seedL (β : ℝ) (m n : ℕ) : SLog :=
  (some (lgammaHalf m n + logPower (Real.cos (β / 2)) (m + n) + logPower (Real.sin (β / 2)) (m - n)), true)

/-- wigner_d_logspace.py:534-546: first seeds at `pi / 2`; the sign is that of the initial `torch.ones_like`. -/
noncomputable def seedLhalf (m n : ℕ) : SLog := (some (lgammaHalf m n + Real.log 0.5 * m), true)

/-- wigner_d_logspace.py:374-376 (`wigner_d_lt_half_pi`). -/
noncomputable def u2lt (β : ℝ) (m n : ℕ) : ℝ :=
  (2 * m - 2 * n + 2) - (2 * m + 2) * (2.0 * Real.sin (β / 2.0) ^ 2)

/-- wigner_d_logspace.py:742 (`wigner_d_gt_half_pi`). -/
noncomputable def u2gt (β : ℝ) (m n : ℕ) : ℝ := (2 * m + 2) * Real.cos β - 2 * n

/-- wigner_d_logspace.py:420-424. -/
noncomputable def u3lt (β : ℝ) (l m n : ℕ) : ℝ :=
  2 * l * (2 * l - 2) - 4 * m * n - 2 * l * (2 * l - 2) * (2.0 * Real.sin (β / 2.0) ^ 2)

/-- wigner_d_logspace.py:788-790. -/
noncomputable def u3gt (β : ℝ) (l m n : ℕ) : ℝ := 2 * l * (2 * l - 2) * Real.cos β - 4 * m * n

/-- wigner_d_logspace.py:377-391 and 743-757: second seeds; `~logical_xor(s, u >= 0)`. -/
noncomputable def secondL (u : ℕ → ℕ → ℝ) (m n : ℕ) (d : SLog) : SLog :=
  open Classical in
  (ladd (ladd d.1 (some (0.5 * (Real.log (2 * m + 1) - Real.log (2 * ((m:ℝ) + n) + 2) - Real.log (2 * ((m:ℝ) - n) + 2)))))
    (llog |u m n|), !(xor d.2 (decide (0 ≤ u m n))))

/-- wigner_d_logspace.py:558-571: second seeds at `pi / 2`, `log(2n)` and sign `False`. -/
noncomputable def secondLhalf (m n : ℕ) (d : SLog) : SLog :=
  (ladd (ladd d.1 (some (0.5 * (Real.log (2 * m + 1) - Real.log (2 * ((m:ℝ) + n) + 2) - Real.log (2 * ((m:ℝ) - n) + 2)))))
    (llog (2 * n)), false)

/-- wigner_d_logspace.py:403-459 and 771-825: the three-term combination. -/
noncomputable def combL (u : ℕ → ℕ → ℕ → ℝ) (l m n : ℕ) (d1 d2 : SLog) : SLog :=
  open Classical in
  let a := ladd (ladd (some (Real.log (4 * l - 2))) (llog |u l m n|)) (some (wLog l m n))
  signedLogSumExp (ladd a d1.1) (ladd (some (wLog l m n + vLog l m n)) d2.1)
    (!(xor d1.2 (decide (0 ≤ u l m n)))) (!d2.2)

/-- wigner_d_logspace.py:577-630: the three-term combination at `pi / 2`. -/
noncomputable def combLhalf (l m n : ℕ) (d1 d2 : SLog) : SLog :=
  let ul := ladd (ladd (some (Real.log 4)) (llog m)) (llog n)
  let a := ladd (ladd (some (Real.log (4 * l - 2))) ul) (some (wLog l m n))
  signedLogSumExp (ladd a d1.1) (ladd (some (wLog l m n + vLog l m n)) d2.1) (!d1.2) (!d2.2)

/-- wigner_d_logspace.py:475-478, 645-648, 841-844: `exp(logmag) * (2 * sign - 1)`. -/
noncomputable def slogToFp (d : SLog) : ℝ := lexp d.1 * sgnB d.2

/-- The table of the reals that `exp(...)` of a completely written table yields; uninitialised memory stays `none`. -/
noncomputable def expTable (t : Table SLog) : Table ℝ := fun i => (t i).map slogToFp

/-- wigner_d_logspace.py:284-479 `wigner_d_lt_half_pi`. `math.log(math.sin(0))` raises a `ValueError`. -/
noncomputable def wignerLt (β : ℝ) (L : ℕ) : Option (Table ℝ) :=
  if Real.sin (β / 2) ≤ 0 ∨ Real.cos (β / 2) ≤ 0 then none else
  (fillTable (seedL β) (secondL (u2lt β)) (combL (u3lt β)) (tableSizeLog L) L).map expTable

/-- wigner_d_logspace.py:482-650 `wigner_d_eq_half_pi`. -/
noncomputable def wignerEq (L : ℕ) : Option (Table ℝ) :=
  (fillTable seedLhalf secondLhalf combLhalf (tableSize L) L).map expTable

/-- wigner_d_logspace.py:653-844 `wigner_d_gt_half_pi`. -/
noncomputable def wignerGt (β : ℝ) (L : ℕ) : Option (Table ℝ) :=
  if Real.sin (β / 2) ≤ 0 ∨ Real.cos (β / 2) ≤ 0 then none else
  (fillTable (seedL β) (secondL (u2gt β)) (combL (u3gt β)) (tableSizeLog L) L).map expTable

/-! ### Table readers -/

/-- `(-1.0) ** (k % 2)` on integer tensors. -/
def sgnPow (k : ℤ) : ℝ := if k % 2 = 0 then 1 else -1

/-- wigner_d_logspace.py:847-938 `read_lmn_wigner_d_half_pi_table` (and 940-1034 `read_mn_wigner_d_half_pi_table`, the
same text with a common `l`): position read and prefactor. -/
def readHalfPi (l : ℕ) (m n : ℤ) (swap : Bool) : ℕ × ℝ :=
  let sw := decide (|m| < |n|)
  let m' := if sw then n else m
  let n' := if sw then m else n
  let pre : ℝ := (if m' < 0 ∧ n' < 0 then sgnPow (m' - n') else 1) * (if m' < 0 ∧ 0 ≤ n' then sgnPow (l - n') else 1)
    * (if n' < 0 ∧ 0 ≤ m' then sgnPow (l + m') else 1) * (if sw then sgnPow (m' - n') else 1)
  (l * (l + 1) / 2 * (l + 2) / 3 + m'.natAbs * (m'.natAbs + 1) / 2 + n'.natAbs,
    if swap then pre * sgnPow (m' - n') else pre)

/-- wigner_d_xnum.py:496-567 `retrieve_wigner_d`: position read and prefactor. -/
def retrieve (l m n : ℤ) (swap : Bool) : ℤ × ℝ :=
  let sw := decide (|m| < |n|)
  let m' := if sw then n else m
  let n' := if sw then m else n
  let pre : ℝ := if sw then sgnPow (m' - n') else 1
  (l * (l + 1) / 2 * (l + 2) / 3 + m' * (m' + 1) / 2 + n', if swap then pre * sgnPow (m' - n') else pre)

end Verif.Wigner
