import Verif.Model.ShtFull
/-!
Model of /repo/ebsdtorch/harmonics/sht_cc.py: cross correlation of two functions on the sphere over all rotations.
Exact arithmetic (the code casts to `complex64`).  A batch is a function of the batch index.
-/
namespace Verif.Sht.Cc
open Verif.Wigner Verif.Fft Verif.Sht

/-- wigner_d_logspace.py:944-1034 `read_mn_wigner_d_half_pi_table` with the default `swap_mn=False`, one entry. -/
noncomputable def rd (t : Table ℝ) (l : ℕ) (m n : ℤ) : Option ℝ :=
  (t (readHalfPi l m n false).1).map fun x => x * (readHalfPi l m n false).2

/-- A batch of coefficient tensors. -/
structure Batch where
  b : ℕ
  at_ : ℕ → ℕ → ℕ → ℂ

/-- Broadcasting along the batch dimension. -/
def Batch.get (f : Batch) (i : ℕ) : ℕ → ℕ → ℂ := f.at_ (if f.b = 1 then 0 else i)

/-- sht_cc.py:84-88, 188-192, 244-248: `ValueError` unless the batch sizes can be broadcast. -/
def bad (f g : Batch) : Prop := f.b ≠ g.b ∧ f.b ≠ 1 ∧ g.b ≠ 1

instance (f g : Batch) : Decidable (bad f g) := by unfold bad; infer_instance

/-- Inverse transform with `norm="forward"` along one dimension of size `N` after `ifftshift` (a roll by `-(N // 2)`) of that
dimension (sht_cc.py:148-157, 298-306), evaluated at `a`. -/
noncomputable def invShift (N : ℕ) (x : ℕ → ℂ) (a : ℕ) : ℂ :=
  ∑ r ∈ Finset.range N, x ((r + N / 2) % N) * cis ((r : ℝ) * a / N)

/-- The last, halved, dimension of `irfftn(..., norm="forward")` with odd output size `2 B - 1` (sht_cc.py:151-157, 211-212). -/
noncomputable def invHalf (B : ℕ) (x : ℕ → ℂ) (a : ℕ) : ℝ :=
  ∑ v ∈ Finset.range B, (if v = 0 then 1 else 2) * (x v * cis ((v : ℝ) * a / (2 * B - 1 : ℕ))).re

/-- All entries read from the table exist (otherwise the read raises an `IndexError`). -/
def readable (t : Table ℝ) (B : ℕ) : Prop := ∀ l < B, ∀ m n : ℤ, |m| ≤ l → |n| ≤ l → (rd t l m n).isSome

/-- The value read. -/
noncomputable def val (t : Table ℝ) (l : ℕ) (m n : ℤ) : ℝ := (rd t l m n).getD 0

/-- sht_cc.py:252-296: the volume before the transform; the slice `(-l+B-1) : (l+B)` holds the orders `-l .. l`. -/
noncomputable def specC (B : ℕ) (t : Table ℝ) (f g : ℕ → ℕ → ℂ) (i j q : ℕ) : ℂ :=
  ∑ l ∈ Finset.range B, if |(i : ℤ) - ((B - 1 : ℕ) : ℤ)| ≤ l ∧ |(j : ℤ) - ((B - 1 : ℕ) : ℤ)| ≤ l ∧ |(q : ℤ) - ((B - 1 : ℕ) : ℤ)| ≤ l then
    f i l * (starRingEnd ℂ) (g q l) * ((val t l ((i : ℤ) - ((B - 1 : ℕ) : ℤ)) ((j : ℤ) - ((B - 1 : ℕ) : ℤ))
      * val t l ((j : ℤ) - ((B - 1 : ℕ) : ℤ)) ((q : ℤ) - ((B - 1 : ℕ) : ℤ)) : ℝ) : ℂ) else 0

open Classical in
/-- sht_cc.py:218-308 `cs2cc_`. -/
noncomputable def cs2cc (B : ℕ) (f g : Batch) (t : Table ℝ) : Option (ℕ → ℕ → ℕ → ℕ → ℝ) :=
  if bad f g ∨ ¬ readable t B then none
  else some fun (n a b c : ℕ) => ‖invShift (2 * B - 1) (fun i => invShift (2 * B - 1) (fun j => invShift (2 * B - 1) (fun q =>
    specC B t (f.get n) (g.get n) i j q) c) b) a‖

/-- sht_cc.py:100-109: conjugated coefficients of `g` for all orders (`q` counts from order `-(B-1)`; the slice of degree `l` holds
orders `-l .. l`). -/
noncomputable def gAll (B : ℕ) (g : ℕ → ℕ → ℂ) (q l : ℕ) : ℂ :=
  if B - 1 ≤ q then (starRingEnd ℂ) (g (q - (B - 1)) l) else g (B - 1 - q) l * (-1) ^ (B - 1 - q)

/-- sht_cc.py:92-146: the half volume before the transform (`i` is the order `m ≥ 0`). -/
noncomputable def specR (B : ℕ) (t : Table ℝ) (f g : ℕ → ℕ → ℂ) (i j q : ℕ) : ℂ :=
  ∑ l ∈ Finset.range B, if i ≤ l ∧ |(j : ℤ) - ((B - 1 : ℕ) : ℤ)| ≤ l ∧ |(q : ℤ) - ((B - 1 : ℕ) : ℤ)| ≤ l then
    f i l * gAll B g q l * ((val t l i ((j : ℤ) - ((B - 1 : ℕ) : ℤ))
      * val t l ((j : ℤ) - ((B - 1 : ℕ) : ℤ)) ((q : ℤ) - ((B - 1 : ℕ) : ℤ)) : ℝ) : ℂ) else 0

open Classical in
/-- sht_cc.py:59-159 `rs2cc_`. -/
noncomputable def rs2cc (B : ℕ) (f g : Batch) (t : Table ℝ) : Option (ℕ → ℕ → ℕ → ℕ → ℝ) :=
  if bad f g ∨ ¬ readable t B then none
  else some fun (n a b c : ℕ) => invHalf B (fun i => invShift (2 * B - 1) (fun j => invShift (2 * B - 1) (fun q =>
    specR B t (f.get n) (g.get n) i j q) c) b) a

/-- sht_cc.py:204-206: the three `einsum`s; `d` has shape `(B, 2B-1, 2B-1)`; `n` runs over `0 .. B-1` only. -/
noncomputable def specF (B : ℕ) (d : ℕ → ℕ → ℕ → ℝ) (f g : ℕ → ℕ → ℂ) (i j n : ℕ) : ℂ :=
  ∑ l ∈ Finset.range B, ((d l (i + (B - 1)) j : ℂ) * f i l) * ((d l j (n + (B - 1)) : ℂ) * (starRingEnd ℂ) (g n l))

/-- sht_cc.py:163-214 `rs2cc_fast_`: only `k` is shifted; `irfftn` pads the `B` orders `n` with zeros to `2B - 1`. -/
noncomputable def rs2ccFast (B : ℕ) (f g : Batch) (d : ℕ → ℕ → ℕ → ℝ) : Option (ℕ → ℕ → ℕ → ℕ → ℝ) :=
  if bad f g then none
  else some fun (n a b c : ℕ) => invHalf B (fun i => invShift (2 * B - 1) (fun j =>
    ∑ r ∈ Finset.range (2 * B - 1), (if r < B then specF B d (f.get n) (g.get n) i j r else 0) * cis ((r : ℝ) * c / (2 * B - 1 : ℕ))) b) a

/-- sht_cc.py:393-410 (the commented driver at the end of the file): the table `d_lmk` the fast version expects. -/
noncomputable def fastTable (B : ℕ) (t : Table ℝ) (l i j : ℕ) : ℝ :=
  if |(i : ℤ) - ((B - 1 : ℕ) : ℤ)| ≤ l ∧ |(j : ℤ) - ((B - 1 : ℕ) : ℤ)| ≤ l then
    val t l ((i : ℤ) - ((B - 1 : ℕ) : ℤ)) ((j : ℤ) - ((B - 1 : ℕ) : ℤ)) else 0

end Verif.Sht.Cc
