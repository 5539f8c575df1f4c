import Verif.Lemmas.WignerSum
/-!
C47: layout of the Wigner d tables.
-/
namespace Verif
open Wigner Verif.Spec

/-! ## C47 -/

/-- `index_from_coords` maps the triples `l ≥ m ≥ n ≥ 0`, `l ≤ L` one-to-one onto `0, …, (L+1)(L+2)(L+3)/6 - 1`. -/
theorem C47_bijection (L : ℕ) :
    Set.BijOn (fun p : ℕ × ℕ × ℕ => idx p.1 p.2.1 p.2.2) {p | p.2.2 ≤ p.2.1 ∧ p.2.1 ≤ p.1 ∧ p.1 ≤ L}
      {i | i < (L + 1) * (L + 2) * (L + 3) / 6} := by
  refine ⟨?_, ?_, ?_⟩
  · rintro ⟨l, m, n⟩ ⟨h1, h2, h3⟩
    have := idx_lt_size h1 h2 h3
    rw [te_closed] at this; exact this
  · rintro ⟨l, m, n⟩ ⟨h1, h2, h3⟩ ⟨l', m', n'⟩ ⟨h1', h2', h3'⟩ h
    obtain ⟨a, b, c⟩ := idx_inj h1 h2 h1' h2' h
    simp only at a b c
    rw [a, b, c]
  · intro i hi
    have hi' : i < te (L + 1) := by rw [te_closed]; exact hi
    obtain ⟨l, m, n, h1, h2, h3, h4⟩ := exists_coords_lt hi'
    exact ⟨(l, m, n), ⟨h1, h2, h3⟩, h4⟩

/-- Both formulas for the allocated size agree with the number of triples. -/
theorem C47_size (L : ℕ) : tableSize L = (L + 1) * (L + 2) * (L + 3) / 6 ∧
    tableSizeLog L = (L + 1) * (L + 2) * (L + 3) / 6 := by
  rw [tableSize_eq, tableSizeLog_eq, te_closed]; exact ⟨rfl, rfl⟩

/-- The order of positions is the lexicographic order of the triples. -/
theorem C47_lexicographic {l m n l' m' n' : ℕ} (h1 : n ≤ m) (h2 : m ≤ l) (h1' : n' ≤ m') (h2' : m' ≤ l') :
    idx l m n < idx l' m' n' ↔ l < l' ∨ (l = l' ∧ (m < m' ∨ (m = m' ∧ n < n'))) := by
  refine ⟨?_, idx_lt_of h1 h2⟩
  intro h
  by_contra hc
  have : (l' < l ∨ (l' = l ∧ (m' < m ∨ (m' = m ∧ n' < n)))) ∨ (l = l' ∧ m = m' ∧ n = n') := by omega
  rcases this with h3 | ⟨rfl, rfl, rfl⟩
  · have := idx_lt_of h1' h2' h3; omega
  · omega

/-- `coords_from_index` inverts `index_from_coords`, whatever floating-point estimates of `l` and `m` the correction
loops start from, as long as they do not underestimate. -/
theorem C47_inverse_any_estimate (e1 e2 : ℕ → ℕ) {l m n : ℕ} (h1 : n ≤ m) (h2 : m ≤ l)
    (he1 : l ≤ e1 (idx l m n)) (he2 : m ≤ e2 (m * (m + 1) / 2 + n)) : coordsFrom e1 e2 (idx l m n) = (l, m, n) := by
  rw [tr_eq] at he2; exact coordsFrom_idx e1 e2 h1 h2 he1 he2

theorem estL_ge {l x : ℕ} (h : te l ≤ x) : (l:ℤ) ≤ ⌊estL x⌋ + 1 := by
  rcases Nat.eq_zero_or_pos l with rfl | hl
  · have hr : (0:ℝ) ≤ (3 * (x:ℝ) + Real.sqrt (abs (9 * x * x - 1 / 27))) ^ (1 / 3 : ℝ) := by positivity
    have hr2 : (0:ℝ) ≤ (abs (3 * (x:ℝ) - Real.sqrt (abs (9 * x * x - 1 / 27)))) ^ (1 / 3 : ℝ) := by positivity
    have : (-1:ℤ) ≤ ⌊estL x⌋ := by
      rw [Int.le_floor]; unfold estL; push_cast; linarith
    push_cast; linarith
  · have h6 : (l:ℝ) * (l + 1) * (l + 2) ≤ 6 * x := by
      have h1 := tr_two l; have h2 := te_three l
      have : l * (l + 1) * (l + 2) = 6 * te l := by rw [← h1, mul_assoc, ← h2]; ring
      have : l * (l + 1) * (l + 2) ≤ 6 * x := by omega
      exact_mod_cast this
    have hl' : (1:ℝ) ≤ l := by exact_mod_cast hl
    have hx : (1:ℝ) ≤ x := by
      have := le_te l
      exact_mod_cast (show 1 ≤ x by omega)
    have hs : 3 * (x:ℝ) - 1 ≤ Real.sqrt (abs (9 * x * x - 1 / 27)) := by
      apply Real.le_sqrt_of_sq_le
      rw [abs_of_nonneg (by nlinarith)]; nlinarith
    have hc : (l:ℝ) ^ 3 ≤ 3 * x + Real.sqrt (abs (9 * x * x - 1 / 27)) := by nlinarith
    have hroot : (l:ℝ) ≤ (3 * (x:ℝ) + Real.sqrt (abs (9 * x * x - 1 / 27))) ^ (1 / 3 : ℝ) := by
      have := Real.rpow_le_rpow (by positivity) hc (show (0:ℝ) ≤ 1 / 3 by norm_num)
      rwa [← Real.rpow_natCast, ← Real.rpow_mul (by positivity), show ((3:ℕ):ℝ) * (1 / 3) = 1 by norm_num, Real.rpow_one] at this
    have hr2 : (0:ℝ) ≤ (abs (3 * (x:ℝ) - Real.sqrt (abs (9 * x * x - 1 / 27)))) ^ (1 / 3 : ℝ) := by positivity
    have : (l:ℤ) - 1 ≤ ⌊estL x⌋ := by
      rw [Int.le_floor]; unfold estL; push_cast; linarith
    linarith

theorem estM_ge {m r : ℕ} (h : tr m ≤ r) : (m:ℤ) ≤ ⌊estM r⌋ + 1 := by
  have h2 : (m:ℝ) * (m + 1) ≤ 2 * r := by
    have h1 := tr_two m
    have : m * (m + 1) ≤ 2 * r := by omega
    exact_mod_cast this
  have hs : 2 * (m:ℝ) + 1 ≤ Real.sqrt (1 + 8 * r) := by
    apply Real.le_sqrt_of_sq_le; nlinarith
  unfold estM
  rw [Int.floor_intCast]
  have : (m:ℤ) ≤ ⌊(-1 + Real.sqrt (1 + 8 * r)) / 2⌋ := by
    rw [Int.le_floor]; push_cast; linarith
  linarith

/-- With the closed formulas evaluated exactly, `coords_from_index` inverts `index_from_coords` for all degrees. -/
theorem C47_inverse {l m n : ℕ} (h1 : n ≤ m) (h2 : m ≤ l) : coordsFromIndex (idx l m n) = (l, m, n) := by
  apply coordsFrom_idx _ _ h1 h2
  · have := estL_ge (l := l) (x := idx l m n) (by rw [idx_eq]; omega)
    omega
  · have := estM_ge (m := m) (r := tr m + n) (by omega)
    push_cast at this ⊢
    omega

/-- Conversely every position is the position of its coordinates. -/
theorem C47_inverse' (i : ℕ) : idx (coordsFromIndex i).1 (coordsFromIndex i).2.1 (coordsFromIndex i).2.2 = i := by
  obtain ⟨l, m, n, h1, h2, rfl⟩ := exists_coords i
  rw [C47_inverse h1 h2]

theorem wrap32_id {x : ℤ} (h1 : 0 ≤ x) (h2 : x < 2147483648) : wrap32 x = x := by unfold wrap32; omega

attribute [local irreducible] wrap32

/-- On int32 tensors the index is exact up to degree 1624. -/
theorem C47_int32_partial {l m n : ℕ} (h1 : n ≤ m) (h2 : m ≤ l) (h3 : l ≤ 1624) :
    idxI32 l m n = idx l m n := by
  obtain ⟨A, hA⟩ : ∃ A, A = l * (l + 1) := ⟨_, rfl⟩
  obtain ⟨B, hB⟩ : ∃ B, B = m * (m + 1) := ⟨_, rfl⟩
  obtain ⟨C, hC⟩ : ∃ C, C = A / 2 * (l + 2) := ⟨_, rfl⟩
  have a1 : A ≤ 2639000 := by
    have := Nat.mul_le_mul h3 (show l + 1 ≤ 1625 by omega)
    rw [hA]; omega
  have a2 : B ≤ 2639000 := by
    have := Nat.mul_le_mul (show m ≤ 1624 by omega) (show m + 1 ≤ 1625 by omega)
    rw [hB]; omega
  have a3 : C ≤ 2145507000 := by
    have := Nat.mul_le_mul (show A / 2 ≤ 1319500 by omega) (show l + 2 ≤ 1626 by omega)
    rw [hC]; omega
  have cA : (l:ℤ) * (l + 1) = (A:ℤ) := by rw [hA, Nat.cast_mul, Nat.cast_add, Nat.cast_one]
  have cB : (m:ℤ) * (m + 1) = (B:ℤ) := by rw [hB, Nat.cast_mul, Nat.cast_add, Nat.cast_one]
  have cC : (A:ℤ) / 2 * (l + 2) = (C:ℤ) := by
    rw [hC, Nat.cast_mul, Nat.cast_add, Int.natCast_div]; rfl
  have hidx : idx l m n = C / 3 + B / 2 + n := by rw [idx, hC, hB, hA]
  have hend : (C:ℤ) / 3 + (B:ℤ) / 2 + n = ((C / 3 + B / 2 + n : ℕ) : ℤ) := by omega
  have pw1 : 0 ≤ (l:ℤ) + 1 := by omega
  have qw1 : (l:ℤ) + 1 < 2147483648 := by omega
  have pw2 : 0 ≤ (l:ℤ) + 2 := by omega
  have qw2 : (l:ℤ) + 2 < 2147483648 := by omega
  have pw3 : 0 ≤ (m:ℤ) + 1 := by omega
  have qw3 : (m:ℤ) + 1 < 2147483648 := by omega
  have pw4 : 0 ≤ (A:ℤ) := by omega
  have qw4 : (A:ℤ) < 2147483648 := by omega
  have pw5 : 0 ≤ (B:ℤ) := by omega
  have qw5 : (B:ℤ) < 2147483648 := by omega
  have pw8 : 0 ≤ (A:ℤ) / 2 := by omega
  have qw8 : (A:ℤ) / 2 < 2147483648 := by omega
  have pw6 : 0 ≤ (C:ℤ) := by omega
  have qw6 : (C:ℤ) < 2147483648 := by omega
  have pw7 : 0 ≤ (C:ℤ) / 3 + (B:ℤ) / 2 := by omega
  have qw7 : (C:ℤ) / 3 + (B:ℤ) / 2 < 2147483648 := by omega
  have pw9 : 0 ≤ (C:ℤ) / 3 + (B:ℤ) / 2 + n := by omega
  have qw9 : (C:ℤ) / 3 + (B:ℤ) / 2 + n < 2147483648 := by omega
  have w1 := wrap32_id pw1 qw1
  have w2 := wrap32_id pw2 qw2
  have w3 := wrap32_id pw3 qw3
  have w4 := wrap32_id pw4 qw4
  have w5 := wrap32_id pw5 qw5
  have w8 := wrap32_id pw8 qw8
  have w6 := wrap32_id pw6 qw6
  have w7 := wrap32_id pw7 qw7
  have w9 := wrap32_id pw9 qw9
  unfold idxI32
  simp only [w1, w2, w3, cA, cB, w4, w5, w8, cC, w6, w7, w9]
  rw [hidx]; exact hend

/-- From degree 1625 on the int32 arithmetic overflows although the position itself (about 7.2e8) fits: the first
entry of degree 1625 gets a negative position. -/
theorem C47_int32_fails : idxI32 1625 0 0 < 0 ∧ idx 1625 0 0 < 2 ^ 31 := by
  norm_num [idxI32, wrap32, idx]

example : idx 2 1 1 = 6 ∧ coordsFrom (fun _ => 5) (fun _ => 5) 6 = (2, 1, 1) ∧ tableSize 2 = 10 := by decide

end Verif
