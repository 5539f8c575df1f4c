import Verif.Lemmas.ShtWeights
import Verif.Lemmas.SphOrth
/-!
The discrete Legendre transforms, row by row: `fdlt` and `idlt` are weighted sums with the functions
`√((2l+1)/2) d^l_{0m}(θ_k)` up to the cut-off of the weights.
-/
namespace Verif.Sht
open Verif.Wigner Verif.Wigner.Rep Verif.Spec Finset

/-- What the two kinds of modules have in common. `off` is the row of order zero. -/
structure IsDlt (d : Dlt) (L off : ℕ) : Prop where
  pos : 0 < L
  L_eq : d.L = L
  off_le : off ≤ L - 1
  rows_le : d.rows ≤ off + L
  cInd : ∀ i < d.rows, i ∈ d.cInd ↔ ((i : ℤ) - off) % 2 = 0
  sInd : ∀ i < d.rows, i ∈ d.sInd ↔ ((i : ℤ) - off) % 2 = 1
  Cm : ∀ i, d.Cm i = (-1) ^ ((i : ℤ) - off) * Real.sqrt (2 * Real.pi)
  iCm : ∀ i, d.iCm i = 1 / d.Cm i
  D : ∀ mi l mi' n : ℕ, l < L → n < 2 * L → d.D (mi * L + l) (mi' * (2 * L) + n) =
      if mi = mi' ∧ |(mi : ℤ) - (off : ℤ)| ≤ l ∧ n ≤ l then wKept L (l, (mi : ℤ) - off, (n : ℤ)) else 0

theorem mem_arange2 {a b i : ℕ} : i ∈ arange2 a b ↔ a ≤ i ∧ i < b ∧ (i - a) % 2 = 0 := by
  unfold arange2
  rw [List.mem_map]
  constructor
  · rintro ⟨j, hj, rfl⟩
    rw [List.mem_range] at hj
    omega
  · rintro ⟨h1, h2, h3⟩
    exact ⟨(i - a) / 2, by rw [List.mem_range]; omega, by omega⟩

theorem twopi_half : (2.0 * Real.pi) ^ (0.5 : ℝ) = Real.sqrt (2 * Real.pi) := by
  rw [Real.sqrt_eq_rpow]; norm_num

theorem mkDlt_spec (L : ℕ) (hL : 0 < L) : ∃ d, mkDlt L = some d ∧ d.rows = 2 * L - 1 ∧ IsDlt d L (L - 1) := by
  obtain ⟨D, h1, h2⟩ := cshtWeights_entry L 10000000 hL (by norm_num)
  unfold mkDlt
  rw [h1]
  refine ⟨_, rfl, rfl, ⟨hL, rfl, le_rfl, by simp only; omega, ?_, ?_, ?_, fun _ => rfl, h2⟩⟩
  · intro i hi
    simp only at hi
    split
    · rw [mem_arange2]; omega
    · rw [mem_arange2]; omega
  · intro i hi
    simp only at hi
    split
    · rw [mem_arange2]; omega
    · rw [mem_arange2]; omega
  · intro i
    simp only [normCm, twopi_half]
    rw [Nat.cast_sub (by omega : 1 ≤ L)]
    push_cast
    rfl

theorem mkRdlt_spec (L : ℕ) (hL : 0 < L) : ∃ d, mkRdlt L = some d ∧ d.rows = L ∧ IsDlt d L 0 := by
  obtain ⟨D, h1, h2⟩ := rshtWeights_entry L 10000000 hL (by norm_num)
  unfold mkRdlt
  rw [h1]
  refine ⟨_, rfl, rfl, ⟨hL, rfl, by omega, by simp only; omega, ?_, ?_, ?_, fun _ => rfl, h2⟩⟩
  · intro i hi
    simp only at hi
    rw [mem_arange2]; omega
  · intro i hi
    simp only at hi
    rw [mem_arange2]; omega
  · intro i
    simp only [rnormCm, twopi_half]
    simp

/-- The discrete cosine or sine functions used for order `m`. -/
noncomputable def basis (L : ℕ) (m : ℤ) (k n : ℕ) : ℝ :=
  if m % 2 = 0 then Real.cos (n * theta L k) * (if n = 0 then Real.sqrt (1 / (2 * L : ℕ)) else Real.sqrt (2 / (2 * L : ℕ)))
  else Real.sin ((n + 1 : ℕ) * theta L k) * (if n = 2 * L - 1 then Real.sqrt (1 / (2 * L : ℕ)) else Real.sqrt (2 / (2 * L : ℕ)))

/-- The function the module uses for `(l, m)` at colatitude `k`. -/
noncomputable def pKept (L l : ℕ) (m : ℤ) (k : ℕ) : ℝ := ∑ n ∈ range (l + 1), wKept L (l, m, (n : ℤ)) * basis L m k n

/-- The same without cut-off. -/
noncomputable def pExact (L l : ℕ) (m : ℤ) (k : ℕ) : ℝ := ∑ n ∈ range (l + 1), wExact L (l, m, (n : ℤ)) * basis L m k n

theorem idct_entry {L : ℕ} (hL : 0 < L) (k n : Fin (2 * L)) (m : ℤ) (h : m % 2 = 0) :
    idctMatrix (2 * L) k n = basis L m k n := by
  unfold idctMatrix basis
  rw [if_pos h, Matrix.of_apply]
  congr 1
  unfold theta
  congr 1
  have : (L : ℝ) ≠ 0 := by positivity
  push_cast
  field_simp
  ring

theorem idst_entry {L : ℕ} (hL : 0 < L) (k n : Fin (2 * L)) (m : ℤ) (h : m % 2 = 1) :
    idstMatrix (2 * L) k n = basis L m k n := by
  unfold idstMatrix basis
  rw [if_neg (by omega), Matrix.of_apply]
  congr 1
  unfold theta
  congr 1
  have : (L : ℝ) ≠ 0 := by positivity
  push_cast
  field_simp
  ring

theorem sum_div_mod (a b : ℕ) (f : ℕ → ℕ → ℕ → ℝ) : ∑ j ∈ range (a * b), f (j / a) (j % a) j =
    ∑ q ∈ range b, ∑ n ∈ range a, f q n (q * a + n) := by
  rcases Nat.eq_zero_or_pos a with rfl | ha
  · simp
  induction b with
  | zero => simp
  | succ b ih =>
    rw [show a * (b + 1) = a * b + a by ring, sum_range_add, ih, sum_range_succ]
    congr 1
    apply sum_congr rfl
    intro n hn
    rw [mem_range] at hn
    rw [Nat.mul_add_div ha, Nat.div_eq_of_lt hn, Nat.mul_add_mod, Nat.mod_eq_of_lt hn, add_zero, mul_comm]

theorem layer_fwd {L : ℕ} (hL : 0 < L) (x : ℕ → ℝ) (n : ℕ) (hn : n < 2 * L) (m : ℤ) :
    (m % 2 = 0 → layer L .c x n = ∑ k ∈ range (2 * L), x k * (dltWeightsDH L k * basis L m k n)) ∧
    (m % 2 = 1 → layer L .s x n = ∑ k ∈ range (2 * L), x k * (dltWeightsDH L k * basis L m k n)) := by
  constructor
  · intro h
    unfold layer
    rw [dif_pos hn]
    unfold dcst
    rw [dcstMatrix, Matrix.vecMul, dotProduct, ← Fin.sum_univ_eq_sum_range (fun k => x k * (dltWeightsDH L k * basis L m k n))]
    apply sum_congr rfl
    intro k _
    rw [Matrix.diagonal_mul, idct_entry hL k ⟨n, hn⟩ m h]
  · intro h
    unfold layer
    rw [dif_pos hn]
    unfold dcst
    rw [dcstMatrix, Matrix.vecMul, dotProduct, ← Fin.sum_univ_eq_sum_range (fun k => x k * (dltWeightsDH L k * basis L m k n))]
    apply sum_congr rfl
    intro k _
    rw [Matrix.diagonal_mul, idst_entry hL k ⟨n, hn⟩ m h]

theorem layer_inv {L : ℕ} (hL : 0 < L) (x : ℕ → ℝ) (k : ℕ) (hk : k < 2 * L) (m : ℤ) :
    (m % 2 = 0 → layer L .ic x k = ∑ n ∈ range (2 * L), x n * basis L m k n) ∧
    (m % 2 = 1 → layer L .is x k = ∑ n ∈ range (2 * L), x n * basis L m k n) := by
  constructor
  · intro h
    unfold layer
    rw [dif_pos hk]
    unfold dcst
    rw [dcstMatrix, Matrix.vecMul, dotProduct, ← Fin.sum_univ_eq_sum_range (fun n => x n * basis L m k n)]
    apply sum_congr rfl
    intro n _
    rw [Matrix.transpose_apply, idct_entry hL ⟨k, hk⟩ n m h]
  · intro h
    unfold layer
    rw [dif_pos hk]
    unfold dcst
    rw [dcstMatrix, Matrix.vecMul, dotProduct, ← Fin.sum_univ_eq_sum_range (fun n => x n * basis L m k n)]
    apply sum_congr rfl
    intro n _
    rw [Matrix.transpose_apply, idst_entry hL ⟨k, hk⟩ n m h]

theorem rows_fwd {d : Dlt} {L off : ℕ} (hd : IsDlt d L off) (y : ℕ → ℕ → ℝ) (i n : ℕ) (hi : i < d.rows) (hn : n < 2 * L) :
    onRows d.sInd (layer d.L .s) (onRows d.cInd (layer d.L .c) y) i n
      = ∑ k ∈ range (2 * L), y i k * (dltWeightsDH L k * basis L ((i : ℤ) - off) k n) := by
  have hc := hd.cInd i hi
  have hs := hd.sInd i hi
  obtain ⟨e1, e2⟩ := layer_fwd hd.pos (y i) n hn ((i : ℤ) - off)
  unfold onRows
  rw [hd.L_eq]
  by_cases h : ((i : ℤ) - off) % 2 = 0
  · rw [if_neg (by rw [hs]; omega), if_pos (hc.2 h), e1 h]
  · rw [if_pos (by rw [hs]; omega), if_neg (by rw [hc]; exact h), e2 (by omega)]

theorem rows_inv {d : Dlt} {L off : ℕ} (hd : IsDlt d L off) (y : ℕ → ℕ → ℝ) (i k : ℕ) (hi : i < d.rows) (hk : k < 2 * L) :
    onRows d.sInd (layer d.L .is) (onRows d.cInd (layer d.L .ic) y) i k
      = ∑ n ∈ range (2 * L), y i n * basis L ((i : ℤ) - off) k n := by
  have hc := hd.cInd i hi
  have hs := hd.sInd i hi
  obtain ⟨e1, e2⟩ := layer_inv hd.pos (y i) k hk ((i : ℤ) - off)
  unfold onRows
  rw [hd.L_eq]
  by_cases h : ((i : ℤ) - off) % 2 = 0
  · rw [if_neg (by rw [hs]; omega), if_pos (hc.2 h), e1 h]
  · rw [if_pos (by rw [hs]; omega), if_neg (by rw [hc]; exact h), e2 (by omega)]

theorem sum_range_le {N : ℕ} (l : ℕ) (h : l < N) (f : ℕ → ℝ) :
    ∑ n ∈ range N, (if n ≤ l then f n else 0) = ∑ n ∈ range (l + 1), f n := by
  obtain ⟨c, rfl⟩ : ∃ c, N = (l + 1) + c := ⟨N - (l + 1), by omega⟩
  rw [sum_range_add]
  have e1 : ∑ n ∈ range (l + 1), (if n ≤ l then f n else 0) = ∑ n ∈ range (l + 1), f n :=
    sum_congr rfl fun n hn => by rw [mem_range] at hn; rw [if_pos (by omega)]
  have e2 : ∑ x ∈ range c, (if l + 1 + x ≤ l then f (l + 1 + x) else 0) = 0 :=
    sum_eq_zero fun x _ => by rw [if_neg (by omega)]
  rw [e1, e2, add_zero]

/-- The forward transform of a row. -/
theorem fdlt_row {d : Dlt} {L off : ℕ} (hd : IsDlt d L off) (psi : ℕ → ℕ → ℝ) (i l : ℕ) (hi : i < d.rows) (hl : l < L) :
    fdlt d psi i l = if |(i : ℤ) - off| ≤ l then
      d.Cm i * ∑ k ∈ range (2 * L), dltWeightsDH L k * psi i k * pKept L l ((i : ℤ) - off) k else 0 := by
  unfold fdlt
  simp only [hd.L_eq]
  rw [sum_div_mod (2 * L) d.rows (fun q n j => onRows d.sInd (layer L .s) (onRows d.cInd (layer L .c)
    fun i k => d.Cm i * psi i k) q n * d.D (i * L + l) j)]
  have e : ∀ q ∈ range d.rows, ∀ n ∈ range (2 * L), onRows d.sInd (layer L .s) (onRows d.cInd (layer L .c)
      fun i k => d.Cm i * psi i k) q n * d.D (i * L + l) (q * (2 * L) + n) =
      if i = q then (if n ≤ l then (if |(i : ℤ) - off| ≤ l then
        (∑ k ∈ range (2 * L), (d.Cm i * psi i k) * (dltWeightsDH L k * basis L ((i : ℤ) - off) k n)) * wKept L (l, (i : ℤ) - off, (n : ℤ))
        else 0) else 0) else 0 := by
    intro q hq n hn
    rw [mem_range] at hq hn
    rw [hd.D i l q n hl hn]
    by_cases h1 : i = q
    · subst h1
      rw [if_pos rfl]
      by_cases h2 : n ≤ l
      · rw [if_pos h2]
        by_cases h3 : |(i : ℤ) - off| ≤ l
        · rw [if_pos h3, if_pos ⟨rfl, h3, h2⟩]
          have := rows_fwd hd (fun i k => d.Cm i * psi i k) i n hi hn
          rw [hd.L_eq] at this
          rw [this]
        · rw [if_neg h3, if_neg (by tauto), mul_zero]
      · rw [if_neg h2, if_neg (by tauto), mul_zero]
    · rw [if_neg h1, if_neg (by tauto), mul_zero]
  rw [sum_congr rfl fun q hq => sum_congr rfl fun n hn => e q hq n hn, sum_eq_single i]
  rotate_left
  · intro q _ hq; exact sum_eq_zero fun n _ => by rw [if_neg (Ne.symm hq)]
  · intro h; exact absurd (mem_range.2 hi) h
  simp only [if_true]
  rw [sum_range_le l (by omega)]
  by_cases h3 : |(i : ℤ) - off| ≤ l
  · simp only [if_pos h3]
    unfold pKept
    simp only [mul_sum, sum_mul]
    rw [sum_comm]
    apply sum_congr rfl; intro k _
    apply sum_congr rfl; intro n _
    ring
  · simp only [if_neg h3, sum_const_zero]

/-- The inverse transform of a row. -/
theorem idlt_row {d : Dlt} {L off : ℕ} (hd : IsDlt d L off) (Psi : ℕ → ℕ → ℝ) (i k : ℕ) (hi : i < d.rows) (hk : k < 2 * L) :
    idlt d Psi i k = d.iCm i * ∑ l ∈ range L, if |(i : ℤ) - off| ≤ l then Psi i l * pKept L l ((i : ℤ) - off) k else 0 := by
  unfold idlt
  rw [rows_inv hd _ i k hi hk]
  congr 1
  simp only [hd.L_eq]
  have e : ∀ n ∈ range (2 * L), (∑ j ∈ range (L * d.rows), Psi (j / L) (j % L) * d.D j (i * (2 * L) + n)) * basis L ((i : ℤ) - off) k n
      = ∑ l ∈ range L, if n ≤ l then (if |(i : ℤ) - off| ≤ l then Psi i l * wKept L (l, (i : ℤ) - off, (n : ℤ)) * basis L ((i : ℤ) - off) k n else 0) else 0 := by
    intro n hn
    rw [mem_range] at hn
    rw [sum_div_mod L d.rows (fun q l j => Psi q l * d.D j (i * (2 * L) + n)), sum_eq_single i]
    rotate_left
    · intro q _ hq
      apply sum_eq_zero
      intro l hl
      rw [mem_range] at hl
      rw [hd.D q l i n hl hn, if_neg (by tauto), mul_zero]
    · intro h; exact absurd (mem_range.2 hi) h
    rw [sum_mul]
    apply sum_congr rfl
    intro l hl
    rw [mem_range] at hl
    rw [hd.D i l i n hl hn]
    by_cases h2 : n ≤ l
    · by_cases h3 : |(i : ℤ) - off| ≤ l
      · rw [if_pos ⟨rfl, h3, h2⟩, if_pos h2, if_pos h3]
      · rw [if_neg (by tauto), if_pos h2, if_neg h3]; ring
    · rw [if_neg (by tauto), if_neg h2]; ring
  rw [sum_congr rfl e, sum_comm]
  apply sum_congr rfl
  intro l hl
  rw [mem_range] at hl
  rw [sum_range_le l (by omega)]
  by_cases h3 : |(i : ℤ) - off| ≤ l
  · simp only [if_pos h3]
    unfold pKept
    rw [mul_sum]
    exact sum_congr rfl fun n _ => by ring
  · simp only [if_neg h3, sum_const_zero]

/-- Without cut-off the functions are the rows of Wigner's matrices. -/
theorem pExact_eq (L l : ℕ) (hl : l < L) (m : ℤ) (hm : |m| ≤ l) (k : ℕ) :
    pExact L l m k = Real.sqrt ((2 * l + 1) / 2) * wignerD l 0 m (theta L k) := by
  have hL : (0 : ℝ) < L := by exact_mod_cast (show 0 < L by omega)
  have s1 : Real.sqrt ((2 * L : ℕ) * (2 * (l : ℝ) + 1) / 2.0) * Real.sqrt (1 / (2 * L : ℕ)) = Real.sqrt ((2 * l + 1) / 2) := by
    rw [← Real.sqrt_mul (by positivity)]
    congr 1
    push_cast
    norm_num
    field_simp
  have s2 : Real.sqrt ((2 * L : ℕ) * (2 * (l : ℝ) + 1)) * Real.sqrt (2 / (2 * L : ℕ)) = 2 * Real.sqrt ((2 * l + 1) / 2) := by
    rw [← Real.sqrt_mul (by positivity), show (2 : ℝ) * Real.sqrt ((2 * l + 1) / 2) = Real.sqrt (2 ^ 2 * ((2 * l + 1) / 2)) by
      rw [Real.sqrt_mul (by norm_num), Real.sqrt_sq (by norm_num)]]
    congr 1
    push_cast
    field_simp
  unfold pExact
  by_cases h : m % 2 = 0
  · rw [row_even l m hm h, sum_range_succ']
    have e0 : wExact L (l, m, ((0 : ℕ) : ℤ)) * basis L m k 0 = Real.sqrt ((2 * l + 1) / 2) *
        ((if m % 4 = 2 then -1 else 1) * (wignerD l 0 (-m) (Real.pi / 2) * wignerD l 0 0 (Real.pi / 2))) := by
      rw [← s1]
      unfold wExact wTerm basis
      simp only [h, if_true, Nat.cast_zero, zero_mul, Real.cos_zero]
      ring
    have e1 : ∀ n ∈ range l, wExact L (l, m, ((n + 1 : ℕ) : ℤ)) * basis L m k (n + 1) = Real.sqrt ((2 * l + 1) / 2) *
        ((if m % 4 = 2 then -1 else 1) * (wignerD l (n + 1) (-m) (Real.pi / 2) * wignerD l (n + 1) 0 (Real.pi / 2)
          * (2 * Real.cos (((n + 1 : ℕ) : ℝ) * theta L k)))) := by
      intro n _
      have hn : ((n + 1 : ℕ) : ℤ) ≠ 0 := by omega
      unfold wExact wTerm basis
      simp only [h, if_true, hn, if_false, Nat.add_eq_zero_iff, one_ne_zero, and_false]
      push_cast at s2 ⊢
      linear_combination ((if m % 4 = 2 then -1 else 1) * (wignerD l (n + 1) (-m) (Real.pi / 2) * wignerD l (n + 1) 0 (Real.pi / 2)
          * Real.cos (((n : ℝ) + 1) * theta L k))) * s2
    rw [sum_congr rfl e1, e0, ← mul_sum, ← mul_sum]
    ring
  · rw [row_odd l m hm (by omega), sum_range_succ]
    have e0 : wExact L (l, m, (l : ℤ)) * basis L m k l = 0 := by
      unfold wExact wTerm
      simp only [h, if_false, if_true, zero_mul]
    have e1 : ∀ n ∈ range l, wExact L (l, m, (n : ℤ)) * basis L m k n = Real.sqrt ((2 * l + 1) / 2) *
        ((if m % 4 = 1 then -1 else 1) * (wignerD l (n + 1) (-m) (Real.pi / 2) * wignerD l (n + 1) 0 (Real.pi / 2)
          * (2 * Real.sin (((n + 1 : ℕ) : ℝ) * theta L k)))) := by
      intro n hn
      rw [mem_range] at hn
      have h1 : ¬ (n : ℤ) = l := by omega
      have h2 : ¬ n = 2 * L - 1 := by omega
      unfold wExact wTerm basis
      simp only [h, if_false, h1, h2]
      push_cast at s2 ⊢
      linear_combination ((if m % 4 = 1 then -1 else 1) * (wignerD l (n + 1) (-m) (Real.pi / 2) * wignerD l (n + 1) 0 (Real.pi / 2)
          * Real.sin (((n : ℝ) + 1) * theta L k))) * s2
    rw [sum_congr rfl e1, e0, add_zero, ← mul_sum, ← mul_sum]

/-- Orthonormality without cut-off. -/
theorem pExact_orth (L l l' : ℕ) (hl : l < L) (hl' : l' < L) (m : ℤ) (hm : |m| ≤ l) (hm' : |m| ≤ l') :
    ∑ k ∈ range (2 * L), dltWeightsDH L k * (pExact L l m k * pExact L l' m k) = if l = l' then 1 else 0 := by
  simp only [pExact_eq L l hl m hm, pExact_eq L l' hl' m hm']
  have e : ∀ k ∈ range (2 * L), dltWeightsDH L k * (Real.sqrt ((2 * l + 1) / 2) * wignerD l 0 m (theta L k) *
      (Real.sqrt ((2 * l' + 1) / 2) * wignerD l' 0 m (theta L k))) = (Real.sqrt ((2 * l + 1) / 2) * Real.sqrt ((2 * l' + 1) / 2)) *
      (dltWeightsDH L k * (wignerD l 0 m (theta L k) * wignerD l' 0 m (theta L k))) := fun k _ => by ring
  rw [sum_congr rfl e, ← mul_sum, row_orth L l l' m hl hl' hm hm']
  by_cases h : l = l'
  · subst h
    rw [if_pos rfl, if_pos rfl, Real.mul_self_sqrt (by positivity)]
    field_simp
  · rw [if_neg h, if_neg h, mul_zero]

/-! ### Size of the cut-off error -/

theorem wKept_err (L : ℕ) (e : Lmn) : |wKept L e - wExact L e| ≤ 1e-14 := by
  unfold wKept
  split
  · rw [sub_self, abs_zero]; norm_num
  · rename_i h
    rw [zero_sub, abs_neg]
    norm_num at h ⊢
    exact h

theorem basis_abs (L : ℕ) (hL : 0 < L) (m : ℤ) (k n : ℕ) : |basis L m k n| ≤ Real.sqrt (1 / L) := by
  have hL' : (0 : ℝ) < L := by exact_mod_cast hL
  have h1 : Real.sqrt (1 / (2 * L : ℕ)) ≤ Real.sqrt (1 / L) := by
    apply Real.sqrt_le_sqrt
    push_cast
    apply one_div_le_one_div_of_le hL'
    linarith
  have h2 : Real.sqrt (2 / (2 * L : ℕ)) = Real.sqrt (1 / L) := by
    congr 1
    push_cast
    field_simp
  have h3 : ∀ (p : Prop) [Decidable p], |(if p then Real.sqrt (1 / (2 * L : ℕ)) else Real.sqrt (2 / (2 * L : ℕ)))| ≤ Real.sqrt (1 / L) := by
    intro p _
    split
    · rw [abs_of_nonneg (Real.sqrt_nonneg _)]; exact h1
    · rw [abs_of_nonneg (Real.sqrt_nonneg _), h2]
  unfold basis
  split
  · rw [abs_mul]
    calc _ ≤ 1 * Real.sqrt (1 / L) := mul_le_mul (Real.abs_cos_le_one _) (h3 _) (abs_nonneg _) (by norm_num)
      _ = _ := one_mul _
  · rw [abs_mul]
    calc _ ≤ 1 * Real.sqrt (1 / L) := mul_le_mul (Real.abs_sin_le_one _) (h3 _) (abs_nonneg _) (by norm_num)
      _ = _ := one_mul _

theorem pKept_err (L l : ℕ) (hl : l < L) (m : ℤ) (k : ℕ) : |pKept L l m k - pExact L l m k| ≤ 1e-14 * Real.sqrt L := by
  have hL : 0 < L := by omega
  have hL' : (0 : ℝ) < L := by exact_mod_cast hL
  unfold pKept pExact
  rw [← sum_sub_distrib]
  refine (abs_sum_le_sum_abs _ _).trans ?_
  have : ∀ n ∈ range (l + 1), |wKept L (l, m, (n : ℤ)) * basis L m k n - wExact L (l, m, (n : ℤ)) * basis L m k n|
      ≤ 1e-14 * Real.sqrt (1 / L) := by
    intro n _
    rw [← sub_mul, abs_mul]
    exact mul_le_mul (wKept_err L _) (basis_abs L hL m k n) (abs_nonneg _) (by norm_num)
  refine (sum_le_sum this).trans ?_
  rw [sum_const, card_range, nsmul_eq_mul]
  have h1 : ((l + 1 : ℕ) : ℝ) ≤ L := by exact_mod_cast hl
  have h2 : Real.sqrt (1 / L) * L = Real.sqrt L := by
    rw [Real.sqrt_div' _ hL'.le, Real.sqrt_one, one_div, inv_mul_eq_div]
    exact Real.div_sqrt
  calc ((l + 1 : ℕ) : ℝ) * (1e-14 * Real.sqrt (1 / L)) ≤ L * (1e-14 * Real.sqrt (1 / L)) :=
        mul_le_mul_of_nonneg_right h1 (by positivity)
    _ = _ := by rw [← h2]; ring

theorem pExact_abs (L l : ℕ) (hl : l < L) (m : ℤ) (hm : |m| ≤ l) (k : ℕ) : |pExact L l m k| ≤ Real.sqrt L := by
  rw [pExact_eq L l hl m hm, abs_mul, abs_of_nonneg (Real.sqrt_nonneg _)]
  have h1 := wignerD_abs_le l 0 m (by simp) hm (theta L k)
  have h2 : Real.sqrt ((2 * l + 1) / 2) ≤ Real.sqrt L := by
    apply Real.sqrt_le_sqrt
    have : ((l : ℝ) + 1) ≤ L := by exact_mod_cast hl
    linarith
  calc _ ≤ Real.sqrt L * 1 := mul_le_mul h2 h1 (abs_nonneg _) (Real.sqrt_nonneg _)
    _ = _ := mul_one _

theorem dlt_abs (L k : ℕ) (hL : 0 < L) : |dltWeightsDH L k| ≤ 2 := by
  have hL' : (0 : ℝ) < L := by exact_mod_cast hL
  unfold dltWeightsDH
  rw [abs_mul, abs_mul]
  have h1 : |∑ p ∈ range L, (1 / (2 * (p : ℝ) + 1)) * Real.sin ((2 * k + 1) * (2 * p + 1) * Real.pi / (4 * L))| ≤ L := by
    refine (abs_sum_le_sum_abs _ _).trans ?_
    calc _ ≤ ∑ p ∈ range L, (1 : ℝ) := sum_le_sum fun p _ => by
          rw [abs_mul]
          have a : |1 / (2 * (p : ℝ) + 1)| ≤ 1 := by
            rw [abs_of_nonneg (by positivity), div_le_one (by positivity)]
            have : (0 : ℝ) ≤ p := by positivity
            linarith
          calc _ ≤ 1 * 1 := mul_le_mul a (Real.abs_sin_le_one _) (abs_nonneg _) (by norm_num)
            _ = 1 := mul_one _
      _ = L := by simp
  have h2 : |2 / (L : ℝ)| = 2 / L := abs_of_nonneg (by positivity)
  rw [h2]
  have h3 := Real.abs_sin_le_one (Real.pi * (2 * k + 1) / (4 * L))
  calc 2 / (L : ℝ) * |Real.sin (Real.pi * (2 * k + 1) / (4 * L))| * _ ≤ 2 / L * 1 * L := by
        apply mul_le_mul _ h1 (abs_nonneg _) (by positivity)
        exact mul_le_mul_of_nonneg_left h3 (by positivity)
    _ = 2 := by field_simp

/-- Almost orthonormal with cut-off on one side. -/
theorem pKept_orth1 (L l l' : ℕ) (hl : l < L) (hl' : l' < L) (m : ℤ) (hm : |m| ≤ l) (hm' : |m| ≤ l') :
    |∑ k ∈ range (2 * L), dltWeightsDH L k * (pKept L l m k * pExact L l' m k) - if l = l' then 1 else 0| ≤ 4e-14 * (L : ℝ) ^ 2 := by
  rw [← pExact_orth L l l' hl hl' m hm hm', ← sum_sub_distrib]
  refine (abs_sum_le_sum_abs _ _).trans ?_
  have hL' : (0 : ℝ) ≤ L := by positivity
  have hs := Real.mul_self_sqrt hL'
  have : ∀ k ∈ range (2 * L), |dltWeightsDH L k * (pKept L l m k * pExact L l' m k) - dltWeightsDH L k * (pExact L l m k * pExact L l' m k)|
      ≤ 2e-14 * L := by
    intro k _
    rw [show dltWeightsDH L k * (pKept L l m k * pExact L l' m k) - dltWeightsDH L k * (pExact L l m k * pExact L l' m k)
      = dltWeightsDH L k * ((pKept L l m k - pExact L l m k) * pExact L l' m k) by ring, abs_mul, abs_mul]
    calc _ ≤ 2 * ((1e-14 * Real.sqrt L) * Real.sqrt L) := by
          apply mul_le_mul (dlt_abs L k (by omega)) _ (by positivity) (by norm_num)
          exact mul_le_mul (pKept_err L l hl m k) (pExact_abs L l' hl' m hm' k) (abs_nonneg _) (by positivity)
      _ = _ := by rw [mul_assoc, hs]; ring
  refine (sum_le_sum this).trans ?_
  rw [sum_const, card_range, nsmul_eq_mul]
  push_cast
  apply le_of_eq
  ring

/-- Almost orthonormal with cut-off on both sides. -/
theorem pKept_orth (L l l' : ℕ) (hl : l < L) (hl' : l' < L) (m : ℤ) (hm : |m| ≤ l) (hm' : |m| ≤ l') :
    |∑ k ∈ range (2 * L), dltWeightsDH L k * (pKept L l m k * pKept L l' m k) - if l = l' then 1 else 0| ≤ 9e-14 * (L : ℝ) ^ 2 := by
  have h1 := pKept_orth1 L l l' hl hl' m hm hm'
  have hL' : (0 : ℝ) ≤ L := by positivity
  have hs := Real.mul_self_sqrt hL'
  have h2 : |∑ k ∈ range (2 * L), dltWeightsDH L k * (pKept L l m k * pKept L l' m k)
      - ∑ k ∈ range (2 * L), dltWeightsDH L k * (pKept L l m k * pExact L l' m k)| ≤ 5e-14 * (L : ℝ) ^ 2 := by
    rw [← sum_sub_distrib]
    refine (abs_sum_le_sum_abs _ _).trans ?_
    have : ∀ k ∈ range (2 * L), |dltWeightsDH L k * (pKept L l m k * pKept L l' m k) - dltWeightsDH L k * (pKept L l m k * pExact L l' m k)|
        ≤ 2.5e-14 * L := by
      intro k _
      rw [show dltWeightsDH L k * (pKept L l m k * pKept L l' m k) - dltWeightsDH L k * (pKept L l m k * pExact L l' m k)
        = dltWeightsDH L k * (pKept L l m k * (pKept L l' m k - pExact L l' m k)) by ring, abs_mul, abs_mul]
      have hp : |pKept L l m k| ≤ 1.25 * Real.sqrt L := by
        have a := pKept_err L l hl m k
        have b := pExact_abs L l hl m hm k
        have c := abs_add_le (pKept L l m k - pExact L l m k) (pExact L l m k)
        rw [sub_add_cancel] at c
        have : (0 : ℝ) ≤ Real.sqrt L := Real.sqrt_nonneg _
        norm_num at a ⊢
        linarith
      calc _ ≤ 2 * ((1.25 * Real.sqrt L) * (1e-14 * Real.sqrt L)) := by
            apply mul_le_mul (dlt_abs L k (by omega)) _ (by positivity) (by norm_num)
            exact mul_le_mul hp (pKept_err L l' hl' m k) (abs_nonneg _) (by positivity)
        _ = 2.5e-14 * (Real.sqrt L * Real.sqrt L) := by ring
        _ = _ := by rw [hs]
    refine (sum_le_sum this).trans ?_
    rw [sum_const, card_range, nsmul_eq_mul]
    push_cast
    apply le_of_eq
    ring
  have h3 := abs_add_le (∑ k ∈ range (2 * L), dltWeightsDH L k * (pKept L l m k * pKept L l' m k)
      - ∑ k ∈ range (2 * L), dltWeightsDH L k * (pKept L l m k * pExact L l' m k))
    (∑ k ∈ range (2 * L), dltWeightsDH L k * (pKept L l m k * pExact L l' m k) - if l = l' then 1 else 0)
  rw [sub_add_sub_cancel] at h3
  have : (9e-14 : ℝ) * (L : ℝ) ^ 2 = 5e-14 * (L : ℝ) ^ 2 + 4e-14 * (L : ℝ) ^ 2 := by ring
  linarith

end Verif.Sht
