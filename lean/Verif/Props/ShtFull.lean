import Verif.Lemmas.ShtSphere
/-!
C101-C103: the spherical harmonic transforms.  Properties of `CSHT` and `RSHT` in exact arithmetic, for every band limit and
every coefficient tensor; the only deviation from the mathematical transform is the cut-off of weights below `1e-14`.
-/
namespace Verif.Sht
open Verif.Wigner Verif.Wigner.Rep Verif.Spec Verif.Fft Finset

/-! ### Reindexing -/

theorem rows_orders {M : Type*} [AddCommMonoid M] (L : ℕ) (f : ℕ → ℕ → M) :
    ∑ i ∈ range (2 * L - 1), ∑ l ∈ range L, (if |(i : ℤ) - ((L - 1 : ℕ) : ℤ)| ≤ l then f i l else 0) =
      ∑ l ∈ range L, ∑ m ∈ Icc (-(l : ℤ)) l, f (m + ((L - 1 : ℕ) : ℤ)).toNat l := by
  rw [sum_comm]
  apply sum_congr rfl
  intro l hl
  rw [mem_range] at hl
  rw [← sum_filter]
  refine sum_bij (fun i _ => (i : ℤ) - ((L - 1 : ℕ) : ℤ)) ?_ ?_ ?_ ?_
  · intro i hi
    rw [mem_filter, mem_range, abs_le] at hi
    rw [mem_Icc]; exact hi.2
  · intro a _ b _ h
    simpa using h
  · intro m hm
    rw [mem_Icc] at hm
    refine ⟨(m + ((L - 1 : ℕ) : ℤ)).toNat, ?_, by omega⟩
    rw [mem_filter, mem_range, abs_le]; omega
  · intro i hi
    congr 1
    omega

/-! ### Complex transform -/

/-- Rows of the transform in azimuth of the signal with coefficients `c`, for functions `P` of the colatitude. -/
noncomputable def rowOf (d : Dlt) (L off : ℕ) (P : ℕ → ℤ → ℕ → ℝ) (c : ℕ → ℕ → ℂ) (i k : ℕ) : ℂ :=
  (d.iCm i : ℂ) * ∑ l ∈ range L, if |(i : ℤ) - off| ≤ l then (P l ((i : ℤ) - off) k : ℂ) * c i l else 0

theorem cIsht_eq {d : Dlt} {L : ℕ} (hd : IsDlt d L (L - 1)) (hr : d.rows = 2 * L - 1) (c : ℕ → ℕ → ℂ) (j k : ℕ) (hk : k < 2 * L) :
    cIsht d c j k = ∑ i ∈ range (2 * L - 1), rowOf d L (L - 1) (pKept L) c i k *
      cis ((((i : ℤ) - ((L - 1 : ℕ) : ℤ) : ℤ) : ℝ) * j / (2 * L : ℕ)) := by
  unfold cIsht
  simp only [hd.L_eq]
  rw [ifft_part L hd.pos]
  apply sum_congr rfl
  intro i hi
  rw [mem_range] at hi
  rw [idlt_complex hd c i k (by omega) hk]
  rfl

/-- The exact field, by rows. -/
theorem field_rows {d : Dlt} {L : ℕ} (hd : IsDlt d L (L - 1)) (c : ℕ → ℕ → ℂ) (j k : ℕ) (hk : k < 2 * L) :
    sphField L (fun l m => c (m + ((L - 1 : ℕ) : ℤ)).toNat l) (gridDH L j k).2 (gridDH L j k).1 =
      ∑ i ∈ range (2 * L - 1), rowOf d L (L - 1) (pExact L) c i k * cis ((((i : ℤ) - ((L - 1 : ℕ) : ℤ) : ℤ) : ℝ) * j / (2 * L : ℕ)) := by
  unfold sphField rowOf
  have e : ∀ i ∈ range (2 * L - 1), ((d.iCm i : ℂ) * ∑ l ∈ range L, if |(i : ℤ) - ((L - 1 : ℕ) : ℤ)| ≤ l then
      (pExact L l ((i : ℤ) - ((L - 1 : ℕ) : ℤ)) k : ℂ) * c i l else 0) * cis ((((i : ℤ) - ((L - 1 : ℕ) : ℤ) : ℤ) : ℝ) * j / (2 * L : ℕ))
      = ∑ l ∈ range L, if |(i : ℤ) - ((L - 1 : ℕ) : ℤ)| ≤ l then c i l * sphY l ((i : ℤ) - ((L - 1 : ℕ) : ℤ)) (gridDH L j k).2 (gridDH L j k).1 else 0 := by
    intro i _
    rw [mul_sum, sum_mul]
    apply sum_congr rfl
    intro l hl
    rw [mem_range] at hl
    by_cases h : |(i : ℤ) - ((L - 1 : ℕ) : ℤ)| ≤ l
    · rw [if_pos h, if_pos h, sphY_grid L l j k hl hk _ h, iCm_eq hd]
      push_cast
      ring
    · rw [if_neg h, if_neg h]; ring
  rw [sum_congr rfl e, rows_orders L (fun i l => c i l * sphY l ((i : ℤ) - ((L - 1 : ℕ) : ℤ)) (gridDH L j k).2 (gridDH L j k).1)]
  apply sum_congr rfl; intro l hl
  apply sum_congr rfl; intro m hm
  rw [mem_range] at hl
  rw [mem_Icc] at hm
  have : ((m + ((L - 1 : ℕ) : ℤ)).toNat : ℤ) - ((L - 1 : ℕ) : ℤ) = m := by omega
  rw [this]

theorem norm_cis (t : ℝ) : ‖cis t‖ = 1 := by
  unfold cis
  rw [show (2 * (Real.pi : ℂ) * t * Complex.I) = ((2 * Real.pi * t : ℝ) : ℂ) * Complex.I by push_cast; ring, Complex.norm_exp_ofReal_mul_I]

theorem row_diff {d : Dlt} {L off : ℕ} (hd : IsDlt d L off) (c : ℕ → ℕ → ℂ) (i k : ℕ) :
    ‖rowOf d L off (pKept L) c i k - rowOf d L off (pExact L) c i k‖ ≤
      ∑ l ∈ range L, if |(i : ℤ) - off| ≤ l then 1e-14 * Real.sqrt L * ‖c i l‖ else 0 := by
  unfold rowOf
  rw [← mul_sub, ← sum_sub_distrib, norm_mul, Complex.norm_real, Real.norm_eq_abs]
  have h1 := iCm_abs hd i
  refine (mul_le_of_le_one_left (norm_nonneg _) h1).trans ?_
  refine (norm_sum_le _ _).trans (sum_le_sum fun l hl => ?_)
  rw [mem_range] at hl
  split_ifs
  · rw [← sub_mul, norm_mul, ← Complex.ofReal_sub, Complex.norm_real, Real.norm_eq_abs]
    exact mul_le_mul_of_nonneg_right (pKept_err L l hl _ k) (norm_nonneg _)
  · simp

/-- **C101** (complex).  For every band limit the module is built, and `isht` of every coefficient tensor is, at every grid
point, the band-limited function with these coefficients up to the cut-off of small weights. -/
theorem C101_csht_synthesis (L : ℕ) (hL : 0 < L) : ∃ d, mkDlt L = some d ∧ ∀ (c : ℕ → ℕ → ℂ) (j k : ℕ), j < 2 * L → k < 2 * L →
    ‖cIsht d c j k - sphField L (fun l m => c (m + ((L - 1 : ℕ) : ℤ)).toNat l) (gridDH L j k).2 (gridDH L j k).1‖
      ≤ 1e-14 * Real.sqrt L * ∑ l ∈ range L, ∑ m ∈ Icc (-(l : ℤ)) l, ‖c (m + ((L - 1 : ℕ) : ℤ)).toNat l‖ := by
  obtain ⟨d, h1, h2, hd⟩ := mkDlt_spec L hL
  refine ⟨d, h1, fun c j k _ hk => ?_⟩
  rw [cIsht_eq hd h2 c j k hk, field_rows hd c j k hk, ← sum_sub_distrib]
  refine (norm_sum_le _ _).trans ?_
  have e := rows_orders L (fun i l => (1e-14 : ℝ) * Real.sqrt L * ‖c i l‖)
  simp only [mul_sum]
  rw [← e]
  apply sum_le_sum
  intro i _
  rw [← sub_mul, norm_mul, norm_cis, mul_one]
  exact row_diff hd c i k

/-- The azimuthal transform of a sum of exponentials. -/
theorem fft_rows (L : ℕ) (hL : 0 < L) (a : ℕ → ℕ → ℂ) (psi : ℕ → ℕ → ℂ) (i k : ℕ) (hi : i < 2 * L - 1)
    (h : ∀ j < 2 * L, psi j k = ∑ i ∈ range (2 * L - 1), a i k * cis ((((i : ℤ) - ((L - 1 : ℕ) : ℤ) : ℤ) : ℝ) * j / (2 * L : ℕ))) :
    shiftRows (2 * L) (fftRows (2 * L) psi) (i + 1) k = a i k := by
  rw [fft_part L hL]
  have e : ∀ j ∈ range (2 * L), psi j k * cis (-((((i : ℤ) - ((L - 1 : ℕ) : ℤ) : ℤ) : ℝ) * j / (2 * L : ℕ)))
      = ∑ p ∈ range (2 * L - 1), a p k * (cis ((((p : ℤ) - ((L - 1 : ℕ) : ℤ) : ℤ) : ℝ) * j / (2 * L : ℕ)) *
        cis (-((((i : ℤ) - ((L - 1 : ℕ) : ℤ) : ℤ) : ℝ) * j / (2 * L : ℕ)))) := by
    intro j hj
    rw [h j (mem_range.1 hj), sum_mul]
    exact sum_congr rfl fun p _ => by ring
  rw [sum_congr rfl e, sum_comm, sum_div]
  have e2 : ∀ p ∈ range (2 * L - 1), (∑ j ∈ range (2 * L), a p k * (cis ((((p : ℤ) - ((L - 1 : ℕ) : ℤ) : ℤ) : ℝ) * j / (2 * L : ℕ)) *
        cis (-((((i : ℤ) - ((L - 1 : ℕ) : ℤ) : ℤ) : ℝ) * j / (2 * L : ℕ))))) / (2 * L : ℕ) = if p = i then a p k else 0 := by
    intro p hp
    rw [mem_range] at hp
    rw [← mul_sum, mul_div_assoc, cis_coeff (2 * L) (by omega)]
    by_cases hpi : p = i
    · subst hpi; rw [if_pos rfl, if_pos (by simp), mul_one]
    · rw [if_neg hpi, if_neg, mul_zero]
      intro hdv
      have hb : |((p : ℤ) - ((L - 1 : ℕ) : ℤ)) - ((i : ℤ) - ((L - 1 : ℕ) : ℤ))| < ((2 * L : ℕ) : ℤ) := by rw [abs_lt]; omega
      have := Int.eq_zero_of_abs_lt_dvd hdv hb
      omega
  rw [sum_congr rfl e2, sum_ite_eq' (range (2 * L - 1)) i (fun p => a p k), if_pos (mem_range.2 hi)]

/-- Analysis of one row. -/
theorem dlt_near {d : Dlt} {L off : ℕ} (hd : IsDlt d L off) (P : ℕ → ℤ → ℕ → ℝ) (B : ℝ) (c : ℕ → ℕ → ℂ) (i l : ℕ)
    (hl : l < L) (hm : |(i : ℤ) - off| ≤ l)
    (hP : ∀ l' < L, |(i : ℤ) - off| ≤ l' → |∑ k ∈ range (2 * L), dltWeightsDH L k *
      (pKept L l ((i : ℤ) - off) k * P l' ((i : ℤ) - off) k) - if l = l' then 1 else 0| ≤ B) :
    ‖(d.Cm i : ℂ) * ∑ k ∈ range (2 * L), ((dltWeightsDH L k * pKept L l ((i : ℤ) - off) k : ℝ) : ℂ) * rowOf d L off P c i k - c i l‖
      ≤ B * ∑ l' ∈ range L, if |(i : ℤ) - off| ≤ l' then ‖c i l'‖ else 0 := by
  have hC : (d.Cm i : ℂ) ≠ 0 := by exact_mod_cast Cm_ne hd i
  have e1 : (d.Cm i : ℂ) * ∑ k ∈ range (2 * L), ((dltWeightsDH L k * pKept L l ((i : ℤ) - off) k : ℝ) : ℂ) * rowOf d L off P c i k
      = ∑ l' ∈ range L, if |(i : ℤ) - off| ≤ l' then c i l' * ((∑ k ∈ range (2 * L), dltWeightsDH L k *
      (pKept L l ((i : ℤ) - off) k * P l' ((i : ℤ) - off) k) : ℝ) : ℂ) else 0 := by
    unfold rowOf
    have : (d.Cm i : ℂ) * (d.iCm i : ℂ) = 1 := by rw [hd.iCm]; push_cast; field_simp
    have e : ∀ k ∈ range (2 * L), ((dltWeightsDH L k * pKept L l ((i : ℤ) - off) k : ℝ) : ℂ) * ((d.iCm i : ℂ) *
        ∑ l' ∈ range L, if |(i : ℤ) - off| ≤ l' then (P l' ((i : ℤ) - off) k : ℂ) * c i l' else 0) =
        (d.iCm i : ℂ) * ∑ l' ∈ range L, (if |(i : ℤ) - off| ≤ l' then c i l' * ((dltWeightsDH L k *
      (pKept L l ((i : ℤ) - off) k * P l' ((i : ℤ) - off) k) : ℝ) : ℂ) else 0) := by
      intro k _
      rw [mul_left_comm, mul_sum]
      congr 1
      apply sum_congr rfl; intro l' _
      split_ifs
      · push_cast; ring
      · ring
    rw [sum_congr rfl e, ← mul_sum, ← mul_assoc, this, one_mul, sum_comm]
    apply sum_congr rfl; intro l' _
    split_ifs
    · rw [← mul_sum]; push_cast; rfl
    · simp
  have e2 : c i l = ∑ l' ∈ range L, if |(i : ℤ) - off| ≤ l' then c i l' * (((if l = l' then 1 else 0 : ℝ)) : ℂ) else 0 := by
    rw [sum_eq_single l]
    · rw [if_pos hm, if_pos rfl]; simp
    · intro b _ hb
      rw [if_neg (Ne.symm hb)]; simp
    · intro h; exact absurd (mem_range.2 hl) h
  rw [e1]
  conv_lhs => rw [e2]
  rw [← sum_sub_distrib, mul_sum]
  refine (norm_sum_le _ _).trans (sum_le_sum fun l' hl' => ?_)
  rw [mem_range] at hl'
  by_cases h : |(i : ℤ) - off| ≤ l'
  · rw [if_pos h, if_pos h, if_pos h, ← mul_sub, norm_mul, ← Complex.ofReal_sub, Complex.norm_real, Real.norm_eq_abs, mul_comm]
    exact mul_le_mul_of_nonneg_right (hP l' hl' h) (norm_nonneg _)
  · rw [if_neg h, if_neg h, if_neg h]; simp

theorem csht_near {d : Dlt} {L : ℕ} (hd : IsDlt d L (L - 1)) (hr : d.rows = 2 * L - 1) (P : ℕ → ℤ → ℕ → ℝ) (B : ℝ) (c psi : ℕ → ℕ → ℂ)
    (hP : ∀ (l l' : ℕ) (m : ℤ), l < L → l' < L → |m| ≤ l → |m| ≤ l' → |∑ k ∈ range (2 * L), dltWeightsDH L k *
      (pKept L l m k * P l' m k) - if l = l' then 1 else 0| ≤ B)
    (h : ∀ j k, j < 2 * L → k < 2 * L → psi j k = ∑ i ∈ range (2 * L - 1), rowOf d L (L - 1) P c i k *
      cis ((((i : ℤ) - ((L - 1 : ℕ) : ℤ) : ℤ) : ℝ) * j / (2 * L : ℕ))) (i l : ℕ) (hi : i < 2 * L - 1) (hl : l < L) :
    (|(i : ℤ) - ((L - 1 : ℕ) : ℤ)| ≤ l → ‖cFsht d psi i l - c i l‖ ≤ B * ∑ l' ∈ range L, if |(i : ℤ) - ((L - 1 : ℕ) : ℤ)| ≤ l' then ‖c i l'‖ else 0) ∧
    (¬ |(i : ℤ) - ((L - 1 : ℕ) : ℤ)| ≤ l → cFsht d psi i l = 0) := by
  have e : cFsht d psi i l = _ := fdlt_complex hd (fun i k => shiftRows (2 * d.L) (fftRows (2 * d.L) psi) (i + 1) k) i l (by omega) hl
  constructor
  · intro hm
    rw [e, if_pos hm, hd.L_eq]
    have : ∑ k ∈ range (2 * L), ((dltWeightsDH L k * pKept L l ((i : ℤ) - ((L - 1 : ℕ) : ℤ)) k : ℝ) : ℂ) *
        shiftRows (2 * L) (fftRows (2 * L) psi) (i + 1) k = ∑ k ∈ range (2 * L), ((dltWeightsDH L k * pKept L l ((i : ℤ) - ((L - 1 : ℕ) : ℤ)) k : ℝ) : ℂ) *
        rowOf d L (L - 1) P c i k := by
      apply sum_congr rfl; intro k hk
      rw [fft_rows L hd.pos (rowOf d L (L - 1) P c) psi i k hi (fun j hj => h j k hj (mem_range.1 hk))]
    rw [this]
    exact dlt_near hd P B c i l hl hm fun l' hl' hm' => hP l l' _ hl hl' hm hm'
  · intro hm
    rw [e, if_neg hm]

/-- **C102** (analysis, complex).  `fsht` of the samples of a band-limited function returns its spherical harmonic
coefficients (order `m` in row `m + L - 1`), up to the cut-off of small weights, and exact zeros where `|m| > l`. -/
theorem C102_csht_analysis (L : ℕ) (hL : 0 < L) : ∃ d, mkDlt L = some d ∧ ∀ (c psi : ℕ → ℕ → ℂ),
    (∀ j k, j < 2 * L → k < 2 * L → psi j k =
      sphField L (fun l m => c (m + ((L - 1 : ℕ) : ℤ)).toNat l) (gridDH L j k).2 (gridDH L j k).1) →
    ∀ i l, i < 2 * L - 1 → l < L →
      (|(i : ℤ) - ((L - 1 : ℕ) : ℤ)| ≤ l → ‖cFsht d psi i l - c i l‖ ≤ 4e-14 * (L : ℝ) ^ 2 *
        ∑ l' ∈ range L, if |(i : ℤ) - ((L - 1 : ℕ) : ℤ)| ≤ l' then ‖c i l'‖ else 0) ∧
      (¬ |(i : ℤ) - ((L - 1 : ℕ) : ℤ)| ≤ l → cFsht d psi i l = 0) := by
  obtain ⟨d, h1, h2, hd⟩ := mkDlt_spec L hL
  refine ⟨d, h1, fun c psi h i l hi hl => ?_⟩
  refine csht_near hd h2 (pExact L) _ c psi (fun l l' m hl hl' hm hm' => pKept_orth1 L l l' hl hl' m hm hm') ?_ i l hi hl
  intro j k hj hk
  rw [h j k hj hk, field_rows hd c j k hk]

/-- **C102** (round trip, complex).  `fsht (isht c)` is `c` on every stored coefficient with `|m| ≤ l`, up to the cut-off of small
weights, and zero on the unused entries. -/
theorem C102_csht_roundtrip (L : ℕ) (hL : 0 < L) : ∃ d, mkDlt L = some d ∧ ∀ (c : ℕ → ℕ → ℂ) (i l : ℕ), i < 2 * L - 1 → l < L →
      (|(i : ℤ) - ((L - 1 : ℕ) : ℤ)| ≤ l → ‖cFsht d (cIsht d c) i l - c i l‖ ≤ 9e-14 * (L : ℝ) ^ 2 *
        ∑ l' ∈ range L, if |(i : ℤ) - ((L - 1 : ℕ) : ℤ)| ≤ l' then ‖c i l'‖ else 0) ∧
      (¬ |(i : ℤ) - ((L - 1 : ℕ) : ℤ)| ≤ l → cFsht d (cIsht d c) i l = 0) := by
  obtain ⟨d, h1, h2, hd⟩ := mkDlt_spec L hL
  refine ⟨d, h1, fun c i l hi hl => ?_⟩
  refine csht_near hd h2 (pKept L) _ c _ (fun l l' m hl hl' hm hm' => pKept_orth L l l' hl hl' m hm hm') ?_ i l hi hl
  intro j k _ hk
  exact cIsht_eq hd h2 c j k hk

/-- **C102** (sampling points).  The `2B × 2B` points of the grid, as directions: point `(j, k)` has colatitude `π (2k+1)/(4B)` and azimuth
`π j / B`; they lie on the unit sphere, are pairwise different, avoid the poles, and with every point the grid has the opposite one. -/
theorem C102_grid (B : ℕ) (hB : 0 < B) (j k : ℕ) (hj : j < 2 * B) (hk : k < 2 * B) :
    ∃ x y z : ℝ, thetaPhiToXyz (gridDH B j k) = (x, y, z) ∧ x ^ 2 + y ^ 2 + z ^ 2 = 1 ∧ |z| < 1 ∧
      Real.arccos z = Real.pi * (2 * k + 1) / (4 * B) ∧
      (⟨x, y⟩ : ℂ) = (Real.sin (Real.pi * (2 * k + 1) / (4 * B)) : ℂ) * Complex.exp ((Real.pi * j / B : ℝ) * Complex.I) ∧
      (∀ j' k' : ℕ, j' < 2 * B → k' < 2 * B → thetaPhiToXyz (gridDH B j' k') = (x, y, z) → j' = j ∧ k' = k) ∧
      (∃ j' k' : ℕ, j' < 2 * B ∧ k' < 2 * B ∧ thetaPhiToXyz (gridDH B j' k') = (-x, -y, -z)) := by
  have hBr : (0 : ℝ) < B := by exact_mod_cast hB
  have hpi := Real.pi_pos
  have col : ∀ k : ℕ, k < 2 * B → 0 < Real.pi * (2 * k + 1) / (4 * B) ∧ Real.pi * (2 * k + 1) / (4 * B) < Real.pi := by
    intro k hk
    have hk' : (k : ℝ) + 1 ≤ 2 * B := by exact_mod_cast hk
    refine ⟨by positivity, ?_⟩
    rw [div_lt_iff₀ (by positivity)]
    nlinarith
  have az : ∀ j : ℕ, Real.pi * (2 * j) / (2 * B) = Real.pi * j / B := by intro j; field_simp
  obtain ⟨c1, c2⟩ := col k hk
  have hs := Real.sin_pos_of_pos_of_lt_pi c1 c2
  have hsq := Real.sin_sq_add_cos_sq (Real.pi * (2 * k + 1) / (4 * B))
  have hsq2 := Real.sin_sq_add_cos_sq (Real.pi * j / B)
  refine ⟨_, _, _, rfl, ?_, ?_, ?_, ?_, ?_, ?_⟩
  · simp only [gridDH, az]
    linear_combination hsq + Real.sin (Real.pi * (2 * k + 1) / (4 * B)) ^ 2 * hsq2
  · simp only [gridDH]
    rw [← sq_lt_one_iff_abs_lt_one]
    nlinarith
  · exact Real.arccos_cos c1.le c2.le
  · simp only [gridDH, az]
    rw [Complex.exp_mul_I, ← Complex.ofReal_cos, ← Complex.ofReal_sin]
    generalize Real.sin (Real.pi * (2 * k + 1) / (4 * B)) = a
    generalize Real.sin (Real.pi * j / B) = b
    generalize Real.cos (Real.pi * j / B) = d
    apply Complex.ext <;> simp [mul_comm]
  · intro j' k' hj' hk' e
    simp only [thetaPhiToXyz, gridDH, az, Prod.mk.injEq] at e
    obtain ⟨e1, e2, e3⟩ := e
    obtain ⟨d1, d2⟩ := col k' hk'
    have ek := Real.injOn_cos ⟨d1.le, d2.le⟩ ⟨c1.le, c2.le⟩ e3
    rw [ek] at e1 e2
    have ekk : k' = k := by
      rw [div_left_inj' (by positivity)] at ek
      have : (2 * (k' : ℝ) + 1) = 2 * k + 1 := mul_left_cancel₀ hpi.ne' ek
      have : (k' : ℝ) = k := by linarith
      exact_mod_cast this
    refine ⟨?_, ekk⟩
    have e1' := mul_right_cancel₀ hs.ne' e1
    have e2' := mul_right_cancel₀ hs.ne' e2
    have hcos : Real.cos (Real.pi * j' / B - Real.pi * j / B) = 1 := by
      rw [Real.cos_sub, e1', e2']; linarith
    have l1 : -(2 * Real.pi) < Real.pi * j' / B - Real.pi * j / B := by
      have : (j : ℝ) < 2 * B := by exact_mod_cast hj
      have h1 : Real.pi * j / B < 2 * Real.pi := by rw [div_lt_iff₀ hBr]; nlinarith
      have h2 : 0 ≤ Real.pi * j' / B := by positivity
      linarith
    have l2 : Real.pi * j' / B - Real.pi * j / B < 2 * Real.pi := by
      have : (j' : ℝ) < 2 * B := by exact_mod_cast hj'
      have h1 : Real.pi * j' / B < 2 * Real.pi := by rw [div_lt_iff₀ hBr]; nlinarith
      have h2 : 0 ≤ Real.pi * j / B := by positivity
      linarith
    have := (Real.cos_eq_one_iff_of_lt_of_lt l1 l2).mp hcos
    have h3 : Real.pi * j' / B = Real.pi * j / B := by linarith
    rw [div_left_inj' hBr.ne'] at h3
    exact_mod_cast mul_left_cancel₀ hpi.ne' h3
  · have hc : Real.pi * (2 * ((2 * B - 1 - k : ℕ) : ℝ) + 1) / (4 * B) = Real.pi - Real.pi * (2 * k + 1) / (4 * B) := by
      have : ((2 * B - 1 - k : ℕ) : ℝ) = 2 * B - 1 - k := by
        rw [Nat.sub_sub, Nat.cast_sub (by omega)]; push_cast; ring
      rw [this]; field_simp; ring
    by_cases h : j < B
    · refine ⟨j + B, 2 * B - 1 - k, by omega, by omega, ?_⟩
      have ha : Real.pi * ((j + B : ℕ) : ℝ) / B = Real.pi * j / B + Real.pi := by push_cast; field_simp
      simp only [thetaPhiToXyz, gridDH, az, hc, ha, Real.sin_pi_sub, Real.cos_pi_sub, Real.sin_add_pi, Real.cos_add_pi, neg_mul]
    · refine ⟨j - B, 2 * B - 1 - k, by omega, by omega, ?_⟩
      have ha : Real.pi * ((j - B : ℕ) : ℝ) / B = Real.pi * j / B - Real.pi := by
        rw [Nat.cast_sub (by omega)]; field_simp
      simp only [thetaPhiToXyz, gridDH, az, hc, ha, Real.sin_pi_sub, Real.cos_pi_sub, Real.sin_sub_pi, Real.cos_sub_pi, neg_mul]

/-- non-vacuity: a 6 × 6 grid -/
example : (0 : ℕ) < 3 ∧ 5 < 2 * 3 ∧ 2 < 2 * 3 := by norm_num

end Verif.Sht
