import Verif.Props.ShtFull
/-!
C101 and C103 for the transform of real signals (`RSHT`).
-/
namespace Verif.Sht
open Verif.Wigner Verif.Wigner.Rep Verif.Spec Verif.Fft Finset

/-- How often order `v` counts. -/
noncomputable def twice (v : ℕ) : ℝ := if v = 0 then 1 else 2

theorem rIsht_eq {d : Dlt} {L : ℕ} (hd : IsDlt d L 0) (hr : d.rows = L) (c : ℕ → ℕ → ℂ) (j k : ℕ) (hk : k < 2 * L) :
    rIsht d c j k = ∑ v ∈ range L, twice v * (rowOf d L 0 (pKept L) c v k * cis ((v : ℝ) * j / (2 * L : ℕ))).re := by
  unfold rIsht irfftRows
  simp only [hd.L_eq]
  rw [sum_range_succ, if_neg (lt_irrefl L)]
  simp only [zero_mul, Complex.zero_re, mul_zero, add_zero, Nat.add_sub_cancel]
  apply sum_congr rfl
  intro v hv
  rw [mem_range] at hv
  rw [if_pos hv, idlt_complex hd c v k (by omega) hk]
  congr 1
  unfold colWeight twice
  by_cases h : v = 0
  · rw [if_pos (Or.inl h), if_pos h]
  · rw [if_neg (by omega), if_neg h]

/-- A sum over all orders of conjugate terms. -/
theorem herm_sum (l : ℕ) (g : ℤ → ℂ) (h0 : (g 0).im = 0) (hg : ∀ m : ℤ, 0 < m → g (-m) = (starRingEnd ℂ) (g m)) :
    ∑ m ∈ Icc (-(l : ℤ)) l, g m = ((∑ v ∈ range (l + 1), twice v * (g v).re : ℝ) : ℂ) := by
  induction l with
  | zero =>
    simp [twice]
    apply Complex.ext <;> simp [h0]
  | succ l ih =>
    have e : Icc (-((l + 1 : ℕ) : ℤ)) ((l + 1 : ℕ) : ℤ) = insert (-((l + 1 : ℕ) : ℤ)) (insert (((l + 1 : ℕ) : ℤ)) (Icc (-(l : ℤ)) l)) := by
      ext x; simp only [mem_Icc, mem_insert]; omega
    rw [e, sum_insert (by simp only [mem_insert, mem_Icc]; omega), sum_insert (by simp only [mem_Icc]; omega), ih,
      sum_range_succ _ (l + 1), hg _ (by omega)]
    have h2 : (starRingEnd ℂ) (g ((l + 1 : ℕ) : ℤ)) + g ((l + 1 : ℕ) : ℤ) = ((2 * (g ((l + 1 : ℕ) : ℤ)).re : ℝ) : ℂ) := by
      rw [add_comm, Complex.add_conj]
    rw [← add_assoc, h2, show twice (l + 1) = 2 by simp [twice]]
    push_cast
    ring

theorem sphYpos_zero_im (l : ℕ) (θ φ : ℝ) : (sphYpos l 0 θ φ).im = 0 := by
  unfold sphYpos
  simp only [Nat.cast_zero, zero_mul, Complex.exp_zero, mul_one, Complex.ofReal_im]

theorem sum_le_range {M : Type*} [AddCommMonoid M] {N : ℕ} (l : ℕ) (h : l < N) (f : ℕ → M) :
    ∑ n ∈ range N, (if n ≤ l then f n else 0) = ∑ n ∈ range (l + 1), f n := by
  rw [← sum_filter]
  congr 1
  ext n; simp only [mem_filter, mem_range]; omega

/-- The exact real field, by orders. -/
theorem field_real {d : Dlt} {L : ℕ} (hd : IsDlt d L 0) (c : ℕ → ℕ → ℂ) (j k : ℕ) (hk : k < 2 * L) :
    sphField L (realCoeffs fun l v => c v l) (gridDH L j k).2 (gridDH L j k).1 =
      ((∑ v ∈ range L, twice v * (rowOf d L 0 (pExact L) c v k * cis ((v : ℝ) * j / (2 * L : ℕ))).re : ℝ) : ℂ) := by
  unfold sphField
  set θ := (gridDH L j k).2 with hθ
  set φ := (gridDH L j k).1 with hφ
  have e : ∀ l ∈ range L, ∑ m ∈ Icc (-(l : ℤ)) l, realCoeffs (fun l v => c v l) l m * sphY l m θ φ
      = ((∑ v ∈ range L, if v ≤ l then twice v * (c v l * sphY l v θ φ).re else 0 : ℝ) : ℂ) := by
    intro l hl
    rw [mem_range] at hl
    rw [sum_le_range l hl, herm_sum l (fun m => realCoeffs (fun l v => c v l) l m * sphY l m θ φ)]
    · congr 1
      apply sum_congr rfl
      intro v _
      congr 1
      unfold realCoeffs
      by_cases hv : v = 0
      · subst hv
        simp only [Nat.cast_zero, if_true]
        have : (sphY l 0 θ φ).im = 0 := by
          unfold sphY; rw [if_pos le_rfl]; exact sphYpos_zero_im l θ φ
        rw [Complex.mul_re, Complex.mul_re, this]
        simp
      · rw [if_neg (by omega), if_pos (by omega)]
        simp
    · unfold realCoeffs sphY
      simp only [if_true, le_refl]
      rw [Complex.im_ofReal_mul]
      rw [show (0 : ℤ).toNat = 0 from rfl, sphYpos_zero_im, mul_zero]
    · intro m hm
      unfold realCoeffs sphY
      rw [if_neg (by omega), if_neg (by omega), if_neg (by omega), if_neg (by omega), if_pos hm, if_pos (by omega)]
      rw [show (-m).natAbs = m.toNat by omega, map_mul]
      have h1 : ((-1 : ℂ)) ^ m.toNat * (-1) ^ m.toNat = 1 := by rw [← mul_pow]; simp
      linear_combination ((starRingEnd ℂ) (c m.toNat l) * (starRingEnd ℂ) (sphYpos l m.toNat θ φ)) * h1
  rw [sum_congr rfl e, ← Complex.ofReal_sum]
  congr 1
  rw [sum_comm]
  apply sum_congr rfl
  intro v hv
  rw [mem_range] at hv
  have e2 : (rowOf d L 0 (pExact L) c v k * cis ((v : ℝ) * j / (2 * L : ℕ))).re = ∑ l ∈ range L, if v ≤ l then (c v l * sphY l v θ φ).re else 0 := by
    unfold rowOf
    rw [mul_sum, sum_mul, Complex.re_sum]
    apply sum_congr rfl
    intro l hl
    rw [mem_range] at hl
    have hc : |(v : ℤ) - ((0 : ℕ) : ℤ)| ≤ (l : ℤ) ↔ v ≤ l := by
      rw [Nat.cast_zero, sub_zero, abs_of_nonneg (by omega)]; omega
    by_cases h : v ≤ l
    · rw [if_pos (hc.2 h), if_pos h, hθ, hφ, sphY_grid L l j k hl hk v (by rw [abs_of_nonneg (by omega)]; omega), iCm_eq hd]
      congr 1
      rw [Nat.cast_zero, sub_zero, Int.cast_natCast]
      push_cast
      ring
    · rw [if_neg (mt hc.1 h), if_neg h]; simp
  rw [e2, mul_sum]
  exact sum_congr rfl fun l _ => by split_ifs <;> ring

/-- **C101** (real).  For every band limit the module is built, and `isht` of every coefficient tensor is, at every grid
point, the real band-limited function with these coefficients for `m ≥ 0`, up to the cut-off of small weights. -/
theorem C101_rsht_synthesis (L : ℕ) (hL : 0 < L) : ∃ d, mkRdlt L = some d ∧ ∀ (c : ℕ → ℕ → ℂ) (j k : ℕ), j < 2 * L → k < 2 * L →
    ‖(rIsht d c j k : ℂ) - sphField L (realCoeffs fun l m => c m l) (gridDH L j k).2 (gridDH L j k).1‖
      ≤ 2e-14 * Real.sqrt L * ∑ l ∈ range L, ∑ m ∈ range (l + 1), ‖c m l‖ := by
  obtain ⟨d, h1, h2, hd⟩ := mkRdlt_spec L hL
  refine ⟨d, h1, fun c j k _ hk => ?_⟩
  rw [rIsht_eq hd h2 c j k hk, field_real hd c j k hk, ← Complex.ofReal_sub, Complex.norm_real, Real.norm_eq_abs, ← sum_sub_distrib]
  refine (abs_sum_le_sum_abs _ _).trans ?_
  have e : ∑ l ∈ range L, ∑ m ∈ range (l + 1), ‖c m l‖ = ∑ v ∈ range L, ∑ l ∈ range L, if v ≤ l then ‖c v l‖ else 0 := by
    rw [sum_comm]
    apply sum_congr rfl
    intro l hl
    rw [mem_range] at hl
    rw [sum_le_range l hl]
  rw [e, mul_sum]
  apply sum_le_sum
  intro v _
  rw [← mul_sub, ← Complex.sub_re, ← sub_mul, abs_mul]
  have ht : |twice v| ≤ 2 := by unfold twice; split_ifs <;> norm_num
  have hn : |((rowOf d L 0 (pKept L) c v k - rowOf d L 0 (pExact L) c v k) * cis ((v : ℝ) * j / (2 * L : ℕ))).re| ≤
      1e-14 * Real.sqrt L * ∑ l ∈ range L, if v ≤ l then ‖c v l‖ else 0 := by
    refine (Complex.abs_re_le_norm _).trans ?_
    rw [norm_mul, norm_cis, mul_one]
    refine (row_diff hd c v k).trans (le_of_eq ?_)
    rw [mul_sum]
    apply sum_congr rfl
    intro l _
    have hc : |(v : ℤ) - ((0 : ℕ) : ℤ)| ≤ (l : ℤ) ↔ v ≤ l := by
      rw [Nat.cast_zero, sub_zero, abs_of_nonneg (by omega)]; omega
    by_cases h : v ≤ l
    · rw [if_pos (hc.2 h), if_pos h]
    · rw [if_neg (mt hc.1 h), if_neg h, mul_zero]
  calc _ ≤ 2 * (1e-14 * Real.sqrt L * ∑ l ∈ range L, if v ≤ l then ‖c v l‖ else 0) := mul_le_mul ht hn (abs_nonneg _) (by norm_num)
    _ = _ := by ring

/-- The azimuthal transform of a real trigonometric sum. -/
theorem rfft_rows (L : ℕ) (hL : 0 < L) (a : ℕ → ℂ) (psi : ℕ → ℕ → ℂ) (i k : ℕ) (hi : i < L)
    (h : ∀ j < 2 * L, psi j k = ((∑ v ∈ range L, twice v * (a v * cis ((v : ℝ) * j / (2 * L : ℕ))).re : ℝ) : ℂ)) :
    fftRows (2 * L) psi i k = if i = 0 then ((a 0).re : ℂ) else a i := by
  unfold fftRows
  have re2 : ∀ z : ℂ, ((z.re : ℝ) : ℂ) = (z + (starRingEnd ℂ) z) / 2 := by
    intro z; rw [Complex.add_conj]; push_cast; ring
  have e : ∀ j ∈ range (2 * L), psi j k * cis (-((i : ℝ) * j / (2 * L : ℕ)))
      = ∑ v ∈ range L, ((twice v : ℝ) : ℂ) / 2 * (a v * (cis (((v : ℤ) : ℝ) * j / (2 * L : ℕ)) * cis (-(((i : ℤ) : ℝ) * j / (2 * L : ℕ))))
        + (starRingEnd ℂ) (a v) * (cis (((-(v : ℤ) : ℤ) : ℝ) * j / (2 * L : ℕ)) * cis (-(((i : ℤ) : ℝ) * j / (2 * L : ℕ))))) := by
    intro j hj
    rw [h j (mem_range.1 hj), Complex.ofReal_sum, sum_mul]
    apply sum_congr rfl
    intro v _
    rw [Complex.ofReal_mul, re2, map_mul, cis_conj]
    have : (((-(v : ℤ) : ℤ) : ℝ)) * j / (2 * L : ℕ) = -((v : ℝ) * j / (2 * L : ℕ)) := by push_cast; ring
    rw [this, Int.cast_natCast, Int.cast_natCast]
    ring
  rw [sum_congr rfl e, sum_comm, sum_div]
  have e2 : ∀ v ∈ range L, (∑ j ∈ range (2 * L), ((twice v : ℝ) : ℂ) / 2 * (a v * (cis (((v : ℤ) : ℝ) * j / (2 * L : ℕ)) * cis (-(((i : ℤ) : ℝ) * j / (2 * L : ℕ))))
        + (starRingEnd ℂ) (a v) * (cis (((-(v : ℤ) : ℤ) : ℝ) * j / (2 * L : ℕ)) * cis (-(((i : ℤ) : ℝ) * j / (2 * L : ℕ)))))) / (2 * L : ℕ)
      = if v = i then (if i = 0 then ((a 0).re : ℂ) else a i) else 0 := by
    intro v hv
    rw [mem_range] at hv
    rw [← mul_sum, sum_add_distrib, ← mul_sum, ← mul_sum, mul_div_assoc, add_div, mul_div_assoc, mul_div_assoc,
      cis_coeff (2 * L) (by omega), cis_coeff (2 * L) (by omega)]
    by_cases hvi : v = i
    · subst hvi
      rw [if_pos rfl, if_pos (by simp)]
      by_cases h0 : v = 0
      · subst h0
        rw [if_pos (by simp), if_pos rfl, re2]
        simp [twice]
        ring
      · rw [if_neg h0, if_neg, show twice v = 2 by simp [twice, h0]]
        · push_cast; ring
        · intro hdv
          have hb : |-(v : ℤ) - (v : ℤ)| < ((2 * L : ℕ) : ℤ) := by rw [abs_lt]; omega
          have := Int.eq_zero_of_abs_lt_dvd hdv hb
          omega
    · rw [if_neg hvi, if_neg, if_neg]
      · ring
      · intro hdv
        have hb : |-(v : ℤ) - (i : ℤ)| < ((2 * L : ℕ) : ℤ) := by rw [abs_lt]; omega
        have := Int.eq_zero_of_abs_lt_dvd hdv hb
        omega
      · intro hdv
        have hb : |(v : ℤ) - (i : ℤ)| < ((2 * L : ℕ) : ℤ) := by rw [abs_lt]; omega
        have := Int.eq_zero_of_abs_lt_dvd hdv hb
        omega
  rw [sum_congr rfl e2, sum_ite_eq' (range L) i (fun _ => if i = 0 then ((a 0).re : ℂ) else a i), if_pos (mem_range.2 hi)]

/-- The coefficients a real function can have: the row of order zero is real. -/
noncomputable def realRows (c : ℕ → ℕ → ℂ) (i l : ℕ) : ℂ := if i = 0 then ((c i l).re : ℂ) else c i l

theorem rowOf_re (d : Dlt) (L off : ℕ) (P : ℕ → ℤ → ℕ → ℝ) (c : ℕ → ℕ → ℂ) (i k : ℕ) :
    (if i = 0 then ((rowOf d L off P c 0 k).re : ℂ) else rowOf d L off P c i k) = rowOf d L off P (realRows c) i k := by
  by_cases h : i = 0
  · subst h
    rw [if_pos rfl]
    unfold rowOf realRows
    rw [Complex.re_ofReal_mul, Complex.ofReal_mul, Complex.re_sum, Complex.ofReal_sum]
    congr 1
    apply sum_congr rfl
    intro l _
    rw [if_pos rfl]
    split_ifs
    · rw [Complex.re_ofReal_mul, Complex.ofReal_mul]
    · simp
  · rw [if_neg h]
    unfold rowOf realRows
    simp only [if_neg h]

theorem rsht_near {d : Dlt} {L : ℕ} (hd : IsDlt d L 0) (hr : d.rows = L) (P : ℕ → ℤ → ℕ → ℝ) (B : ℝ) (c : ℕ → ℕ → ℂ) (psi : ℕ → ℕ → ℝ)
    (hP : ∀ (l l' : ℕ) (m : ℤ), l < L → l' < L → |m| ≤ l → |m| ≤ l' → |∑ k ∈ range (2 * L), dltWeightsDH L k *
      (pKept L l m k * P l' m k) - if l = l' then 1 else 0| ≤ B)
    (h : ∀ j k, j < 2 * L → k < 2 * L → psi j k = ∑ v ∈ range L, twice v * (rowOf d L 0 P c v k * cis ((v : ℝ) * j / (2 * L : ℕ))).re)
    (i l : ℕ) (hi : i < L) (hl : l < L) :
    (i ≤ l → ‖rFsht d psi i l - realRows c i l‖ ≤ B * ∑ l' ∈ range L, if i ≤ l' then ‖realRows c i l'‖ else 0) ∧
    (l < i → rFsht d psi i l = 0) := by
  have hc : ∀ l : ℕ, |(i : ℤ) - ((0 : ℕ) : ℤ)| ≤ (l : ℤ) ↔ i ≤ l := by
    intro l
    rw [Nat.cast_zero, sub_zero, abs_of_nonneg (by omega)]; omega
  have e : rFsht d psi i l = _ := fdlt_complex hd (fun i k => fftRows (2 * d.L) (fun j k => (psi j k : ℂ)) i k) i l (by omega) hl
  constructor
  · intro hm
    rw [e, if_pos ((hc l).2 hm), hd.L_eq]
    have : ∑ k ∈ range (2 * L), ((dltWeightsDH L k * pKept L l ((i : ℤ) - ((0 : ℕ) : ℤ)) k : ℝ) : ℂ) *
        fftRows (2 * L) (fun j k => (psi j k : ℂ)) i k = ∑ k ∈ range (2 * L), ((dltWeightsDH L k * pKept L l ((i : ℤ) - ((0 : ℕ) : ℤ)) k : ℝ) : ℂ) *
        rowOf d L 0 P (realRows c) i k := by
      apply sum_congr rfl; intro k hk
      rw [rfft_rows L hd.pos (fun v => rowOf d L 0 P c v k) (fun j k => (psi j k : ℂ)) i k hi (fun j hj => by
        rw [h j k hj (mem_range.1 hk)]), rowOf_re]
    rw [this]
    have := dlt_near hd P B (realRows c) i l hl ((hc l).2 hm) fun l' hl' hm' => hP l l' _ hl hl' ((hc l).2 hm) hm'
    simp only [hc] at this
    exact this
  · intro hm
    rw [e, if_neg (mt (hc l).1 (by omega))]

/-- **C103** (analysis, real).  `fsht` of the samples of a real band-limited function returns its coefficients of order `m ≥ 0`
(row `m`), up to the cut-off of small weights, and exact zeros where `m > l`. -/
theorem C103_rsht_analysis (L : ℕ) (hL : 0 < L) : ∃ d, mkRdlt L = some d ∧ ∀ (c : ℕ → ℕ → ℂ) (psi : ℕ → ℕ → ℝ),
    (∀ l, (c 0 l).im = 0) →
    (∀ j k, j < 2 * L → k < 2 * L → (psi j k : ℂ) = sphField L (realCoeffs fun l m => c m l) (gridDH L j k).2 (gridDH L j k).1) →
    ∀ i l, i < L → l < L →
      (i ≤ l → ‖rFsht d psi i l - c i l‖ ≤ 4e-14 * (L : ℝ) ^ 2 * ∑ l' ∈ range L, if i ≤ l' then ‖c i l'‖ else 0) ∧
      (l < i → rFsht d psi i l = 0) := by
  obtain ⟨d, h1, h2, hd⟩ := mkRdlt_spec L hL
  refine ⟨d, h1, fun c psi h0 h i l hi hl => ?_⟩
  have hc : realRows c = c := by
    funext i l
    unfold realRows
    split_ifs with hz
    · subst hz; apply Complex.ext <;> simp [h0 l]
    · rfl
  have := rsht_near hd h2 (pExact L) _ c psi (fun l l' m hl hl' hm hm' => pKept_orth1 L l l' hl hl' m hm hm') (fun j k hj hk => by
    have := h j k hj hk
    rw [field_real hd c j k hk] at this
    exact_mod_cast this) i l hi hl
  rwa [hc] at this

/-- **C103** (round trip, real).  `fsht (isht c)` is `c` with the imaginary parts of order zero removed: exactly what a real signal
can carry. -/
theorem C103_rsht_roundtrip (L : ℕ) (hL : 0 < L) : ∃ d, mkRdlt L = some d ∧ ∀ (c : ℕ → ℕ → ℂ) (i l : ℕ), i < L → l < L →
      (i ≤ l → ‖rFsht d (rIsht d c) i l - (if i = 0 then ((c i l).re : ℂ) else c i l)‖ ≤ 9e-14 * (L : ℝ) ^ 2 *
        ∑ l' ∈ range L, if i ≤ l' then ‖c i l'‖ else 0) ∧
      (l < i → rFsht d (rIsht d c) i l = 0) := by
  obtain ⟨d, h1, h2, hd⟩ := mkRdlt_spec L hL
  refine ⟨d, h1, fun c i l hi hl => ?_⟩
  obtain ⟨ha, hb⟩ := rsht_near hd h2 (pKept L) _ c _ (fun l l' m hl hl' hm hm' => pKept_orth L l l' hl hl' m hm hm') (fun j k _ hk =>
    rIsht_eq hd h2 c j k hk) i l hi hl
  refine ⟨fun h => (ha h).trans ?_, hb⟩
  apply mul_le_mul_of_nonneg_left _ (by positivity)
  apply sum_le_sum
  intro l' _
  split_ifs
  · unfold realRows
    split_ifs
    · rw [Complex.norm_real]; exact Complex.abs_re_le_norm _
    · exact le_rfl
  · exact le_rfl

/-- The imaginary part of a coefficient of order zero does not survive: `fsht (isht c)` differs from `c` (band limit 1, `c = i`). -/
theorem C103_imaginary_lost : ∃ d, mkRdlt 1 = some d ∧ ‖rFsht d (rIsht d fun _ _ => Complex.I) 0 0 - Complex.I‖ ≥ 1 / 2 := by
  obtain ⟨d, h1, h⟩ := C103_rsht_roundtrip 1 one_pos
  refine ⟨d, h1, ?_⟩
  have h2 := (h (fun _ _ => Complex.I) 0 0 one_pos one_pos).1 le_rfl
  simp only [if_true, Complex.I_re, Complex.ofReal_zero, sub_zero, range_one, sum_singleton, le_refl, Complex.norm_I] at h2
  have h3 := norm_sub_norm_le Complex.I (rFsht d (rIsht d fun _ _ => Complex.I) 0 0)
  rw [Complex.norm_I, norm_sub_rev] at h3
  norm_num at h2
  norm_num
  linarith

/-- The samples of a real band-limited function exist for every choice of coefficients: the hypotheses of the analysis theorems
are met. -/
theorem real_samples (L : ℕ) (hL : 0 < L) (c : ℕ → ℕ → ℂ) : ∃ psi : ℕ → ℕ → ℝ, ∀ j k, j < 2 * L → k < 2 * L →
    (psi j k : ℂ) = sphField L (realCoeffs fun l m => c m l) (gridDH L j k).2 (gridDH L j k).1 := by
  obtain ⟨d, _, _, hd⟩ := mkRdlt_spec L hL
  exact ⟨_, fun j k _ hk => (field_real hd c j k hk).symm⟩

example : ∃ (c : ℕ → ℕ → ℂ) (psi : ℕ → ℕ → ℝ), (∀ l, (c 0 l).im = 0) ∧ c 2 3 = Complex.I ∧ ∀ j k, j < 2 * 4 → k < 2 * 4 →
    (psi j k : ℂ) = sphField 4 (realCoeffs fun l m => c m l) (gridDH 4 j k).2 (gridDH 4 j k).1 := by
  obtain ⟨psi, h⟩ := real_samples 4 (by norm_num) (fun i l => if i = 2 then Complex.I else 1)
  exact ⟨_, psi, fun l => by simp, by simp, h⟩

example : ∃ (c psi : ℕ → ℕ → ℂ), c 2 3 = Complex.I ∧ ∀ j k, j < 2 * 4 → k < 2 * 4 → psi j k =
      sphField 4 (fun l m => c (m + ((4 - 1 : ℕ) : ℤ)).toNat l) (gridDH 4 j k).2 (gridDH 4 j k).1 :=
  ⟨fun i l => if i = 2 then Complex.I else 1, _, by simp, fun j k _ _ => rfl⟩

/-- The specification is the textbook one: `Y_00 = 1/√(4π)`, `Y_10 = √(3/4π) cos θ`, `Y_11 = -√(3/8π) sin θ e^{iφ}`. -/
example (θ φ : ℝ) : sphY 0 0 θ φ = (Real.sqrt (1 / (4 * Real.pi)) : ℝ) ∧ sphY 1 0 θ φ = ((Real.sqrt (3 / (4 * Real.pi)) * Real.cos θ : ℝ) : ℂ) ∧
    sphY 1 1 θ φ = ((-Real.sqrt (3 / (8 * Real.pi)) * Real.sin θ : ℝ) : ℂ) * Complex.exp (φ * Complex.I) := by
  have d1 : (rodrigues 1 1) = 2 * Polynomial.X := by
    unfold rodrigues; simp
    norm_num
  have d2 : (rodrigues 1 2) = 2 := by
    unfold rodrigues
    simp [Function.iterate_succ]
    norm_num
  have hp := Real.pi_pos
  refine ⟨?_, ?_, ?_⟩
  · simp [sphY, sphYpos, assocLegendre, rodrigues]
  · simp [sphY, sphYpos, assocLegendre, d1]
    left
    norm_num
  · simp [sphY, sphYpos, assocLegendre, d2]
    norm_num [Nat.factorial]
    left
    have h8 : Real.sqrt 8 = 2 * Real.sqrt 2 := by
      rw [show (8 : ℝ) = 2 ^ 2 * 2 by norm_num, Real.sqrt_mul (by norm_num), Real.sqrt_sq (by norm_num)]
    rw [h8, div_mul_eq_mul_div, ← div_eq_mul_inv, div_div]
    push_cast
    ring

end Verif.Sht
