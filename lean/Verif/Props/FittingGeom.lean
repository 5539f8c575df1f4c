import Verif.Props.FittingCases
/-! C95, continued: which pattern centre a score belongs to. -/
namespace Verif.Fit
open Verif.Blur Verif.Fft Verif.Spec

/-- Spacing of the simulated pixels along an axis of `n` pixels with `p` before and `a` after (no binning). -/
noncomputable def spacing (n p a : ℕ) : ℝ := ((n : ℝ) + a + p) / ((n : ℝ) + p + a - 1)

theorem axis_eq (n p a i : ℕ) (hi : i < n + p + a) : axisPeriphery n 1 p a i = -(p : ℝ) + i * spacing n p a := by
  unfold axisPeriphery linspace paddedSize spacing
  rw [List.getD_eq_getElem?_getD, List.getElem?_ofFn, dif_pos (by simpa using hi)]
  simp only [Option.getD_some, Nat.div_one]
  push_cast
  norm_num

/-- Displacing the simulated pixel is the same as displacing the pattern centre the other way. -/
theorem direction_shift (a s rows cols r c dr dc pcz : ℝ) (hr : rows ≠ 0) (hc : cols ≠ 0) :
    direction (brukerRot a s) (brukerTrans ⟨0.5, 0.5, pcz⟩ a s rows cols) (r + dr) (c + dc) =
      direction (brukerRot a s) (brukerTrans ⟨0.5 - dc / cols, 0.5 - dr / rows, pcz⟩ a s rows cols) r c := by
  unfold direction
  congr 1
  simp only [brukerRot, brukerTrans, mulV, V.add]
  simp
  refine ⟨?_, ?_, ?_⟩ <;> · field_simp; ring

theorem sum_block (f : ℕ → ℝ) (p n a : ℕ) (h : ∀ i, ¬ (p ≤ i ∧ i < p + n) → f i = 0) :
    ∑ i ∈ Finset.range (n + p + a), f i = ∑ i ∈ Finset.range n, f (p + i) := by
  rw [show n + p + a = p + n + a by ring, Finset.sum_range_add, Finset.sum_range_add]
  rw [Finset.sum_eq_zero (s := Finset.range p), Finset.sum_eq_zero (s := Finset.range a), zero_add, add_zero]
  · intro i _; apply h; omega
  · intro i hi; apply h; have := Finset.mem_range.mp hi; omega

theorem centred_index (n p y i : ℕ) (k : ℤ) (he : n % 2 = 0) (hy : (y : ℤ) = ((n / 2 + p : ℕ) : ℤ) + k)
    (hk : -(p : ℤ) ≤ k ∧ k ≤ p) (hi : i < n) :
    (((p + i + displacementAt (n + p + p) y) % (n + p + p) : ℕ) : ℤ) = p + i + k ∧ (p + i + displacementAt (n + p + p) y) % (n + p + p) < n + p + p := by
  have hpos : 0 < n + p + p := by omega
  have h2 : (n + p + p) / 2 = n / 2 + p := by omega
  unfold displacementAt
  rw [Nat.add_mod_mod, h2]
  have e : ∃ t : ℕ, (t : ℤ) = p + i + k ∧ p + i + (y + (n + p + p - (n / 2 + p))) = t + (n + p + p) ∧ t < n + p + p := by
    refine ⟨(p + i + k).toNat, by omega, by omega, by omega⟩
  obtain ⟨t, h1, h3, h4⟩ := e
  rw [h3, Nat.add_mod_right, Nat.mod_eq_of_lt h4]
  exact ⟨h1, h4⟩

/-- **C95**: what the entries of the score table are (no binning, symmetric search range, even detector size).  The entry
from which the pattern centre `(1/2 + l/cols, 1/2 + k/rows)` is reported holds, for each orientation, the sum of products
of the normalised pattern with the simulation *at the pattern centre* `(1/2 - sigma*l/cols, 1/2 - sigma*k/rows)`, where
`sigma` is the pixel spacing of the simulation: the displacement has the opposite sign. -/
theorem C95_attribution (g : Args) (ps : List Img) (ok : Ok g ps) (hb : g.binning = 1) (ph pw : ℕ)
    (hpad : g.pads = (pw, pw, ph, ph)) (hr : g.rows % 2 = 0) (x nx : Img) (hx : x ∈ ps)
    (hnx : prep g.binning x = some nx) (pcz : ℝ) (q : Q) (y c : ℕ) (k l : ℤ)
    (hy : (y : ℤ) = ((g.rows / 2 + ph : ℕ) : ℤ) + k) (hc : (c : ℤ) = ((g.cols / 2 + pw : ℕ) : ℤ) + l)
    (hk : -(ph : ℤ) ≤ k ∧ k ≤ ph) (hl : -(pw : ℤ) ≤ l ∧ l ≤ pw) :
    pcOf g.rows ph y = 1 / 2 + k / g.rows ∧ pcOf g.cols pw c = 1 / 2 + l / g.cols ∧
    overlap (pRows g) (pCols g) (g.sim pcz q).px (patPx g x) (displacementAt (pRows g) y) (displacementAt (pCols g) c) =
      ∑ i ∈ Finset.range g.rows, ∑ j ∈ Finset.range g.cols, nx.px i j *
        g.master (quApply q (direction (brukerRot (-1 * g.primary) g.secondary)
          (brukerTrans ⟨0.5 - l * spacing g.cols pw pw / g.cols, 0.5 - k * spacing g.rows ph ph / g.rows, pcz⟩
            (-1 * g.primary) g.secondary g.rows g.cols)
          (axisPeriphery g.rows 1 ph ph (ph + i)) (axisPeriphery g.cols 1 pw pw (pw + j)))) := by
  obtain ⟨s1, s2⟩ := prep_shape hnx ok.bin
  obtain ⟨n1, n2⟩ := prep_nonempty hnx
  obtain ⟨t1, t2⟩ := ok.shape x hx
  have hcols : g.cols % 2 = 0 := by
    have := ok.even
    simp only [pCols, paddedSize, hpad, hb, Nat.div_one] at this
    omega
  rw [hb, Nat.div_one] at s1 s2
  have hR : pRows g = g.rows + ph + ph := by simp [pRows, paddedSize, hpad, hb]
  have hC : pCols g = g.cols + pw + pw := by simp [pCols, paddedSize, hpad, hb]
  have hr0 : 0 < g.rows := by omega
  have hc0 : 0 < g.cols := by omega
  have hp : patPx g x = fun i j => if ph ≤ i ∧ i - ph < nx.h ∧ pw ≤ j ∧ j - pw < nx.w then nx.px (i - ph) (j - pw) else 0 := by
    unfold patPx Args.padded
    rw [hnx, Option.bind_some, hpad]
    unfold pad
    simp only [Bool.false_eq_true, if_false]
  refine ⟨?_, ?_, ?_⟩
  · unfold pcOf
    have : ((y : ℤ) - ph - ((g.rows + 1) / 2 : ℕ) : ℤ) = k := by omega
    rw [this]; norm_num
  · unfold pcOf
    have : ((c : ℤ) - pw - ((g.cols + 1) / 2 : ℕ) : ℤ) = l := by omega
    rw [this]; norm_num
  · unfold overlap
    rw [hR, hC]
    rw [sum_block _ ph g.rows ph]
    · apply Finset.sum_congr rfl; intro i hi
      have hi' := Finset.mem_range.mp hi
      rw [sum_block _ pw g.cols pw]
      · apply Finset.sum_congr rfl; intro j hj
        have hj' := Finset.mem_range.mp hj
        obtain ⟨a1, a2⟩ := centred_index g.rows ph y i k hr hy hk hi'
        obtain ⟨b1, b2⟩ := centred_index g.cols pw c j l hcols hc hl hj'
        generalize (ph + i + displacementAt (g.rows + ph + ph) y) % (g.rows + ph + ph) = I at a1 a2
        generalize (pw + j + displacementAt (g.cols + pw + pw) c) % (g.cols + pw + pw) = J at b1 b2
        rw [hp]
        simp only
        rw [if_pos (by omega)]
        rw [show ph + i - ph = i by omega, show pw + j - pw = j by omega]
        congr 1
        unfold Args.sim
        rw [hpad, hb]
        simp only
        have eI : axisPeriphery g.rows 1 ph ph I = axisPeriphery g.rows 1 ph ph (ph + i) + k * spacing g.rows ph ph := by
          rw [axis_eq _ _ _ _ a2, axis_eq _ _ _ _ (by omega)]
          have : (I : ℝ) = ph + i + k := by exact_mod_cast a1
          rw [this]; push_cast; ring
        have eJ : axisPeriphery g.cols 1 pw pw J = axisPeriphery g.cols 1 pw pw (pw + j) + l * spacing g.cols pw pw := by
          rw [axis_eq _ _ _ _ b2, axis_eq _ _ _ _ (by omega)]
          have : (J : ℝ) = pw + j + l := by exact_mod_cast b1
          rw [this]; push_cast; ring
        rw [eI, eJ, direction_shift _ _ _ _ _ _ _ _ _ (by positivity) (by positivity)]
      · intro j hj
        rw [hp]; simp only
        rw [if_neg (by omega), zero_mul]
    · intro i hi
      apply Finset.sum_eq_zero; intro j _
      rw [hp]; simp only
      rw [if_neg (by omega), zero_mul]

/-- **C95 (partial)**: the entry without displacement is reported as pattern centre 1/2 when the search range is symmetric
and the detector size even.  Missing: see `C95_offset_fails`. -/
theorem C95_offset_partial (n p : ℕ) (hn : n % 2 = 0) : displacementAt (n + p + p) ((n + p + p) / 2) = 0 ∧
    pcOf n p ((n + p + p) / 2) = 1 / 2 := by
  constructor
  · unfold displacementAt
    rw [show (n + p + p) / 2 + (n + p + p - (n + p + p) / 2) = n + p + p by omega, Nat.mod_self]
  · unfold pcOf
    have : ((((n + p + p) / 2 : ℕ) : ℤ) - p - ((n + 1) / 2 : ℕ) : ℤ) = 0 := by omega
    rw [this]; norm_num

/-- **C95 fails**: for an odd number of pixels, or a range that is not symmetric, the undisplaced entry is reported as
another pattern centre than the (1/2) it was simulated with. -/
theorem C95_offset_fails : (∀ n p : ℕ, n % 2 = 1 → displacementAt (n + p + p) ((n + p + p) / 2) = 0 ∧
      pcOf n p ((n + p + p) / 2) = 1 / 2 - 1 / n) ∧
    (displacementAt (4 + 2 + 0) ((4 + 2 + 0) / 2) = 0 ∧ pcOf 4 2 ((4 + 2 + 0) / 2) = 1 / 4) := by
  refine ⟨?_, by decide, by unfold pcOf; norm_num⟩
  intro n p hn
  constructor
  · unfold displacementAt
    rw [show (n + p + p) / 2 + (n + p + p - (n + p + p) / 2) = n + p + p by omega, Nat.mod_self]
  · unfold pcOf
    have : ((((n + p + p) / 2 : ℕ) : ℤ) - p - ((n + 1) / 2 : ℕ) : ℤ) = -1 := by omega
    rw [this]; push_cast; ring

end Verif.Fit
