import Verif.Props.MutualInfo
import Mathlib.Analysis.SpecialFunctions.Pow.Real
/-!
C86: bounds and symmetry of `binned_nmi`, and of `mutual_information`.
-/
namespace Verif.MI
open Finset Real

theorem plogp_false (p : ℝ) (hp : 0 ≤ p) : plogp false p = p * log p := by
  unfold plogp
  rcases hp.eq_or_lt with h | h
  · rw [← h]; simp
  · rw [if_pos h]; rfl

theorem plogp_scale (bits : Bool) : ∃ c : ℝ, 0 < c ∧ ∀ p, 0 ≤ p → plogp bits p = (p * log p) / c := by
  cases bits
  · exact ⟨1, one_pos, fun p hp => by rw [plogp_false p hp, div_one]⟩
  · refine ⟨log 2, log_pos (by norm_num), fun p hp => ?_⟩
    unfold plogp
    rcases hp.eq_or_lt with h | h
    · rw [← h]; simp
    · rw [if_pos h]
      simp only [if_true, logb]
      rw [mul_div_assoc]

/-- everything about the three entropies of a table of non-negative numbers -/
theorem table_spec {bits : Bool} {nx ny : ℕ} {t : ℕ → ℕ → ℝ} (t0 : ∀ i j, 0 ≤ t i j) {ex ey ej : ℝ}
    (h : tableEntropies bits nx ny t = some (ex, ey, ej)) :
    0 ≤ ex ∧ 0 ≤ ey ∧ ex ≤ ej ∧ ey ≤ ej ∧ ej ≤ ex + ey := by
  unfold tableEntropies at h
  simp only at h
  set total := ∑ i ∈ range nx, ∑ j ∈ range ny, t i j with htot
  by_cases hz : total = 0
  · rw [if_pos hz] at h; simp at h
  rw [if_neg hz] at h
  have hpos : 0 < total := lt_of_le_of_ne (sum_nonneg fun i _ => sum_nonneg fun j _ => t0 i j) (Ne.symm hz)
  obtain ⟨p, hp⟩ : ∃ p : ℕ → ℕ → ℝ, p = fun i j => t i j / total := ⟨_, rfl⟩
  replace h : some (-∑ i ∈ range nx, plogp bits ((∑ j ∈ range ny, p i j) / ∑ k ∈ range nx, ∑ j ∈ range ny, p k j),
      -∑ j ∈ range ny, plogp bits ((∑ i ∈ range nx, p i j) / ∑ k ∈ range ny, ∑ i ∈ range nx, p i k),
      -∑ i ∈ range nx, ∑ j ∈ range ny, plogp bits (p i j)) = some (ex, ey, ej) := by rw [hp]; exact h
  have p0 : ∀ i j, 0 ≤ p i j := fun i j => by rw [hp]; exact div_nonneg (t0 i j) hpos.le
  have p1 : ∑ i ∈ range nx, ∑ j ∈ range ny, p i j = 1 := by
    have : ∀ i ∈ range nx, ∑ j ∈ range ny, p i j = (∑ j ∈ range ny, t i j) / total := fun i _ => by rw [hp]; exact (sum_div ..).symm
    rw [sum_congr rfl this, ← sum_div]
    exact div_self hz
  have p2 : ∑ j ∈ range ny, ∑ i ∈ range nx, p i j = 1 := by rw [sum_comm]; exact p1
  have r0 : ∀ i, 0 ≤ ∑ j ∈ range ny, p i j := fun i => sum_nonneg fun j _ => p0 i j
  have c0 : ∀ j, 0 ≤ ∑ i ∈ range nx, p i j := fun j => sum_nonneg fun i _ => p0 i j
  obtain ⟨c, hc, hpl⟩ := plogp_scale bits
  simp only [p1, p2, div_one, Option.some.injEq, Prod.mk.injEq] at h
  obtain ⟨rfl, rfl, rfl⟩ := h
  have e1 : ∑ i ∈ range nx, plogp bits (∑ j ∈ range ny, p i j) =
      (∑ i ∈ range nx, (∑ j ∈ range ny, p i j) * log (∑ j ∈ range ny, p i j)) / c := by
    rw [sum_div]; exact sum_congr rfl fun i _ => hpl _ (r0 i)
  have e2 : ∑ j ∈ range ny, plogp bits (∑ i ∈ range nx, p i j) =
      (∑ j ∈ range ny, (∑ i ∈ range nx, p i j) * log (∑ i ∈ range nx, p i j)) / c := by
    rw [sum_div]; exact sum_congr rfl fun i _ => hpl _ (c0 i)
  have e3 : ∑ i ∈ range nx, ∑ j ∈ range ny, plogp bits (p i j) =
      (∑ i ∈ range nx, ∑ j ∈ range ny, p i j * log (p i j)) / c := by
    rw [sum_div]
    refine sum_congr rfl fun i _ => ?_
    rw [sum_div]
    exact sum_congr rfl fun j _ => hpl _ (p0 i j)
  rw [e1, e2, e3]
  have a1 := joint_ge p0 p1
  have a2 := joint_le_row (nx := nx) (ny := ny) p0
  have a3 := joint_le_col (nx := nx) (ny := ny) p0
  have n1 : ∑ i ∈ range nx, (∑ j ∈ range ny, p i j) * log (∑ j ∈ range ny, p i j) ≤ 0 := by
    refine sum_nonpos fun i hi => mul_nonpos_of_nonneg_of_nonpos (r0 i) (log_nonpos (r0 i) ?_)
    rw [← p1]
    exact single_le_sum (f := fun i => ∑ j ∈ range ny, p i j) (fun i _ => r0 i) hi
  have n2 : ∑ j ∈ range ny, (∑ i ∈ range nx, p i j) * log (∑ i ∈ range nx, p i j) ≤ 0 := by
    refine sum_nonpos fun j hj => mul_nonpos_of_nonneg_of_nonpos (c0 j) (log_nonpos (c0 j) ?_)
    rw [← p2]
    exact single_le_sum (f := fun j => ∑ i ∈ range nx, p i j) (fun j _ => c0 j) hj
  have hi : 0 < c⁻¹ := inv_pos.mpr hc
  simp only [div_eq_mul_inv]
  have b1 := mul_le_mul_of_nonneg_right a1 hi.le
  have b2 := mul_le_mul_of_nonneg_right a2 hi.le
  have b3 := mul_le_mul_of_nonneg_right a3 hi.le
  have b4 := mul_nonpos_of_nonpos_of_nonneg n1 hi.le
  have b5 := mul_nonpos_of_nonpos_of_nonneg n2 hi.le
  rw [add_mul] at b1
  exact ⟨by linarith, by linarith, by linarith, by linarith, by linarith⟩

theorem entropies_spec {x y : List ℝ} {bx byy : ℕ} {bits exclude : Bool} {ex ey ej : ℝ}
    (h : entropies x y bx byy bits exclude = some (ex, ey, ej)) :
    0 ≤ ex ∧ 0 ≤ ey ∧ ex ≤ ej ∧ ey ≤ ej ∧ ej ≤ ex + ey := by
  unfold entropies at h
  cases exclude
  · exact table_spec (fun i j => Nat.cast_nonneg _) h
  · exact table_spec (fun i j => Nat.cast_nonneg _) h

theorem logMean_ge {a b : ℝ} (ha : 0 < a) (hb : 0 < b) (hab : a ≠ b) : min a b ≤ (a - b) / (log a - log b) := by
  wlog hlt : b < a generalizing a b
  · have := this hb ha hab.symm (lt_of_le_of_ne (not_lt.mp hlt) hab)
    rw [min_comm, show (a - b) / (log a - log b) = (b - a) / (log b - log a) by
      rw [← neg_sub b a, ← neg_sub (log b) (log a), neg_div_neg_eq]]
    exact this
  have hl : 0 < log a - log b := by linarith [log_lt_log hb hlt]
  rw [min_eq_right hlt.le, le_div_iff₀ hl]
  have h := log_le_sub_one_of_pos (div_pos ha hb)
  rw [log_div ha.ne' hb.ne'] at h
  have h2 := mul_le_mul_of_nonneg_left h hb.le
  have e : b * (a / b - 1) = a - b := by field_simp
  linarith

/-- C86: whenever binned_nmi returns a number it is non-negative, and with any of the normalisation modes it is at most one
(for "none" at most the smaller of the two marginal entropies) — for all images, also with values outside [0, 1), all bin
counts, in bits or nats, with or without the lowest bin. -/
theorem C86_bounds (x y : List ℝ) (bx byy : ℕ) (bits exclude : Bool) (m : Norm) (v : ℝ)
    (h : binnedNmi x y bx byy bits m exclude = some v) :
    0 ≤ v ∧ (m ≠ .none → v ≤ 1) ∧
      (m = .none → ∃ ex ey ej, entropies x y bx byy bits exclude = some (ex, ey, ej) ∧ v ≤ ex ∧ v ≤ ey) := by
  unfold binnedNmi at h
  split at h
  swap
  · simp at h
  rcases he : entropies x y bx byy bits exclude with _ | ⟨ex, ey, ej⟩
  · rw [he] at h; simp at h
  rw [he] at h
  simp only [Option.bind_some] at h
  obtain ⟨h1, h2, h3, h4, h5⟩ := entropies_spec he
  have mi0 : 0 ≤ ex + ey - ej := by linarith
  have mx : ex + ey - ej ≤ ex := by linarith
  have my : ex + ey - ej ≤ ey := by linarith
  have fin : ∀ num d : ℝ, (if d = 0 then Option.none else some (num / d)) = some v → 0 ≤ num → 0 ≤ d → num ≤ d →
      0 ≤ v ∧ v ≤ 1 := by
    intro num d h hn hd hle
    by_cases hd0 : d = 0
    · rw [if_pos hd0] at h; simp at h
    · rw [if_neg hd0] at h
      obtain rfl : num / d = v := by simpa using h
      exact ⟨div_nonneg hn hd, div_le_one_of_le₀ hle hd⟩
  cases m with
  | none =>
    simp only [applyNorm, Option.some.injEq] at h
    subst h
    exact ⟨mi0, fun h => absurd rfl h, fun _ => ⟨ex, ey, ej, rfl, mx, my⟩⟩
  | kvalsethSum =>
    simp only [applyNorm] at h
    obtain ⟨a, b⟩ := fin _ _ h (by linarith) (by linarith) (by linarith)
    exact ⟨a, fun _ => b, fun h => by simp at h⟩
  | kvalsethMin =>
    simp only [applyNorm] at h
    obtain ⟨a, b⟩ := fin _ _ h mi0 (le_min h1 h2) (le_min mx my)
    exact ⟨a, fun _ => b, fun h => by simp at h⟩
  | kvalsethMax =>
    simp only [applyNorm] at h
    obtain ⟨a, b⟩ := fin _ _ h mi0 (le_max_of_le_left h1) (le_max_of_le_left mx)
    exact ⟨a, fun _ => b, fun h => by simp at h⟩
  | yao =>
    simp only [applyNorm] at h
    obtain ⟨a, b⟩ := fin _ _ h mi0 (by linarith) (by linarith)
    exact ⟨a, fun _ => b, fun h => by simp at h⟩
  | strehlGhosh =>
    simp only [applyNorm] at h
    obtain ⟨a, b⟩ := fin _ _ h mi0 (sqrt_nonneg _) (by
      apply le_sqrt_of_sq_le
      rw [sq]
      exact mul_le_mul mx my mi0 h1)
    exact ⟨a, fun _ => b, fun h => by simp at h⟩
  | logarithmic =>
    simp only [applyNorm] at h
    refine ⟨?_, fun _ => ?_, fun h => by simp at h⟩ <;> by_cases hc : |ex - ey| < 1e-6
    · rw [if_pos hc] at h
      exact (fin _ _ h mi0 h2 my).1
    · rw [if_neg hc] at h
      have hne : ex ≠ ey := by
        rintro rfl; apply hc; rw [sub_self, abs_zero]; norm_num
      rcases h1.eq_or_lt with z | hx
      · have : ex + ey - ej = 0 := le_antisymm (by linarith) mi0
        rw [this] at h
        split at h
        · simp at h
        · simp at h; rw [← h]
      · rcases h2.eq_or_lt with z | hy
        · have : ex + ey - ej = 0 := le_antisymm (by linarith) mi0
          rw [this] at h
          split at h
          · simp at h
          · simp at h; rw [← h]
        · have := logMean_ge hx hy hne
          exact (fin _ _ h mi0 ((lt_min hx hy).le.trans this) ((le_min mx my).trans this)).1
    · rw [if_pos hc] at h
      exact (fin _ _ h mi0 h2 my).2
    · rw [if_neg hc] at h
      have hne : ex ≠ ey := by
        rintro rfl; apply hc; rw [sub_self, abs_zero]; norm_num
      rcases h1.eq_or_lt with z | hx
      · have : ex + ey - ej = 0 := le_antisymm (by linarith) mi0
        rw [this] at h
        split at h
        · simp at h
        · simp at h; rw [← h]; norm_num
      · rcases h2.eq_or_lt with z | hy
        · have : ex + ey - ej = 0 := le_antisymm (by linarith) mi0
          rw [this] at h
          split at h
          · simp at h
          · simp at h; rw [← h]; norm_num
        · have := logMean_ge hx hy hne
          exact (fin _ _ h mi0 ((lt_min hx hy).le.trans this) ((le_min mx my).trans this)).2

theorem pairCount_swap (x y : List ℝ) (bx byy i j : ℕ) : pairCount y x byy bx j i = pairCount x y bx byy i j := by
  unfold pairCount
  rw [← List.zip_swap x y, List.filter_map, List.length_map]
  congr 1
  refine List.filter_congr fun p _ => ?_
  simp only [Function.comp, Prod.fst_swap, Prod.snd_swap, decide_eq_decide]
  tauto

/-- the histogram of the swapped images is the transpose -/
theorem jointHist_swap {x y : List ℝ} {bx byy : ℕ} (hbx : 0 < bx) (hby : 0 < byy)
    (hx : ∀ v ∈ x, 0 ≤ v ∧ v < 1) (hy : ∀ v ∈ y, 0 ≤ v ∧ v < 1) {i j : ℕ} (hi : i < bx) (hj : j < byy) :
    jointHist y x byy bx j i = jointHist x y bx byy i j := by
  rw [(C37_binned_partial x y bx byy hbx hby hx hy).1 i hi j hj, (C37_binned_partial y x byy bx hby hbx hy hx).1 j hj i hi,
    pairCount_swap]

theorem entropies_congr (f g : ℕ → ℕ → ℝ) (nx ny : ℕ) (bits : Bool) (h : ∀ i < nx, ∀ j < ny, g j i = f i j) :
    tableEntropies bits ny nx g = (tableEntropies bits nx ny f).map fun e : ℝ × ℝ × ℝ => (e.2.1, e.1, e.2.2) := by
  unfold tableEntropies
  have sw : ∀ F : ℝ → ℝ, ∑ i ∈ range ny, ∑ j ∈ range nx, F (g i j) = ∑ i ∈ range nx, ∑ j ∈ range ny, F (f i j) := by
    intro F
    rw [sum_comm]
    exact sum_congr rfl fun i hi => sum_congr rfl fun j hj => by rw [h i (mem_range.mp hi) j (mem_range.mp hj)]
  have et := sw id
  simp only [id] at et
  simp only [et]
  split
  · rfl
  · rename_i hz
    set T := ∑ i ∈ range nx, ∑ j ∈ range ny, f i j
    have r : ∀ j ∈ range ny, ∑ i ∈ range nx, g j i / T = ∑ i ∈ range nx, f i j / T := fun j hj =>
      sum_congr rfl fun i hi => by rw [h i (mem_range.mp hi) j (mem_range.mp hj)]
    have c : ∀ i ∈ range nx, ∑ j ∈ range ny, g j i / T = ∑ j ∈ range ny, f i j / T := fun i hi =>
      sum_congr rfl fun j hj => by rw [h i (mem_range.mp hi) j (mem_range.mp hj)]
    rw [Option.map_some]
    simp only [Option.some.injEq, Prod.mk.injEq]
    rw [sum_congr rfl r, sum_congr rfl c, sw fun v => plogp bits (v / T)]
    refine ⟨?_, ?_, rfl⟩
    · congr 1; exact sum_congr rfl fun j hj => by rw [r j hj]
    · congr 1; exact sum_congr rfl fun i hi => by rw [c i hi]

theorem entropies_swap {x y : List ℝ} {bx byy : ℕ} (bits exclude : Bool) (hbx : 0 < bx) (hby : 0 < byy)
    (hx : ∀ v ∈ x, 0 ≤ v ∧ v < 1) (hy : ∀ v ∈ y, 0 ≤ v ∧ v < 1) :
    entropies y x byy bx bits exclude =
      (entropies x y bx byy bits exclude).map fun e => (e.2.1, e.1, e.2.2) := by
  unfold entropies
  cases exclude
  · exact entropies_congr (fun i j => ((jointHist x y bx byy i j : ℕ) : ℝ)) (fun i j => ((jointHist y x byy bx i j : ℕ) : ℝ))
      bx byy bits fun i hi j hj => by rw [jointHist_swap hbx hby hx hy hi hj]
  · exact entropies_congr (fun i j => ((jointHist x y bx byy (i + 1) (j + 1) : ℕ) : ℝ))
      (fun i j => ((jointHist y x byy bx (i + 1) (j + 1) : ℕ) : ℝ)) (bx - 1) (byy - 1) bits
      fun i hi j hj => by rw [jointHist_swap hbx hby hx hy (by omega) (by omega)]

/-- C86: exchanging the two images (and their bin counts) does not change the value, for images in `[0, 1)` and every
normalisation other than "Logarithmic" (which divides by the second entropy when the two are within 1e-6). -/
theorem C86_symmetric (x y : List ℝ) (bx byy : ℕ) (bits exclude : Bool) (m : Norm) (hm : m ≠ .logarithmic)
    (hx : ∀ v ∈ x, 0 ≤ v ∧ v < 1) (hy : ∀ v ∈ y, 0 ≤ v ∧ v < 1) :
    binnedNmi y x byy bx bits m exclude = binnedNmi x y bx byy bits m exclude := by
  unfold binnedNmi
  by_cases hc : x.length = y.length ∧ 0 < bx ∧ 0 < byy
  · rw [if_pos hc, if_pos ⟨hc.1.symm, hc.2.2, hc.2.1⟩, entropies_swap bits exclude hc.2.1 hc.2.2 hx hy]
    rcases entropies x y bx byy bits exclude with _ | ⟨ex, ey, ej⟩
    · rfl
    · simp only [Option.map_some, Option.bind_some]
      cases m <;> simp only [applyNorm, add_comm ey ex, min_comm ey ex, max_comm ey ex, mul_comm ey ex]
      exact absurd rfl hm
  · rw [if_neg hc, if_neg fun h => hc ⟨h.1.symm, h.2.2, h.2.1⟩]

end Verif.MI
