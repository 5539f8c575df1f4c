import Verif.Model.Binning
import Mathlib.Algebra.BigOperators.Intervals
import Mathlib.Algebra.BigOperators.Field
import Mathlib.Algebra.Order.BigOperators.Group.Finset
import Mathlib.Tactic.Positivity
import Mathlib.Tactic.FieldSimp
import Mathlib.Tactic.Ring
import Mathlib.Tactic.Linarith
/-! Properties C73, C74, C75: binning, background subtraction, per-phase indices (ebsd/experiment_pats.py,
ebsd/master_pattern.py). -/
namespace Verif

/-- The image with `h` rows, `w` columns and entries `f i j`. -/
def imageOf (h w : ℕ) (f : ℕ → ℕ → ℝ) : Image := (List.range h).map fun i => (List.range w).map (f i)

/-- Mean of the `b × b` block number `(i, j)`. -/
noncomputable def blockMean (b : ℕ) (f : ℕ → ℕ → ℝ) (i j : ℕ) : ℝ :=
  (∑ di ∈ Finset.range b, ∑ dj ∈ Finset.range b, f (b * i + di) (b * j + dj)) / (b : ℝ) ^ 2

theorem listRangeSum (n : ℕ) (g : ℕ → ℝ) : ((List.range n).map g).sum = ∑ i ∈ Finset.range n, g i := by
  induction n with
  | zero => simp
  | succ n ih => rw [List.range_succ, List.map_append, List.sum_append, ih, Finset.sum_range_succ]; simp

theorem imageOf_get (h w : ℕ) (f : ℕ → ℕ → ℝ) (i j : ℕ) (hi : i < h) (hj : j < w) :
    ((imageOf h w f).getD i []).getD j 0 = f i j := by
  simp [imageOf, List.getD_eq_getElem?_getD, hi, hj]

theorem avgPool_imageOf (b h w : ℕ) (f : ℕ → ℕ → ℝ) :
    avgPool b (imageOf h w f) = imageOf (h / b) (w / b) (blockMean b f) := by
  unfold avgPool
  have hl : (imageOf h w f).length = h := by simp [imageOf]
  rw [hl]
  rcases Nat.eq_zero_or_pos (h / b) with h0 | h0
  · rw [h0]; simp [imageOf]
  have hb : 0 < b := by
    rcases Nat.eq_zero_or_pos b with hb | hb
    · subst hb; simp at h0
    · exact hb
  have hh : 0 < h := by
    rcases Nat.eq_zero_or_pos h with hh | hh
    · subst hh; simp at h0
    · exact hh
  have hw : ((imageOf h w f).headD []).length = w := by
    obtain ⟨h', rfl⟩ := Nat.exists_eq_succ_of_ne_zero hh.ne'
    simp [imageOf, List.range_succ_eq_map]
  rw [hw]
  unfold imageOf
  refine List.map_congr_left fun i hi => List.map_congr_left fun j hj => ?_
  have hi' : i < h / b := by simpa using hi
  have hj' : j < w / b := by simpa using hj
  have bi : b * i + b ≤ h := by
    have := Nat.mul_le_mul_left b (Nat.succ_le_of_lt hi')
    have h2 := Nat.mul_div_le h b
    rw [Nat.mul_succ] at this; omega
  have bj : b * j + b ≤ w := by
    have := Nat.mul_le_mul_left b (Nat.succ_le_of_lt hj')
    have h2 := Nat.mul_div_le w b
    rw [Nat.mul_succ] at this; omega
  unfold blockMean
  rw [pow_two, listRangeSum]
  congr 1
  refine Finset.sum_congr rfl fun di hdi => ?_
  rw [listRangeSum]
  refine Finset.sum_congr rfl fun dj hdj => ?_
  have h1 : di < b := by simpa using hdi
  have h2 : dj < b := by simpa using hdj
  exact imageOf_get h w f _ _ (by omega) (by omega)

/-- C73: binning by `b` (both `MasterPattern.bin` and `get_patterns`) replaces an `h × w` image by the `⌊h/b⌋ × ⌊w/b⌋`
image of block means; `get_patterns` without binning returns the stored patterns; it raises exactly for an index out
of range. -/
theorem C73_block_means (b h w : ℕ) (hb : 0 < b) (f : ℕ → ℕ → ℝ) :
    (∃ s, (Master.init (imageOf h w f)).bin b = some s ∧ s.pattern = imageOf h w f ∧
      s.binned = some (imageOf (h / b) (w / b) (blockMean b f))) ∧
    (∀ (fs : List (ℕ → ℕ → ℝ)) (idx : List ℕ),
      getPatterns (fs.map (imageOf h w)) idx b =
        if ∀ i ∈ idx, i < fs.length then
          some (idx.map fun i => let f := fs.getD i 0
            if b = 1 then imageOf h w f else imageOf (h / b) (w / b) (blockMean b f))
        else none) := by
  refine ⟨⟨_, by unfold Master.bin; rw [if_neg hb.ne'], rfl, ?_⟩, ?_⟩
  · simp only [Master.init, avgPool_imageOf]
  · intro fs idx
    unfold getPatterns
    induction idx with
    | nil => simp
    | cons i t ih =>
      rw [List.mapM_cons, ih]
      by_cases hi : i < fs.length
      · have hg : (fs.map (imageOf h w))[i]? = some (imageOf h w (fs.getD i 0)) := by
          simp [List.getD_eq_getElem?_getD, hi]
        rw [hg]
        by_cases ht : ∀ j ∈ t, j < fs.length
        · rw [if_pos ht, if_pos (by
            intro j hj; rcases List.mem_cons.mp hj with rfl | hj
            · exact hi
            · exact ht j hj)]
          simp only [Option.map_some, Option.bind_eq_bind, Option.bind_some, Option.pure_def, List.map_cons,
            Option.some.injEq, List.cons.injEq, and_true]
          by_cases h1 : b = 1
          · subst h1; simp
          · rw [if_pos (by omega), if_neg h1, avgPool_imageOf]
        · rw [if_neg ht, if_neg (fun hc => ht fun j hj => hc j (List.mem_cons_of_mem _ hj))]
          simp
      · have hn : ¬ ∀ j ∈ i :: t, j < fs.length := fun hc => hi (hc i List.mem_cons_self)
        rw [if_neg hn]
        have hg : (fs.map (imageOf h w))[i]? = none := by simp; omega
        rw [hg]; rfl

theorem sum_blocks (b m : ℕ) (g : ℕ → ℝ) :
    ∑ i ∈ Finset.range m, ∑ d ∈ Finset.range b, g (b * i + d) = ∑ k ∈ Finset.range (b * m), g k := by
  induction m with
  | zero => simp
  | succ m ih => rw [Finset.sum_range_succ, ih, Nat.mul_succ, Finset.sum_range_add]

/-- C73: when `b` divides both dimensions, binning conserves the mean intensity: the total of the binned image times
`b²` is the total of the image. -/
theorem C73_conserves_mean (b h w : ℕ) (hb : 0 < b) (hh : b ∣ h) (hw : b ∣ w) (f : ℕ → ℕ → ℝ) :
    (avgPool b (imageOf h w f)).flatten.sum * (b : ℝ) ^ 2 = ∑ i ∈ Finset.range h, ∑ j ∈ Finset.range w, f i j := by
  obtain ⟨m, rfl⟩ := hh
  obtain ⟨n, rfl⟩ := hw
  rw [avgPool_imageOf, Nat.mul_div_cancel_left _ hb, Nat.mul_div_cancel_left _ hb]
  have hfl : ∀ (p q : ℕ) (g : ℕ → ℕ → ℝ), (imageOf p q g).flatten.sum =
      ∑ i ∈ Finset.range p, ∑ j ∈ Finset.range q, g i j := by
    intro p q g
    rw [List.sum_flatten]
    unfold imageOf
    rw [List.map_map, listRangeSum]
    exact Finset.sum_congr rfl fun i _ => listRangeSum q (g i)
  rw [hfl]
  have hb2 : (b : ℝ) ^ 2 ≠ 0 := by positivity
  have : ∀ i ∈ Finset.range m, ∑ j ∈ Finset.range n, blockMean b f i j =
      (∑ di ∈ Finset.range b, ∑ j ∈ Finset.range (b * n), f (b * i + di) j) / (b : ℝ) ^ 2 := by
    intro i _
    unfold blockMean
    rw [← Finset.sum_div]
    congr 1
    rw [Finset.sum_comm]
    exact Finset.sum_congr rfl fun di _ => sum_blocks b n (f (b * i + di))
  rw [Finset.sum_congr rfl this, ← Finset.sum_div, div_mul_cancel₀ _ hb2]
  exact sum_blocks b m fun k => ∑ j ∈ Finset.range (b * n), f k j

/-- C73: every pixel of the binned image lies between bounds of the image. -/
theorem C73_range (b h w : ℕ) (hb : 0 < b) (f : ℕ → ℕ → ℝ) (lo hi : ℝ) (hf : ∀ i j, i < h → j < w → lo ≤ f i j ∧ f i j ≤ hi)
    (x : ℝ) (hx : x ∈ (avgPool b (imageOf h w f)).flatten) : lo ≤ x ∧ x ≤ hi := by
  rw [avgPool_imageOf] at hx
  obtain ⟨row, hrow, hx⟩ := List.mem_flatten.mp hx
  obtain ⟨i, hi', rfl⟩ := List.mem_map.mp hrow
  obtain ⟨j, hj', rfl⟩ := List.mem_map.mp hx
  have hi2 : i < h / b := by simpa using hi'
  have hj2 : j < w / b := by simpa using hj'
  have bi : b * i + b ≤ h := by
    have := Nat.mul_le_mul_left b (Nat.succ_le_of_lt hi2)
    have h2 := Nat.mul_div_le h b
    rw [Nat.mul_succ] at this; omega
  have bj : b * j + b ≤ w := by
    have := Nat.mul_le_mul_left b (Nat.succ_le_of_lt hj2)
    have h2 := Nat.mul_div_le w b
    rw [Nat.mul_succ] at this; omega
  have hb2 : (0 : ℝ) < (b : ℝ) ^ 2 := by positivity
  have hterm : ∀ di ∈ Finset.range b, ∀ dj ∈ Finset.range b,
      lo ≤ f (b * i + di) (b * j + dj) ∧ f (b * i + di) (b * j + dj) ≤ hi := by
    intro di hdi dj hdj
    have h1 : di < b := by simpa using hdi
    have h2 : dj < b := by simpa using hdj
    exact hf _ _ (by omega) (by omega)
  have hc : ∀ c : ℝ, ∑ _di ∈ Finset.range b, ∑ _dj ∈ Finset.range b, c = c * (b : ℝ) ^ 2 := by
    intro c; simp; ring
  unfold blockMean
  rw [le_div_iff₀ hb2, div_le_iff₀ hb2, ← hc lo, ← hc hi]
  exact ⟨Finset.sum_le_sum fun di hdi => Finset.sum_le_sum fun dj hdj => (hterm di hdi dj hdj).1,
    Finset.sum_le_sum fun di hdi => Finset.sum_le_sum fun dj hdj => (hterm di hdi dj hdj).2⟩

/-- Non-vacuity: a 2 × 4 ramp binned by 2. -/
example : avgPool 2 (imageOf 2 4 fun i j => (4 * i + j : ℝ)) = [[5 / 2, 9 / 2]] := by
  rw [avgPool_imageOf]
  norm_num [imageOf, List.range_succ, blockMean, Finset.sum_range_succ]

/-- C74: after `subtract_overall_background` the mean of every pixel over all patterns is zero, differences between
patterns are unchanged, and a second call changes nothing. -/
theorem C74_background {n p : ℕ} (hn : 0 < n) (pats : Fin n → Fin p → ℝ) :
    (∀ i, ∑ k, subtractBackground pats k i = 0) ∧
    (∀ k l i, subtractBackground pats k i - subtractBackground pats l i = pats k i - pats l i) ∧
    subtractBackground (subtractBackground pats) = subtractBackground pats := by
  have hn' : (n : ℝ) ≠ 0 := by positivity
  have h1 : ∀ i, ∑ k, subtractBackground pats k i = 0 := by
    intro i
    simp only [subtractBackground]
    rw [Finset.sum_sub_distrib, Finset.sum_const, Finset.card_univ, Fintype.card_fin, nsmul_eq_mul]
    field_simp
    ring
  refine ⟨h1, fun k l i => by simp only [subtractBackground]; ring, ?_⟩
  funext k i
  have h2 := h1 i
  show subtractBackground pats k i - (∑ l, subtractBackground pats l i) / n = _
  rw [h2]; simp

example : subtractBackground (fun (k : Fin 2) (_ : Fin 1) => (k : ℝ)) 1 0 = 1 / 2 := by
  norm_num [subtractBackground]

/-- C75 (partial: only for non-negative phase ids, see `C75_unindexed_dropped`): the lists returned by
`get_indices_per_phase` are increasing, list `i` holds exactly the positions of phase `i`, and every position is in
exactly one list. -/
theorem C75_partition_partial (ph : List ℤ) (hne : ph ≠ []) (h0 : ∀ x ∈ ph, 0 ≤ x) :
    ∃ out, indicesPerPhase (some ph) = some out ∧
      (∀ i (hi : i < out.length), out[i].Pairwise (· < ·) ∧ ∀ k, k ∈ out[i] ↔ ph[k]? = some (i : ℤ)) ∧
      (∀ k, k < ph.length → ∃! i, ∃ hi : i < out.length, k ∈ out[i]) := by
  obtain ⟨m, hm⟩ : ∃ m, ph.max? = some m := by
    cases h : ph.max? with
    | none => rw [List.max?_eq_none_iff] at h; exact absurd h hne
    | some m => exact ⟨m, rfl⟩
  have hmax := List.max?_eq_some_iff.mp hm
  refine ⟨_, by unfold indicesPerPhase; rw [Option.bind_some, hm, Option.map_some], ?_, ?_⟩
  · intro i hi
    simp only [List.getElem_map, List.getElem_range]
    refine ⟨List.pairwise_lt_range.filter _, fun k => ?_⟩
    simp only [List.mem_filter, List.mem_range, beq_iff_eq]
    constructor
    · exact fun h => h.2
    · intro h
      exact ⟨(List.getElem?_eq_some_iff.mp h).1, h⟩
  · intro k hk
    have hx0 := h0 _ (List.getElem_mem hk)
    have hxm := hmax.2 _ (List.getElem_mem hk)
    refine ⟨(ph[k]).toNat, ⟨by simp; omega, ?_⟩, ?_⟩
    · simp only [List.getElem_map, List.getElem_range, List.mem_filter, List.mem_range, beq_iff_eq]
      refine ⟨hk, ?_⟩
      rw [List.getElem?_eq_getElem hk, Int.toNat_of_nonneg hx0]
    · rintro j ⟨hj, hmem⟩
      simp only [List.getElem_map, List.getElem_range, List.mem_filter, List.mem_range, beq_iff_eq] at hmem
      rw [List.getElem?_eq_getElem hk] at hmem
      have : ph[k] = (j : ℤ) := by simpa using hmem.2
      omega

/-- C75: positions with the initial phase id `-1` (see `combine_indexing_results`) are in no list. -/
theorem C75_unindexed_dropped (ph : List ℤ) (out : List (List ℕ)) (h : indicesPerPhase (some ph) = some out) (k : ℕ)
    (hk : k < ph.length) (hneg : ph[k] < 0) : ∀ l ∈ out, k ∉ l := by
  intro l hl hkl
  unfold indicesPerPhase at h
  rw [Option.bind_some, Option.map_eq_some_iff] at h
  obtain ⟨m, _, rfl⟩ := h
  obtain ⟨i, _, rfl⟩ := List.mem_map.mp hl
  have := (List.mem_filter.mp hkl).2
  rw [beq_iff_eq, List.getElem?_eq_getElem hk] at this
  have : ph[k] = (i : ℤ) := by simpa using this
  omega

/-- C75: a phase that occurs exactly once is returned as a tensor without an index axis (its `len` raises). -/
theorem C75_single_rank_fails : ∃ ph : List ℤ, ∃ out, indicesPerPhase (some ph) = some out ∧
    out.map (fun l => indicesRank l.length) = [1, 0] := ⟨[0, 0, 1], [[0, 1], [2]], by decide, by decide⟩

example : indicesPerPhase (some [0, 1, 0, -1]) = some [[0, 2], [1]] := by decide

end Verif
