import Verif.Model.Utils
import Verif.Spec.Crystal
import Mathlib.Tactic.IntervalCases
import Mathlib.Tactic.Linarith
import Mathlib.Tactic.Positivity
import Mathlib.Tactic.FieldSimp
import Mathlib.Tactic.Ring
/-!
C35 (space group to Laue class), C36 (point group to Laue class), C40 (radial mask),
C41 (normalisation), C63 (progress bar).
-/
namespace Verif
open Spec

/-! ### C35 -/

/-- C35 with the exact set of exceptions: for every integer, numbers outside 1..230 are rejected, and inside the
answer is the Laue class of International Tables except for 149..155 (point group 32, reported as `-3`) and 194
(`6/mmm`, reported as `m-3`). Missing: those eight space groups (`C35_fails`). -/
theorem C35_space_group_partial (sg : ℤ) :
    ((sg < 1 ∨ 230 < sg) → spaceGroupToLaue sg = none) ∧
    (1 ≤ sg → sg ≤ 230 →
      (spaceGroupToLaue sg = some (pgOfSpaceGroup sg.toNat).laue ↔ ¬ (149 ≤ sg ∧ sg ≤ 155) ∧ sg ≠ 194)) := by
  constructor
  · intro h
    unfold spaceGroupToLaue
    rw [if_pos (by omega)]
  · intro h1 h2
    have key : ∀ n : Fin 231, 1 ≤ n.val →
        (spaceGroupToLaue (n.val : ℤ) = some (pgOfSpaceGroup n.val).laue ↔
          ¬ (149 ≤ n.val ∧ n.val ≤ 155) ∧ n.val ≠ 194) := by decide +kernel
    obtain ⟨n, rfl⟩ := Int.eq_ofNat_of_zero_le (show 0 ≤ sg by omega)
    have := key ⟨n, by omega⟩ (by simpa using h1)
    simp only at this
    rw [Int.toNat_natCast, this]
    omega

/-- The wrong answers of `space_group_to_laue`. -/
theorem C35_fails : spaceGroupToLaue 152 = some 6 ∧ (pgOfSpaceGroup 152).laue = 7 ∧
    spaceGroupToLaue 194 = some 10 ∧ (pgOfSpaceGroup 194).laue = 9 := by decide +kernel

/-! ### C36 -/

/-- C36: every crystallographic point group symbol gets its Laue class, and every other string is rejected. -/
theorem C36_point_group (s : String) :
    (∀ p : PG, s = p.symbol → pointGroupToLaue s = some p.laue) ∧
    ((∀ p : PG, s ≠ p.symbol) → pointGroupToLaue s = none) := by
  constructor
  · rintro p rfl
    cases p <;> decide +kernel
  · intro h
    have hn : ∀ t, (∃ p : PG, t = p.symbol) → s ≠ t := by
      rintro t ⟨p, rfl⟩; exact h p
    unfold pointGroupToLaue
    have e : ∀ l : List String, (∀ t ∈ l, ∃ p : PG, t = p.symbol) → ¬ s ∈ l := by
      intro l hl hs
      exact hn s (hl s hs) rfl
    rw [if_neg, if_neg, if_neg, if_neg, if_neg, if_neg, if_neg, if_neg, if_neg, if_neg, if_neg]
    all_goals
      apply e
      intro t ht
      simp only [List.mem_cons, List.not_mem_nil, or_false] at ht
    · rcases ht with rfl | rfl; exacts [⟨.b1, rfl⟩, ⟨.p1, rfl⟩]
    · rcases ht with rfl | rfl | rfl; exacts [⟨.p2om, rfl⟩, ⟨.m, rfl⟩, ⟨.p2, rfl⟩]
    · rcases ht with rfl | rfl | rfl; exacts [⟨.mmm, rfl⟩, ⟨.mm2, rfl⟩, ⟨.p222, rfl⟩]
    · rcases ht with rfl | rfl | rfl; exacts [⟨.p4om, rfl⟩, ⟨.b4, rfl⟩, ⟨.p4, rfl⟩]
    · rcases ht with rfl | rfl | rfl | rfl; exacts [⟨.p4ommm, rfl⟩, ⟨.b42m, rfl⟩, ⟨.p4mm, rfl⟩, ⟨.p422, rfl⟩]
    · rcases ht with rfl | rfl; exacts [⟨.b3, rfl⟩, ⟨.p3, rfl⟩]
    · rcases ht with rfl | rfl | rfl; exacts [⟨.b3m, rfl⟩, ⟨.p3m, rfl⟩, ⟨.p32, rfl⟩]
    · rcases ht with rfl | rfl | rfl; exacts [⟨.p6om, rfl⟩, ⟨.b6, rfl⟩, ⟨.p6, rfl⟩]
    · rcases ht with rfl | rfl | rfl | rfl; exacts [⟨.p6ommm, rfl⟩, ⟨.b6m2, rfl⟩, ⟨.p6mm, rfl⟩, ⟨.p622, rfl⟩]
    · rcases ht with rfl | rfl; exacts [⟨.mb3, rfl⟩, ⟨.p23, rfl⟩]
    · rcases ht with rfl | rfl | rfl; exacts [⟨.mb3m, rfl⟩, ⟨.b43m, rfl⟩, ⟨.p432, rfl⟩]

/-- The specification's list has 32 different symbols. -/
theorem C36_symbols_distinct : (PG.all.map PG.symbol).Nodup ∧ PG.all.length = 32 ∧ ∀ p : PG, p ∈ PG.all := by
  refine ⟨by decide +kernel, rfl, fun p => by cases p <;> decide +kernel⟩

example : ∀ p : PG, "banana" ≠ p.symbol := by intro p; cases p <;> decide +kernel

/-! ### C40 -/

/-- C40: the mask is `True` exactly on the pixels whose Euclidean distance to the centre
`(c₀ (h-1), c₁ (w-1))` is below the radius. -/
theorem C40_disc (h w : ℕ) (r : ℝ) (hr : 0 ≤ r) (ci cj : ℝ) (i : Fin h) (j : Fin w) :
    radialMask h w (some r) ci cj i j ↔
      Real.sqrt (((i.val : ℝ) - ci * ((h : ℝ) - 1)) ^ 2 + ((j.val : ℝ) - cj * ((w : ℝ) - 1)) ^ 2) < r := by
  unfold radialMask
  simp only [Option.getD_some]
  constructor
  · intro hlt
    rcases hr.eq_or_lt with rfl | hp
    · exfalso
      have : (0:ℝ) ≤ ((i.val : ℝ) - ci * ((h : ℝ) - 1)) ^ 2 + ((j.val : ℝ) - cj * ((w : ℝ) - 1)) ^ 2 := by positivity
      nlinarith
    · rwa [Real.sqrt_lt' hp]
  · intro hlt
    exact (Real.sqrt_lt' (lt_of_le_of_lt (Real.sqrt_nonneg _) hlt)).1 hlt

/-- C40: without a radius the disc has half the smaller dimension as radius. -/
theorem C40_default (h w : ℕ) (ci cj : ℝ) (i : Fin h) (j : Fin w) :
    radialMask h w none ci cj i j ↔ radialMask h w (some ((min h w : ℕ) / 2)) ci cj i j := Iff.rfl

/-- C40: with the default centre the mask is symmetric under both mirror reflections of the image. -/
theorem C40_symmetric (h w : ℕ) (r : Option ℝ) (i : Fin h) (j : Fin w) :
    (radialMask h w r 0.5 0.5 i.rev j ↔ radialMask h w r 0.5 0.5 i j) ∧
    (radialMask h w r 0.5 0.5 i j.rev ↔ radialMask h w r 0.5 0.5 i j) := by
  have hrev : ∀ (n : ℕ) (k : Fin n), ((k.rev.val : ℝ) - 0.5 * ((n : ℝ) - 1)) ^ 2
      = ((k.val : ℝ) - 0.5 * ((n : ℝ) - 1)) ^ 2 := by
    intro n k
    have hk := k.isLt
    have : ((k.rev.val : ℕ) : ℝ) = (n : ℝ) - 1 - k.val := by
      rw [Fin.val_rev, Nat.cast_sub (by omega)]; push_cast; ring
    rw [this]; ring
  unfold radialMask
  simp only [hrev]
  exact ⟨trivial, trivial⟩

example : radialMask 5 5 (some 1.5) 0.5 0.5 2 3 ∧ ¬ radialMask 5 5 (some 1.5) 0.5 0.5 0 2 := by
  unfold radialMask
  constructor <;> norm_num

/-! ### C41 -/

/-- C41 (`minmax`): each pattern with at least one pixel is mapped by an increasing affine map `x ↦ a x + b` that
depends on this pattern only; the result lies in `[0,1)`, attains 0, and its range is `(max-min)/(max-min+10⁻⁴)`. -/
theorem C41_minmax {n p : ℕ} (hp : 0 < p) (pats : Fin n → Fin p → ℝ) :
    ∃ out, normalizePerPattern "minmax" pats = some out ∧ ∀ k,
      (∃ a b : ℝ, 0 < a ∧ ∀ i, out k i = a * pats k i + b) ∧
      (∀ i, 0 ≤ out k i ∧ out k i < 1) ∧ (∃ i, out k i = 0) ∧
      ∃ lo hi, (∀ i, pats k lo ≤ pats k i ∧ pats k i ≤ pats k hi) ∧
        out k hi = (pats k hi - pats k lo) / (pats k hi - pats k lo + 1e-4) := by
  refine ⟨_, if_pos rfl, fun k => ?_⟩
  haveI : Nonempty (Fin p) := ⟨⟨0, hp⟩⟩
  obtain ⟨lo, hlo⟩ := exists_eq_ciInf_of_finite (f := pats k)
  obtain ⟨hi, hhi⟩ := exists_eq_ciSup_of_finite (f := pats k)
  have hle : ∀ i, pats k lo ≤ pats k i := fun i => by rw [hlo]; exact ciInf_le (Set.finite_range _).bddBelow i
  have hge : ∀ i, pats k i ≤ pats k hi := fun i => by rw [hhi]; exact le_ciSup (Set.finite_range _).bddAbove i
  have hd : 0 < 1e-4 + pats k hi - pats k lo := by have := hle hi; linarith
  unfold patMinmax
  rw [← hlo, ← hhi]
  refine ⟨⟨1 / (1e-4 + pats k hi - pats k lo), -pats k lo / (1e-4 + pats k hi - pats k lo), by positivity,
    fun i => by field_simp; ring⟩, fun i => ⟨div_nonneg (by linarith [hle i]) hd.le, ?_⟩, ⟨lo, by simp⟩, lo, hi,
    fun i => ⟨hle i, hge i⟩, by rw [show 1e-4 + pats k hi - pats k lo = pats k hi - pats k lo + 1e-4 by ring]⟩
  rw [div_lt_one hd]; linarith [hge i]

theorem zeromean_sum {p : ℕ} (hp : 0 < p) (x : Fin p → ℝ) : ∑ i, patZeromean x i = 0 := by
  have : (p : ℝ) ≠ 0 := by exact_mod_cast hp.ne'
  unfold patZeromean
  rw [Finset.sum_sub_distrib, Finset.sum_const, Finset.card_univ, Fintype.card_fin, nsmul_eq_mul,
    mul_div_cancel₀ _ this, sub_self]

/-- C41 (`zeromean`): differences of pixels are kept and the sum of each pattern is zero. -/
theorem C41_zeromean {n p : ℕ} (hp : 0 < p) (pats : Fin n → Fin p → ℝ) :
    ∃ out, normalizePerPattern "zeromean" pats = some out ∧ ∀ k,
      (∀ i j, out k i - out k j = pats k i - pats k j) ∧ ∑ i, out k i = 0 := by
  refine ⟨_, by rw [normalizePerPattern, if_neg (by decide), if_pos rfl], fun k => ⟨fun i j => ?_, zeromean_sum hp _⟩⟩
  simp [patZeromean]

/-- C41 (`standard`): a pattern that is not constant gets mean zero and unbiased variance one. -/
theorem C41_standard {n p : ℕ} (pats : Fin n → Fin p → ℝ) :
    ∃ out, normalizePerPattern "standard" pats = some out ∧ ∀ k, (∃ i j, pats k i ≠ pats k j) →
      ∑ i, out k i = 0 ∧ (∑ i, out k i ^ 2) / ((p : ℝ) - 1) = 1 := by
  refine ⟨_, by rw [normalizePerPattern, if_neg (by decide), if_neg (by decide), if_pos rfl], ?_⟩
  rintro k ⟨i, j, hij⟩
  have hne : i ≠ j := by rintro rfl; exact hij rfl
  have hp : 1 < p := by
    have := Fin.val_ne_of_ne hne
    have := i.isLt; have := j.isLt; omega
  set z := patZeromean (pats k) with hz
  have hs : ∑ i, z i = 0 := zeromean_sum (by omega) _
  have hp1 : (0:ℝ) < (p : ℝ) - 1 := by
    have : (1:ℝ) < p := by exact_mod_cast hp
    linarith
  have hvar : 0 < (∑ i, z i ^ 2) / ((p : ℝ) - 1) := by
    apply div_pos _ hp1
    have hnn : ∀ l ∈ Finset.univ, 0 ≤ z l ^ 2 := fun l _ => sq_nonneg _
    apply lt_of_le_of_ne (Finset.sum_nonneg hnn)
    intro h0
    have := (Finset.sum_eq_zero_iff_of_nonneg hnn).1 h0.symm
    have h1 : z i = 0 := by simpa using this i (Finset.mem_univ _)
    have h2 : z j = 0 := by simpa using this j (Finset.mem_univ _)
    apply hij
    simp only [hz, patZeromean] at h1 h2
    linarith
  have hstd : patStd z = Real.sqrt ((∑ i, z i ^ 2) / ((p : ℝ) - 1)) := by
    unfold patStd; rw [hs]; simp
  have hsp : 0 < patStd z := by rw [hstd]; exact Real.sqrt_pos.2 hvar
  have hsq : patStd z ^ 2 = (∑ i, z i ^ 2) / ((p : ℝ) - 1) := by rw [hstd, Real.sq_sqrt hvar.le]
  unfold patStandard
  rw [← hz]
  constructor
  · rw [← Finset.sum_div, hs, zero_div]
  · simp only [div_pow]
    rw [← Finset.sum_div, hsq, div_div, div_mul_cancel₀ _ hp1.ne', div_self]
    intro h0; rw [h0] at hvar; simp at hvar

/-- C41: an unknown method raises. -/
theorem C41_invalid {n p : ℕ} (kind : String) (pats : Fin n → Fin p → ℝ) :
    normalizePerPattern kind pats = none ↔ kind ∉ ["minmax", "zeromean", "standard"] := by
  unfold normalizePerPattern
  by_cases h1 : kind = "minmax"
  · simp [h1]
  · by_cases h2 : kind = "zeromean"
    · simp [h2]
    · by_cases h3 : kind = "standard"
      · simp [h3]
      · simp [h1, h2, h3]

example : (0:ℕ) < 3600 ∧ ∃ i j : Fin 2, (![1, 2] : Fin 2 → ℝ) i ≠ ![1, 2] j := ⟨by norm_num, 0, 1, by simp⟩

/-! ### C63 -/

/-- The items a consumer has received in a list of events. -/
def received {α : Type} (ev : List (PbEvent α)) : List α := ev.filterMap fun | .item a => some a | _ => none
/-- The number of progress lines printed in a list of events. -/
def lines {α : Type} (ev : List (PbEvent α)) : ℕ := (ev.filter fun | .bar .. => true | _ => false).length

theorem received_loop {α : Type} (size count : ℕ) (it : List α) (i : ℕ) :
    received (pbLoop size count i it) = it := by
  induction it generalizing i with
  | nil => rfl
  | cons a rest ih =>
    have := ih (i + 1)
    simp only [received] at this
    simp [pbLoop, received, this]

/-- C63: the progress bar yields exactly the items, in order, whatever the size of the bar; it fails only when
the iterable has no length, before yielding anything. -/
theorem C63_transparent {α : Type} (size : ℕ) (it : List α) (lenIt : Option ℕ) :
    (∀ ev, progressbar size lenIt it = some ev → received ev = it) ∧
    (progressbar size lenIt it = none ↔ lenIt = none) := by
  constructor
  · intro ev h
    cases lenIt with
    | none => cases h
    | some c =>
      have := Option.some.inj h
      subst this
      have := received_loop size c it 0
      simp only [received, List.filterMap_append] at this ⊢
      simp [this]
  · cases lenIt <;> simp [progressbar]

theorem take_loop {α : Type} (size count : ℕ) (it : List α) (i t : ℕ) :
    received ((pbLoop size count i it).take t) = it.take ((t + 1) / 2) ∧
    lines ((pbLoop size count i it).take t) ≤ t / 2 := by
  induction it generalizing i t with
  | nil => simp [pbLoop, received, lines]
  | cons a rest ih =>
    match t with
    | 0 => simp [received, lines]
    | 1 => simp [pbLoop, received, lines]
    | t + 2 =>
      obtain ⟨h1, h2⟩ := ih (i + 1) t
      simp only [received, lines] at h1 h2
      have e : (t + 2 + 1) / 2 = (t + 1) / 2 + 1 := by omega
      constructor
      · simp [pbLoop, received, h1, e]
      · simp [pbLoop, lines]; omega

/-- C63 at every point where the consumer may stop: after `t` events exactly the first `⌈t/2⌉` items have been
handed over (no look-ahead into the iterable), and at most one progress line per item has been printed. -/
theorem C63_lazy {α : Type} (size : ℕ) (it : List α) (t : ℕ) (ev : List (PbEvent α))
    (h : progressbar size (some it.length) it = some ev) :
    received (ev.take t) = it.take ((t + 1) / 2) ∧ lines (ev.take t) ≤ t / 2 := by
  have := Option.some.inj h
  subst this
  have hl : ∀ (it : List α) (i c : ℕ), (pbLoop size c i it).length = 2 * it.length := by
    intro it
    induction it with
    | nil => intro i c; rfl
    | cons a r ih => intro i c; simp only [pbLoop, List.length_cons, ih]; omega
  have h1 := take_loop size it.length it 0 t
  have hlen := hl it 0 it.length
  rw [List.take_append, hlen]
  by_cases ht : t ≤ 2 * it.length
  · rw [show t - 2 * it.length = 0 by omega, List.take_zero, List.append_nil]; exact h1
  · obtain ⟨s, hs⟩ : ∃ s, t - 2 * it.length = s + 1 := ⟨t - 2 * it.length - 1, by omega⟩
    rw [hs]
    simp only [List.take_succ_cons, List.take_nil]
    constructor
    · have := h1.1
      simp only [received, List.filterMap_append] at this ⊢
      simpa using this
    · have := h1.2
      simp only [lines, List.filter_append] at this ⊢
      simpa using this

theorem bar_loop {α : Type} (size count : ℕ) (hc : 0 < count) (it : List α) (i : ℕ) (hi : i + it.length ≤ count)
    (j n x d : ℕ) (h : PbEvent.bar j n x d ∈ pbLoop size count i it) :
    n = count ∧ i < j ∧ j ≤ i + it.length ∧ x + d = size ∧ x * count ≤ size * j ∧ size * j < (x + 1) * count := by
  induction it generalizing i with
  | nil => cases h
  | cons a rest ih =>
    simp only [pbLoop, List.mem_cons, reduceCtorEq, false_or, PbEvent.bar.injEq] at h
    simp only [List.length_cons] at hi ⊢
    rcases h with ⟨rfl, rfl, rfl, rfl⟩ | h
    · have hle : size * (i + 1) / n ≤ size := by
        calc size * (i + 1) / n ≤ size * n / n := Nat.div_le_div_right (Nat.mul_le_mul_left _ (by omega))
          _ = size := Nat.mul_div_cancel _ hc
      refine ⟨rfl, by omega, by omega, by omega, Nat.div_mul_le_self _ _, ?_⟩
      have h2 := Nat.div_add_mod (size * (i + 1)) n
      have h3 := Nat.mod_lt (size * (i + 1)) hc
      rw [Nat.add_mul, Nat.mul_comm _ n]; omega
    · have := ih (i + 1) (by omega) h
      omega

/-- C63: every printed bar has exactly `size` cells, of which `⌊size·j/count⌋` are full. -/
theorem C63_bar {α : Type} (size : ℕ) (it : List α) (ev : List (PbEvent α))
    (h : progressbar size (some it.length) it = some ev) (j n x d : ℕ) (hb : PbEvent.bar j n x d ∈ ev) :
    n = it.length ∧ 1 ≤ j ∧ j ≤ n ∧ x + d = size ∧ x = size * j / n := by
  have := Option.some.inj h
  subst this
  simp only [List.mem_append, List.mem_singleton, reduceCtorEq, or_false] at hb
  have hc : 0 < it.length := by
    cases it with
    | nil => cases hb
    | cons => simp
  obtain ⟨rfl, h1, h2, h3, h4, h5⟩ := bar_loop size it.length hc it 0 (by omega) j n x d hb
  refine ⟨rfl, by omega, by omega, h3, ?_⟩
  symm
  rw [Nat.div_eq_iff hc]
  have : (x + 1) * it.length = x * it.length + it.length := by ring
  omega

example : progressbar 60 (some 2) ["a", "b"] = some [.item "a", .bar 1 2 30 30, .item "b", .bar 2 2 60 0, .newline] := rfl

end Verif
