import Verif.Spec.PointGroupDirs
import Verif.Props.KVecMaps
import Mathlib.Tactic.IntervalCases
/-!
Helper lemmas for C91: signed permutations of the grid indices and of the directions.
-/
namespace Verif.KV
open Real Verif.Spec

/-- direction of the grid index `(i, j)` in hemisphere `h` -/
noncomputable def gridDir (w : ℕ) (i j h : ℤ) : V :=
  ⟨(squareToHemisphereK ((i : ℝ) / w, (j : ℝ) / w)).x, (squareToHemisphereK ((i : ℝ) / w, (j : ℝ) / w)).y,
   h * (squareToHemisphereK ((i : ℝ) / w, (j : ℝ) / w)).z⟩

/-- a signed permutation of x and y with a sign for z -/
def sp (s : Bool) (a b c : ℤ) (v : V) : V :=
  ⟨a * (if s then v.y else v.x), b * (if s then v.x else v.y), c * v.z⟩

def U (a : ℤ) : Prop := a = 1 ∨ a = -1

theorem gridDir_sp (w : ℕ) (s : Bool) {a b c : ℤ} (ha : U a) (hb : U b) (i j h : ℤ) :
    gridDir w (a * (if s then j else i)) (b * (if s then i else j)) (c * h) = sp s a b c (gridDir w i j h) := by
  have e := C89_equivariant
  have n : ∀ k : ℤ, (((-1 * k : ℤ) : ℝ)) / w = -((k : ℝ) / w) := by intro k; push_cast; ring
  have o : ∀ k : ℤ, (((1 * k : ℤ) : ℝ)) / w = ((k : ℝ) / w) := by intro k; push_cast; ring
  unfold gridDir sp
  have hz : ∀ z : ℝ, ((c * h : ℤ) : ℝ) * z = c * (h * z) := by intro z; push_cast; ring
  simp only [hz]
  cases s
  · rcases ha with rfl | rfl <;> rcases hb with rfl | rfl <;>
      simp only [n, o, (e _ _).1, (e _ _).2.1, Bool.false_eq_true, if_false] <;> norm_num
  · rcases ha with rfl | rfl <;> rcases hb with rfl | rfl <;>
      simp only [n, o, (e _ _).1, (e _ _).2.1, if_true, (e ((i:ℝ)/w) ((j:ℝ)/w)).2.2] <;> norm_num

/-- the signed permutation is a product of generators -/
def Has (G : List (V → V)) (s : Bool) (a b c : ℤ) : Prop := U a ∧ U b ∧ U c ∧ ∀ v, Dir.Equiv G v (sp s a b c v)

theorem has_id (G : List (V → V)) : Has G false 1 1 1 := by
  refine ⟨.inl rfl, .inl rfl, .inl rfl, fun v => ?_⟩
  have : sp false 1 1 1 v = v := by simp [sp]
  rw [this]; exact Relation.ReflTransGen.refl

theorem has_gen {G : List (V → V)} {g : V → V} (hg : g ∈ G) {s : Bool} {a b c : ℤ} (ha : U a) (hb : U b) (hc : U c)
    (h : ∀ v, g v = sp s a b c v) : Has G s a b c :=
  ⟨ha, hb, hc, fun v => Relation.ReflTransGen.single ⟨g, hg, (h v).symm⟩⟩

theorem U_mul {a b : ℤ} (ha : U a) (hb : U b) : U (a * b) := by
  rcases ha with rfl | rfl <;> rcases hb with rfl | rfl <;> simp [U]

/-- composition -/
theorem has_mul {G : List (V → V)} {s t : Bool} {a b c d e f : ℤ} (h1 : Has G s a b c) (h2 : Has G t d e f) :
    Has G (xor s t) (d * (if t then b else a)) (e * (if t then a else b)) (f * c) := by
  obtain ⟨ha, hb, hc, h1⟩ := h1
  obtain ⟨hd, he, hf, h2⟩ := h2
  refine ⟨?_, ?_, U_mul hf hc, fun v => ?_⟩
  · cases t <;> simp <;> apply U_mul <;> assumption
  · cases t <;> simp <;> apply U_mul <;> assumption
  · refine Relation.ReflTransGen.trans (h1 v) ?_
    have : sp (xor s t) (d * (if t then b else a)) (e * (if t then a else b)) (f * c) v = sp t d e f (sp s a b c v) := by
      cases s <;> cases t <;> simp [sp, mul_assoc]
    rw [this]; exact h2 _

theorem U.ne {a : ℤ} (h : U a) : a ≠ 0 := by rcases h with rfl | rfl <;> norm_num

theorem mem_gridIJ {w : ℕ} {i j : ℤ} : (i, j) ∈ gridIJ w ↔ |i| ≤ w ∧ |j| ≤ w := by
  have r : ∀ k : ℤ, (∃ n < 2 * w + 1, ((n : ℕ) : ℤ) - w = k) ↔ |k| ≤ w := by
    intro k
    rw [abs_le]
    constructor
    · rintro ⟨n, hn, rfl⟩; constructor <;> omega
    · rintro ⟨h1, h2⟩; exact ⟨(k + w).toNat, by omega, by omega⟩
  simp only [gridIJ, List.mem_flatMap, List.mem_map, List.mem_range, Prod.mk.injEq]
  rw [← r i, ← r j]
  constructor
  · rintro ⟨a, ⟨n, hn, rfl⟩, b, ⟨m, hm, rfl⟩, rfl, rfl⟩; exact ⟨⟨n, hn, rfl⟩, m, hm, rfl⟩
  · rintro ⟨⟨n, hn, rfl⟩, m, hm, rfl⟩; exact ⟨_, ⟨n, hn, rfl⟩, _, ⟨m, hm, rfl⟩, rfl, rfl⟩

/-- the rows returned for a square sampling type -/
theorem grid_square {pg sg st w : ℕ} {second : Bool} (hst : stnumOf pg sg = some st) (h1 : 1 ≤ st) (h9 : st ≤ 9) :
    ∃ rows, kvectorsGrid pg sg second w = some rows ∧
      (∀ r, r ∈ rows ↔ ∃ i j h : ℤ, |i| ≤ w ∧ |j| ≤ w ∧ keep st (i, j) = true ∧
        (h = 1 ∨ (h = -1 ∧ withSouth st = true)) ∧ r = (gridDir w i j h, i, j, h)) := by
  unfold kvectorsGrid
  rw [hst]
  simp only [Option.bind_some]
  rw [if_neg (by omega), if_neg (by omega)]
  have hu : usesHex st = false := by unfold usesHex; simp; omega
  refine ⟨_, rfl, fun r => ?_⟩
  simp only [hu, Bool.false_eq_true, if_false, xyOf]
  have north : ∀ r : V × ℤ × ℤ × ℤ, r ∈ List.map (fun p : ℤ × ℤ => (squareToHemisphereK ((p.1 : ℝ) / w, (p.2 : ℝ) / w), p.1, p.2, (1:ℤ)))
      (List.filter (keep st) (gridIJ w)) ↔ ∃ i j : ℤ, |i| ≤ w ∧ |j| ≤ w ∧ keep st (i, j) = true ∧ r = (gridDir w i j 1, i, j, 1) := by
    intro r
    simp only [List.mem_map, List.mem_filter, Prod.exists, mem_gridIJ]
    constructor
    · rintro ⟨i, j, ⟨⟨hi, hj⟩, hk⟩, rfl⟩
      exact ⟨i, j, hi, hj, hk, by simp [gridDir]⟩
    · rintro ⟨i, j, hi, hj, hk, rfl⟩
      exact ⟨i, j, ⟨⟨hi, hj⟩, hk⟩, by simp [gridDir]⟩
  cases hs : withSouth st
  · simp only [Bool.false_eq_true, if_false, and_false, or_false]
    rw [north]
    constructor
    · rintro ⟨i, j, hi, hj, hk, rfl⟩; exact ⟨i, j, 1, hi, hj, hk, rfl, rfl⟩
    · rintro ⟨i, j, h, hi, hj, hk, rfl, rfl⟩; exact ⟨i, j, hi, hj, hk, rfl⟩
  · simp only [if_true, and_true, List.mem_append]
    rw [north, List.mem_map]
    constructor
    · rintro (⟨i, j, hi, hj, hk, rfl⟩ | ⟨r', hr', rfl⟩)
      · exact ⟨i, j, 1, hi, hj, hk, .inl rfl, rfl⟩
      · obtain ⟨i, j, hi, hj, hk, rfl⟩ := (north r').mp hr'
        refine ⟨i, j, -1, hi, hj, hk, .inr rfl, ?_⟩
        simp [gridDir]
    · rintro ⟨i, j, h, hi, hj, hk, rfl | rfl, rfl⟩
      · exact .inl ⟨i, j, hi, hj, hk, rfl⟩
      · refine .inr ⟨(gridDir w i j 1, i, j, 1), (north _).mpr ⟨i, j, hi, hj, hk, rfl⟩, ?_⟩
        simp [gridDir]

theorem gridIJ_nodup (w : ℕ) : (gridIJ w).Nodup := by
  have h : ((List.range (2 * w + 1)).map fun (n : ℕ) => (n : ℤ) - w).Nodup :=
    List.nodup_range.map (by intro a b h; simpa using h)
  exact List.Nodup.product h h

/-- no grid index is returned twice -/
theorem grid_nodup {pg sg st w : ℕ} {second : Bool} {rows : List (V × ℤ × ℤ × ℤ)} (hst : stnumOf pg sg = some st) (h1 : 1 ≤ st)
    (h9 : st ≤ 9) (hr : kvectorsGrid pg sg second w = some rows) : (rows.map Prod.snd).Nodup := by
  unfold kvectorsGrid at hr
  rw [hst] at hr
  simp only [Option.bind_some] at hr
  rw [if_neg (by omega), if_neg (by omega)] at hr
  have hu : usesHex st = false := by unfold usesHex; simp; omega
  simp only [hu, Bool.false_eq_true, if_false, Option.some.injEq] at hr
  subst hr
  have hn : ((List.filter (keep st) (gridIJ w)).map fun p : ℤ × ℤ => (p.1, p.2, (1:ℤ))).Nodup := by
    refine List.Nodup.map ?_ ((gridIJ_nodup w).filter _)
    rintro ⟨a, b⟩ ⟨c, d⟩ h; simpa using h
  have hs : ((List.filter (keep st) (gridIJ w)).map fun p : ℤ × ℤ => (p.1, p.2, (-1:ℤ))).Nodup := by
    refine List.Nodup.map ?_ ((gridIJ_nodup w).filter _)
    rintro ⟨a, b⟩ ⟨c, d⟩ h; simpa using h
  cases withSouth st
  · simpa [List.map_map, Function.comp_def] using hn
  · simp only [if_true, List.map_append, List.map_map, Function.comp_def]
    norm_num
    refine List.Nodup.append hn hs ?_
    intro x hx hy
    simp only [List.mem_map] at hx hy
    obtain ⟨_, _, rfl⟩ := hx
    obtain ⟨_, _, h⟩ := hy
    simp at h

/-- coverage from the signed permutations of the group -/
theorem cover_of {pg sg st w : ℕ} {second : Bool} (G : List (V → V)) (hst : stnumOf pg sg = some st) (h1 : 1 ≤ st) (h9 : st ≤ 9)
    (H : ∀ i j h : ℤ, U h → ∃ s a b c, Has G s a b c ∧ keep st (a * (if s then j else i), b * (if s then i else j)) = true ∧
      (c * h = 1 ∨ withSouth st = true)) :
    ∃ rows, kvectorsGrid pg sg second w = some rows ∧ ∀ i j h : ℤ, |i| ≤ w → |j| ≤ w → (h = 1 ∨ h = -1) →
      ∃ r ∈ rows, Dir.Equiv G (gridDir w i j h) r.1 := by
  obtain ⟨rows, hr, hm⟩ := grid_square (w := w) (second := second) hst h1 h9
  refine ⟨rows, hr, fun i j h hi hj hh => ?_⟩
  obtain ⟨s, a, b, c, ⟨ha, hb, hc, hE⟩, hk, hs⟩ := H i j h hh
  refine ⟨_, (hm _).mpr ⟨_, _, c * h, ?_, ?_, hk, ?_, rfl⟩, ?_⟩
  · rcases ha with rfl | rfl <;> cases s <;> simpa
  · rcases hb with rfl | rfl <;> cases s <;> simpa
  · rcases U_mul hc hh with h' | h'
    · exact .inl h'
    · rcases hs with hs | hs
      · omega
      · exact .inr ⟨h', hs⟩
  · rw [gridDir_sp w s ha hb]; exact hE _

end Verif.KV
