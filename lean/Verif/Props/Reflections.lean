import Verif.Props.Groups
import Verif.Props.Cell
import Mathlib.RingTheory.RootsOfUnity.Complex
import Mathlib.Analysis.SpecialFunctions.Complex.Circle
/-!
C56, C57, C81: centring extinctions and the reflection tables.
-/
namespace Verif.Cryst
open SG (Err)

/-! ### C57 -/

lemma letter_cases {sg : ℕ} (h1 : 1 ≤ sg) (h2 : sg ≤ 230) : SG.letter sg ∈ ['P', 'A', 'C', 'F', 'I', 'R'] := by
  have : ∀ k < 230, SG.letter (k + 1) ∈ ['P', 'A', 'C', 'F', 'I', 'R'] := by decide +kernel
  have h := this (sg - 1) (by omega)
  rwa [Nat.sub_add_cancel h1] at h

/-- The phase of Miller indices at a centring vector, in 24ths of a turn. -/
def phase (g : Hkl) (v : ℤ × ℤ × ℤ) : ℤ := g.1 * v.1 + g.2.1 * v.2.1 + g.2.2 * v.2.2

lemma allowed_centring {sg : ℕ} (h1 : 1 ≤ sg) (h2 : sg ≤ 230) (g : Hkl) :
    ∃ b, isGAllowed sg g = .ok b ∧
      (b = true ↔ ∀ v ∈ Spec.centring (SG.letter sg), (24 : ℤ) ∣ phase g v) := by
  obtain ⟨h, k, l⟩ := g
  have hl := letter_cases h1 h2
  have e : isGAllowed sg (h, k, l) = (match SG.letter sg with
    | 'P' => .ok true
    | 'F' => .ok (decide (h % 2 + k % 2 + l % 2 = 0) || decide (h % 2 + k % 2 + l % 2 = 3))
    | 'I' => .ok (decide ((h + k + l) % 2 = 0))
    | 'A' => .ok (decide ((k + l) % 2 = 0))
    | 'B' => .ok (decide ((h + l) % 2 = 0))
    | 'C' => .ok (decide ((h + k) % 2 = 0))
    | 'R' => .ok (decide ((-h + k + l) % 3 = 0))
    | _ => .error .valueError) := rfl
  rw [e]
  simp only [List.mem_cons, List.not_mem_nil, or_false] at hl
  rcases hl with hl | hl | hl | hl | hl | hl <;> rw [hl] <;> refine ⟨_, rfl, ?_⟩ <;>
    simp [Spec.centring, phase] <;> omega

/-- **C57**.  For every space group and all integers `h, k, l` (negative ones included) `is_g_allowed` does not raise, and
answers `True` exactly when every lattice translation returned by `sg_operators` has an integral phase, i.e. when the
reflection is not extinguished by the centring. -/
theorem C57_allowed_iff_translations (sg : ℕ) (h1 : 1 ≤ sg) (h2 : sg ≤ 230) (g : Hkl) :
    ∃ ops b, SG.sgOperators sg 1 = .ok ops ∧ isGAllowed sg g = .ok b ∧
      (b = true ↔ ∀ A ∈ ops, Spec.IsTranslation A → ∃ n : ℤ,
        (g.1 : ℝ) * (A.x / 24) + g.2.1 * (A.y / 24) + g.2.2 * (A.z / 24) = n) := by
  obtain ⟨ops, e, ht, -⟩ := SG.C76_lattice_and_point_group sg h1 h2
  obtain ⟨b, eb, hb⟩ := allowed_centring h1 h2 g
  have key : ∀ v : ℤ × ℤ × ℤ, (24 : ℤ) ∣ phase g v ↔ ∃ n : ℤ,
      (g.1 : ℝ) * (v.1 / 24) + g.2.1 * (v.2.1 / 24) + g.2.2 * (v.2.2 / 24) = n := by
    intro v
    have : (g.1 : ℝ) * (v.1 / 24) + g.2.1 * (v.2.1 / 24) + g.2.2 * (v.2.2 / 24) = (phase g v : ℝ) / 24 := by
      simp only [phase]; push_cast; ring
    rw [this]
    constructor
    · rintro ⟨n, hn⟩
      exact ⟨n, by rw [hn]; push_cast; field_simp⟩
    · rintro ⟨n, hn⟩
      refine ⟨n, ?_⟩
      have : (phase g v : ℝ) = 24 * n := by field_simp at hn; linarith
      exact_mod_cast this
  refine ⟨ops, b, e, eb, hb.trans ⟨fun h A hA hT => ?_, fun h v hv => ?_⟩⟩
  · exact (key (A.x, A.y, A.z)).1 (h _ ((ht _).2 ⟨A, hA, hT, rfl⟩))
  · obtain ⟨A, hA, hT, rfl⟩ := (ht v).1 hv
    exact (key _).2 (h A hA hT)

/-- Structure factor of the bare lattice: the sum of the phase factors of the centring vectors. -/
noncomputable def centringFactor (c : Char) (g : Hkl) : ℂ :=
  ((Spec.centring c).map fun v => Complex.exp (2 * Real.pi * Complex.I * (phase g v / 24))).sum

private lemma exp_half (n : ℤ) : Complex.exp (2 * Real.pi * Complex.I * (((12 * n : ℤ) : ℂ) / 24)) = (-1) ^ n := by
  rw [show 2 * (Real.pi : ℂ) * Complex.I * (((12 * n : ℤ) : ℂ) / 24) = n * (Real.pi * Complex.I) by push_cast; ring,
    Complex.exp_int_mul, Complex.exp_pi_mul_I]

private lemma exp_third (n : ℤ) : Complex.exp (2 * Real.pi * Complex.I * (((8 * n : ℤ) : ℂ) / 24))
    = Complex.exp (2 * Real.pi * Complex.I / (3 : ℕ)) ^ n := by
  rw [show 2 * (Real.pi : ℂ) * Complex.I * (((8 * n : ℤ) : ℂ) / 24) = n * (2 * Real.pi * Complex.I / (3 : ℕ)) by
    push_cast; ring, Complex.exp_int_mul]

private lemma npow (n : ℤ) : ((-1 : ℂ) ^ n = 1 ∧ n % 2 = 0) ∨ ((-1 : ℂ) ^ n = -1 ∧ n % 2 = 1) := by
  rcases Int.even_or_odd n with h | h
  · exact Or.inl ⟨h.neg_one_zpow, Int.even_iff.1 h⟩
  · exact Or.inr ⟨h.neg_one_zpow, Int.odd_iff.1 h⟩

/-- **C57**, as a structure factor.  `is_g_allowed` is `True` exactly when the centring structure factor does not vanish. -/
theorem C57_structure_factor (sg : ℕ) (h1 : 1 ≤ sg) (h2 : sg ≤ 230) (g : Hkl) :
    ∃ b, isGAllowed sg g = .ok b ∧ (b = true ↔ centringFactor (SG.letter sg) g ≠ 0) := by
  obtain ⟨b, eb, hb⟩ := allowed_centring h1 h2 g
  refine ⟨b, eb, hb.trans ?_⟩
  obtain ⟨h, k, l⟩ := g
  have hl := letter_cases h1 h2
  simp only [List.mem_cons, List.not_mem_nil, or_false] at hl
  have e0 : Complex.exp (2 * Real.pi * Complex.I * (((0 : ℤ) : ℂ) / 24)) = 1 := by simp
  rcases hl with hl | hl | hl | hl | hl | hl <;> rw [hl]
  · simp [Spec.centring, phase, centringFactor]
  · have p1 : phase (h, k, l) (0, 12, 12) = 12 * (k + l) := by simp [phase]; ring
    have p0 : phase (h, k, l) (0, 0, 0) = 0 := by simp [phase]
    simp only [Spec.centring, centringFactor, List.map_cons, List.map_nil, List.sum_cons, List.sum_nil, List.forall_mem_cons,
      p0, p1, e0, exp_half]
    rcases npow (k + l) with ⟨e, m⟩ | ⟨e, m⟩ <;> rw [e] <;> norm_num <;> omega
  · have p1 : phase (h, k, l) (12, 12, 0) = 12 * (h + k) := by simp [phase]; ring
    have p0 : phase (h, k, l) (0, 0, 0) = 0 := by simp [phase]
    simp only [Spec.centring, centringFactor, List.map_cons, List.map_nil, List.sum_cons, List.sum_nil, List.forall_mem_cons,
      p0, p1, e0, exp_half]
    rcases npow (h + k) with ⟨e, m⟩ | ⟨e, m⟩ <;> rw [e] <;> norm_num <;> omega
  · have p1 : phase (h, k, l) (0, 12, 12) = 12 * (k + l) := by simp [phase]; ring
    have p2 : phase (h, k, l) (12, 0, 12) = 12 * (h + l) := by simp [phase]; ring
    have p3 : phase (h, k, l) (12, 12, 0) = 12 * (h + k) := by simp [phase]; ring
    have p0 : phase (h, k, l) (0, 0, 0) = 0 := by simp [phase]
    simp only [Spec.centring, centringFactor, List.map_cons, List.map_nil, List.sum_cons, List.sum_nil, List.forall_mem_cons,
      p0, p1, p2, p3, e0, exp_half]
    rcases npow (k + l) with ⟨e1, m1⟩ | ⟨e1, m1⟩ <;> rcases npow (h + l) with ⟨e2, m2⟩ | ⟨e2, m2⟩ <;>
      rcases npow (h + k) with ⟨e3, m3⟩ | ⟨e3, m3⟩ <;> rw [e1, e2, e3] <;> norm_num <;> omega
  · have p1 : phase (h, k, l) (12, 12, 12) = 12 * (h + k + l) := by simp [phase]; ring
    have p0 : phase (h, k, l) (0, 0, 0) = 0 := by simp [phase]
    simp only [Spec.centring, centringFactor, List.map_cons, List.map_nil, List.sum_cons, List.sum_nil, List.forall_mem_cons,
      p0, p1, e0, exp_half]
    rcases npow (h + k + l) with ⟨e, m⟩ | ⟨e, m⟩ <;> rw [e] <;> norm_num <;> omega
  · have p1 : phase (h, k, l) (16, 8, 8) = 8 * (2 * h + k + l) := by simp [phase]; ring
    have p2 : phase (h, k, l) (8, 16, 16) = 8 * (2 * (2 * h + k + l) + (-3) * h) := by simp [phase]; ring
    have p0 : phase (h, k, l) (0, 0, 0) = 0 := by simp [phase]
    simp only [Spec.centring, centringFactor, List.map_cons, List.map_nil, List.sum_cons, List.sum_nil, List.forall_mem_cons,
      p0, p1, p2, e0, exp_third]
    have pr := Complex.isPrimitiveRoot_exp 3 (by norm_num)
    generalize hw : Complex.exp (2 * Real.pi * Complex.I / (3 : ℕ)) = w at *
    have w0 : w ≠ 0 := pr.ne_zero (by norm_num)
    have w3 : w ^ (-3 : ℤ) = 1 := (pr.zpow_eq_one_iff_dvd _).2 (by norm_num)
    have z3 : (w ^ (2 * h + k + l)) ^ 3 = 1 := by
      rw [← zpow_natCast, ← zpow_mul]
      exact (pr.zpow_eq_one_iff_dvd _).2 ⟨2 * h + k + l, by push_cast; ring⟩
    have hdvd := pr.zpow_eq_one_iff_dvd (2 * h + k + l)
    have hz2 : w ^ (2 * (2 * h + k + l) + (-3) * h) = (w ^ (2 * h + k + l)) ^ (2 : ℤ) := by
      rw [zpow_add₀ w0 (2 * (2 * h + k + l)) ((-3) * h), zpow_mul w (-3 : ℤ) h, w3, one_zpow, mul_one,
        mul_comm (2 : ℤ) (2 * h + k + l), zpow_mul]
    rw [hz2]
    generalize w ^ (2 * h + k + l) = z at *
    have fac : (z - 1) * (1 + (z + (z ^ (2 : ℤ) + 0))) = 0 := by
      have : z ^ (2 : ℤ) = z ^ 2 := by norm_cast
      rw [this]; linear_combination z3
    by_cases hz : z = 1
    · have : (3 : ℤ) ∣ 2 * h + k + l := by exact_mod_cast hdvd.1 hz
      subst hz
      norm_num
      omega
    · have n3 : ¬ (3 : ℤ) ∣ 2 * h + k + l := fun hd => hz (hdvd.2 (by exact_mod_cast hd))
      have : 1 + (z + (z ^ (2 : ℤ) + 0)) = 0 := (mul_eq_zero.1 fac).resolve_left (sub_ne_zero.2 hz)
      rw [this]
      simp only [ne_eq, not_true_eq_false, iff_false]
      rintro ⟨-, hd, -⟩
      exact n3 (by omega)

/-- A mixed-parity reflection of a face-centred crystal is extinguished, one with negative odd indices is not. -/
example : isGAllowed 225 (1, 0, 0) = .ok false ∧ isGAllowed 225 (-1, 1, -3) = .ok true := by decide +kernel

/-! ### C56 and C81 -/

lemma mem_arangeSym (m : ℕ) (x : ℤ) : x ∈ arangeSym m ↔ -(m : ℤ) < x ∧ x < m := by
  simp only [arangeSym, List.mem_map, List.mem_range]
  constructor
  · rintro ⟨i, hi, rfl⟩; omega
  · intro h
    exact ⟨(x + m - 1).toNat, by omega, by omega⟩

lemma mem_meshgrid (hs ks ls : List ℤ) (g : Hkl) : g ∈ meshgrid hs ks ls ↔ g.1 ∈ hs ∧ g.2.1 ∈ ks ∧ g.2.2 ∈ ls := by
  obtain ⟨h, k, l⟩ := g
  simp only [meshgrid, List.mem_flatMap, List.mem_map, Prod.mk.injEq]
  constructor
  · rintro ⟨a, ha, b, hb, c, hc, rfl, rfl, rfl⟩; exact ⟨ha, hb, hc⟩
  · rintro ⟨ha, hb, hc⟩; exact ⟨h, ha, k, hb, l, hc, rfl, rfl, rfl⟩

/-- Inside the box searched by the table. -/
def InBox (m : ℕ × ℕ × ℕ) (g : Hkl) : Prop :=
  (-(m.1 : ℤ) < g.1 ∧ g.1 < m.1) ∧ (-(m.2.1 : ℤ) < g.2.1 ∧ g.2.1 < m.2.1) ∧ (-(m.2.2 : ℤ) < g.2.2 ∧ g.2.2 < m.2.2)

lemma mem_grid (m : ℕ × ℕ × ℕ) (g : Hkl) :
    g ∈ meshgrid (arangeSym m.1) (arangeSym m.2.1) (arangeSym m.2.2) ↔ InBox m g := by
  rw [mem_meshgrid, mem_arangeSym, mem_arangeSym, mem_arangeSym]; rfl

lemma mem_keepAllowed {sg : ℕ} (h1 : 1 ≤ sg) (h2 : sg ≤ 230) (f : Bool) (gs : List Hkl) (g : Hkl) :
    g ∈ keepAllowed sg f gs ↔ g ∈ gs ∧ (f = true → isGAllowed sg g = .ok true) := by
  unfold keepAllowed
  cases f with
  | false => simp
  | true =>
    obtain ⟨b, eb, -⟩ := allowed_centring h1 h2 g
    simp only [if_true, List.mem_filter, eb, forall_const, Except.ok.injEq]

/-- The corner of the box, which is the first row of the grid. -/
def corner (m : ℕ × ℕ × ℕ) : Hkl := (1 - (m.1 : ℤ), 1 - (m.2.1 : ℤ), 1 - (m.2.2 : ℤ))

lemma arangeSym_cons {m : ℕ} (h : m ≠ 0) : ∃ t, arangeSym m = (1 - (m : ℤ)) :: t := by
  obtain ⟨n, rfl⟩ := Nat.exists_eq_succ_of_ne_zero h
  unfold arangeSym
  rw [show 2 * (n + 1) - 1 = 2 * n + 1 by omega, List.range_succ_eq_map, List.map_cons]
  exact ⟨_, by congr 1⟩

lemma grid_cons {m : ℕ × ℕ × ℕ} (h : ¬ (m.1 = 0 ∨ m.2.1 = 0 ∨ m.2.2 = 0)) :
    ∃ t, meshgrid (arangeSym m.1) (arangeSym m.2.1) (arangeSym m.2.2) = corner m :: t := by
  push Not at h
  obtain ⟨t1, e1⟩ := arangeSym_cons h.1
  obtain ⟨t2, e2⟩ := arangeSym_cons h.2.1
  obtain ⟨t3, e3⟩ := arangeSym_cons h.2.2
  rw [e1, e2, e3]
  exact ⟨_, rfl⟩

lemma grid_drop {m : ℕ × ℕ × ℕ} (h : ¬ (m.1 = 0 ∨ m.2.1 = 0 ∨ m.2.2 = 0)) {g : Hkl} :
    (InBox m g → g ≠ corner m → g ∈ (meshgrid (arangeSym m.1) (arangeSym m.2.1) (arangeSym m.2.2)).drop 1) ∧
    (g ∈ (meshgrid (arangeSym m.1) (arangeSym m.2.1) (arangeSym m.2.2)).drop 1 → InBox m g) := by
  refine ⟨fun hb hc => ?_, fun hm => (mem_grid m g).1 (List.mem_of_mem_drop hm)⟩
  have := (mem_grid m g).2 hb
  obtain ⟨t, e⟩ := grid_cons h
  rw [e] at this ⊢
  exact (List.mem_cons.1 this).resolve_left hc

/-- `d > dmin`, for the zero vector too (its d-spacing is infinite). -/
def DAbove (l : Lattice) (dmin : ℝ) (g : Hkl) : Prop :=
  calcLength l (hklVec g) .r = 0 ∨ dmin < 1 / calcLength l (hklVec g) .r

lemma dAbove_iff (l : Lattice) (dmin : ℝ) (g : Hkl) : dAbove l dmin g = true ↔ DAbove l dmin g := by
  simp [dAbove, DAbove]

/-- **C56** (part).  If `get_reflections(dmin)` returns a table, every entry is allowed by the centring (when filtered), has
a d-spacing above `dmin` (or is the zero vector) and lies strictly inside the limits; and conversely every such triple
strictly inside the limits is in the table, except possibly the corner of the box. -/
theorem C56_table_partial (l : Lattice) (sg : ℕ) (h1 : 1 ≤ sg) (h2 : sg ≤ 230) (dmin : ℝ) (f : Bool) (t : List Hkl)
    (ht : getReflections l sg dmin false f = .ok t) (g : Hkl) :
    (g ∈ t → InBox (hklLimits l dmin) g ∧ DAbove l dmin g ∧ (f = true → isGAllowed sg g = .ok true)) ∧
    (InBox (hklLimits l dmin) g → DAbove l dmin g → (f = true → isGAllowed sg g = .ok true) →
      g ≠ corner (hklLimits l dmin) → g ∈ t) := by
  unfold getReflections at ht
  by_cases hm : (hklLimits l dmin).1 = 0 ∨ (hklLimits l dmin).2.1 = 0 ∨ (hklLimits l dmin).2.2 = 0
  · simp only [hm, if_true] at ht; cases ht
  · simp only [hm, if_false, Bool.false_eq_true] at ht
    have e := Except.ok.inj ht
    subst e
    simp only [List.mem_filter, mem_keepAllowed h1 h2, dAbove_iff]
    exact ⟨fun ⟨⟨a, b⟩, c⟩ => ⟨(grid_drop hm).2 a, c, b⟩, fun a b c d => ⟨⟨(grid_drop hm).1 a d, c⟩, b⟩⟩

/-- The direct beam (0,0,0) is never removed: it is in every table whose box has more than one point, because the code
drops the first row of the grid instead of the zero row. -/
theorem C56_zero_kept_fails (l : Lattice) (sg : ℕ) (h1 : 1 ≤ sg) (h2 : sg ≤ 230) (dmin : ℝ) (f : Bool) (t : List Hkl)
    (ht : getReflections l sg dmin false f = .ok t) (hbox : hklLimits l dmin ≠ (1, 1, 1)) : ((0, 0, 0) : Hkl) ∈ t := by
  have hm : ¬ ((hklLimits l dmin).1 = 0 ∨ (hklLimits l dmin).2.1 = 0 ∨ (hklLimits l dmin).2.2 = 0) := by
    intro hm
    unfold getReflections at ht
    simp only [hm, if_true] at ht; cases ht
  refine (C56_table_partial l sg h1 h2 dmin f t ht (0, 0, 0)).2 ?_ (Or.inl ?_) (fun _ => ?_) ?_
  · generalize hklLimits l dmin = m at *
    obtain ⟨a, b, c⟩ := m
    simp only [InBox]
    simp only at hm
    omega
  · simp [calcLength, calcDot, hklVec, Fin.sum_univ_three]
  · obtain ⟨b, eb, hb⟩ := allowed_centring h1 h2 (0, 0, 0)
    rw [eb, hb.2 (fun v _ => by simp [phase])]
  · intro e
    apply hbox
    generalize hklLimits l dmin = m at *
    obtain ⟨a, b, c⟩ := m
    simp only [corner, Prod.mk.injEq] at e ⊢
    omega

/-- Every axis misses its last admissible reflection: `(m, 0, 0)` with `m` the limit returned by `get_hkl_limits` has
d-spacing at least `dmin`, and is not in the table. -/
theorem C56_last_axial_missing_fails (l : Lattice) (sg : ℕ) (h1 : 1 ≤ sg) (h2 : sg ≤ 230) (dmin : ℝ) (f : Bool)
    (t : List Hkl) (ht : getReflections l sg dmin false f = .ok t) :
    (((hklLimits l dmin).1 : ℤ), (0 : ℤ), (0 : ℤ)) ∉ t ∧
    dmin ≤ 1 / calcLength l (hklVec (((hklLimits l dmin).1 : ℤ), 0, 0)) .r := by
  have hm : ¬ ((hklLimits l dmin).1 = 0 ∨ (hklLimits l dmin).2.1 = 0 ∨ (hklLimits l dmin).2.2 = 0) := by
    intro hm
    unfold getReflections at ht
    simp only [hm, if_true] at ht; cases ht
  constructor
  · intro hin
    have := ((C56_table_partial l sg h1 h2 dmin f t ht _).1 hin).1.1.2
    omega
  · have key : ∀ m : ℕ, maxIndex l dmin (fun n => (n, 0, 0)) = m → m ≠ 0 →
        dmin ≤ 1 / calcLength l (hklVec ((m : ℤ), 0, 0)) .r := by
      intro m e h0
      unfold maxIndex at e
      rw [← not_lt]
      intro hlt
      cases hf : (List.range 99).find? (fun i : ℕ => decide (1 / calcLength l (hklVec ((i : ℤ) + 1, 0, 0)) .r < dmin)) with
      | none =>
        rw [hf, Option.getD_none] at e
        have := List.find?_eq_none.1 hf 98 (by simp)
        subst e
        apply this
        rw [decide_eq_true_eq]
        have h99 : ((98 : ℕ) : ℤ) + 1 = ((99 : ℕ) : ℤ) := by norm_num
        rw [h99]; exact hlt
      | some i =>
        rw [hf, Option.getD_some] at e
        subst e
        obtain ⟨-, j, hj, hij, hbef⟩ := List.find?_eq_some_iff_getElem.1 hf
        have hji : j = i := by simpa using hij
        subst hji
        have := hbef (j - 1) (by omega)
        simp only [List.getElem_range, Bool.not_eq_true', decide_eq_false_iff_not] at this
        apply this
        have e1 : (((j - 1 : ℕ) : ℤ) + 1) = j := by omega
        rw [e1]
        exact hlt
    exact key _ rfl (fun h0 => hm (Or.inl h0))

/-- A concrete cell: cubic, edge 1 nm. -/
noncomputable def cubicCell : Lattice := ⟨1, 1, 1, Real.pi / 2, Real.pi / 2, Real.pi / 2⟩

lemma cubic_rmt : cubicCell.rmt = 1 := by
  have : cubicCell.dmt = 1 := by
    ext i j; fin_cases i <;> fin_cases j <;> simp [Lattice.dmt, cubicCell]
  unfold Lattice.rmt
  rw [this, inv_one]

lemma cubic_len (n : ℕ) : calcLength cubicCell (hklVec ((n : ℤ) + 1, 0, 0)) .r = n + 1 ∧
    calcLength cubicCell (hklVec (0, (n : ℤ) + 1, 0)) .r = n + 1 ∧
    calcLength cubicCell (hklVec (0, 0, (n : ℤ) + 1)) .r = n + 1 := by
  have h : Real.sqrt (((n : ℝ) + 1) * (n + 1)) = n + 1 := Real.sqrt_mul_self (by positivity)
  refine ⟨?_, ?_, ?_⟩ <;>
    simp [calcLength, calcDot, cubic_rmt, hklVec, Fin.sum_univ_three, Matrix.one_apply, h]

lemma cubic_limits : hklLimits cubicCell 0.4 = (2, 2, 2) := by
  have hr : List.range 99 = 0 :: 1 :: 2 :: (List.range 96).map (· + 3) := by decide
  have c : ∀ n : ℕ, (1 / ((n : ℝ) + 1) < 0.4) ↔ 2 ≤ n := by
    intro n
    rw [div_lt_iff₀ (by positivity)]
    constructor
    · intro h
      by_contra hn
      have : (n : ℝ) ≤ 1 := by exact_mod_cast (by omega : n ≤ 1)
      norm_num at h
      linarith
    · intro h
      have : (2 : ℝ) ≤ n := by exact_mod_cast h
      norm_num
      linarith
  simp only [hklLimits, maxIndex, (cubic_len _).1, (cubic_len _).2.1, (cubic_len _).2.2, c]
  rw [hr]
  simp

/-- The cubic cell with edge 1 nm, dmin = 0.4 nm (P m -3 m): a table is returned; it contains (0,0,0) but not (2,0,0), whose
d-spacing is 0.5 nm. -/
theorem C56_cubic_fails : ∃ t, getReflections cubicCell 221 0.4 false true = .ok t ∧ ((0, 0, 0) : Hkl) ∈ t ∧
    ((2, 0, 0) : Hkl) ∉ t ∧ 1 / calcLength cubicCell (hklVec (2, 0, 0)) .r = 0.5 := by
  have e : ∃ t, getReflections cubicCell 221 0.4 false true = .ok t := by
    unfold getReflections
    simp only [cubic_limits]
    exact ⟨_, rfl⟩
  obtain ⟨t, ht⟩ := e
  refine ⟨t, ht, C56_zero_kept_fails _ _ (by decide) (by decide) _ _ _ ht (by rw [cubic_limits]; decide), ?_, ?_⟩
  · have := (C56_last_axial_missing_fails _ _ (by decide) (by decide) _ _ _ ht).1
    rw [cubic_limits] at this
    exact this
  · have := (cubic_len 1).1
    norm_num at this
    rw [this]; norm_num

/-- **C81**.  The difference table belongs to the reflection table: if both calls return, every difference of two distinct
entries of the reflection table is in the difference table, and (0,0,0) is not. -/
theorem C81_difference_table (l : Lattice) (sg : ℕ) (h1 : 1 ≤ sg) (h2 : sg ≤ 230) (dmin : ℝ) (f : Bool)
    (t d : List Hkl) (ht : getReflections l sg dmin false f = .ok t) (hd : getReflections l sg dmin true f = .ok d) :
    (∀ g ∈ t, ∀ g' ∈ t, g ≠ g' → (g.1 - g'.1, g.2.1 - g'.2.1, g.2.2 - g'.2.2) ∈ d) ∧ ((0, 0, 0) : Hkl) ∉ d := by
  have hm : ¬ ((hklLimits l dmin).1 = 0 ∨ (hklLimits l dmin).2.1 = 0 ∨ (hklLimits l dmin).2.2 = 0) := by
    intro hm
    unfold getReflections at ht
    simp only [hm, if_true] at ht; cases ht
  have hg := C56_table_partial l sg h1 h2 dmin f t ht
  unfold getReflections at hd
  simp only [hm, if_false, if_true] at hd
  have e := Except.ok.inj hd
  subst e
  constructor
  · intro g hgt g' hgt' hne
    obtain ⟨b, -, a⟩ := (hg g).1 hgt
    obtain ⟨b', -, a'⟩ := (hg g').1 hgt'
    rw [mem_keepAllowed h1 h2, List.mem_filter, mem_meshgrid, mem_arangeSym, mem_arangeSym, mem_arangeSym]
    obtain ⟨h, k, l'⟩ := g
    obtain ⟨h', k', l''⟩ := g'
    simp only [InBox] at b b'
    refine ⟨⟨⟨?_, ?_, ?_⟩, ?_⟩, fun hf => ?_⟩
    · push_cast; constructor <;> omega
    · push_cast; constructor <;> omega
    · push_cast; constructor <;> omega
    · simp only [ne_eq, Prod.mk.injEq] at hne
      simp only [ne_eq, Bool.or_eq_true, decide_eq_true_eq]
      omega
    · obtain ⟨c, ec, hc⟩ := allowed_centring h1 h2 (h - h', k - k', l' - l'')
      obtain ⟨c1, ec1, hc1⟩ := allowed_centring h1 h2 (h, k, l')
      obtain ⟨c2, ec2, hc2⟩ := allowed_centring h1 h2 (h', k', l'')
      have q1 : c1 = true := by have := a hf; rw [ec1] at this; exact Except.ok.inj this
      have q2 : c2 = true := by have := a' hf; rw [ec2] at this; exact Except.ok.inj this
      rw [ec, hc.2 ?_]
      intro v hv
      have := dvd_sub (hc1.1 q1 v hv) (hc2.1 q2 v hv)
      have e : phase (h, k, l') v - phase (h', k', l'') v = phase (h - h', k - k', l' - l'') v := by
        simp only [phase]; ring
      rwa [e] at this
  · rw [mem_keepAllowed h1 h2, List.mem_filter]
    simp

/-- Both tables exist for the cubic cell. -/
example : ∃ t d, getReflections cubicCell 221 0.4 false true = .ok t ∧ getReflections cubicCell 221 0.4 true true = .ok d := by
  unfold getReflections
  simp only [cubic_limits]
  exact ⟨_, _, rfl, rfl⟩

end Verif.Cryst
