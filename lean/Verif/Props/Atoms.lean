import Verif.Props.Groups
import Verif.Model.Atoms
import Verif.Spec.Orbit
import Mathlib.Algebra.Order.Round
import Mathlib.Algebra.BigOperators.Group.Finset.Basic
import Mathlib.Data.Finset.Card
/-!
C98: the equivalent positions and multiplicities computed by `Cell`.
-/
namespace Verif.Atoms
open Spec SG

/-! ### unique_rows -/

lemma uniq_sub {α : Type*} (c : α → α → Bool) (l : List α) (x : α) (h : x ∈ uniqueRows c l) : x ∈ l := by
  induction hn : l.length using Nat.strong_induction_on generalizing l with
  | _ n ih =>
    cases l with
    | nil => simp [uniqueRows] at h
    | cons a t =>
      rw [uniqueRows, List.mem_cons] at h
      rcases h with h | h
      · simp [h]
      · have hl : (t.filter fun b => !c a b).length < n := by
          rw [← hn]; exact Nat.lt_succ_of_le (List.length_filter_le _ _)
        exact List.mem_cons_of_mem _ (List.mem_filter.1 (ih _ hl _ h rfl)).1

lemma uniq_cover {α : Type*} (c : α → α → Bool) (l : List α) (x : α) (h : x ∈ l) :
    ∃ y ∈ uniqueRows c l, y = x ∨ c y x = true := by
  induction hn : l.length using Nat.strong_induction_on generalizing l with
  | _ n ih =>
    cases l with
    | nil => simp at h
    | cons a t =>
      rw [uniqueRows]
      rcases List.mem_cons.1 h with h | h
      · exact ⟨a, by simp, .inl h.symm⟩
      · by_cases hc : c a x = true
        · exact ⟨a, by simp, .inr hc⟩
        · have hl : (t.filter fun b => !c a b).length < n := by
            rw [← hn]; exact Nat.lt_succ_of_le (List.length_filter_le _ _)
          obtain ⟨y, hy, e⟩ := ih _ hl _ (List.mem_filter.2 ⟨h, by simpa using hc⟩) rfl
          exact ⟨y, List.mem_cons_of_mem _ hy, e⟩

lemma uniq_pairwise {α : Type*} (c : α → α → Bool) (l : List α) :
    (uniqueRows c l).Pairwise fun a b => c a b = false := by
  induction hn : l.length using Nat.strong_induction_on generalizing l with
  | _ n ih =>
    cases l with
    | nil => simp [uniqueRows]
    | cons a t =>
      have hl : (t.filter fun b => !c a b).length < n := by
        rw [← hn]; exact Nat.lt_succ_of_le (List.length_filter_le _ _)
      rw [uniqueRows, List.pairwise_cons]
      refine ⟨fun b hb => ?_, ih _ hl _ rfl⟩
      simpa using (List.mem_filter.1 (uniq_sub c _ _ hb)).2

lemma uniq_length {α : Type*} (c : α → α → Bool) (l : List α) : (uniqueRows c l).length ≤ l.length := by
  induction hn : l.length using Nat.strong_induction_on generalizing l with
  | _ n ih =>
    cases l with
    | nil => simp [uniqueRows]
    | cons a t =>
      have hf := List.length_filter_le (fun b => !c a b) t
      have hl : (t.filter fun b => !c a b).length < n := by
        rw [← hn]; exact Nat.lt_succ_of_le hf
      have := ih _ hl _ rfl
      rw [uniqueRows, List.length_cons, ← hn, List.length_cons]
      omega

lemma uniq_two {α : Type*} (c : α → α → Bool) (a b : α) :
    uniqueRows c [a, b] = if c a b = true then [a] else [a, b] := by
  rw [uniqueRows]
  by_cases h : c a b = true
  · rw [if_pos h]; simp [h, uniqueRows]
  · rw [if_neg h]; simp [h, uniqueRows]

/-! ### reduction of a coordinate -/

lemma snap_of_lt {x : ℝ} (h : |x| < 1e-6) : snap x = 0 := if_pos h
lemma snap_of_ge {x : ℝ} (h : ¬ |x| < 1e-6) : snap x = x := if_neg h

lemma fmod_of_nonneg {x : ℝ} (h : 0 ≤ x) : fmod x = Int.fract x := if_pos h

lemma reduce_range {x : ℝ} (h : -100 ≤ x) : 0 ≤ reduce x ∧ reduce x < 1 := by
  have h1 : 0 ≤ snap x + 100 := by
    by_cases hx : |x| < 1e-6
    · rw [snap_of_lt hx]; norm_num
    · rw [snap_of_ge hx]; linarith
  have f0 := Int.fract_nonneg (snap x + 100)
  have f1 := Int.fract_lt_one (snap x + 100)
  unfold reduce
  rw [fmod_of_nonneg h1]
  by_cases hs : |Int.fract (snap x + 100)| < 1e-6
  · rw [snap_of_lt hs]; norm_num
  · rw [snap_of_ge hs]; exact ⟨f0, f1⟩

lemma reduce_near (x : ℝ) : ∃ n : ℤ, |reduce x - (x + n)| < 1e-6 := by
  by_cases hx : |x| < 1e-6
  · refine ⟨0, ?_⟩
    have : reduce x = 0 := by
      unfold reduce
      rw [snap_of_lt hx, fmod_of_nonneg (by norm_num)]
      have : Int.fract ((0 : ℝ) + 100) = 0 := by
        rw [zero_add]; exact_mod_cast Int.fract_natCast (R := ℝ) 100
      rw [this]; exact snap_of_lt (by norm_num)
    rw [this]; simpa using hx
  · obtain ⟨k, hk⟩ : ∃ k : ℤ, fmod (x + 100) = x + k := by
      unfold fmod
      split
      · exact ⟨100 - ⌊x + 100⌋, by push_cast; ring⟩
      · exact ⟨100 - ⌈x + 100⌉, by push_cast; ring⟩
    refine ⟨k, ?_⟩
    unfold reduce
    rw [snap_of_ge hx, hk]
    by_cases hs : |x + (k : ℝ)| < 1e-6
    · rw [snap_of_lt hs, zero_sub, abs_neg]; exact hs
    · rw [snap_of_ge hs, sub_self]; norm_num

lemma reduce_exact {x : ℝ} (h0 : -100 ≤ x) (h : ∀ n : ℤ, x = n ∨ 1e-6 ≤ |x - n|) : reduce x = Int.fract x := by
  have f100 : ∀ y : ℝ, Int.fract (y + 100) = Int.fract y := fun y => by
    exact_mod_cast Int.fract_add_natCast y 100
  by_cases hx : |x| < 1e-6
  · have hx0 : x = 0 := by
      rcases h 0 with h | h
      · simpa using h
      · exact absurd hx (by simpa using h)
    subst hx0
    unfold reduce
    rw [snap_of_lt hx, fmod_of_nonneg (by norm_num), f100]
    rw [Int.fract_zero]; exact snap_of_lt (by norm_num)
  · unfold reduce
    rw [snap_of_ge hx, fmod_of_nonneg (by linarith), f100]
    by_cases hs : |Int.fract x| < 1e-6
    · rw [snap_of_lt hs]
      rcases h ⌊x⌋ with h | h
      · rw [Int.fract, ← h, sub_self]
      · exact absurd hs (not_lt.2 h)
    · rw [snap_of_ge hs]

/-! ### images -/

lemma image_eq (o : Op) (p : Frac) : image o p = seitz o p := by
  funext i; fin_cases i <;> simp [image, seitz]

lemma mem_allPos {ops : List Op} {p q : Frac} : q ∈ allPos ops p ↔ ∃ A ∈ ops, q = fun i => reduce (seitz A p i) := by
  unfold allPos
  rw [List.mem_map]
  simp only [image_eq]
  exact ⟨fun ⟨A, h, e⟩ => ⟨A, h, e.symm⟩, fun ⟨A, h, e⟩ => ⟨A, h, e.symm⟩⟩

lemma closeRows_iff (a b : Frac) : closeRows a b = true ↔ dist1 a b < 1e-4 := by
  unfold closeRows dist1
  rw [decide_eq_true_iff, Fin.sum_univ_three]

lemma closeRows_false (a b : Frac) : closeRows a b = false ↔ 1e-4 ≤ dist1 a b := by
  rw [← not_lt, ← closeRows_iff, Bool.not_eq_true]

/-- Operators returned by `sg_operators` have entries in `{-1, 0, 1}` and reduced translations. -/
lemma ops_bounds {sg : ℕ} (h1 : 1 ≤ sg) (h2 : sg ≤ 230) {ops : List Op} (ho : sgOperators sg 1 = .ok ops) :
    ∀ A ∈ ops, ∀ p : Frac, (∀ i, |p i| ≤ 33) → ∀ i, -100 ≤ seitz A p i := by
  obtain ⟨g, L, n, s⟩ := sound_all h1 h2
  obtain ⟨M, hM, e⟩ := sgOperators_eq s
  rw [e] at ho
  cases ho
  intro A hA p hp i
  obtain ⟨A, mA, rfl⟩ := List.mem_map.1 hA; clear hA; rename' mA => hA
  have good := s.cert.good A (hM.mem_iff.1 hA)
  rw [seitz_final good]
  obtain ⟨hs, hx, hy, hz, -⟩ := (good_iff A).1 good
  obtain ⟨a0, a1, a2, b0, b1, b2, c0, c1, c2⟩ := (small_iff A.r).1 hs
  have key : ∀ (a b c t : ℤ), (-1 ≤ a ∧ a ≤ 1) → (-1 ≤ b ∧ b ≤ 1) → (-1 ≤ c ∧ c ≤ 1) → 0 ≤ t →
      -100 ≤ (a : ℝ) * p 0 + b * p 1 + c * p 2 + t / 24 := by
    have one : ∀ (a : ℤ) (x : ℝ), (-1 ≤ a ∧ a ≤ 1) → |x| ≤ 33 → -33 ≤ (a : ℝ) * x := by
      intro a x ha hx
      have ha' : |(a : ℝ)| ≤ 1 := by rw [abs_le]; exact_mod_cast ha
      have : |(a : ℝ) * x| ≤ 33 := by
        rw [abs_mul]
        calc _ ≤ 1 * 33 := mul_le_mul ha' hx (abs_nonneg _) (by norm_num)
          _ = 33 := by norm_num
      exact (abs_le.1 this).1
    intro a b c t ha hb hc ht
    have := one a _ ha (hp 0)
    have := one b _ hb (hp 1)
    have := one c _ hc (hp 2)
    have : (0 : ℝ) ≤ t := by exact_mod_cast ht
    have : (0 : ℝ) ≤ t / 24 := by positivity
    linarith
  fin_cases i
  · exact key _ _ _ _ a0 a1 a2 hx.1
  · exact key _ _ _ _ b0 b1 b2 hy.1
  · exact key _ _ _ _ c0 c1 c2 hz.1

/-- **C98** (every input).  For every space group and every position with coordinates between −33 and 33, the listed
positions lie in the half-open unit cell; each is, up to `1e-6` per coordinate, a lattice translate of an image of the
position under a space group operation; each image has a translate within `1e-4 + 3e-6` (sum of coordinate
differences) of a listed position; two listed positions are at least `1e-4` apart; and the multiplicity is between one
and the order of the group. -/
theorem C98_positions (sg : ℕ) (h1 : 1 ≤ sg) (h2 : sg ≤ 230) (ops : List Op) (ho : sgOperators sg 1 = .ok ops)
    (p : Frac) (hp : ∀ i, |p i| ≤ 33) :
    (∀ q ∈ apos ops p, ∀ i, 0 ≤ q i ∧ q i < 1) ∧
    (∀ q ∈ apos ops p, ∃ A ∈ ops, ∃ n : Fin 3 → ℤ, ∀ i, |q i - (seitz A p i + n i)| < 1e-6) ∧
    (∀ A ∈ ops, ∃ q ∈ apos ops p, ∃ n : Fin 3 → ℤ, dist1 q (fun i => seitz A p i + n i) < 1e-4 + 3e-6) ∧
    (apos ops p).Pairwise (fun a b => 1e-4 ≤ dist1 a b) ∧
    1 ≤ mult ops p ∧ mult ops p ≤ ops.length := by
  refine ⟨?_, ?_, ?_, ?_, ?_, ?_⟩
  · intro q hq i
    obtain ⟨A, hA, rfl⟩ := mem_allPos.1 (uniq_sub _ _ _ hq)
    exact reduce_range (ops_bounds h1 h2 ho A hA p hp i)
  · intro q hq
    obtain ⟨A, hA, rfl⟩ := mem_allPos.1 (uniq_sub _ _ _ hq)
    choose n hn using fun i => reduce_near (seitz A p i)
    exact ⟨A, hA, n, hn⟩
  · intro A hA
    obtain ⟨y, hy, e⟩ := uniq_cover closeRows _ _ (mem_allPos.2 ⟨A, hA, rfl⟩)
    choose n hn using fun i => reduce_near (seitz A p i)
    refine ⟨y, hy, n, ?_⟩
    have hyd : dist1 y (fun i => reduce (seitz A p i)) < 1e-4 := by
      rcases e with e | e
      · rw [e]; simp [dist1]; norm_num
      · exact (closeRows_iff _ _).1 e
    unfold dist1 at hyd ⊢
    rw [Fin.sum_univ_three] at hyd ⊢
    have t : ∀ i, |y i - (seitz A p i + n i)| ≤ |y i - reduce (seitz A p i)| + 1e-6 := fun i =>
      (abs_sub_le _ (reduce (seitz A p i)) _).trans (by have := (hn i).le; linarith)
    have t0 := t 0; have t1 := t 1; have t2 := t 2
    have h3 : ∀ i, |y i - (seitz A p i + n i)| < |y i - reduce (seitz A p i)| + 1e-6 := fun i =>
      lt_of_le_of_lt (abs_sub_le _ (reduce (seitz A p i)) _) (by have := hn i; linarith)
    have := h3 0
    linarith
  · exact (uniq_pairwise closeRows _).imp fun h => (closeRows_false _ _).1 h
  · obtain ⟨ops', e, -, ⟨E, hE, -⟩, -⟩ := C58_group_partial sg h1 h2
    rw [e] at ho
    cases ho
    obtain ⟨y, hy, -⟩ := uniq_cover closeRows _ _ (mem_allPos.2 ⟨E, hE, rfl⟩ : _ ∈ allPos ops p)
    exact List.length_pos_of_mem hy
  · refine (uniq_length _ _).trans ?_
    simp [allPos]

/-! ### orbit and stabiliser -/

lemma pair_ne {α : Type*} {R : α → α → Prop} (hs : ∀ a b, R a b → R b a) {l : List α} (h : l.Pairwise R) :
    ∀ a ∈ l, ∀ b ∈ l, a ≠ b → R a b := by
  induction l with
  | nil => simp
  | cons x t ih =>
    rw [List.pairwise_cons] at h
    intro a ha b hb hne
    rcases List.mem_cons.1 ha with e | ha' <;> rcases List.mem_cons.1 hb with e' | hb'
    · exact absurd (e.trans e'.symm) hne
    · exact e ▸ h.1 b hb'
    · exact hs _ _ (e' ▸ h.1 a ha')
    · exact ih h.2 a ha' b hb' hne

lemma congr_refl (p : Frac) : Congr p p := ⟨0, fun i => by simp⟩
lemma congr_symm {p q : Frac} : Congr p q → Congr q p := fun ⟨n, h⟩ => ⟨-n, fun i => by simp [h i]⟩
lemma congr_trans {p q r : Frac} : Congr p q → Congr q r → Congr p r := fun ⟨n, h⟩ ⟨m, k⟩ =>
  ⟨n + m, fun i => by rw [h i, k i]; simp; ring⟩

lemma congr_iff (p q : Frac) : Congr p q ↔ inCell p = inCell q := by
  constructor
  · rintro ⟨n, h⟩
    funext i
    unfold inCell
    rw [h i, Int.fract_add_intCast]
  · intro h
    refine ⟨fun i => ⌊p i⌋ - ⌊q i⌋, fun i => ?_⟩
    have := congrFun h i
    unfold inCell Int.fract at this
    push_cast; linarith

lemma eml_symm {f g : Frac → Frac} : EqModLattice f g → EqModLattice g f := fun ⟨n, h⟩ => ⟨-n, fun p i => by simp [h p i]⟩
lemma eml_trans {f g k : Frac → Frac} : EqModLattice f g → EqModLattice g k → EqModLattice f k := fun ⟨n, h⟩ ⟨m, l⟩ =>
  ⟨n + m, fun p i => by rw [h p i, l p i]; simp; ring⟩
lemma eml_congr {f g : Frac → Frac} (h : EqModLattice f g) (p : Frac) : Congr (f p) (g p) :=
  let ⟨n, h⟩ := h; ⟨n, fun i => h p i⟩
lemma eml_right {f g : Frac → Frac} (h : EqModLattice f g) (k : Frac → Frac) :
    EqModLattice (fun p => f (k p)) (fun p => g (k p)) := let ⟨n, h⟩ := h; ⟨n, fun p i => h (k p) i⟩

lemma seitz_shift (B : Op) (p : Frac) (n : Fin 3 → ℤ) : ∀ i, seitz B (fun i => p i + n i) i = seitz B p i +
    ((![B.r.a00 * n 0 + B.r.a01 * n 1 + B.r.a02 * n 2, B.r.a10 * n 0 + B.r.a11 * n 1 + B.r.a12 * n 2,
      B.r.a20 * n 0 + B.r.a21 * n 1 + B.r.a22 * n 2] : Fin 3 → ℤ) i : ℤ) := by
  intro i
  fin_cases i <;> simp [seitz] <;> ring

lemma eml_left (B : Op) {f g : Frac → Frac} (h : EqModLattice f g) :
    EqModLattice (fun p => seitz B (f p)) (fun p => seitz B (g p)) := by
  obtain ⟨n, h⟩ := h
  refine ⟨![B.r.a00 * n 0 + B.r.a01 * n 1 + B.r.a02 * n 2, B.r.a10 * n 0 + B.r.a11 * n 1 + B.r.a12 * n 2,
      B.r.a20 * n 0 + B.r.a21 * n 1 + B.r.a22 * n 2], fun p i => ?_⟩
  rw [← seitz_shift B (g p) n]
  have : f p = fun i => g p i + n i := funext fun j => h p j
  show seitz B (f p) i = _
  rw [this]

lemma congr_seitz (B : Op) {p q : Frac} (h : Congr p q) : Congr (seitz B p) (seitz B q) := by
  obtain ⟨n, h⟩ := h
  have : p = fun i => q i + n i := funext h
  rw [this]
  exact ⟨_, seitz_shift B q n⟩

open Classical in
/-- In a group of operators modulo the lattice, all points of an orbit are reached equally often. -/
lemma fibre_card {ops : List Op}
    (hmul : ∀ A ∈ ops, ∀ B ∈ ops, ∃ C ∈ ops, EqModLattice (fun p => seitz A (seitz B p)) (seitz C))
    (hinv : ∀ A ∈ ops, ∃ B ∈ ops, EqModLattice (fun p => seitz A (seitz B p)) id)
    (hd : ∀ A ∈ ops, ∀ B ∈ ops, EqModLattice (seitz A) (seitz B) → A = B) (p : Frac) (A₀ : Op) (hA₀ : A₀ ∈ ops) :
    (ops.toFinset.filter fun A => Congr (seitz A p) (seitz A₀ p)).card =
      (ops.toFinset.filter fun A => Congr (seitz A p) p).card := by
  choose! mul mulmem muleq using hmul
  choose! inv invmem inveq using hinv
  -- two-sided inverses
  have linv : ∀ A ∈ ops, EqModLattice (fun p => seitz (inv A) (seitz A p)) id := by
    intro A hA
    have h1 := inveq A hA
    have h2 := inveq (inv A) (invmem A hA)
    -- A ≡ A (B (C p)) ≡ C
    have h3 : EqModLattice (fun p => seitz A (seitz (inv A) (seitz (inv (inv A)) p))) (fun p => seitz A p) :=
      eml_left A h2
    have h4 : EqModLattice (fun p => seitz A (seitz (inv A) (seitz (inv (inv A)) p))) (fun p => seitz (inv (inv A)) p) :=
      eml_right h1 _
    have h5 : EqModLattice (fun p => seitz A p) (fun p => seitz (inv (inv A)) p) := eml_trans (eml_symm h3) h4
    exact eml_trans (eml_left (inv A) h5) h2
  have inj : ∀ A ∈ ops, ∀ S ∈ ops, ∀ S' ∈ ops, mul A S = mul A S' → S = S' := by
    intro A hA S hS S' hS' e
    refine hd S hS S' hS' ?_
    have h1 := muleq A hA S hS
    have h2 := muleq A hA S' hS'
    rw [e] at h1
    have h3 := eml_left (inv A) (eml_trans h1 (eml_symm h2))
    have a1 : EqModLattice (fun p => seitz (inv A) (seitz A (seitz S p))) (seitz S) := eml_right (linv A hA) (seitz S)
    have a2 : EqModLattice (fun p => seitz (inv A) (seitz A (seitz S' p))) (seitz S') := eml_right (linv A hA) (seitz S')
    exact eml_trans (eml_symm a1) (eml_trans h3 a2)
  apply le_antisymm
  · refine Finset.card_le_card_of_injOn (fun A => mul (inv A₀) A) ?_ ?_
    · intro A hA
      simp only [Finset.coe_filter, List.mem_toFinset, Set.mem_ofPred_eq] at hA ⊢
      refine ⟨mulmem _ (invmem _ hA₀) _ hA.1, ?_⟩
      have h1 := eml_congr (muleq _ (invmem _ hA₀) _ hA.1) p
      have h2 := congr_seitz (inv A₀) hA.2
      have h3 := eml_congr (linv A₀ hA₀) p
      exact congr_trans (congr_symm h1) (congr_trans h2 h3)
    · intro A hA B hB e
      simp only [Finset.coe_filter, List.mem_toFinset, Set.mem_ofPred_eq] at hA hB
      exact inj _ (invmem _ hA₀) _ hA.1 _ hB.1 e
  · refine Finset.card_le_card_of_injOn (fun S => mul A₀ S) ?_ ?_
    · intro S hS
      simp only [Finset.coe_filter, List.mem_toFinset, Set.mem_ofPred_eq] at hS ⊢
      refine ⟨mulmem _ hA₀ _ hS.1, ?_⟩
      exact congr_trans (congr_symm (eml_congr (muleq _ hA₀ _ hS.1) p)) (congr_seitz A₀ hS.2)
    · intro A hA B hB e
      simp only [Finset.coe_filter, List.mem_toFinset, Set.mem_ofPred_eq] at hA hB
      exact inj _ hA₀ _ hA.1 _ hB.1 e

open Classical in
/-- **C98** (exact part).  For every space group and every position whose images have no coordinate within `1e-6` of an
integer (unless it is one) and are either equal modulo the lattice or at least `1e-4` apart: the list contains exactly
the representatives in the unit cell of the images, each once, and multiplicity times the number of operations that leave
the position fixed (site symmetry) is the order of the group. -/
theorem C98_orbit_partial (sg : ℕ) (h1 : 1 ≤ sg) (h2 : sg ≤ 230) (ops : List Op) (ho : sgOperators sg 1 = .ok ops)
    (p : Frac) (hp : ∀ i, |p i| ≤ 33) (hc : CoordsClear ops p) (hs : WellSeparated ops p) :
    (∀ q, q ∈ apos ops p ↔ ∃ A ∈ ops, q = inCell (seitz A p)) ∧ (apos ops p).Nodup ∧
    mult ops p * (ops.filter fun A => decide (Congr (seitz A p) p)).length = ops.length := by
  have hred : ∀ A ∈ ops, (fun i => reduce (seitz A p i)) = inCell (seitz A p) := fun A hA => by
    funext i
    exact reduce_exact (ops_bounds h1 h2 ho A hA p hp i) (hc A hA i)
  have hmem : ∀ q, q ∈ allPos ops p ↔ ∃ A ∈ ops, q = inCell (seitz A p) := fun q => by
    rw [mem_allPos]
    exact ⟨fun ⟨A, hA, e⟩ => ⟨A, hA, e.trans (hred A hA)⟩, fun ⟨A, hA, e⟩ => ⟨A, hA, e.trans (hred A hA).symm⟩⟩
  have hclose : ∀ x ∈ allPos ops p, ∀ y ∈ allPos ops p, closeRows x y = true → x = y := by
    intro x hx y hy h
    obtain ⟨A, hA, rfl⟩ := (hmem x).1 hx
    obtain ⟨B, hB, rfl⟩ := (hmem y).1 hy
    rcases hs A hA B hB with h' | h'
    · exact (congr_iff _ _).1 h'
    · exfalso
      have := (closeRows_iff _ _).1 h
      have e : dist1 (inCell (seitz A p)) (inCell (seitz B p)) =
          dist1 (seitz A p) (fun i => seitz B p i + ((⌊seitz A p i⌋ - ⌊seitz B p i⌋ : ℤ) : ℝ)) := by
        unfold dist1
        refine Finset.sum_congr rfl fun i _ => ?_
        unfold inCell Int.fract
        congr 1
        push_cast; ring
      rw [e] at this
      exact absurd this (not_lt.2 (h' _))
  have hapos : ∀ q, q ∈ apos ops p ↔ ∃ A ∈ ops, q = inCell (seitz A p) := by
    intro q
    rw [← hmem]
    refine ⟨uniq_sub _ _ _, fun hq => ?_⟩
    obtain ⟨y, hy, e | e⟩ := uniq_cover closeRows _ _ hq
    · rwa [← e]
    · rw [← hclose y (uniq_sub _ _ _ hy) q hq e]; exact hy
  have hnd : (apos ops p).Nodup := by
    refine (uniq_pairwise closeRows (allPos ops p)).imp fun {a b} h e => ?_
    rw [e] at h
    have := (closeRows_false b b).1 h
    simp only [dist1, sub_self, abs_zero, Finset.sum_const_zero] at this
    norm_num at this
  refine ⟨hapos, hnd, ?_⟩
  obtain ⟨ops', e, -, -, hmul, hinv, hdis⟩ := C58_group_partial sg h1 h2
  rw [e] at ho
  cases ho
  have ndops : ops.Nodup := hdis.imp fun {a b} h => by
    rintro rfl
    exact h ⟨0, fun p i => by simp⟩
  have hd : ∀ A ∈ ops, ∀ B ∈ ops, EqModLattice (seitz A) (seitz B) → A = B := by
    intro A hA B hB h
    by_contra hne
    exact pair_ne (fun a b h h' => h (eml_symm h')) hdis A hA B hB hne h
  have hfib := fibre_card hmul hinv hd p
  have hcard : ops.toFinset.card = ∑ q ∈ (apos ops p).toFinset,
      (ops.toFinset.filter fun A => inCell (seitz A p) = q).card :=
    Finset.card_eq_sum_card_fiberwise fun A hA => by
      simp only [List.coe_toFinset, Set.mem_ofPred_eq] at hA ⊢
      exact (hapos _).2 ⟨A, hA, rfl⟩
  rw [Finset.sum_congr rfl (g := fun _ => (ops.toFinset.filter fun A => Congr (seitz A p) p).card) ?_,
    Finset.sum_const, smul_eq_mul, List.toFinset_card_of_nodup hnd, List.toFinset_card_of_nodup ndops] at hcard
  · rw [hcard]
    unfold mult
    congr 1
    rw [← List.toFinset_card_of_nodup (ndops.filter _), List.toFinset_filter]
    congr 1
    ext A; simp
  · intro q hq
    rw [List.mem_toFinset] at hq
    obtain ⟨A₀, hA₀, rfl⟩ := (hapos q).1 hq
    rw [← hfib A₀ hA₀]
    congr 1
    ext A
    simp only [Finset.mem_filter]
    rw [congr_iff]

/-! ### positions in 24ths -/

lemma seitz_24 (A : Op) (k : Fin 3 → ℤ) : ∀ i, ∃ m : ℤ, seitz A (fun i => (k i : ℝ) / 24) i = m / 24 := by
  intro i
  fin_cases i
  · exact ⟨A.r.a00 * k 0 + A.r.a01 * k 1 + A.r.a02 * k 2 + A.x, by simp [seitz]; ring⟩
  · exact ⟨A.r.a10 * k 0 + A.r.a11 * k 1 + A.r.a12 * k 2 + A.y, by simp [seitz]; ring⟩
  · exact ⟨A.r.a20 * k 0 + A.r.a21 * k 1 + A.r.a22 * k 2 + A.z, by simp [seitz]; ring⟩

lemma int_24 (m : ℤ) : (m : ℝ) / 24 = 0 ∨ 1 / 24 ≤ |(m : ℝ) / 24| := by
  by_cases h : m = 0
  · left; simp [h]
  · right
    rw [abs_div, abs_of_pos (by norm_num : (0 : ℝ) < 24)]
    have : (1 : ℝ) ≤ |(m : ℝ)| := by exact_mod_cast Int.one_le_abs h
    exact div_le_div_of_nonneg_right this (by norm_num)

open Classical in
/-- **C98** (special positions).  For every space group and every position with coordinates in 24ths of the cell edges
(0, 1/8, 1/4, 1/3, 3/8, 1/2, 2/3, ...) the list contains exactly the images in the unit cell, each once, and multiplicity
times site-symmetry order is the order of the group, with no further assumption. -/
theorem C98_special (sg : ℕ) (h1 : 1 ≤ sg) (h2 : sg ≤ 230) (ops : List Op) (ho : sgOperators sg 1 = .ok ops)
    (k : Fin 3 → ℤ) (hk : ∀ i, |k i| ≤ 33 * 24) :
    let p : Frac := fun i => (k i : ℝ) / 24
    (∀ q, q ∈ apos ops p ↔ ∃ A ∈ ops, q = inCell (seitz A p)) ∧ (apos ops p).Nodup ∧
    mult ops p * (ops.filter fun A => decide (Congr (seitz A p) p)).length = ops.length := by
  intro p
  refine C98_orbit_partial sg h1 h2 ops ho p ?_ ?_ ?_
  · intro i
    show |(k i : ℝ) / 24| ≤ 33
    rw [abs_div, abs_of_pos (by norm_num : (0 : ℝ) < 24), div_le_iff₀ (by norm_num)]
    exact_mod_cast hk i
  · intro A _ i n
    obtain ⟨m, hm⟩ := seitz_24 A k i
    show seitz A (fun i => (k i : ℝ) / 24) i = n ∨ _ ≤ |seitz A (fun i => (k i : ℝ) / 24) i - n|
    rw [hm]
    have e : (m : ℝ) / 24 - n = ((m - 24 * n : ℤ) : ℝ) / 24 := by push_cast; ring
    rcases int_24 (m - 24 * n) with h | h
    · left; rw [← e] at h; linarith
    · right; rw [e]; exact le_trans (by norm_num) h
  · intro A _ B _
    choose a ha using seitz_24 A k
    choose b hb using seitz_24 B k
    by_cases h : Congr (seitz A p) (seitz B p)
    · exact .inl h
    · right
      intro n
      have ex : ∃ i, a i - b i - 24 * n i ≠ 0 := by
        by_contra hne
        push Not at hne
        refine h ⟨n, fun i => ?_⟩
        have : (a i : ℝ) - b i - 24 * n i = 0 := by exact_mod_cast hne i
        show seitz A (fun i => (k i : ℝ) / 24) i = seitz B (fun i => (k i : ℝ) / 24) i + n i
        rw [ha i, hb i]; linarith
      obtain ⟨i, hi⟩ := ex
      have e : seitz A p i - (seitz B p i + n i) = ((a i - b i - 24 * n i : ℤ) : ℝ) / 24 := by
        show seitz A (fun i => (k i : ℝ) / 24) i - (seitz B (fun i => (k i : ℝ) / 24) i + n i) = _
        rw [ha i, hb i]; push_cast; ring
      have h1 : 1 / 24 ≤ |seitz A p i - (seitz B p i + n i)| := by
        rw [e]
        rcases int_24 (a i - b i - 24 * n i) with h | h
        · exfalso
          have : ((a i - b i - 24 * n i : ℤ) : ℝ) = 0 := by linarith
          exact hi (by exact_mod_cast this)
        · exact h
      unfold dist1
      refine le_trans (le_trans (by norm_num) h1) ?_
      exact Finset.single_le_sum (f := fun i => |seitz A p i - (seitz B p i + n i)|) (fun _ _ => abs_nonneg _) (Finset.mem_univ i)

/-- The two operators of P-1. -/
lemma ops2 : sgOperators 2 1 = .ok [⟨⟨1, 0, 0, 0, 1, 0, 0, 0, 1⟩, 0, 0, 0, 0⟩, ⟨⟨-1, 0, 0, 0, -1, 0, 0, 0, -1⟩, 0, 0, 0, 0⟩] := by
  decide +kernel

/-- The operators of P-1 as a list. -/
def opsP1bar : List Op := [⟨⟨1, 0, 0, 0, 1, 0, 0, 0, 1⟩, 0, 0, 0, 0⟩, ⟨⟨-1, 0, 0, 0, -1, 0, 0, 0, -1⟩, 0, 0, 0, 0⟩]

lemma mult2 (x : ℝ) : mult opsP1bar ![x, 0, 0] = if |reduce x - reduce (-x)| < 1e-4 then 1 else 2 := by
  have r0 : reduce 0 = 0 := by
    rw [reduce_exact (by norm_num) (fun n => ?_), Int.fract_zero]
    by_cases h : n = 0
    · left; simp [h]
    · right
      have : (1 : ℝ) ≤ |(n : ℝ)| := by exact_mod_cast Int.one_le_abs h
      rw [zero_sub, abs_neg]; exact le_trans (by norm_num) this
  unfold mult apos allPos opsP1bar
  rw [List.map_cons, List.map_cons, List.map_nil, uniq_two]
  simp only [closeRows_iff, dist1, Fin.sum_univ_three, image]
  simp [r0]
  split <;> rfl

private lemma keep {x y : ℝ} (n : ℤ) (hx : 1e-6 ≤ |x|) (h0 : -100 ≤ x) (y0 : 1e-6 ≤ y) (y1 : y < 1) (e : x + 100 = y + n) :
    reduce x = y := by
  have hy : 0 ≤ y := le_trans (by norm_num) y0
  unfold reduce
  rw [snap_of_ge (not_lt.2 hx), fmod_of_nonneg (by linarith), e, Int.fract_add_intCast, Int.fract_eq_self.2 ⟨hy, y1⟩,
    snap_of_ge (by rw [abs_of_nonneg hy]; exact not_lt.2 y0)]

private lemma drop {x y : ℝ} (n : ℤ) (hx : 1e-6 ≤ |x|) (h0 : -100 ≤ x) (hy : 0 ≤ y) (y1 : y < 1e-6) (e : x + 100 = y + n) :
    reduce x = 0 := by
  unfold reduce
  rw [snap_of_ge (not_lt.2 hx), fmod_of_nonneg (by linarith), e, Int.fract_add_intCast,
    Int.fract_eq_self.2 ⟨hy, y1.trans (by norm_num)⟩, snap_of_lt (by rw [abs_of_nonneg hy]; exact y1)]

private lemma tiny {x : ℝ} (hx : |x| < 1e-6) : reduce x = 0 := by
  unfold reduce
  rw [snap_of_lt hx, fmod_of_nonneg (by norm_num), show (0 : ℝ) + 100 = (0 : ℝ) + ((100 : ℤ) : ℝ) by norm_num, Int.fract_add_intCast,
    Int.fract_zero, snap_of_lt (by norm_num)]

/-- non-vacuity of `C98_special`: in P-1 the centre (1/2, 0, 0) has multiplicity one (site symmetry of order two). -/
example : mult opsP1bar ![0.5, 0, 0] = 1 := by
  rw [mult2, if_pos]
  have h1 : reduce 0.5 = 0.5 := keep 100 (y := 0.5) (by norm_num [abs_of_pos, abs_of_neg]) (by norm_num) (by norm_num) (by norm_num) (by norm_num)
  have h2 : reduce (-0.5) = 0.5 := keep 99 (y := 0.5) (by norm_num [abs_of_pos, abs_of_neg]) (by norm_num) (by norm_num) (by norm_num) (by norm_num)
  rw [h1, h2]; norm_num

/-- non-vacuity of `C98_special` and `C98_positions`: the hypotheses hold for (1/2, 1/3, 0) in P-1. -/
example : mult opsP1bar (fun i => ((![12, 8, 0] : Fin 3 → ℤ) i : ℝ) / 24) ≤ 2 ∧
    (apos opsP1bar (fun i => ((![12, 8, 0] : Fin 3 → ℤ) i : ℝ) / 24)).Nodup :=
  ⟨(C98_positions 2 (by norm_num) (by norm_num) opsP1bar ops2 _ (fun i => by
      fin_cases i <;> norm_num [abs_of_pos])).2.2.2.2.2,
    (C98_special 2 (by norm_num) (by norm_num) opsP1bar ops2 ![12, 8, 0] (fun i => by fin_cases i <;> decide)).2.1⟩

/-- non-vacuity of `C98_orbit_partial`: a general position of P1 meets its hypotheses. -/
example : ∃ ops, sgOperators 1 1 = .ok ops ∧ CoordsClear ops ![0.123, 0.2, 0.3] ∧ WellSeparated ops ![0.123, 0.2, 0.3] := by
  refine ⟨[⟨⟨1, 0, 0, 0, 1, 0, 0, 0, 1⟩, 0, 0, 0, 0⟩], by decide +kernel, ?_, ?_⟩
  · have key : ∀ (x : ℝ), 0.1 ≤ x → x ≤ 0.9 → ∀ n : ℤ, 1e-6 ≤ |x - n| := by
      intro x h0 h1 n
      rcases le_or_gt n 0 with h | h
      · have : (n : ℝ) ≤ 0 := by exact_mod_cast h
        rw [abs_of_nonneg (by linarith)]; norm_num; linarith
      · have : (1 : ℝ) ≤ n := by exact_mod_cast h
        rw [abs_of_nonpos (by linarith)]; norm_num; linarith
    intro A hA i n
    rw [List.mem_singleton] at hA
    subst hA
    right
    fin_cases i
    · have := key 0.123 (by norm_num) (by norm_num) n; simpa [seitz] using this
    · have := key 0.2 (by norm_num) (by norm_num) n; simpa [seitz] using this
    · have := key 0.3 (by norm_num) (by norm_num) n; simpa [seitz] using this
  · intro A hA B hB
    rw [List.mem_singleton] at hA hB
    subst hA; subst hB
    exact .inl (congr_refl _)

/-- What is missing in C98, first part: near the cell boundary duplicates are not recognised, because distances are not
taken modulo the lattice and values just below one are not snapped.  In P-1 an atom at `x = 0.9999999` gets multiplicity
two; the same atom one cell further left, at `x = -0.0000001`, gets multiplicity one. -/
theorem C98_translate_fails : sgOperators 2 1 = .ok opsP1bar ∧ Congr ![0.9999999, 0, 0] ![-0.0000001, 0, 0] ∧
    mult opsP1bar ![0.9999999, 0, 0] = 2 ∧ mult opsP1bar ![-0.0000001, 0, 0] = 1 := by
  refine ⟨ops2, ⟨![1, 0, 0], fun i => by fin_cases i <;> norm_num⟩, ?_, ?_⟩
  · rw [mult2, if_neg]
    have h1 : reduce 0.9999999 = 0.9999999 := keep 100 (y := 0.9999999) (by norm_num [abs_of_pos, abs_of_neg]) (by norm_num) (by norm_num) (by norm_num) (by norm_num)
    have h2 : reduce (-0.9999999) = 0 := drop 99 (y := 0.0000001) (by norm_num [abs_of_pos, abs_of_neg]) (by norm_num) (by norm_num) (by norm_num) (by norm_num)
    rw [h1, h2]; norm_num [abs_of_pos]
  · rw [mult2, if_pos]
    have h1 : reduce (-0.0000001) = 0 := tiny (by norm_num [abs_of_pos, abs_of_neg])
    have h2 : reduce (- -0.0000001) = 0 := tiny (by norm_num [abs_of_pos, abs_of_neg])
    rw [h1, h2]; norm_num

/-- What is missing in C98, second part: the tolerance is not the same everywhere in the cell.  In P-1 two images
`2e-5` apart are one atom around the centre (1/2, 0, 0) but two atoms around the equivalent centre (0, 0, 0). -/
theorem C98_origin_fails : mult opsP1bar ![0.50001, 0, 0] = 1 ∧ mult opsP1bar ![0.00001, 0, 0] = 2 := by
  constructor
  · rw [mult2, if_pos]
    have h1 : reduce 0.50001 = 0.50001 := keep 100 (y := 0.50001) (by norm_num [abs_of_pos, abs_of_neg]) (by norm_num) (by norm_num) (by norm_num) (by norm_num)
    have h2 : reduce (-0.50001) = 0.49999 := keep 99 (y := 0.49999) (by norm_num [abs_of_pos, abs_of_neg]) (by norm_num) (by norm_num) (by norm_num) (by norm_num)
    rw [h1, h2]; norm_num [abs_of_pos]
  · rw [mult2, if_neg]
    have h1 : reduce 0.00001 = 0.00001 := keep 100 (y := 0.00001) (by norm_num [abs_of_pos, abs_of_neg]) (by norm_num) (by norm_num) (by norm_num) (by norm_num)
    have h2 : reduce (-0.00001) = 0.99999 := keep 99 (y := 0.99999) (by norm_num [abs_of_pos, abs_of_neg]) (by norm_num) (by norm_num) (by norm_num) (by norm_num)
    rw [h1, h2]; norm_num [abs_of_neg]

/-- What is missing in C98, third part: a coordinate below −100 is reduced to a negative number, outside the unit cell. -/
theorem C98_far_fails : ∃ q ∈ apos [⟨⟨1, 0, 0, 0, 1, 0, 0, 0, 1⟩, 0, 0, 0, 0⟩] ![-150.25, 0, 0], q 0 = -0.25 := by
  refine ⟨_, List.mem_of_mem_head? (by rw [apos, allPos, List.map_cons, uniqueRows, List.head?_cons]; rfl), ?_⟩
  have : image ⟨⟨1, 0, 0, 0, 1, 0, 0, 0, 1⟩, 0, 0, 0, 0⟩ ![-150.25, 0, 0] 0 = -150.25 := by simp [image]
  show reduce (image _ _ 0) = _
  rw [this]
  unfold reduce
  rw [snap_of_ge (x := -150.25) (by norm_num [abs_of_neg])]
  have : fmod (-150.25 + 100) = -0.25 := by
    unfold fmod
    rw [if_neg (by norm_num)]
    have : ⌈(-150.25 + 100 : ℝ)⌉ = -50 := by rw [Int.ceil_eq_iff]; norm_num
    rw [this]; norm_num
  rw [this, snap_of_ge (x := -0.25) (by norm_num [abs_of_neg])]

end Verif.Atoms
