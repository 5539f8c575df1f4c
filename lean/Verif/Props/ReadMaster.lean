import Verif.Model.ReadMaster
import Verif.Model.Laue
import Mathlib.Tactic.LinearCombination
import Mathlib.Tactic.Linarith
import Mathlib.Tactic.Positivity
/-! C132, C133: reading a master pattern, and the constructor of `MasterPattern`. -/
namespace Verif.ReadMp
open Finset

lemma unsq_one (s ix : List ℕ) : unsq (1 :: s) ix = 0 :: unsq s ix := by
  rw [unsq]

lemma unsq_ne {k : ℕ} (hk : k ≠ 1) (s : List ℕ) (i : ℕ) (ix : List ℕ) : unsq (k :: s) (i :: ix) = i :: unsq s ix := by
  rw [unsq]
  exact hk

lemma unsq_nil (ix : List ℕ) : unsq [] ix = [] := by rw [unsq]

/-- The number of electrons counted at energy `e`. -/
noncomputable def count (eh ew : ℕ) (accum : ℕ → ℕ → ℕ → ℝ) (e : ℕ) : ℝ := ∑ i ∈ range eh, ∑ j ∈ range ew, accum i j e

/-- the hemisphere computed from an array of `a` sites and `ne` energies, one of the two numbers being 1 -/
lemma weighted_ok {a ne h w : ℕ} (ha : 0 < a) (hne : 0 < ne) (hs : a = 1 ∨ ne = 1) (hh : 2 ≤ h) (hw : 2 ≤ w) (x : Arr)
    (hx : x.shape = [a, ne, h, w]) (p : ℕ → ℝ) :
    ∃ y, weighted ne p (squeeze x) = some y ∧ y.shape = [h, w] ∧
      ∀ i j, y.get [i, j] = ∑ e ∈ range ne, p e * ∑ s ∈ range a, x.get [s, e, i, j] := by
  have h1 : h ≠ 1 := by omega
  have w1 : w ≠ 1 := by omega
  by_cases e1 : ne = 1
  · subst e1
    by_cases a1 : a = 1
    · subst a1
      refine ⟨_, by unfold weighted squeeze; rw [hx]; simp [h1, w1]; rfl, rfl, fun i j => ?_⟩
      simp [unsq_one, unsq_ne h1, unsq_ne w1, unsq_nil]
    · refine ⟨_, by unfold weighted squeeze; rw [hx]; simp [h1, w1, a1]; rfl, rfl, fun i j => ?_⟩
      simp [unsq_one, unsq_ne h1, unsq_ne w1, unsq_ne a1, unsq_nil, mul_sum]
  · have a1 : a = 1 := hs.resolve_right e1
    subst a1
    refine ⟨_, by unfold weighted squeeze; rw [hx]; simp [h1, w1, e1]; rfl, rfl, fun i j => ?_⟩
    simp [unsq_one, unsq_ne h1, unsq_ne w1, unsq_ne e1, unsq_nil]

/-- C132, partial: for a file with one atomic site (or with one energy) the master pattern is, hemisphere by hemisphere, the mean of the
patterns of the energies weighted by the share of the electrons counted at each energy, summed over the sites; the northern hemisphere is the
left half, the southern the right half, and the Laue group is that of the space group.  Missing: several sites and energies, see
`C132_sites_fails`. -/
theorem C132_read_partial (eh ew ne : ℕ) (accum : ℕ → ℕ → ℕ → ℝ) (hpos : ∀ i j e, 0 ≤ accum i j e)
    (htot : 0 < ∑ e ∈ range ne, count eh ew accum e) (a h w : ℕ) (ha : 0 < a) (hs : a = 1 ∨ ne = 1) (hh : 2 ≤ h) (hw : 2 ≤ w)
    (north south : Arr) (hn : north.shape = [a, ne, h, w]) (hso : south.shape = [a, ne, h, w]) (sg : ℤ) (l : ℕ)
    (hl : spaceGroupToLaue sg = some l) :
    ∃ (m : Mp) (P : ℕ → ℝ), readMaster eh ew ne accum north south sg = some m ∧ m.laue = l ∧ m.pattern.shape = [h, 2 * w] ∧
      (∀ e, 0 ≤ P e ∧ P e * ∑ k ∈ range ne, count eh ew accum k = count eh ew accum e) ∧ ∑ e ∈ range ne, P e = 1 ∧
      ∀ i, ∀ j < w, m.pattern.get [i, j] = ∑ e ∈ range ne, P e * ∑ s ∈ range a, north.get [s, e, i, j] ∧
        m.pattern.get [i, w + j] = ∑ e ∈ range ne, P e * ∑ s ∈ range a, south.get [s, e, i, j] := by
  have hne : 0 < ne := by
    rcases Nat.eq_zero_or_pos ne with e | q
    · subst e; simp at htot
    · exact q
  obtain ⟨y, y1, y2, y3⟩ := weighted_ok ha hne hs hh hw north hn (pdf eh ew ne accum)
  obtain ⟨z, z1, z2, z3⟩ := weighted_ok ha hne hs hh hw south hso (pdf eh ew ne accum)
  have hP : ∀ e, pdf eh ew ne accum e = count eh ew accum e / ∑ k ∈ range ne, count eh ew accum k := fun e => rfl
  refine ⟨⟨⟨[h, w + w], fun ix => if ix.getLastD 0 < w then y.get ix else z.get (ix.dropLast ++ [ix.getLastD 0 - w])⟩, l⟩,
    pdf eh ew ne accum, ?_, rfl, by rw [two_mul], ?_, ?_, ?_⟩
  · unfold readMaster
    rw [y1, z1]
    simp only [Option.bind_some]
    unfold concat
    rw [y2, z2, if_pos ⟨rfl, by simp, by simp⟩]
    simp only [Option.bind_some]
    unfold init
    simp only [hl, List.dropLast, List.getLastD]
    simp
    rfl
  · intro e
    have c0 : 0 ≤ count eh ew accum e := sum_nonneg fun i _ => sum_nonneg fun j _ => hpos i j e
    rw [hP]
    exact ⟨div_nonneg c0 htot.le, div_mul_cancel₀ _ htot.ne'⟩
  · simp only [hP]
    rw [← sum_div, div_self htot.ne']
  · intro i j hj
    constructor
    · rw [← y3]
      simp [hj]
    · rw [← z3]
      simp

/-- C132 fails for a crystal with several atomic sites: the sites are summed instead of the energies, the result has three axes and the
constructor raises. -/
theorem C132_sites_fails (eh ew ne : ℕ) (accum : ℕ → ℕ → ℕ → ℝ) (a h w : ℕ) (ha : 2 ≤ a) (hne : 2 ≤ ne) (hh : 2 ≤ h) (hw : 2 ≤ w)
    (north south : Arr) (hn : north.shape = [a, ne, h, w]) (hso : south.shape = [a, ne, h, w]) (sg : ℤ) :
    readMaster eh ew ne accum north south sg = none := by
  have key : ∀ x : Arr, x.shape = [a, ne, h, w] → ∃ y, weighted ne (pdf eh ew ne accum) (squeeze x) = some y ∧ y.shape = [ne, h, w] := by
    intro x hx
    refine ⟨_, by
      unfold weighted squeeze
      rw [hx]
      simp [show h ≠ 1 by omega, show w ≠ 1 by omega, show a ≠ 1 by omega, show ne ≠ 1 by omega]
      rfl, rfl⟩
  obtain ⟨y, y1, y2⟩ := key north hn
  obtain ⟨z, z1, z2⟩ := key south hso
  unfold readMaster
  rw [y1, z1]
  simp only [Option.bind_some]
  unfold concat
  rw [y2, z2, if_pos ⟨rfl, by simp, by simp⟩]
  simp [init, arrOf]

/-- The hypotheses are met. -/
example : ∃ m, readMaster 1 1 2 (fun _ _ e => if e = 0 then 1 else 3) ⟨[1, 2, 2, 2], fun ix => if ix.getD 1 0 = 0 then 8 else 4⟩
    ⟨[1, 2, 2, 2], fun _ => 1⟩ 225 = some m ∧ m.laue = 11 ∧ m.pattern.get [0, 0] = 5 := by
  obtain ⟨m, P, h1, h2, -, h4, -, h6⟩ := C132_read_partial 1 1 2 (fun _ _ e => if e = 0 then 1 else 3) (by intro i j e; split <;> norm_num)
    (by simp [count, sum_range_succ]; norm_num) 1 2 2 one_pos (.inl rfl) le_rfl le_rfl
    ⟨[1, 2, 2, 2], fun ix => if ix.getD 1 0 = 0 then 8 else 4⟩ ⟨[1, 2, 2, 2], fun _ => 1⟩ rfl rfl 225 11 (by decide)
  refine ⟨m, h1, h2, ?_⟩
  rw [(h6 0 0 (by norm_num)).1]
  have p0 := (h4 0).2
  have p1 := (h4 1).2
  simp [count, sum_range_succ] at p0 p1 ⊢
  linarith

/-- C133, partial: the constructor succeeds exactly if one of the three groups is given, the group is known, and the pattern has two axes (a pair
of hemispheres: two axes each and the same number of rows); a pair is stored side by side, and the Laue group is the given one or that of
the point or space group.  Missing: the given Laue group is not checked, see `C133_laue_fails`. -/
theorem C133_init_partial (m : MpArg) (laue : Option ℤ) (pg : Option String) (sg : Option ℤ) (o : Mp) :
    init m laue pg sg = some o ↔
      ((∃ l, laue = some l ∧ pg = none ∧ sg = none ∧ o.laue = l) ∨
       (∃ p l, laue = none ∧ pg = some p ∧ sg = none ∧ pointGroupToLaue p = some l ∧ o.laue = l) ∨
       (∃ s l, laue = none ∧ pg = none ∧ sg = some s ∧ spaceGroupToLaue s = some l ∧ o.laue = l)) ∧
      ((m = .one o.pattern ∧ o.pattern.shape.length = 2) ∨
       ∃ n s h w1 w2, m = .pair n s ∧ n.shape = [h, w1] ∧ s.shape = [h, w2] ∧ o.pattern = ⟨[h, w1 + w2], fun ix =>
          if ix.getLastD 0 < w1 then n.get ix else s.get (ix.dropLast ++ [ix.getLastD 0 - w1])⟩) := by
  have arr : ∀ x : Arr, (arrOf m = some x ∧ x.shape.length = 2) ↔
      ((m = .one x ∧ x.shape.length = 2) ∨
       ∃ n s h w1 w2, m = .pair n s ∧ n.shape = [h, w1] ∧ s.shape = [h, w2] ∧ x = ⟨[h, w1 + w2], fun ix =>
          if ix.getLastD 0 < w1 then n.get ix else s.get (ix.dropLast ++ [ix.getLastD 0 - w1])⟩) := by
    intro x
    cases m with
    | one y =>
      simp only [arrOf, Option.some.injEq, MpArg.one.injEq, reduceCtorEq, false_and, exists_false, or_false]
    | pair n s =>
      simp only [arrOf, reduceCtorEq, false_and, false_or, MpArg.pair.injEq]
      constructor
      · rintro ⟨e, e2⟩
        split at e
        · cases e
        · rename_i c
          push Not at c
          obtain ⟨h, w1, hn⟩ := List.length_eq_two.mp c.1
          obtain ⟨h', w2, hs⟩ := List.length_eq_two.mp c.2
          unfold concat at e
          rw [hn, hs] at e
          by_cases hc : h = h'
          · subst hc
            rw [if_pos ⟨rfl, by simp, by simp⟩] at e
            cases e
            exact ⟨n, s, h, w1, w2, ⟨rfl, rfl⟩, hn, hs, rfl⟩
          · rw [if_neg (by rintro ⟨q, -⟩; simp at q; exact hc q)] at e
            cases e
      · rintro ⟨n', s', h, w1, w2, ⟨rfl, rfl⟩, hn, hs, rfl⟩
        refine ⟨?_, rfl⟩
        rw [if_neg (by rw [hn, hs]; simp)]
        unfold concat
        rw [hn, hs, if_pos ⟨rfl, by simp, by simp⟩]
        rfl
  rw [← arr o.pattern]
  obtain ⟨ox, ol⟩ := o
  unfold init
  generalize hX : arrOf m = X
  have two : ∀ q : Arr → Option Mp, (∀ x o', q x = some o' → o'.pattern = x) →
      ((X.bind fun x => if x.shape.length ≠ 2 then none else q x) = some ⟨ox, ol⟩ ↔ q ox = some ⟨ox, ol⟩ ∧ X = some ox ∧ ox.shape.length = 2) := by
    intro q hq
    cases X with
    | none => simp
    | some x =>
      simp only [Option.bind_some]
      constructor
      · intro e
        split at e
        · cases e
        · rename_i c
          have : ox = x := hq x _ e
          subst this
          exact ⟨e, rfl, not_not.mp c⟩
      · rintro ⟨e, e1, e2⟩
        cases e1
        rw [if_neg (not_not.mpr e2)]
        exact e
  cases laue with
  | some l =>
    cases pg with
    | some p => simp
    | none =>
      cases sg with
      | some s => simp
      | none =>
        simp only [reduceCtorEq, false_and, if_false, not_true_eq_false, and_false, or_self, ne_eq (none : Option String), ne_eq (none : Option ℤ)]
        rw [two (fun x => some ⟨x, l⟩) (by rintro x o' e; cases e; rfl)]
        simp [eq_comm]
  | none =>
    cases pg with
    | some p =>
      cases sg with
      | some s => simp
      | none =>
        simp only [reduceCtorEq, false_and, and_false, if_false, ne_eq, not_true_eq_false, or_self]
        rw [two (fun x => (pointGroupToLaue p).map fun l : ℕ => ⟨x, (l : ℤ)⟩) (by
          rintro x o' e; obtain ⟨l, -, rfl⟩ := Option.map_eq_some_iff.mp e; rfl)]
        simp [eq_comm]
    | none =>
      cases sg with
      | some s =>
        simp only [reduceCtorEq, and_false, if_false, ne_eq, not_true_eq_false, false_and, or_self]
        rw [two (fun x => (spaceGroupToLaue s).map fun l : ℕ => ⟨x, (l : ℤ)⟩) (by
          rintro x o' e; obtain ⟨l, -, rfl⟩ := Option.map_eq_some_iff.mp e; rfl)]
        simp [eq_comm]
      | none => simp

/-- C133 fails: a Laue group that does not exist is accepted; its operators are refused later. -/
theorem C133_laue_fails (x : Arr) (hx : x.shape.length = 2) : init (.one x) (some 12) none none = some ⟨x, 12⟩ ∧ laueElements 12 = none := by
  constructor
  · simp [init, arrOf, hx]
  · decide

/-- The hypotheses are met: hemispheres of 2 by 2 pixels with space group 225. -/
example : ∃ o, init (.pair ⟨[2, 2], fun _ => 1⟩ ⟨[2, 2], fun _ => 2⟩) none none (some 225) = some o ∧ o.laue = 11 ∧ o.pattern.shape = [2, 4] ∧
    o.pattern.get [0, 1] = 1 ∧ o.pattern.get [0, 2] = 2 := by
  refine ⟨⟨⟨[2, 2 + 2], _⟩, 11⟩, (C133_init_partial _ _ _ _ _).mpr ⟨.inr (.inr ⟨225, 11, rfl, rfl, rfl, by decide, rfl⟩),
    .inr ⟨_, _, 2, 2, 2, rfl, rfl, rfl, rfl⟩⟩, rfl, rfl, by simp, by simp⟩

end Verif.ReadMp
