import Verif.Spec.SpaceGroup
import Mathlib.Data.Int.ModEq
import Mathlib.Data.List.Nodup
import Mathlib.Data.List.Perm.Subperm
import Mathlib.Tactic.Ring
import Mathlib.Tactic.LinearCombination
/-!
Closure of the space-group generators: the rounds of pairwise products give all words of length `2^k`; a
certified enumeration that is closed under left multiplication by the generators is the whole group.
-/
namespace Verif.SG

/-- Composition with the translation reduced to `[0, 24)`. -/
def mulE (A B : Op) : Op := let C := A.mul B; ⟨C.r, C.x % 24, C.y % 24, C.z % 24, C.w⟩

/-- Entries of the rotation block in `{-1, 0, 1}`. -/
def Rot.small (R : Rot) : Bool :=
  decide (-1 ≤ R.a00) && decide (R.a00 ≤ 1) && decide (-1 ≤ R.a01) && decide (R.a01 ≤ 1) &&
  decide (-1 ≤ R.a02) && decide (R.a02 ≤ 1) && decide (-1 ≤ R.a10) && decide (R.a10 ≤ 1) &&
  decide (-1 ≤ R.a11) && decide (R.a11 ≤ 1) && decide (-1 ≤ R.a12) && decide (R.a12 ≤ 1) &&
  decide (-1 ≤ R.a20) && decide (R.a20 ≤ 1) && decide (-1 ≤ R.a21) && decide (R.a21 ≤ 1) &&
  decide (-1 ≤ R.a22) && decide (R.a22 ≤ 1)

/-- Normal form: small rotation block, reduced translation, corner one. -/
def Op.good (o : Op) : Bool :=
  o.r.small && decide (0 ≤ o.x) && decide (o.x < 24) && decide (0 ≤ o.y) && decide (o.y < 24) &&
  decide (0 ≤ o.z) && decide (o.z < 24) && decide (o.w = 1)

lemma op_ext {x y : Op} (h1 : x.r = y.r) (h2 : x.x = y.x) (h3 : x.y = y.y) (h4 : x.z = y.z) (h5 : x.w = y.w) :
    x = y := by
  cases x; cases y; simp_all

lemma small_iff (R : Rot) : R.small = true ↔
    (-1 ≤ R.a00 ∧ R.a00 ≤ 1) ∧ (-1 ≤ R.a01 ∧ R.a01 ≤ 1) ∧ (-1 ≤ R.a02 ∧ R.a02 ≤ 1) ∧
    (-1 ≤ R.a10 ∧ R.a10 ≤ 1) ∧ (-1 ≤ R.a11 ∧ R.a11 ≤ 1) ∧ (-1 ≤ R.a12 ∧ R.a12 ≤ 1) ∧
    (-1 ≤ R.a20 ∧ R.a20 ≤ 1) ∧ (-1 ≤ R.a21 ∧ R.a21 ≤ 1) ∧ (-1 ≤ R.a22 ∧ R.a22 ≤ 1) := by
  simp [Rot.small, and_assoc]

lemma good_iff (o : Op) : o.good = true ↔ o.r.small = true ∧ (0 ≤ o.x ∧ o.x < 24) ∧ (0 ≤ o.y ∧ o.y < 24) ∧
    (0 ≤ o.z ∧ o.z < 24) ∧ o.w = 1 := by
  simp [Op.good, and_assoc]

lemma fmod1_eq {k v : ℤ} (h : 0 ≤ 24 * k + v) : fmod1 k v = v % 24 := by
  unfold fmod1
  rw [Int.tmod_eq_emod_of_nonneg h]
  omega

lemma fmod1_one (k : ℤ) (hk : 0 ≤ k) : fmod1 k (24 * 1) / 24 = 0 := by
  rw [fmod1_eq (by omega)]; decide

private lemma mul_ge {a s : ℤ} (ha : -1 ≤ a ∧ a ≤ 1) (hs : 0 ≤ s ∧ s < 24) : -24 ≤ a * s := by
  have : a = -1 ∨ a = 0 ∨ a = 1 := by omega
  rcases this with h | h | h <;> subst h <;> omega

lemma mulTransMod_eq {A B : Op} (hA : A.good = true) (hB : B.good = true) : mulTransMod A B = mulE A B := by
  obtain ⟨hs, hx, hy, hz, hw⟩ := (good_iff A).1 hA
  obtain ⟨_, gx, gy, gz, gw⟩ := (good_iff B).1 hB
  obtain ⟨h0, h1, h2, h3, h4, h5, h6, h7, h8⟩ := (small_iff A.r).1 hs
  have e0 := mul_ge h0 gx; have e1 := mul_ge h1 gy; have e2 := mul_ge h2 gz
  have e3 := mul_ge h3 gx; have e4 := mul_ge h4 gy; have e5 := mul_ge h5 gz
  have e6 := mul_ge h6 gx; have e7 := mul_ge h7 gy; have e8 := mul_ge h8 gz
  simp only [mulTransMod, mulE, Op.mul, gw, mul_one]
  rw [fmod1_eq (by omega), fmod1_eq (by omega), fmod1_eq (by omega)]

lemma rot_assoc (A B C : Rot) : (A.mul B).mul C = A.mul (B.mul C) := by
  simp only [Rot.mul, Rot.mk.injEq]
  refine ⟨?_, ?_, ?_, ?_, ?_, ?_, ?_, ?_, ?_⟩ <;> ring

private lemma lin_mod (p q r u v w t : ℤ) :
    (p * (u % 24) + q * (v % 24) + r * (w % 24) + t) % 24 = (p * u + q * v + r * w + t) % 24 := by
  have h : ∀ a b : ℤ, a * (b % 24) ≡ a * b [ZMOD 24] := fun a b => (Int.mod_modEq b 24).mul_left a
  exact (((h p u).add (h q v)).add (h r w)).add_right t

private lemma add_mod (s t : ℤ) : (s + t % 24) % 24 = (s + t) % 24 := by omega

lemma mulE_assoc (A B C : Op) (hB : B.w = 1) (hC : C.w = 1) :
    mulE (mulE A B) C = mulE A (mulE B C) := by
  simp only [mulE, Op.mul, Op.mk.injEq, hB, hC, mul_one, rot_assoc, true_and, and_true]
  refine ⟨?_, ?_, ?_⟩
  all_goals
    rw [lin_mod, add_mod]
    simp only [Rot.mul]
    congr 1
    ring

lemma mulE_one_left {x : Op} (hx : x.good = true) : mulE Op.one x = x := by
  obtain ⟨-, gx, gy, gz, gw⟩ := (good_iff x).1 hx
  obtain ⟨r, a, b, c, w⟩ := x
  obtain ⟨r0, r1, r2, r3, r4, r5, r6, r7, r8⟩ := r
  simp only at gx gy gz gw
  simp only [mulE, Op.mul, Op.one, Rot.mul, Op.mk.injEq, Rot.mk.injEq, gw]
  refine ⟨⟨?_, ?_, ?_, ?_, ?_, ?_, ?_, ?_, ?_⟩, ?_, ?_, ?_, ?_⟩ <;> omega

lemma mulE_w (A B : Op) (hA : A.w = 1) (hB : B.w = 1) : (mulE A B).w = 1 := by
  simp [mulE, Op.mul, hA, hB]

/-- Words of length at most `n + 1` in the generators. -/
def Word (g : List Op) : ℕ → Op → Prop
  | 0, x => x ∈ g
  | n + 1, x => Word g n x ∨ ∃ a ∈ g, ∃ y, Word g n y ∧ x = mulE a y

lemma Word.w {g : List Op} (hg : ∀ a ∈ g, a.w = 1) : ∀ {n x}, Word g n x → x.w = 1
  | 0, _, h => hg _ h
  | _ + 1, _, Or.inl h => Word.w hg h
  | _ + 1, _, Or.inr ⟨a, ha, _, hy, e⟩ => e ▸ mulE_w _ _ (hg a ha) (Word.w hg hy)

lemma Word.le {g : List Op} {n m : ℕ} (h : n ≤ m) {x : Op} (hx : Word g n x) : Word g m x := by
  induction h with
  | refl => exact hx
  | step _ ih => exact Or.inl ih

/-! ### uniqueRows -/

lemma mem_uniqueRows (l : List Op) (x : Op) : x ∈ uniqueRows (fun a b => decide (a = b)) l ↔ x ∈ l := by
  induction hn : l.length using Nat.strong_induction_on generalizing l with
  | _ n ih =>
    cases l with
    | nil => simp [uniqueRows]
    | cons a l =>
      rw [uniqueRows, List.mem_cons, List.mem_cons, ih _ (by
        subst hn; exact Nat.lt_succ_of_le (List.length_filter_le _ _)) _ rfl]
      by_cases h : x = a
      · simp [h]
      · simp [h, Ne.symm h, List.mem_filter]

lemma nodup_uniqueRows (l : List Op) : (uniqueRows (fun a b => decide (a = b)) l).Nodup := by
  induction hn : l.length using Nat.strong_induction_on generalizing l with
  | _ n ih =>
    cases l with
    | nil => simp [uniqueRows]
    | cons a l =>
      rw [uniqueRows, List.nodup_cons, mem_uniqueRows]
      refine ⟨by simp [List.mem_filter], ih _ (by
        subst hn; exact Nat.lt_succ_of_le (List.length_filter_le _ _)) _ rfl⟩

/-! ### rounds -/

/-- The rounds without the early `break`. -/
def rounds : ℕ → List Op → List Op
  | 0, g => g
  | n + 1, g => rounds n (closeRound g).1

lemma closeRound_flag {g : List Op} (h : (closeRound g).2 = false) : (closeRound g).1 = g := by
  simp only [closeRound, Bool.not_eq_false', List.isEmpty_iff] at h ⊢
  rw [h, List.append_nil]

lemma closeLoop_eq (n : ℕ) (g : List Op) : closeLoop n g = rounds n g := by
  induction n generalizing g with
  | zero => rfl
  | succ n ih =>
    simp only [closeLoop, rounds]
    cases h : (closeRound g).2 with
    | true => simp [ih]
    | false =>
      have e := closeRound_flag h
      have fix : ∀ m, rounds m g = g := by
        intro m
        induction m with
        | zero => rfl
        | succ m ihm => rw [rounds, e, ihm]
      rw [e, fix]
      simp

/-- Everything in a round stays inside a set that is closed under composition. -/
lemma mem_closeRound {g L : List Op} (hL : ∀ x ∈ L, x.good = true) (hgL : ∀ a ∈ g, a ∈ L)
    (hcl : ∀ x ∈ L, ∀ y ∈ L, mulE x y ∈ L) (x : Op) :
    x ∈ (closeRound g).1 ↔ x ∈ g ∨ ∃ a ∈ g, ∃ b ∈ g, x = mulE a b := by
  simp only [closeRound, List.mem_append, List.mem_filter, mem_uniqueRows, List.mem_flatMap, List.mem_map]
  constructor
  · rintro (h | ⟨⟨a, ha, b, hb, e⟩, -⟩)
    · exact Or.inl h
    · exact Or.inr ⟨a, ha, b, hb, by rw [← e, mulTransMod_eq (hL _ (hgL _ ha)) (hL _ (hgL _ hb))]⟩
  · rintro (h | ⟨a, ha, b, hb, e⟩)
    · exact Or.inl h
    · by_cases hx : x ∈ g
      · exact Or.inl hx
      · refine Or.inr ⟨⟨a, ha, b, hb, by rw [e, mulTransMod_eq (hL _ (hgL _ ha)) (hL _ (hgL _ hb))]⟩, ?_⟩
        have hxL : x ∈ L := e ▸ hcl _ (hgL _ ha) _ (hgL _ hb)
        rw [Bool.not_eq_true', List.any_eq_false]
        intro c hc hd
        apply hx
        have hd := of_decide_eq_true hd
        have w1 := ((good_iff x).1 (hL _ hxL)).2.2.2.2
        have w2 := ((good_iff c).1 (hL _ (hgL _ hc))).2.2.2.2
        have : x = c := op_ext hd.1 hd.2.1 hd.2.2.1 hd.2.2.2 (w1.trans w2.symm)
        exact this ▸ hc

lemma nodup_closeRound {g : List Op} (h : g.Nodup) : (closeRound g).1.Nodup := by
  simp only [closeRound]
  refine List.Nodup.append h ((nodup_uniqueRows _).filter _) ?_
  intro x hx hy
  have := (List.mem_filter.1 hy).2
  rw [Bool.not_eq_true', List.any_eq_false] at this
  exact this x hx (by simp)

/-- The certified situation: `g ⊆ L`, normal forms, `L` closed under left multiplication by `g`, and every
element of `L` a word of length at most `2^k`. -/
structure Cert (g L : List Op) (k : ℕ) : Prop where
  one : Op.one ∈ g
  gnodup : g.Nodup
  nodup : L.Nodup
  good : ∀ x ∈ L, x.good = true
  sub : ∀ a ∈ g, a ∈ L
  closed : ∀ a ∈ g, ∀ x ∈ L, mulE a x ∈ L
  word : ∀ x ∈ L, Word g (2 ^ k - 1) x

namespace Cert
variable {g L : List Op} {k : ℕ}

lemma w (c : Cert g L k) {x : Op} (h : x ∈ L) : x.w = 1 := ((good_iff x).1 (c.good x h)).2.2.2.2

lemma word_closed (c : Cert g L k) : ∀ n x, Word g n x → x ∈ L ∧ ∀ y ∈ L, mulE x y ∈ L
  | 0, x, h => ⟨c.sub x h, fun y hy => c.closed x h y hy⟩
  | n + 1, x, Or.inl h => word_closed c n x h
  | n + 1, x, Or.inr ⟨a, ha, y, hy, e⟩ => by
    obtain ⟨h1, h2⟩ := word_closed c n y hy
    subst e
    refine ⟨c.closed a ha y h1, fun z hz => ?_⟩
    rw [mulE_assoc _ _ _ (c.w h1) (c.w hz)]
    exact c.closed a ha _ (h2 z hz)

lemma mul_closed (c : Cert g L k) : ∀ x ∈ L, ∀ y ∈ L, mulE x y ∈ L :=
  fun x hx => (c.word_closed _ x (c.word x hx)).2

/-- Words split into products of shorter words. -/
lemma split (c : Cert g L k) (m n : ℕ) : ∀ x, Word g (m + n + 1) x → ∃ u v, Word g m u ∧ Word g n v ∧ x = mulE u v := by
  induction m with
  | zero =>
    rintro x (h | ⟨a, ha, y, hy, e⟩)
    · rw [Nat.zero_add] at h
      exact ⟨Op.one, x, c.one, h, (mulE_one_left (c.good x (c.word_closed _ x h).1)).symm⟩
    · rw [Nat.zero_add] at hy
      exact ⟨a, y, ha, hy, e⟩
  | succ m ih =>
    have e1 : m + 1 + n = m + n + 1 := by omega
    rintro x (h | ⟨a, ha, y, hy, e⟩)
    · rw [e1] at h
      obtain ⟨u, v, hu, hv, e⟩ := ih x h
      exact ⟨u, v, Or.inl hu, hv, e⟩
    · rw [e1] at hy
      obtain ⟨u, v, hu, hv, e'⟩ := ih y hy
      refine ⟨mulE a u, v, Or.inr ⟨a, ha, u, hu, rfl⟩, hv, ?_⟩
      rw [e, e', mulE_assoc _ _ _ (c.w (c.word_closed _ u hu).1) (c.w (c.word_closed _ v hv).1)]

lemma mem_rounds (c : Cert g L k) : ∀ n m S, (∀ a ∈ S, a ∈ L) → S.Nodup → (∀ x, Word g (2 ^ m - 1) x → x ∈ S) →
    (∀ a ∈ rounds n S, a ∈ L) ∧ (rounds n S).Nodup ∧ (∀ x, Word g (2 ^ (m + n) - 1) x → x ∈ rounds n S)
  | 0, m, S, h1, h2, h3 => ⟨h1, h2, h3⟩
  | n + 1, m, S, h1, h2, h3 => by
    have hm := mem_closeRound c.good h1 c.mul_closed
    have r := mem_rounds c n (m + 1) (closeRound S).1 ?_ (nodup_closeRound h2) ?_
    · rw [show m + (n + 1) = m + 1 + n by omega]; exact r
    · intro a ha
      rcases (hm a).1 ha with h | ⟨p, hp, q, hq, e⟩
      · exact h1 a h
      · exact e ▸ c.mul_closed _ (h1 _ hp) _ (h1 _ hq)
    · intro x hx
      have hp : 1 ≤ 2 ^ m := Nat.one_le_two_pow
      rw [show 2 ^ (m + 1) - 1 = (2 ^ m - 1) + (2 ^ m - 1) + 1 by rw [pow_succ]; omega] at hx
      obtain ⟨u, v, hu, hv, e⟩ := c.split _ _ x hx
      exact (hm x).2 (Or.inr ⟨u, h3 u hu, v, h3 v hv, e⟩)

/-- The loop of `sg_operators` returns exactly the certified group, without repetitions. -/
lemma closeLoop_perm (c : Cert g L k) : (closeLoop k g).Perm L := by
  rw [closeLoop_eq]
  have := c.mem_rounds k 0 g c.sub c.gnodup (fun x hx => hx)
  rw [Nat.zero_add] at this
  exact (List.perm_ext_iff_of_nodup this.2.1 c.nodup).2 fun x => ⟨this.1 x, fun h => this.2.2 x (c.word x h)⟩

end Cert

/-! ### the certificate is computed -/

/-- A key for an operator, used only to speed up look-ups. -/
def enc (o : Op) : ℕ :=
  let R := o.r
  (R.a00 + 3 * R.a01 + 9 * R.a02 + 27 * R.a10 + 81 * R.a11 + 243 * R.a12 + 729 * R.a20 + 2187 * R.a21
    + 6561 * R.a22 + 10000 + 20000 * (o.x + 24 * o.y + 576 * o.z)).toNat

/-- Hash of an operator. -/
def hsh (o : Op) : ℕ := enc o % 10019

/-- State of the enumeration: all operators, those of the last layer, and a bit mask of the hashes. -/
structure St where
  all : List Op
  new : List Op
  mask : ℕ

/-- Add an operator unless its hash is present. -/
def ins (s : St) (x : Op) : St :=
  if s.mask.testBit (hsh x) then s else
    match s.mask ||| (1 <<< hsh x) with
    | 0 => s
    | m + 1 => ⟨x :: s.all, x :: s.new, m + 1⟩

/-- Next layer. -/
def bfsStep (g : List Op) (s : St) : St :=
  s.new.foldl (fun s' y => g.foldl (fun s'' a => ins s'' (mulE a y)) s') ⟨s.all, [], s.mask⟩

/-- Enumeration of the words of length at most `n + 1`. -/
def bfs (g : List Op) : ℕ → St
  | 0 => g.foldl ins ⟨[], [], 0⟩
  | n + 1 => bfsStep g (bfs g n)

lemma ins_cases (s : St) (x : Op) : ins s x = s ∨
    (s.mask.testBit (hsh x) = false ∧ ins s x = ⟨x :: s.all, x :: s.new, s.mask ||| (1 <<< hsh x)⟩) := by
  unfold ins
  split
  · exact Or.inl rfl
  · rename_i h
    split
    · exact Or.inl rfl
    · rename_i m hm
      exact Or.inr ⟨by simpa using h, by rw [hm]⟩

/-- Invariant of the enumeration. -/
structure Inv (P : Op → Prop) (s : St) : Prop where
  nodup : s.all.Nodup
  mask : ∀ x ∈ s.all, s.mask.testBit (hsh x) = true
  all : ∀ x ∈ s.all, P x
  new : ∀ x ∈ s.new, P x

lemma Inv.ins {P : Op → Prop} {s : St} (h : Inv P s) {x : Op} (hx : P x) : Inv P (ins s x) := by
  rcases ins_cases s x with e | ⟨hb, e⟩
  · rw [e]; exact h
  · rw [e]
    refine ⟨List.nodup_cons.2 ⟨fun hm => ?_, h.nodup⟩, ?_, ?_, ?_⟩
    · have := h.mask x hm
      rw [hb] at this; cases this
    · intro y hy
      rw [Nat.testBit_or]
      rcases List.mem_cons.1 hy with rfl | hy
      · simp [Nat.testBit_shiftLeft]
      · simp [h.mask y hy]
    · intro y hy
      rcases List.mem_cons.1 hy with rfl | hy
      · exact hx
      · exact h.all y hy
    · intro y hy
      rcases List.mem_cons.1 hy with rfl | hy
      · exact hx
      · exact h.new y hy

lemma Inv.foldl {P : Op → Prop} (f : Op → Op) (l : List Op) (hl : ∀ a ∈ l, P (f a)) :
    ∀ s, Inv P s → Inv P (l.foldl (fun s a => SG.ins s (f a)) s) := by
  induction l with
  | nil => intro s h; exact h
  | cons a l ih =>
    intro s h
    exact ih (fun b hb => hl b (List.mem_cons_of_mem _ hb)) _ (h.ins (hl a List.mem_cons_self))

lemma bfs_inv (g : List Op) : ∀ n, Inv (Word g n) (bfs g n)
  | 0 => Inv.foldl id g (fun a ha => ha) _ ⟨List.nodup_nil, by simp, by simp, by simp⟩
  | n + 1 => by
    have h := bfs_inv g n
    have h0 : Inv (Word g (n + 1)) ⟨(bfs g n).all, [], (bfs g n).mask⟩ :=
      ⟨h.nodup, h.mask, fun x hx => Or.inl (h.all x hx), by simp⟩
    have hn : ∀ y ∈ (bfs g n).new, Word g n y := h.new
    show Inv _ (bfsStep g (bfs g n))
    unfold bfsStep
    generalize (bfs g n).new = l at hn
    generalize (⟨(bfs g n).all, [], (bfs g n).mask⟩ : St) = s at h0
    induction l generalizing s with
    | nil => exact h0
    | cons y l ih =>
      refine ih (fun z hz => hn z (List.mem_cons_of_mem _ hz)) _ ?_
      exact Inv.foldl (fun a => mulE a y) g
        (fun a ha => Or.inr ⟨a, ha, y, hn y List.mem_cons_self, rfl⟩) _ h0

/-- Search tree for look-ups. -/
inductive Tree
  | leaf
  | node (l : Tree) (k : ℕ) (v : Op) (r : Tree)

/-- Insertion. -/
def Tree.insert : Tree → ℕ → Op → Tree
  | .leaf, k, v => .node .leaf k v .leaf
  | .node l k' v' r, k, v => if k.blt k' then .node (l.insert k v) k' v' r else .node l k' v' (r.insert k v)

/-- Look-up. -/
def Tree.find : Tree → ℕ → Option Op
  | .leaf, _ => none
  | .node l k' v' r, k => if k.beq k' then some v' else if k.blt k' then l.find k else r.find k

/-- Membership. -/
def Tree.Mem (x : Op) : Tree → Prop
  | .leaf => False
  | .node l _ v r => l.Mem x ∨ x = v ∨ r.Mem x

lemma Tree.find_mem {t : Tree} {k : ℕ} {v : Op} (h : t.find k = some v) : t.Mem v := by
  induction t with
  | leaf => cases h
  | node l k' v' r ihl ihr =>
    unfold Tree.find at h
    split at h
    · exact Or.inr (Or.inl (Option.some.inj h).symm)
    · split at h
      · exact Or.inl (ihl h)
      · exact Or.inr (Or.inr (ihr h))

lemma Tree.mem_insert {t : Tree} {k : ℕ} {v x : Op} (h : (t.insert k v).Mem x) : x = v ∨ t.Mem x := by
  induction t with
  | leaf => rcases h with h | h | h; exacts [h.elim, Or.inl h, h.elim]
  | node l k' v' r ihl ihr =>
    unfold Tree.insert at h
    split at h
    · rcases h with h | h | h
      · rcases ihl h with h | h
        exacts [Or.inl h, Or.inr (Or.inl h)]
      · exact Or.inr (Or.inr (Or.inl h))
      · exact Or.inr (Or.inr (Or.inr h))
    · rcases h with h | h | h
      · exact Or.inr (Or.inl h)
      · exact Or.inr (Or.inr (Or.inl h))
      · rcases ihr h with h | h
        exacts [Or.inl h, Or.inr (Or.inr (Or.inr h))]

/-- Tree of a list; the match forces the evaluation of the key. -/
def mkTree : List Op → Tree
  | [] => .leaf
  | x :: l => match enc x with
    | 0 => mkTree l
    | k + 1 => (mkTree l).insert k x

lemma mem_mkTree {l : List Op} {x : Op} (h : (mkTree l).Mem x) : x ∈ l := by
  induction l with
  | nil => exact h.elim
  | cons a l ih =>
    unfold mkTree at h
    split at h
    · exact List.mem_cons_of_mem _ (ih h)
    · rcases Tree.mem_insert h with h | h
      · exact h ▸ List.mem_cons_self
      · exact List.mem_cons_of_mem _ (ih h)

/-- Certified look-up. -/
def Tree.has (t : Tree) (x : Op) : Bool :=
  match t.find (enc x - 1) with
  | none => false
  | some v => decide (v = x)

lemma has_mem {l : List Op} {x : Op} (h : (mkTree l).has x = true) : x ∈ l := by
  unfold Tree.has at h
  split at h
  · cases h
  · rename_i v hv
    exact of_decide_eq_true h ▸ mem_mkTree (Tree.find_mem hv)

/-- Inverse of an operator, by the adjugate. -/
def Op.inv (o : Op) : Op :=
  let R := o.r
  let d := Spec.det3 R
  let S : Rot := ⟨d * (R.a11 * R.a22 - R.a12 * R.a21), d * (R.a02 * R.a21 - R.a01 * R.a22),
    d * (R.a01 * R.a12 - R.a02 * R.a11), d * (R.a12 * R.a20 - R.a10 * R.a22), d * (R.a00 * R.a22 - R.a02 * R.a20),
    d * (R.a02 * R.a10 - R.a00 * R.a12), d * (R.a10 * R.a21 - R.a11 * R.a20), d * (R.a01 * R.a20 - R.a00 * R.a21),
    d * (R.a00 * R.a11 - R.a01 * R.a10)⟩
  ⟨S, (-(S.a00 * o.x + S.a01 * o.y + S.a02 * o.z)) % 24, (-(S.a10 * o.x + S.a11 * o.y + S.a12 * o.z)) % 24,
   (-(S.a20 * o.x + S.a21 * o.y + S.a22 * o.z)) % 24, 1⟩

/-- The check evaluated by the kernel. -/
def checkWith (g L : List Op) (t : Tree) (ord : ℕ) : Bool :=
  decide (L.length = ord) && g.all (fun a => t.has a && t.has a.inv && decide (mulE a a.inv = Op.one)) &&
  decide (Op.one ∈ g) && decide g.Nodup &&
  L.all (fun x => x.good && g.all fun a => t.has (mulE a x))

/-- The lattice letter of a space group, the second character of its name. -/
def letter (sg : ℕ) : Char := (names.getD (sg - 1) "").toList.getD 1 ' '

/-- Check of the pure translations and of the kinds of operations. -/
def checkLattice (L : List Op) (t : Tree) (c : Char) (p : Spec.PG) : Bool :=
  (Spec.centring c).all (fun v => t.has ⟨Op.one.r, v.1, v.2.1, v.2.2, 1⟩) &&
  L.all (fun x => !decide (x.r = Op.one.r) || decide ((x.x, x.y, x.z) ∈ Spec.centring c)) &&
  (Spec.Kind.list.zip p.counts).all (fun q =>
    decide (L.countP (fun x => decide ((Spec.det3 x.r, Spec.trace3 x.r) = q.1.detTrace))
      = (Spec.centring c).length * q.2))

/-- The number of rounds. -/
def depth (sg : ℕ) : ℕ := if sg ∈ deepGroups then 3 else 2

/-- The certified list of the operators generated by `g`. -/
def certL (g : List Op) (k : ℕ) : List Op := (bfs g (2 ^ k - 1)).all

/-- Check of one space group. -/
def check (sg : ℕ) : Bool :=
  match readGenString sg 1, ords[sg - 1]? with
  | .ok g, some n => checkWith g (certL g (depth sg)) (mkTree (certL g (depth sg))) n &&
      checkLattice (certL g (depth sg)) (mkTree (certL g (depth sg))) (letter sg) (Spec.pgOfSpaceGroup sg)
  | _, _ => false

/-- What a successful check proves. -/
structure Sound (sg : ℕ) (g L : List Op) (n : ℕ) : Prop where
  read : readGenString sg 1 = .ok g
  ord : ords[sg - 1]? = some n
  length : L.length = n
  cert : Cert g L (depth sg)
  inv : ∀ a ∈ g, ∃ b ∈ L, mulE a b = Op.one
  centring : ∀ v ∈ Spec.centring (letter sg), (⟨Op.one.r, v.1, v.2.1, v.2.2, 1⟩ : Op) ∈ L
  translations : ∀ x ∈ L, x.r = Op.one.r → (x.x, x.y, x.z) ∈ Spec.centring (letter sg)
  kinds : ∀ q ∈ Spec.Kind.list.zip (Spec.pgOfSpaceGroup sg).counts,
    L.countP (fun x => decide ((Spec.det3 x.r, Spec.trace3 x.r) = q.1.detTrace))
      = (Spec.centring (letter sg)).length * q.2

lemma check_sound {sg : ℕ} (h : check sg = true) : ∃ g L n, Sound sg g L n := by
  unfold check at h
  split at h
  · rename_i g n hg hn
    refine ⟨g, certL g (depth sg), n, ?_⟩
    simp only [checkWith, checkLattice, Bool.and_eq_true, List.all_eq_true] at h
    obtain ⟨⟨⟨⟨⟨h1, h2⟩, h3⟩, h4⟩, h5⟩, ⟨h6, h7⟩, h8⟩ := h
    have inv := bfs_inv g (2 ^ depth sg - 1)
    refine ⟨hg, hn, of_decide_eq_true h1,
      ⟨of_decide_eq_true h3, of_decide_eq_true h4, inv.nodup, fun x hx => (h5 x hx).1,
      fun a ha => has_mem (h2 a ha).1.1, fun a ha x hx => has_mem ((h5 x hx).2 a ha), inv.all⟩,
      fun a ha => ⟨a.inv, has_mem (h2 a ha).1.2, of_decide_eq_true (h2 a ha).2⟩,
      fun v hv => has_mem (h6 v hv), fun x hx hr => ?_, fun q hq => of_decide_eq_true (h8 q hq)⟩
    have := h7 x hx
    rw [Bool.or_eq_true, Bool.not_eq_true', decide_eq_false_iff_not, decide_eq_true_eq] at this
    exact this.resolve_left (fun h => h hr)
  · cases h

end Verif.SG
