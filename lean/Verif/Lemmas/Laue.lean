import Verif.Lemmas.LaueExact
import Verif.Spec.Laue
import Mathlib.Tactic.IntervalCases
/-! Group facts about the Laue tables, evaluated exactly by the kernel and transported to ℝ. -/
open Quaternion
namespace Verif
open Spec

def XQ.eqv (p c : XQ) : Bool := decide (p = c.dbl) || decide (p = c.dbl.neg)

def closedB (l : List XQ) : Bool :=
  l.all fun p => l.all fun q => l.any fun c => (p.mul q).eqv c
def invB (l : List XQ) : Bool := l.all fun p => l.any fun c => p.conj.dbl.eqv c
def unitB (l : List XQ) : Bool := l.all fun p => decide (p.dot p = ⟨4, 0, 0, 0⟩)
def distB : List XQ → Bool
  | [] => true
  | p :: l => (l.all fun q => let d := (p.dot q).mul (p.dot q)
      decide (d.b = 0) && decide (d.c = 0) && decide (d.d = 0) && decide (d.a < 16)) && distB l
def headB (l : List XQ) : Bool :=
  match l with
  | [] => false
  | p :: _ => decide (p = ⟨⟨2,0,0,0⟩,⟨0,0,0,0⟩,⟨0,0,0,0⟩,⟨0,0,0,0⟩⟩)

theorem allX : (laueGroupsX.all fun l => closedB l && invB l && unitB l && distB l && headB l) = true := by
  decide +kernel

/-- A list of quaternions that represents, up to sign, a finite rotation group. -/
structure RotGroup (G : List Q) : Prop where
  head : G.head? = some ⟨1, 0, 0, 0⟩
  unit : ∀ g ∈ G, IsUnit4 g
  closed : ∀ a ∈ G, ∀ b ∈ G, ∃ c ∈ G, SameUpToSign (toH a * toH b) (toH c)
  inv : ∀ a ∈ G, ∃ c ∈ G, SameUpToSign (star (toH a)) (toH c)
  dist : G.Pairwise fun a b => ¬ SameUpToSign (toH a) (toH b)

theorem XQ.eqv_same {a b c : XQ} (h : (a.mul b).eqv c = true) :
    SameUpToSign (toH a.toQ * toH b.toQ) (toH c.toQ) := by
  simp only [XQ.eqv, Bool.or_eq_true, decide_eq_true_eq] at h
  rcases h with h | h
  · left; rw [← toH_prodRaw, XQ.toQ_mul_dbl h]
  · right
    have : c.dbl.neg = c.neg.dbl := by
      simp only [XQ.dbl, XQ.neg, E4.dbl, E4.neg, mul_neg]
    rw [this] at h
    rw [← toH_prodRaw, XQ.toQ_mul_dbl h, XQ.toQ_neg, toH_neg]

theorem XQ.dbl_inj {a b : XQ} (h : a.dbl = b.dbl) : a = b := by
  rcases a with ⟨⟨_,_,_,_⟩,⟨_,_,_,_⟩,⟨_,_,_,_⟩,⟨_,_,_,_⟩⟩
  rcases b with ⟨⟨_,_,_,_⟩,⟨_,_,_,_⟩,⟨_,_,_,_⟩,⟨_,_,_,_⟩⟩
  simp [XQ.dbl, E4.dbl] at h ⊢
  exact h

theorem XQ.eqv_conj {a c : XQ} (h : a.conj.dbl.eqv c = true) :
    SameUpToSign (star (toH a.toQ)) (toH c.toQ) := by
  simp only [XQ.eqv, Bool.or_eq_true, decide_eq_true_eq] at h
  rw [← toH_conj, ← XQ.toQ_conj]
  rcases h with h | h
  · left; rw [XQ.dbl_inj h]
  · right
    have : c.dbl.neg = c.neg.dbl := by
      simp only [XQ.dbl, XQ.neg, E4.dbl, E4.neg, mul_neg]
    rw [this] at h
    rw [XQ.dbl_inj h, XQ.toQ_neg, toH_neg]

theorem dot_of_same {a b : Q} (ha : IsUnit4 a) (h : SameUpToSign (toH a) (toH b)) :
    Q.dot a b ^ 2 = 1 := by
  rcases h with h | h
  · have := toH_inj h; subst this
    have : Q.dot a a = 1 := by unfold IsUnit4 at ha; unfold Q.dot; linarith
    rw [this]; norm_num
  · rw [← toH_neg] at h
    have := toH_inj h; subst this
    have : Q.dot b.neg b = -1 := by
      unfold IsUnit4 at ha; unfold Q.dot; simp only [Q.neg] at *; linarith
    rw [this]; norm_num

theorem rotGroup_of (l : List XQ)
    (h : (closedB l && invB l && unitB l && distB l && headB l) = true) :
    RotGroup (l.map XQ.toQ) := by
  simp only [Bool.and_eq_true] at h
  obtain ⟨⟨⟨⟨hc, hi⟩, hu⟩, hd⟩, hh⟩ := h
  have hunit : ∀ g ∈ l, IsUnit4 g.toQ := by
    intro g hg
    have := List.all_eq_true.mp hu g hg
    simp only [decide_eq_true_eq] at this
    have h2 := XQ.toQ_dot g g
    rw [this] at h2
    simp [E4.ev, Q.dot] at h2
    unfold IsUnit4; linarith
  refine ⟨?_, ?_, ?_, ?_, ?_⟩
  · cases l with
    | nil => simp [headB] at hh
    | cons p t =>
      simp only [headB, decide_eq_true_eq] at hh
      subst hh
      simp [XQ.toQ, E4.ev]
  · intro g hg
    obtain ⟨x, hx, rfl⟩ := List.mem_map.mp hg
    exact hunit x hx
  · intro a ha b hb
    obtain ⟨x, hx, rfl⟩ := List.mem_map.mp ha
    obtain ⟨y, hy, rfl⟩ := List.mem_map.mp hb
    have := List.all_eq_true.mp (List.all_eq_true.mp hc x hx) y hy
    obtain ⟨c, hcm, hce⟩ := List.any_eq_true.mp this
    exact ⟨c.toQ, List.mem_map_of_mem hcm, XQ.eqv_same hce⟩
  · intro a ha
    obtain ⟨x, hx, rfl⟩ := List.mem_map.mp ha
    have := List.all_eq_true.mp hi x hx
    obtain ⟨c, hcm, hce⟩ := List.any_eq_true.mp this
    exact ⟨c.toQ, List.mem_map_of_mem hcm, XQ.eqv_conj hce⟩
  · clear hc hi hh hu
    induction l with
    | nil => simp
    | cons p t ih =>
      simp only [distB, Bool.and_eq_true] at hd
      rw [List.map_cons, List.pairwise_cons]
      refine ⟨?_, ih hd.2 (fun g hg => hunit g (List.mem_cons_of_mem _ hg))⟩
      intro b hb hs
      obtain ⟨y, hy, rfl⟩ := List.mem_map.mp hb
      have h1 := dot_of_same (hunit p (List.mem_cons_self)) hs
      have h2 := List.all_eq_true.mp hd.1 y hy
      simp only [Bool.and_eq_true, decide_eq_true_eq] at h2
      obtain ⟨⟨⟨hb0, hc0⟩, hd0⟩, ha0⟩ := h2
      rw [XQ.toQ_dot] at h1
      have h3 : ((p.dot y).mul (p.dot y)).ev = 16 := by
        rw [E4.ev_mul]; linear_combination 16 * h1
      simp only [E4.ev, hb0, hc0, hd0] at h3
      have h4 : (((p.dot y).mul (p.dot y)).a : ℝ) = 16 := by simpa using h3
      have h5 : ((p.dot y).mul (p.dot y)).a = 16 := by exact_mod_cast h4
      omega

theorem pyIndex_nat {α : Type} (l : List α) (n : ℕ) (hn : 1 ≤ n) :
    pyIndex l ((n : ℤ) - 1) = l[n - 1]? := by
  unfold pyIndex
  rw [if_pos (by omega)]
  congr 1
  omega

theorem laueElements_some (n : ℕ) (h1 : 1 ≤ n) (h2 : n ≤ 11) :
    ∃ l ∈ laueGroupsX, laueGroupsX[n-1]? = some l ∧ laueElements n = some (l.map XQ.toQ) := by
  have hlt : n - 1 < laueGroupsX.length := by
    have : laueGroupsX.length = 11 := rfl
    omega
  refine ⟨laueGroupsX[n-1], List.getElem_mem hlt, ?_, ?_⟩
  · rw [List.getElem?_eq_getElem hlt]
  · unfold laueElements
    rw [pyIndex_nat _ _ h1, laueGroups_exact, List.getElem?_map, List.getElem?_eq_getElem hlt]
    rfl

theorem rotGroup_laue {n : ℕ} {G : List Q} (h1 : 1 ≤ n) (h2 : n ≤ 11)
    (hG : laueElements n = some G) : RotGroup G := by
  obtain ⟨l, hl, _, he⟩ := laueElements_some n h1 h2
  rw [he] at hG
  obtain rfl := Option.some.inj hG
  exact rotGroup_of l (List.all_eq_true.mp allX l hl)

/-! Generation. -/

/-- exact generators -/
def gensX : List (List XQ) :=
  let z1 : XQ := ⟨⟨-2,0,0,0⟩,⟨0,0,0,0⟩,⟨0,0,0,0⟩,⟨0,0,0,0⟩⟩
  let z2 : XQ := ⟨⟨0,0,0,0⟩,⟨0,0,0,0⟩,⟨0,0,0,0⟩,⟨2,0,0,0⟩⟩
  let z3 : XQ := ⟨⟨1,0,0,0⟩,⟨0,0,0,0⟩,⟨0,0,0,0⟩,⟨0,0,1,0⟩⟩
  let z4 : XQ := ⟨⟨0,1,0,0⟩,⟨0,0,0,0⟩,⟨0,0,0,0⟩,⟨0,1,0,0⟩⟩
  let z6 : XQ := ⟨⟨0,0,1,0⟩,⟨0,0,0,0⟩,⟨0,0,0,0⟩,⟨1,0,0,0⟩⟩
  let xt : XQ := ⟨⟨0,0,0,0⟩,⟨2,0,0,0⟩,⟨0,0,0,0⟩,⟨0,0,0,0⟩⟩
  let d3 : XQ := ⟨⟨1,0,0,0⟩,⟨1,0,0,0⟩,⟨1,0,0,0⟩,⟨1,0,0,0⟩⟩
  [[z1], [z2], [z2, xt], [z4], [z4, xt], [z3], [z3, xt], [z6], [z6, xt], [z2, xt, d3], [z4, d3]]

/-- elements of `cand` reachable from `from_` by right multiplication with a generator -/
def stepX (gens cand from_ : List XQ) : List XQ :=
  cand.filter fun c => from_.any fun p => gens.any fun g => decide (p.mul g = c.dbl)
def oneX : XQ := ⟨⟨2,0,0,0⟩,⟨0,0,0,0⟩,⟨0,0,0,0⟩,⟨0,0,0,0⟩⟩
def reachX (gens cand : List XQ) : ℕ → List XQ
  | 0 => [oneX]
  | k + 1 => let r := reachX gens cand k; r ++ stepX gens (cand.filter (fun c => !r.contains c)) r

theorem genB : ((laueGroupsX.zip gensX).all fun p =>
    (p.1.all fun c => (reachX p.2 (p.1 ++ p.1.map XQ.neg) 12).contains c &&
        (reachX p.2 (p.1 ++ p.1.map XQ.neg) 12).contains c.neg)
      && (p.2.all fun g => p.1.any fun c => g.dbl.eqv c)) = true := by
  decide +kernel

theorem one_toH : toH oneX.toQ = 1 := by
  have : oneX.toQ = ⟨1, 0, 0, 0⟩ := by simp [oneX, XQ.toQ, E4.ev]
  rw [this]
  ext <;> simp

theorem reach_mem (gens cand : List XQ) (S : Submonoid ℍ[ℝ]) (hg : ∀ g ∈ gens, toH g.toQ ∈ S) (k : ℕ) :
    ∀ c ∈ reachX gens cand k, toH c.toQ ∈ S := by
  induction k with
  | zero =>
    intro c hc
    simp only [reachX, List.mem_singleton] at hc
    rw [hc, one_toH]; exact S.one_mem
  | succ k ih =>
    intro c hc
    simp only [reachX, List.mem_append] at hc
    rcases hc with hc | hc
    · exact ih c hc
    · unfold stepX at hc
      rw [List.mem_filter] at hc
      obtain ⟨p, hp, hpp⟩ := List.any_eq_true.mp hc.2
      obtain ⟨g, hgm, hgg⟩ := List.any_eq_true.mp hpp
      simp only [decide_eq_true_eq] at hgg
      rw [← XQ.toQ_mul_dbl hgg, toH_prodRaw]
      exact S.mul_mem (ih p hp) (hg g hgm)

theorem eqv_same1 {a c : XQ} (h : a.dbl.eqv c = true) : SameUpToSign (toH a.toQ) (toH c.toQ) := by
  simp only [XQ.eqv, Bool.or_eq_true, decide_eq_true_eq] at h
  rcases h with h | h
  · left; rw [XQ.dbl_inj h]
  · right
    have : c.dbl.neg = c.neg.dbl := by
      simp only [XQ.dbl, XQ.neg, E4.dbl, E4.neg, mul_neg]
    rw [this] at h
    rw [XQ.dbl_inj h, XQ.toQ_neg, toH_neg]

/-- the exact generators are the generators of the specification -/
theorem gens_spec (n : ℕ) (h1 : 1 ≤ n) (h2 : n ≤ 11) :
    ∃ gs, gensX[n-1]? = some gs ∧ laueGens n = {h | ∃ g ∈ gs, h = toH g.toQ} := by
  have z1 : toH (⟨⟨-2,0,0,0⟩,⟨0,0,0,0⟩,⟨0,0,0,0⟩,⟨0,0,0,0⟩⟩ : XQ).toQ = zRot 1 := by
    apply Quaternion.ext <;> simp [zRot, XQ.toQ, E4.ev]
  have z2 : toH (⟨⟨0,0,0,0⟩,⟨0,0,0,0⟩,⟨0,0,0,0⟩,⟨2,0,0,0⟩⟩ : XQ).toQ = zRot 2 := by
    apply Quaternion.ext <;> simp [zRot, XQ.toQ, E4.ev]
  have z3 : toH (⟨⟨1,0,0,0⟩,⟨0,0,0,0⟩,⟨0,0,0,0⟩,⟨0,0,1,0⟩⟩ : XQ).toQ = zRot 3 := by
    apply Quaternion.ext <;> simp [zRot, XQ.toQ, E4.ev]
  have z4 : toH (⟨⟨0,1,0,0⟩,⟨0,0,0,0⟩,⟨0,0,0,0⟩,⟨0,1,0,0⟩⟩ : XQ).toQ = zRot 4 := by
    apply Quaternion.ext <;> simp [zRot, XQ.toQ, E4.ev]
  have z6 : toH (⟨⟨0,0,1,0⟩,⟨0,0,0,0⟩,⟨0,0,0,0⟩,⟨1,0,0,0⟩⟩ : XQ).toQ = zRot 6 := by
    apply Quaternion.ext <;> simp [zRot, XQ.toQ, E4.ev]
  have xt : toH (⟨⟨0,0,0,0⟩,⟨2,0,0,0⟩,⟨0,0,0,0⟩,⟨0,0,0,0⟩⟩ : XQ).toQ = xTwo := by
    apply Quaternion.ext <;> simp [xTwo, XQ.toQ, E4.ev]
  have d3 : toH (⟨⟨1,0,0,0⟩,⟨1,0,0,0⟩,⟨1,0,0,0⟩,⟨1,0,0,0⟩⟩ : XQ).toQ = diag3 := by
    apply Quaternion.ext <;> simp [diag3, XQ.toQ, E4.ev]
  interval_cases n <;> refine ⟨_, rfl, ?_⟩ <;> ext h <;>
    simp [laueGens, z1, z2, z3, z4, z6, xt, d3]

theorem gen_laue {n : ℕ} {G : List Q} (h1 : 1 ≤ n) (h2 : n ≤ 11)
    (hG : laueElements n = some G) (h : ℍ[ℝ]) :
    h ∈ laueRotations n ↔ ∃ g ∈ G, SameUpToSign h (toH g) := by
  have hR := rotGroup_laue h1 h2 hG
  obtain ⟨l, hl, hidx, he⟩ := laueElements_some n h1 h2
  rw [he] at hG
  obtain rfl := Option.some.inj hG
  obtain ⟨gs, hgs, hspec⟩ := gens_spec n h1 h2
  have hz : (l, gs) ∈ laueGroupsX.zip gensX := by
    apply List.mem_of_getElem? (i := n - 1)
    rw [List.getElem?_zip_eq_some]
    exact ⟨hidx, hgs⟩
  have hb := List.all_eq_true.mp genB _ hz
  simp only [Bool.and_eq_true] at hb
  obtain ⟨hb1, hb2⟩ := hb
  have hsub : ∀ g ∈ gs, toH g.toQ ∈ laueRotations n := by
    intro g hg
    apply Submonoid.subset_closure
    rw [hspec]; exact ⟨g, hg, rfl⟩
  constructor
  · intro hh
    unfold laueRotations at hh
    induction hh using Submonoid.closure_induction with
    | mem x hx =>
      rw [hspec] at hx
      obtain ⟨g, hg, rfl⟩ := hx
      obtain ⟨c, hc, hcc⟩ := List.any_eq_true.mp (List.all_eq_true.mp hb2 g hg)
      exact ⟨c.toQ, List.mem_map_of_mem hc, eqv_same1 hcc⟩
    | one =>
      have := hR.head
      refine ⟨⟨1,0,0,0⟩, List.mem_of_mem_head? (by rw [this]; rfl), Or.inl ?_⟩
      ext <;> simp
    | mul x y _ _ ihx ihy =>
      obtain ⟨a, ha, hxa⟩ := ihx
      obtain ⟨b, hb, hyb⟩ := ihy
      obtain ⟨c, hc, hab⟩ := hR.closed a ha b hb
      refine ⟨c, hc, ?_⟩
      have hn : ∀ u v : ℍ[ℝ], -u * v = -(u * v) := by intro u v; ext <;> simp <;> ring
      have hn2 : ∀ u v : ℍ[ℝ], u * -v = -(u * v) := by intro u v; ext <;> simp <;> ring
      have hnn : ∀ u : ℍ[ℝ], - -u = u := by intro u; ext <;> simp
      rcases hxa with rfl | rfl <;> rcases hyb with rfl | rfl <;> rcases hab with hab | hab <;>
        simp only [hn, hn2, hab, hnn] <;> first | (left; rfl) | (right; rfl)
  · rintro ⟨g, hg, hs⟩
    obtain ⟨c, hc, rfl⟩ := List.mem_map.mp hg
    have hcc := List.all_eq_true.mp hb1 c hc
    simp only [Bool.and_eq_true, List.contains_iff_mem] at hcc
    rcases hs with rfl | rfl
    · exact reach_mem gs _ _ hsub 12 c hcc.1
    · rw [← toH_neg, ← XQ.toQ_neg]
      exact reach_mem gs _ _ hsub 12 _ hcc.2

end Verif
