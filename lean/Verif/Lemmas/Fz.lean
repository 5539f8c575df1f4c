import Verif.Lemmas.Laue
import Verif.Model.Fz
/-! Helper lemmas for the fundamental-zone properties. -/
open Quaternion
namespace Verif
open Spec

/-! ### first maximum of a list -/

theorem exists_max (l : List ℝ) (h : l ≠ []) : ∃ x ∈ l, ∀ y ∈ l, y ≤ x := by
  induction l with
  | nil => exact absurd rfl h
  | cons a t ih =>
    by_cases ht : t = []
    · subst ht; exact ⟨a, by simp, by simp⟩
    · obtain ⟨x, hx, hm⟩ := ih ht
      rcases le_total x a with hxa | hxa
      · refine ⟨a, by simp, fun y hy => ?_⟩
        rcases List.mem_cons.mp hy with rfl | hy
        · exact le_refl _
        · exact (hm y hy).trans hxa
      · refine ⟨x, List.mem_cons_of_mem _ hx, fun y hy => ?_⟩
        rcases List.mem_cons.mp hy with rfl | hy
        · exact hxa
        · exact hm y hy

theorem argmaxFirst_lt {l : List ℝ} (h : l ≠ []) : argmaxFirst l < l.length := by
  obtain ⟨x, hx, hm⟩ := exists_max l h
  unfold argmaxFirst
  rw [List.findIdx_lt_length]
  exact ⟨x, hx, by simpa using hm⟩

theorem argmaxFirst_max {l : List ℝ} (h : argmaxFirst l < l.length) :
    ∀ y ∈ l, y ≤ l[argmaxFirst l] := by
  classical
  have := List.findIdx_getElem (xs := l) (p := fun x => decide (∀ y ∈ l, y ≤ x)) (w := by
    unfold argmaxFirst at h; convert h)
  simp only [decide_eq_true_eq] at this
  intro y hy
  refine (this y hy).trans (le_of_eq ?_)
  congr 1

theorem argmaxFirst_zero {a : ℝ} {l : List ℝ} :
    argmaxFirst (a :: l) = 0 ↔ ∀ y ∈ l, y ≤ a := by
  classical
  unfold argmaxFirst
  constructor
  · intro h
    by_contra hc
    rw [List.findIdx_cons] at h
    have : decide (∀ y ∈ a :: l, y ≤ a) = false := by
      rw [decide_eq_false_iff_not]
      intro hh; exact hc fun y hy => hh y (List.mem_cons_of_mem _ hy)
    rw [this] at h
    simp at h
  · intro h
    rw [List.findIdx_cons]
    have : decide (∀ y ∈ a :: l, y ≤ a) = true := by
      rw [decide_eq_true_eq]
      intro y hy
      rcases List.mem_cons.mp hy with rfl | hy
      · exact le_refl _
      · exact h y hy
    rw [this]; rfl

theorem rowMax_spec {l : List ℝ} (h : l ≠ []) : ∃ m ∈ l, rowMax l = some m ∧ ∀ y ∈ l, y ≤ m := by
  have hl := argmaxFirst_lt h
  exact ⟨l[argmaxFirst l], List.getElem_mem hl, by rw [rowMax, List.getElem?_eq_getElem hl],
    argmaxFirst_max hl⟩

/-! ### sign bookkeeping in ℍ[ℝ] -/

theorem H_mul_neg (u v : ℍ[ℝ]) : u * -v = -(u * v) := by ext <;> simp <;> ring
theorem H_neg_mul (u v : ℍ[ℝ]) : -u * v = -(u * v) := by ext <;> simp <;> ring
theorem H_neg_neg (u : ℍ[ℝ]) : - -u = u := by ext <;> simp
theorem H_re_neg (u : ℍ[ℝ]) : (-u).re = -u.re := by simp
theorem H_star_neg (u : ℍ[ℝ]) : star (-u) = -star u := by ext <;> simp
theorem H_re_mul_comm (u v : ℍ[ℝ]) : (u * v).re = (v * u).re := by simp; ring
theorem H_re_star (u : ℍ[ℝ]) : (star u).re = u.re := by simp

theorem Spec.SameUpToSign.symm {a b : ℍ[ℝ]} (h : SameUpToSign a b) : SameUpToSign b a := by
  rcases h with rfl | rfl
  · left; rfl
  · right; rw [H_neg_neg]

theorem Spec.SameUpToSign.trans {a b c : ℍ[ℝ]} (h : SameUpToSign a b) (h' : SameUpToSign b c) :
    SameUpToSign a c := by
  rcases h with rfl | rfl <;> rcases h' with rfl | rfl
  · left; rfl
  · right; rfl
  · right; rfl
  · left; rw [H_neg_neg]

theorem Spec.SameUpToSign.mul_left {a b : ℍ[ℝ]} (c : ℍ[ℝ]) (h : SameUpToSign a b) :
    SameUpToSign (c * a) (c * b) := by
  rcases h with rfl | rfl
  · left; rfl
  · right; rw [H_mul_neg]

theorem Spec.SameUpToSign.mul_right {a b : ℍ[ℝ]} (c : ℍ[ℝ]) (h : SameUpToSign a b) :
    SameUpToSign (a * c) (b * c) := by
  rcases h with rfl | rfl
  · left; rfl
  · right; rw [H_neg_mul]

theorem Spec.SameUpToSign.abs_re {a b : ℍ[ℝ]} (h : SameUpToSign a b) : |a.re| = |b.re| := by
  rcases h with rfl | rfl
  · rfl
  · rw [H_re_neg, abs_neg]

theorem Spec.SameUpToSign.star {a b : ℍ[ℝ]} (h : SameUpToSign a b) : SameUpToSign (star a) (star b) := by
  rcases h with rfl | rfl
  · left; rfl
  · right; rw [H_star_neg]

theorem same_quProd (a b : Q) : SameUpToSign (toH (quProd a b)) (toH a * toH b) := by
  rw [← toH_prodRaw]; exact toH_std _

theorem posReal_eq (a b : Q) : quProdPosReal a b = |(toH a * toH b).re| := by
  rw [← toH_prodRaw]; rfl

/-! ### group facts -/

theorem mem_of_same {n : ℕ} (h1 : 1 ≤ n) (h2 : n ≤ 11) {a b : ℍ[ℝ]} (hs : SameUpToSign a b)
    (hb : b ∈ laueRotations n) : a ∈ laueRotations n := by
  obtain ⟨l, _, _, he⟩ := laueElements_some n h1 h2
  rw [gen_laue h1 h2 he] at hb ⊢
  obtain ⟨g, hg, hgs⟩ := hb
  exact ⟨g, hg, hs.trans hgs⟩

theorem mem_rot {n : ℕ} {G : List Q} (h1 : 1 ≤ n) (h2 : n ≤ 11) (he : laueElements n = some G)
    {g : Q} (hg : g ∈ G) : toH g ∈ laueRotations n := by
  rw [gen_laue h1 h2 he]; exact ⟨g, hg, Or.inl rfl⟩

theorem H_mul_star_of_unit {q : Q} (h : IsUnit4 q) : toH q * star (toH q) = 1 := by
  unfold IsUnit4 at h
  ext <;> simp
  · linear_combination h
  · ring
  · ring
  · ring

theorem H_star_mul_of_unit {q : Q} (h : IsUnit4 q) : star (toH q) * toH q = 1 := by
  unfold IsUnit4 at h
  ext <;> simp
  · linear_combination h
  · ring
  · ring
  · ring

/-- the rotations of a Laue class form a group: conjugates are inverses -/
theorem rot_star {n : ℕ} (h1 : 1 ≤ n) (h2 : n ≤ 11) {h : ℍ[ℝ]} (hh : h ∈ laueRotations n) :
    star h ∈ laueRotations n ∧ h * star h = 1 ∧ star h * h = 1 := by
  obtain ⟨l, _, _, he⟩ := laueElements_some n h1 h2
  have hR := rotGroup_laue h1 h2 he
  have hh' := hh
  rw [gen_laue h1 h2 he] at hh'
  obtain ⟨g, hg, hs⟩ := hh'
  obtain ⟨c, hc, hcs⟩ := hR.inv g hg
  refine ⟨mem_of_same h1 h2 (hs.star.trans hcs) (mem_rot h1 h2 he hc), ?_⟩
  have hu := hR.unit g hg
  rcases hs with rfl | rfl
  · exact ⟨H_mul_star_of_unit hu, H_star_mul_of_unit hu⟩
  · rw [H_star_neg, H_mul_neg, H_neg_mul, H_neg_neg, H_mul_neg, H_neg_mul, H_neg_neg]
    exact ⟨H_mul_star_of_unit hu, H_star_mul_of_unit hu⟩

theorem laueMult_len {n : ℕ} {G : List Q} (h1 : 1 ≤ n) (h2 : n ≤ 11)
    (he : laueElements n = some G) : ∃ m, getLaueMult n = some m ∧ G.length = m / 2 := by
  obtain ⟨l, hl, hidx, he'⟩ := laueElements_some n h1 h2
  rw [he] at he'
  obtain rfl := Option.some.inj he'
  unfold getLaueMult
  rw [pyIndex_nat _ _ h1, List.length_map]
  interval_cases n <;>
    (simp only [laueGroupsX] at hidx
     obtain rfl := Option.some.inj hidx
     exact ⟨_, rfl, rfl⟩)

theorem laue_ne_nil {n : ℕ} {G : List Q} (h1 : 1 ≤ n) (h2 : n ≤ 11)
    (he : laueElements n = some G) : ∃ t, G = ⟨1, 0, 0, 0⟩ :: t := by
  have hh := (rotGroup_laue h1 h2 he).head
  cases G with
  | nil => simp at hh
  | cons a t => simp at hh; exact ⟨t, by rw [hh]⟩

/-- maximum over the table = maximum over the rotation group -/
theorem forall_rot_iff {n : ℕ} {G : List Q} (h1 : 1 ≤ n) (h2 : n ≤ 11)
    (he : laueElements n = some G) (a : ℍ[ℝ]) (c : ℝ) :
    (∀ h ∈ laueRotations n, |(a * h).re| ≤ c) ↔ ∀ g ∈ G, |(a * toH g).re| ≤ c := by
  constructor
  · intro h g hg; exact h _ (mem_rot h1 h2 he hg)
  · intro h x hx
    rw [gen_laue h1 h2 he] at hx
    obtain ⟨g, hg, hs⟩ := hx
    rw [(Spec.SameUpToSign.mul_left a hs).abs_re]
    exact h g hg

theorem oriToFz_spec (q : Q) (n : ℕ) (h1 : 1 ≤ n) (h2 : n ≤ 11) :
    ∃ G g, laueElements n = some G ∧ g ∈ G ∧ oriToFz q n = some (quProd q g) ∧
      ∀ g' ∈ G, quProdPosReal q g' ≤ quProdPosReal q g := by
  obtain ⟨l, _, _, he⟩ := laueElements_some n h1 h2
  obtain ⟨m, hm, hlen⟩ := laueMult_len h1 h2 he
  obtain ⟨t, ht⟩ := laue_ne_nil h1 h2 he
  set G := l.map XQ.toQ with hG
  have hne : G.map (quProdPosReal q) ≠ [] := by rw [ht]; simp
  have hlt := argmaxFirst_lt hne
  have hmax := argmaxFirst_max hlt
  have hlt' : argmaxFirst (G.map (quProdPosReal q)) < G.length := by simpa using hlt
  refine ⟨G, G[argmaxFirst (G.map (quProdPosReal q))], he, List.getElem_mem hlt', ?_, ?_⟩
  · unfold oriToFz
    rw [hm, he]
    simp only [Option.bind_eq_bind, Option.bind_some, if_pos hlen]
    rw [List.getElem?_eq_getElem hlt']
    rfl
  · intro g' hg'
    have := hmax _ (List.mem_map_of_mem hg')
    rw [List.getElem_map] at this
    exact this

/-! ### the closed-form inequalities -/

theorem abs_pm (u v w : ℝ) : (|u - v| ≤ w ∧ |u + v| ≤ w) ↔ |u| + |v| ≤ w := by
  constructor
  · rintro ⟨h1, h2⟩
    rw [abs_le] at h1 h2
    rcases abs_cases u with ⟨e, _⟩ | ⟨e, _⟩ <;> rcases abs_cases v with ⟨e', _⟩ | ⟨e', _⟩ <;>
      rw [e, e'] <;> linarith [h1.1, h1.2, h2.1, h2.2]
  · intro h
    constructor
    · exact (abs_sub u v).trans h
    · exact (abs_add_le u v).trans h

end Verif
