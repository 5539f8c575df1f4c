import Verif.Lemmas.Laue
/-! Property C06 (laue_generators.py). -/
open Quaternion
namespace Verif
open Spec

/-- C06: for every Laue id 1..11 the table consists of unit quaternions, starts with the identity,
has no duplicates up to sign, is closed under product and inverse up to sign, has the size announced
by `get_laue_mult`, which is half the order of the Laue point group, and its members are, up to sign,
exactly the rotations generated by the symmetry axes of the Laue class. -/
theorem C06_group (n : ℕ) (h1 : 1 ≤ n) (h2 : n ≤ 11) :
    ∃ G : List Q, laueElements n = some G ∧ G.head? = some ⟨1, 0, 0, 0⟩ ∧
      (∀ g ∈ G, IsUnit4 g) ∧
      (∀ a ∈ G, ∀ b ∈ G, ∃ c ∈ G, SameUpToSign (toH a * toH b) (toH c)) ∧
      (∀ a ∈ G, ∃ c ∈ G, SameUpToSign (star (toH a)) (toH c)) ∧
      G.Pairwise (fun a b => ¬ SameUpToSign (toH a) (toH b)) ∧
      getLaueMult n = some (laueOrder n) ∧ 2 * G.length = laueOrder n ∧
      (∀ h : ℍ[ℝ], h ∈ laueRotations n ↔ ∃ g ∈ G, SameUpToSign h (toH g)) := by
  obtain ⟨l, hl, hidx, he⟩ := laueElements_some n h1 h2
  have hR := rotGroup_laue h1 h2 he
  refine ⟨_, he, hR.head, hR.unit, hR.closed, hR.inv, hR.dist, ?_, ?_, gen_laue h1 h2 he⟩
  · unfold getLaueMult
    rw [pyIndex_nat _ _ h1]
    interval_cases n <;> rfl
  · rw [List.length_map]
    interval_cases n <;>
      (simp only [laueGroupsX] at hidx
       obtain rfl := Option.some.inj hidx
       rfl)

/-- C06: ids above 11 are rejected ... -/
theorem C06_reject (n : ℤ) (h : 11 < n) : laueElements n = none ∧ getLaueMult n = none := by
  have h0 : (0:ℤ) ≤ n - 1 := by omega
  constructor
  · unfold laueElements pyIndex
    rw [if_pos h0]
    apply List.getElem?_eq_none
    have : laueGroups.length = 11 := rfl
    omega
  · unfold getLaueMult pyIndex
    rw [if_pos h0]
    apply List.getElem?_eq_none
    have : laueMults.length = 11 := rfl
    omega

/-- ... but not the ids `0, -1, ..., -10`: id 0 silently selects the cubic group (Python's negative
indexing). -/
theorem C06_id_zero_is_cubic : laueElements 0 = laueElements 11 ∧ getLaueMult 0 = some 48 := by
  constructor <;> rfl

/-- non-vacuity: the cubic group has 24 members. -/
example : ∃ G, laueElements 11 = some G ∧ G.length = 24 := ⟨laueO, rfl, rfl⟩

end Verif
