import Verif.Model.InvF
import Mathlib.Data.Matrix.Basic
import Mathlib.Tactic.NormNum
import Mathlib.Tactic.Linarith
import Mathlib.Tactic.IntervalCases
import Mathlib.Tactic.FinCases
/-!
C137: the deformation gradients kept by `ExperimentPatterns`.
-/
namespace Verif.InvF

/-- Specification: the matrix of pattern `i` in a tensor of shape (N, 3, 3) or (N, 9). -/
def given (t : Tensor) (i : ℕ) : Matrix (Fin 3) (Fin 3) ℝ := fun r c => t.data.getD (9 * i + (3 * r + c)) 0

/-- Specification: what one accepted call says about pattern `i` (identity for a call without tensor). -/
def meant : Option Tensor → ℕ → Matrix (Fin 3) (Fin 3) ℝ
  | none => fun _ => 1
  | some t => given t

/-- Specification: what the last accepted call said. -/
def latest (n : ℕ) (calls : List (Option Tensor)) : Option (ℕ → Matrix (Fin 3) (Fin 3) ℝ) :=
  ((calls.filter fun c => (setInvF n c).isSome).getLast?).map meant

theorem mat_given (t : Tensor) (i : ℕ) : mat t.data i = given t i := by
  unfold mat given; funext r c; rw [add_assoc]

theorem identity_row (n i : ℕ) (hi : i < n) : mat (identityRows n) i = 1 := by
  have key : ∀ (n i j : ℕ), i < n → j < 9 →
      (identityRows n).getD (9 * i + j) 0 = if j = 0 ∨ j = 4 ∨ j = 8 then (1 : ℝ) else 0 := by
    intro n
    induction n with
    | zero => intro i j hi; omega
    | succ n ih =>
      intro i j hi hj
      have e : identityRows (n + 1) = identityRows n ++
          (List.range 9).map fun j : ℕ => if j = 0 ∨ j = 4 ∨ j = 8 then (1 : ℝ) else 0 := by
        unfold identityRows
        rw [List.range_succ (n := n), List.flatMap_append]; simp only [List.flatMap_cons, List.flatMap_nil, List.append_nil]
      have len : (identityRows n).length = 9 * n := by
        unfold identityRows
        clear ih e hi
        induction n with
        | zero => rfl
        | succ n ih => rw [List.range_succ (n := n), List.flatMap_append, List.length_append, ih]; simp; ring
      rw [e]
      by_cases h : i < n
      · rw [List.getD_eq_getElem?_getD, List.getElem?_append_left (by omega), ← List.getD_eq_getElem?_getD]; exact ih i j h hj
      · have : i = n := by omega
        subst this
        rw [List.getD_eq_getElem?_getD, List.getElem?_append_right (by omega), len]
        have : 9 * i + j - 9 * i = j := by omega
        rw [this, List.getElem?_map, List.getElem?_range hj]; rfl
  funext r c
  unfold mat
  rw [add_assoc, key n i _ hi (by omega), Matrix.one_apply]
  fin_cases r <;> fin_cases c <;> simp

theorem check_some {n : ℕ} {t : Tensor} {d : List ℝ} (h : check n t = some d) : d = t.data ∧ t.data.length = n * 9 := by
  unfold check at h
  obtain ⟨s0, h0, h⟩ := Option.bind_eq_some_iff.mp h
  by_cases h1 : s0 ≠ n
  · rw [if_pos h1] at h; exact absurd h (by simp)
  rw [if_neg h1] at h
  obtain ⟨s2, h2, h⟩ := Option.bind_eq_some_iff.mp h
  obtain ⟨s1, h3, h⟩ := Option.bind_eq_some_iff.mp h
  by_cases h4 : (s2 ≠ 3 ∨ s1 ≠ 3) ∧ s1 ≠ 9
  · rw [if_pos h4] at h; exact absurd h (by simp)
  rw [if_neg h4] at h
  by_cases h5 : t.data.length = n * 9
  · rw [if_pos h5] at h
    exact ⟨(Option.some.inj h).symm, h5⟩
  · rw [if_neg h5] at h; exact absurd h (by simp)

/-- C137 (partial): for every history of `set_inv_f_matrix` calls, accepted or refused, the getter returns for every
index (negative ones count from the end) the matrix that the last accepted call gave for that pattern -- the identity
for a call without tensor -- and raises before the first accepted call.  Missing: the tensors with one matrix that the
documentation allows are refused (`C137_single_fails`) and the matrix returned is not inverted (`C137_inverse_fails`). -/
theorem C137_get_partial (n : ℕ) (calls : List (Option Tensor)) (idx : List ℤ) (hidx : ∀ i ∈ idx, -(n : ℤ) ≤ i ∧ i < n) :
    getInvF n (history n calls) (some idx) =
      (latest n calls).map (fun f => idx.map fun i => f (if 0 ≤ i then i.toNat else (i + n).toNat)) ∧
    getInvF n (history n calls) none = (latest n calls).map (fun f => (List.range n).map f) := by
  have key : ∀ calls : List (Option Tensor), (latest n calls = none ∧ history n calls = none) ∨
      ∃ f d, latest n calls = some f ∧ history n calls = some d ∧ ∀ i < n, mat d i = f i := by
    intro calls
    induction calls using List.reverseRecOn with
    | nil => exact Or.inl ⟨rfl, rfl⟩
    | append_singleton l c ih =>
      have hh : history n (l ++ [c]) = (setInvF n c).or (history n l) := by
        unfold history; rw [List.foldl_append]; rfl
      have hl : latest n (l ++ [c]) = if (setInvF n c).isSome then
          some (meant c) else latest n l := by
        unfold latest
        rw [List.filter_append]
        by_cases h : (setInvF n c).isSome
        · simp [h]
        · simp [h]
      rw [hh, hl]
      cases hc : setInvF n c with
      | none => simpa using ih
      | some d =>
        refine Or.inr ⟨meant c, d, by simp, by simp, ?_⟩
        intro i hi
        cases c with
        | none =>
          obtain rfl := Option.some.inj hc
          exact identity_row n i hi
        | some t =>
          obtain ⟨rfl, -⟩ := check_some hc
          exact mat_given t i
  rcases key calls with ⟨h1, h2⟩ | ⟨f, d, h1, h2, h3⟩
  · rw [h1, h2]; exact ⟨rfl, rfl⟩
  · rw [h1, h2]
    constructor
    · simp only [getInvF, Option.bind_eq_bind, Option.bind_some, Option.map_some]
      clear h1 h2
      induction idx with
      | nil => rfl
      | cons i l ih =>
        obtain ⟨a, b⟩ := hidx i (by simp)
        have hp : pos n i = some (if 0 ≤ i then i.toNat else (i + n).toNat) := by
          unfold pos
          by_cases h0 : 0 ≤ i
          · rw [if_pos ⟨h0, b⟩, if_pos h0]
          · rw [if_neg (fun h => h0 h.1), if_pos ⟨a, by omega⟩, if_neg h0]
        rw [List.mapM_cons, ih (fun j hj => hidx j (by simp [hj])), hp]
        simp only [Option.map_some, Option.bind_eq_bind, Option.bind_some, Option.pure_def, List.map_cons]
        rw [h3]
        split_ifs <;> omega
    · simp only [getInvF, Option.bind_eq_bind, Option.bind_some, Option.map_some]
      congr 1
      exact List.map_congr_left fun i hi => h3 i (List.mem_range.mp hi)

/-- C137: an index outside `[-N, N)` raises. -/
theorem C137_out_of_range (n : ℕ) (calls : List (Option Tensor)) (idx : List ℤ) (i : ℤ) (hi : i ∈ idx)
    (hr : ¬ (-(n : ℤ) ≤ i ∧ i < n)) : getInvF n (history n calls) (some idx) = none := by
  unfold getInvF
  cases history n calls with
  | none => rfl
  | some d =>
    simp only [Option.bind_eq_bind, Option.bind_some]
    have hp : pos n i = none := by unfold pos; rw [if_neg (by omega), if_neg (by omega)]
    induction idx with
    | nil => simp at hi
    | cons j l ih =>
      rw [List.mapM_cons]
      rcases List.mem_cons.mp hi with rfl | h
      · rw [hp]; rfl
      · rw [ih h]
        cases pos n j <;> rfl

/-- C137 (partial): which tensors are accepted: the documented shapes (N, 3, 3) and (N, 9), besides (N, 1, 9), and no
others with two or three axes. -/
theorem C137_shapes_partial (n : ℕ) (t : Tensor) (hok : t.ok) (hax : t.shape.length = 2 ∨ t.shape.length = 3) (hn : 0 < n) :
    (setInvF n (some t)).isSome ↔ t.shape = [n, 3, 3] ∨ t.shape = [n, 9] ∨ t.shape = [n, 1, 9] := by
  obtain ⟨sh, d⟩ := t
  unfold Tensor.ok at hok
  simp only at hok hax ⊢
  rcases hax with h | h
  · obtain ⟨a, b, rfl⟩ := List.length_eq_two.mp h
    simp only [List.prod_cons, List.prod_nil, mul_one] at hok
    simp only [setInvF, check, fromEnd, List.reverse_cons, List.reverse_nil, List.nil_append, List.cons_append,
      Option.bind_eq_bind, List.getElem?_cons_zero, Option.bind_some, Nat.add_one_sub_one, Nat.sub_self,
      List.getElem?_cons_succ, hok, List.cons.injEq, and_true, reduceCtorEq, and_false, or_false, false_or]
    constructor
    · intro h
      split_ifs at h with h1 h2 h3
      · simp at h
      · simp at h
      · push Not at h1
        subst h1
        have : b = 9 := Nat.eq_of_mul_eq_mul_left hn h3
        exact ⟨rfl, this⟩
      · simp at h
    · rintro ⟨rfl, rfl⟩
      simp
  · obtain ⟨a, b, c, rfl⟩ := List.length_eq_three.mp h
    simp only [List.prod_cons, List.prod_nil, mul_one] at hok
    simp only [setInvF, check, fromEnd, List.reverse_cons, List.reverse_nil, List.nil_append, List.cons_append,
      Option.bind_eq_bind, List.getElem?_cons_zero, Option.bind_some, Nat.add_one_sub_one, Nat.sub_self,
      List.getElem?_cons_succ, hok, List.cons.injEq, and_true, reduceCtorEq, and_false, false_or]
    constructor
    · intro h
      split_ifs at h with h1 h2 h3
      · simp at h
      · simp at h
      · push Not at h1
        subst h1
        have e : b * c = 9 := Nat.eq_of_mul_eq_mul_left hn h3
        push Not at h2
        by_cases c9 : c = 9
        · subst c9
          exact Or.inr ⟨rfl, by omega, rfl⟩
        · by_cases hb : b = 3
          · subst hb; exact Or.inl ⟨rfl, rfl, by omega⟩
          · exact absurd (h2 (Or.inl hb)) c9
      · simp at h
    · rintro (⟨rfl, rfl, rfl⟩ | ⟨rfl, rfl, rfl⟩) <;> simp

/-- C137 fails: one matrix for all patterns, documented as (1, 3, 3) or (1, 9), is refused for every scan with more than
one pattern. -/
theorem C137_single_fails (n : ℕ) (hn : n ≠ 1) (t : Tensor) (h : t.shape = [1, 3, 3] ∨ t.shape = [1, 9]) :
    setInvF n (some t) = none := by
  rcases h with h | h <;> simp [setInvF, check, h, hn.symm]

/-- C137 fails: the getter is documented to return the inverse of the deformation gradient given to the setter; it
returns the gradient itself. -/
theorem C137_inverse_fails : ∃ t : Tensor, t.ok ∧ ∃ m, getInvF 1 (history 1 [some t]) (some [0]) = some [m] ∧
    m = given t 0 ∧ given t 0 * m ≠ 1 := by
  refine ⟨⟨[1, 3, 3], [2, 0, 0, 0, 1, 0, 0, 0, 1]⟩, rfl, mat [2, 0, 0, 0, 1, 0, 0, 0, 1] 0, rfl,
    mat_given ⟨[1, 3, 3], [2, 0, 0, 0, 1, 0, 0, 0, 1]⟩ 0, ?_⟩
  intro h
  have := congrFun (congrFun h 0) 0
  simp [Matrix.mul_apply, Fin.sum_univ_three, given, mat] at this
  norm_num at this

/-- non-vacuity: a history with a refused call between accepted ones. -/
example : latest 2 [none, some ⟨[2, 9], List.replicate 18 3⟩, some ⟨[1, 9], List.replicate 9 5⟩] =
    some (given ⟨[2, 9], List.replicate 18 3⟩) ∧
    getInvF 2 (history 2 [none, some ⟨[2, 9], List.replicate 18 3⟩, some ⟨[1, 9], List.replicate 9 5⟩]) (some [-1]) =
      some [given ⟨[2, 9], List.replicate 18 3⟩ 1] := by
  have e : latest 2 [none, some ⟨[2, 9], List.replicate 18 3⟩, some ⟨[1, 9], List.replicate 9 5⟩] =
    some (given ⟨[2, 9], List.replicate 18 3⟩) := by
    simp [latest, meant, setInvF, check, fromEnd]
  refine ⟨e, ?_⟩
  rw [(C137_get_partial 2 _ [-1] (by simp)).1, e]
  simp
end Verif.InvF
