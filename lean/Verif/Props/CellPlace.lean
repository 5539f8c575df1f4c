import Verif.Model.CellPlace
import Mathlib.Tactic.NormNum
import Mathlib.Tactic.Linarith
/-!
C136: `Cell.to` and `Cell.set_fp_dtype` over any history of calls.
-/
namespace Verif.Place

/-- Specification: the devices asked for, in order. -/
def devices {D F : Type} : List (Op D F) → List D
  | [] => []
  | .move d :: t => d :: devices t
  | .setFp _ :: t => devices t

/-- Specification: the floating dtypes asked for, in order. -/
def dtypes {D F : Type} : List (Op D F) → List F
  | [] => []
  | .move _ :: t => dtypes t
  | .setFp f :: t => f :: dtypes t

/-- Specification: a number rounded to each of a list of dtypes in turn. -/
def rounded {F : Type} (rnd : F → ℝ → ℝ) (x : ℝ) (l : List F) : ℝ := l.foldl (fun y f => rnd f y) x

/-- every tensor of the cell is on the cell's device -/
def Together {D F : Type} (c : Cell D F) : Prop := ∀ x t, c.tens x = some t → t.dev = c.device

theorem step_together {D F : Type} [DecidableEq D] (rnd : F → ℝ → ℝ) (c : Cell D F) (h : Together c) (o : Op D F) :
    Together (c.step rnd o) := by
  cases o with
  | move d =>
    unfold Cell.step Cell.to
    by_cases e : d = c.device
    · simp only [if_pos e]; exact h
    · simp only [if_neg e]
      intro x t ht
      obtain ⟨t0, -, rfl⟩ := Option.map_eq_some_iff.mp ht
      rfl
  | setFp f =>
    intro x t ht
    obtain ⟨t0, h0, rfl⟩ := Option.map_eq_some_iff.mp ht
    have := h x t0 h0
    by_cases e : casted x <;> simp only [e] <;> exact this

theorem step_device {D F : Type} [DecidableEq D] (rnd : F → ℝ → ℝ) (c : Cell D F) (o : Op D F) :
    (c.step rnd o).device = ((devices [o]).getLast?).getD c.device := by
  cases o with
  | move d =>
    simp only [Cell.step, Cell.to, devices, List.getLast?_singleton, Option.getD_some]
    by_cases e : d = c.device
    · rw [if_pos e, e]
    · rw [if_neg e]
  | setFp f => rfl

/-- what one call does to one tensor besides its place -/
theorem step_tens {D F : Type} [DecidableEq D] (rnd : F → ℝ → ℝ) (c : Cell D F) (o : Op D F) (x : Attr) (t : T D F)
    (ht : c.tens x = some t) :
    ∃ t', (c.step rnd o).tens x = some t' ∧
      t'.dtype = (if casted x then ((dtypes [o]).getLast?).elim t.dtype DType.float else t.dtype) ∧
      t'.val = (if casted x then rounded rnd t.val (dtypes [o]) else t.val) := by
  cases o with
  | move d =>
    unfold Cell.step Cell.to
    by_cases e : d = c.device
    · simp only [if_pos e]
      exact ⟨t, ht, by simp [dtypes], by simp [dtypes, rounded]⟩
    · simp only [if_neg e, ht, Option.map_some]
      exact ⟨_, rfl, by simp [dtypes], by simp [dtypes, rounded]⟩
  | setFp f =>
    simp only [Cell.step, Cell.setFpDtype, ht, Option.map_some]
    refine ⟨_, rfl, ?_, ?_⟩
    · by_cases e : casted x <;> simp [e, dtypes]
    · by_cases e : casted x <;> simp [e, dtypes, rounded]

theorem step_none {D F : Type} [DecidableEq D] (rnd : F → ℝ → ℝ) (c : Cell D F) (o : Op D F) (x : Attr)
    (ht : c.tens x = none) : (c.step rnd o).tens x = none := by
  cases o with
  | move d =>
    unfold Cell.step Cell.to
    by_cases e : d = c.device
    · simp only [if_pos e]; exact ht
    · simp only [if_neg e, ht, Option.map_none]
  | setFp f => simp only [Cell.step, Cell.setFpDtype, ht, Option.map_none]

/-- C136 (partial): after any sequence of `to` and `set_fp_dtype` calls on a cell whose tensors are on one device, every
tensor is on the device asked for last (`cell.device`); a tensor of real numbers has the dtype asked for last and its
value is the original one rounded to each dtype asked for in turn; the atomic numbers and their dtype never change;
`dsm2` stays `None` exactly when it was.  Missing: no cell can be built on another device than the CPU
(`C136_construct_fails`), a return to a wider dtype does not restore the values (`C136_roundtrip_fails`), and the
integer multiplicities become floating numbers (part of this statement, `Attr.mults` is cast). -/
theorem C136_history_partial {D F : Type} [DecidableEq D] (rnd : F → ℝ → ℝ) (c : Cell D F) (h0 : Together c) (h : List (Op D F)) :
    (c.run rnd h).device = ((devices h).getLast?).getD c.device ∧
    ∀ x, match c.tens x with
      | none => (c.run rnd h).tens x = none
      | some t => ∃ t', (c.run rnd h).tens x = some t' ∧ t'.dev = (c.run rnd h).device ∧
          (x = .atomTypes ∨ x = .atomTypesUnique → t'.dtype = t.dtype ∧ t'.val = t.val) ∧
          (x ≠ .atomTypes ∧ x ≠ .atomTypesUnique →
            t'.dtype = ((dtypes h).getLast?).elim t.dtype DType.float ∧ t'.val = rounded rnd t.val (dtypes h)) := by
  induction h generalizing c with
  | nil =>
    refine ⟨rfl, fun x => ?_⟩
    cases ht : c.tens x with
    | none => exact ht
    | some t => exact ⟨t, ht, h0 x t ht, fun _ => ⟨rfl, rfl⟩, fun _ => ⟨rfl, rfl⟩⟩
  | cons o l ih =>
    have e : c.run rnd (o :: l) = (c.step rnd o).run rnd l := rfl
    obtain ⟨i1, i2⟩ := ih (c.step rnd o) (step_together rnd c h0 o)
    rw [e]
    constructor
    · rw [i1, step_device]
      cases o with
      | move d =>
        simp only [devices]
        cases hl : devices l with
        | nil => simp
        | cons a t => simp [List.getLast?_cons]
      | setFp f => simp [devices]
    · intro x
      have := i2 x
      cases ht : c.tens x with
      | none =>
        rw [step_none rnd c o x ht] at this
        exact this
      | some t =>
        obtain ⟨t1, h1, d1, v1⟩ := step_tens rnd c o x t ht
        rw [h1] at this
        obtain ⟨t', ht', dev, A, B⟩ := this
        refine ⟨t', ht', dev, ?_, ?_⟩
        · intro hx
          have hc : casted x = false := by rcases hx with rfl | rfl <;> rfl
          obtain ⟨A1, A2⟩ := A hx
          rw [hc] at d1 v1
          exact ⟨A1.trans (by simpa using d1), A2.trans (by simpa using v1)⟩
        · intro hx
          have hc : casted x = true := by cases x <;> simp_all [casted]
          obtain ⟨B1, B2⟩ := B hx
          rw [hc, if_pos rfl] at d1 v1
          rw [B1, B2, d1, v1]
          cases o with
          | move d => simp [dtypes, rounded]
          | setFp f =>
            simp only [dtypes]
            cases hl : dtypes l with
            | nil => simp [rounded]
            | cons a t => simp [rounded, List.getLast?_cons]

/-- C136: if the original values are exact in every dtype asked for (for instance only float64), no history changes them. -/
theorem C136_exact {D F : Type} [DecidableEq D] (rnd : F → ℝ → ℝ) (c : Cell D F) (h0 : Together c) (h : List (Op D F))
    (x : Attr) (t t' : T D F) (ht : c.tens x = some t) (ht' : (c.run rnd h).tens x = some t')
    (hex : ∀ f ∈ dtypes h, rnd f t.val = t.val) : t'.val = t.val := by
  have := (C136_history_partial rnd c h0 h).2 x
  rw [ht] at this
  obtain ⟨t1, h1, -, A, B⟩ := this
  rw [ht'] at h1
  obtain rfl := Option.some.inj h1
  by_cases hx : x = .atomTypes ∨ x = .atomTypesUnique
  · exact (A hx).2
  · push Not at hx
    rw [(B hx).2]
    have key : ∀ l : List F, (∀ f ∈ l, rnd f t.val = t.val) → rounded rnd t.val l = t.val := by
      intro l hl
      induction l with
      | nil => rfl
      | cons a l ih =>
        unfold rounded
        rw [List.foldl_cons, hl a (by simp)]
        exact ih fun f hf => hl f (by simp [hf])
    exact key _ hex

/-- C136: a cell built on the CPU is in one place, so the two statements above hold for it and every history. -/
theorem C136_construct_partial {D F : Type} [DecidableEq D] (cpu : D) (f64 : F) (v : Attr → ℝ) (trigonal : Bool) :
    ∃ c, construct cpu cpu f64 v trigonal = some c ∧ Together c ∧ c.device = cpu ∧
      ((c.tens .dsm2).isSome ↔ trigonal = true) ∧ (∀ x, x ≠ .dsm2 → (c.tens x).isSome) := by
  unfold construct
  rw [if_pos (by rfl)]
  refine ⟨_, rfl, ?_, rfl, ?_, ?_⟩
  · intro x t ht
    by_cases e : x = .dsm2 ∧ trigonal = false
    · simp only [if_pos e] at ht; exact absurd ht (by simp)
    · simp only [if_neg e] at ht
      obtain rfl := Option.some.inj ht
      cases x <;> rfl
  · cases trigonal <;> simp
  · intro x hx
    simp only [if_neg (fun h : x = .dsm2 ∧ trigonal = false => hx h.1), Option.isSome_some]

/-- C136 fails: `Cell(..., device=d)` raises for every device other than the CPU, whatever the crystal: the symmetry
operators are on the CPU and are multiplied with positions on `d`. -/
theorem C136_construct_fails {D F : Type} [DecidableEq D] (cpu d : D) (hd : d ≠ cpu) (f64 : F) (v : Attr → ℝ) (trigonal : Bool) :
    construct cpu d f64 v trigonal = none := by
  unfold construct
  rw [if_neg]
  intro h
  exact hd h.symm

/-- C136 fails: going to float32 and back to float64 does not restore a cell: the lattice parameter 1/3 nm (its nearest
double) comes back as the nearest single, for any cast that rounds to nearest. -/
theorem C136_roundtrip_fails (rnd : Bool → ℝ → ℝ)
    (h32 : ∀ x y : ℝ, (∃ m : ℤ, 2 ^ 23 ≤ m ∧ m < 2 ^ 24 ∧ y = m / 2 ^ 25 ∧ |x - y| < 1 / 2 ^ 26) → rnd false x = y)
    (h64 : ∀ y : ℝ, (∃ m : ℤ, 2 ^ 52 ≤ m ∧ m < 2 ^ 53 ∧ y = m / 2 ^ 54) → rnd true y = y) :
    ∀ c : Cell Unit Bool, Together c → ∀ t, c.tens .a = some t → t.val = 6004799503160661 / 2 ^ 54 →
      ∃ t', (c.run rnd [.setFp false, .setFp true]).tens .a = some t' ∧ t'.val ≠ t.val ∧
        t'.val = 11184811 / 2 ^ 25 := by
  intro c hc t ht hv
  have := (C136_history_partial rnd c hc [.setFp false, .setFp true]).2 .a
  rw [ht] at this
  obtain ⟨t', ht', -, -, B⟩ := this
  obtain ⟨-, B2⟩ := B ⟨by decide, by decide⟩
  have e1 : rnd false t.val = 11184811 / 2 ^ 25 := by
    refine h32 _ _ ⟨11184811, by norm_num, by norm_num, by norm_num, ?_⟩
    rw [hv, abs_lt]; constructor <;> norm_num
  have e2 : rnd true (11184811 / 2 ^ 25) = 11184811 / 2 ^ 25 :=
    h64 _ ⟨11184811 * 2 ^ 29, by norm_num, by norm_num, by norm_num⟩
  have e3 : t'.val = 11184811 / 2 ^ 25 := by
    rw [B2]; simp only [dtypes, rounded, List.foldl_cons, List.foldl_nil]; rw [e1, e2]
  refine ⟨t', ht', ?_, e3⟩
  rw [e3, hv]; norm_num

/-- non-vacuity: a trigonal cell is built on the CPU, moved, cast and moved back; its tensors stay together and the
integer multiplicities have become floating. -/
example : ∃ c : Cell Bool Bool, construct false false true (fun _ => 1) true = some c ∧ Together c ∧
    (c.run (fun _ x => x) [.move true, .setFp false, .move false]).device = false ∧
    ∃ t, (c.run (fun _ x => x) [.move true, .setFp false, .move false]).tens .mults = some t ∧ t.dtype = .float false := by
  obtain ⟨c, hc, ht, -, -, hs⟩ := C136_construct_partial false true (fun _ => 1) true
  refine ⟨c, hc, ht, ?_, ?_⟩
  · rw [(C136_history_partial _ c ht _).1]; rfl
  · have hm : ∃ t, c.tens .mults = some t := by
      exact Option.isSome_iff_exists.mp (hs .mults (by decide))
    obtain ⟨t0, h0⟩ := hm
    have := (C136_history_partial (fun (_ : Bool) x => x) c ht [.move true, .setFp false, .move false]).2 .mults
    rw [h0] at this
    obtain ⟨t', h1, -, -, B⟩ := this
    exact ⟨t', h1, (B ⟨by decide, by decide⟩).1⟩

/-- non-vacuity of `C136_roundtrip_fails`: casts with the two stated properties exist. -/
example : ∃ rnd : Bool → ℝ → ℝ,
    (∀ x y : ℝ, (∃ m : ℤ, 2 ^ 23 ≤ m ∧ m < 2 ^ 24 ∧ y = m / 2 ^ 25 ∧ |x - y| < 1 / 2 ^ 26) → rnd false x = y) ∧
    (∀ y : ℝ, (∃ m : ℤ, 2 ^ 52 ≤ m ∧ m < 2 ^ 53 ∧ y = m / 2 ^ 54) → rnd true y = y) := by
  classical
  refine ⟨fun b x => if b then x else
    if h : ∃ y : ℝ, ∃ m : ℤ, 2 ^ 23 ≤ m ∧ m < 2 ^ 24 ∧ y = m / 2 ^ 25 ∧ |x - y| < 1 / 2 ^ 26 then h.choose else 0, ?_, ?_⟩
  · intro x y hy
    have h : ∃ y : ℝ, ∃ m : ℤ, 2 ^ 23 ≤ m ∧ m < 2 ^ 24 ∧ y = m / 2 ^ 25 ∧ |x - y| < 1 / 2 ^ 26 := ⟨y, hy⟩
    simp only [Bool.false_eq_true, if_false]
    rw [dif_pos h]
    obtain ⟨m, -, -, em, hm⟩ := hy
    obtain ⟨m', -, -, em', hm'⟩ := h.choose_spec
    have hd : |(m : ℝ) - m'| < 1 := by
      rw [em] at hm; rw [em'] at hm'
      rw [abs_lt] at hm hm' ⊢
      obtain ⟨p1, p2⟩ := hm
      obtain ⟨p3, p4⟩ := hm'
      constructor <;> norm_num at p1 p2 p3 p4 ⊢ <;> linarith
    have : m = m' := by
      have h1 : |m - m'| < 1 := by exact_mod_cast hd
      have := Int.abs_lt_one_iff.mp h1
      omega
    rw [em, em', this]
  · intro y _; rfl
end Verif.Place
