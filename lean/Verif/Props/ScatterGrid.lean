import Verif.Model.Scatter
import Mathlib.Tactic.Positivity
import Mathlib.Tactic.FieldSimp
/-!
C144: the points at which `scatter_factor_LVD` evaluates the absorption integrand.
-/
namespace Verif.Scat
open Real

/-- C144, `sampling="linspace"`: for every number of intervals of at least one, the points along each axis are an odd number of at least three
(what Simpson's rule needs; one more interval than asked for if that number is odd), equally spaced, from the lower to the upper end of the
range. -/
theorem C144_linspace (intervals : ℕ) (h : 1 ≤ intervals) (a b base eps : ℝ) :
    ∃ xs : List ℝ, ∃ m : ℕ, ewaldRange intervals (a, b) "linspace" base eps = some xs ∧ 1 ≤ m ∧ xs.length = 2 * m + 1 ∧
      intervals ≤ 2 * m ∧ 2 * m ≤ intervals + 1 ∧
      ∀ i (hi : i < xs.length), xs[i] = a + (b - a) * (i / (2 * m : ℕ)) := by
  refine ⟨_, (intervals + intervals % 2) / 2, by unfold ewaldRange; rw [if_pos rfl], by omega, ?_, by omega, by omega, ?_⟩
  · rw [List.length_map, List.length_range]; omega
  · intro i hi
    rw [List.getElem_map, List.getElem_range]
    have e : intervals + 1 + intervals % 2 - 1 = 2 * ((intervals + intervals % 2) / 2) := by omega
    simp only [e]
    ring

/-- the ends are met exactly -/
theorem C144_linspace_ends (intervals : ℕ) (h : 1 ≤ intervals) (a b base eps : ℝ) :
    ∃ xs : List ℝ, ewaldRange intervals (a, b) "linspace" base eps = some xs ∧ xs.head? = some a ∧ xs.getLast? = some b := by
  obtain ⟨xs, m, h1, hm, hl, -, -, hx⟩ := C144_linspace intervals h a b base eps
  refine ⟨xs, h1, ?_, ?_⟩
  · rw [List.head?_eq_getElem?, List.getElem?_eq_getElem (by omega), hx]; simp
  · rw [List.getLast?_eq_getElem?, List.getElem?_eq_getElem (by omega), hx]
    have e : xs.length - 1 = 2 * m := by omega
    rw [e]
    have : ((2 * m : ℕ) : ℝ) ≠ 0 := by exact_mod_cast (by omega : 2 * m ≠ 0)
    rw [div_self this]; congr 1; ring

/-- C144, `sampling="logspace"`: for an even or odd number of intervals of at least four, a lower end `a` with `a + eps > 0` below the upper end
`b`, and any base above one, the points are an odd number: the lower end itself, then from `a + eps` to `b` in equal ratios. -/
theorem C144_logspace (intervals : ℕ) (h : 4 ≤ intervals) (a b base eps : ℝ) (hb : 1 < base) (ha : 0 < a + eps) (hab : a + eps < b) :
    ∃ xs : List ℝ, ∃ m : ℕ, ewaldRange intervals (a, b) "logspace" base eps = some xs ∧ 2 ≤ m ∧ xs.length = 2 * m + 1 ∧
      2 * m ≤ intervals ∧ intervals ≤ 2 * m + 1 ∧ xs[0]? = some a ∧
      ∀ i (hi : i + 1 < xs.length), xs[i + 1] = (a + eps) * (b / (a + eps)) ^ ((i : ℝ) / (2 * m - 1 : ℕ)) := by
  have hb0 : 0 < b := by linarith
  have hbase : 0 < base := by linarith
  refine ⟨_, intervals / 2, by
    unfold ewaldRange
    rw [if_neg (by decide), if_pos rfl, if_neg (by
      intro (hc : a + eps ≤ 0 ∨ b ≤ 0 ∨ base ≤ 0 ∨ base = 1)
      rcases hc with hc | hc | hc | hc <;> linarith)], by omega, ?_, by omega, by omega, rfl, ?_⟩
  · rw [List.length_cons, List.length_map, List.length_range]; omega
  · intro i hi
    rw [List.getElem_cons_succ, List.getElem_map, List.getElem_range]
    have e : intervals - intervals % 2 - 1 = 2 * (intervals / 2) - 1 := by omega
    simp only [e]
    have hlog : 0 < log base := log_pos hb
    have hr : 0 < b / (a + eps) := by positivity
    generalize ((2 * (intervals / 2) - 1 : ℕ) : ℝ) = n
    rw [rpow_def_of_pos hbase, rpow_def_of_pos hr, log_div hb0.ne' ha.ne']
    have e2 : (a + eps) * exp ((log b - log (a + eps)) * (i / n)) = exp (log (a + eps) + (log b - log (a + eps)) * (i / n)) := by
      rw [exp_add, exp_log ha]
    rw [e2]
    congr 1
    field_simp

example := C144_linspace 7 (by norm_num) 0 6 10 1
example := C144_logspace 100 (by norm_num) 0 6 10 0.001 (by norm_num) (by norm_num) (by norm_num)

end Verif.Scat
