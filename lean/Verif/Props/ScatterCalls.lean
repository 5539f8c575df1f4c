import Verif.Props.Scatter
import Mathlib.Tactic.Positivity
/-!
C112: elements outside the tables.  C113: entries of a batch are independent.  C114: one unit of the scattering magnitude.
-/
namespace Verif.Scat
open Real Verif.Spec.Scatter

private lemma rowOf_none {n : ℕ} {z : ℤ} (h : (n : ℤ) < z ∨ z ≤ -n) : rowOf n z = none := by
  unfold rowOf
  rw [if_neg (by omega), if_neg (by omega)]

private lemma any_none {n : ℕ} {Z : List ℤ} (h : ∃ z ∈ Z, (n : ℤ) < z ∨ z ≤ -n) :
    (Z.any fun z => (rowOf n z).isNone) = true := by
  rw [List.any_eq_true]
  obtain ⟨z, hz, h⟩ := h
  exact ⟨z, hz, by rw [rowOf_none h]; rfl⟩

/-- C112, what holds: an atomic number above 98 (for the Lobato-Van Dyck factors 102), or below -97 (-101), makes the call raise,
for every convention, table, choice of channels and batch. -/
theorem C112_elements_partial (T : ℕ → Fit) (L : ℕ → Lob) (core phonon : Bool) (ret : String) (g : List ℝ) (Z : List ℤ)
    (σ V : List ℝ) :
    ((∃ z ∈ Z, 98 < z ∨ z ≤ -98) → scatterWK T core phonon ret g Z σ V = none ∧
      scatterHybrid T L core phonon ret g Z σ V = none) ∧
    ((∃ z ∈ Z, 102 < z ∨ z ≤ -102) → ∀ intervals range sampling base eps,
      scatterLVD L ret g Z σ V intervals range sampling base eps = none) := by
  constructor
  · intro h
    have := any_none (n := 98) h
    unfold scatterWK scatterHybrid
    rw [if_pos this, if_pos this]
    exact ⟨rfl, rfl⟩
  · intro h intervals range sampling base eps
    have := any_none (n := 102) h
    unfold scatterLVD
    rw [if_pos this]

/-- The hypothesis holds for fermium (100), which only the Lobato-Van Dyck table covers. -/
example (T : ℕ → Fit) : scatterWK T true true "EMsoft" [1] [14, 100] [0.08, 0.08] [20] = none :=
  ((C112_elements_partial T (fun _ => ⟨0, 0⟩) true true "EMsoft" [1] [14, 100] [0.08, 0.08] [20]).1
    ⟨100, by simp, by norm_num⟩).1

/-- C112 fails: the atomic number 0 (and every `-k` with `k < 97`) is accepted; the Weickenmeier-Kohl factor of element 0 is the
one of element 98 (californium) at every scattering magnitude, displacement and voltage, and the real part of the hybrid factor
is the one of element 102. -/
theorem C112_elements_fails (L : ℕ → Lob) (phonon : Bool) (g σ V : ℝ) :
    (∃ a b, scatterWK wkRow false phonon "EMsoft" [g] [0] [σ] [V] = some a ∧
      scatterWK wkRow false phonon "EMsoft" [g] [98] [σ] [V] = some b ∧ a.at_ 0 0 0 = b.at_ 0 0 0) ∧
    (∃ a, scatterHybrid wkRow L false phonon "ITC" [g] [0] [σ] [V] = some a ∧ (a.at_ 0 0 0).re = evalLVD (L 101) (g / 2)) ∧
    (∀ z : ℤ, -97 ≤ z → z ≤ 0 → ∃ a, scatterWK wkRow false phonon "EMsoft" [g] [z] [σ] [V] = some a) := by
  have h0 : rowOf 98 0 = some 97 := by decide
  have h98 : rowOf 98 98 = some 97 := by decide
  have h102 : rowOf 102 0 = some 101 := by decide
  have hne : ("EMsoft" = "ITC") = False := by decide
  refine ⟨⟨_, _, by unfold scatterWK; rw [if_neg (by simp [h0]), if_neg (by simp)],
    by unfold scatterWK; rw [if_neg (by simp [h98]), if_neg (by simp)], ?_⟩,
    ⟨_, by unfold scatterHybrid; rw [if_neg (by simp [h0]), if_neg (by simp), if_neg (by simp)], ?_⟩, ?_⟩
  · simp only [wkEntry, List.getD_cons_zero, h0, h98, hne, if_false, if_true, Option.getD_some, imagPart, Bool.false_eq_true]
  · have hne' : ("ITC" = "EMsoft") = False := by decide
    simp only [hybridEntry, List.getD_cons_zero, h102, hne', if_false, Option.getD_some]
  · intro z h1 h2
    have : rowOf 98 z = some (z - 1 + 98).toNat := by
      unfold rowOf; rw [if_neg (by omega), if_pos (by constructor <;> push_cast <;> omega)]; rfl
    exact ⟨_, by unfold scatterWK; rw [if_neg (by simp [this]), if_neg (by simp)]⟩

private lemma single_none {n : ℕ} {Z : List ℤ} (h : ¬ (Z.any fun z => (rowOf n z).isNone) = true) {z : ℕ} (hz : z < Z.length) :
    ¬ ([Z[z]].any fun z => (rowOf n z).isNone) = true := by
  intro h'
  apply h
  rw [List.any_eq_true] at h' ⊢
  obtain ⟨w, hw, h'⟩ := h'
  rw [List.mem_singleton] at hw
  exact ⟨w, hw ▸ List.getElem_mem hz, h'⟩

/-- C113, what holds: whenever a batched call of `scatter_factor_WK` or `scatter_factor_hybrid` succeeds, with one displacement
per element, its entry for voltage `v`, element `z` and scattering magnitude `k` is the result of the call with these three
values alone; the same for `scatter_factor_LVD` with one voltage, and for its real part with any number of voltages. -/
theorem C113_batch_partial (T : ℕ → Fit) (L : ℕ → Lob) (core phonon : Bool) (ret : String) (g : List ℝ) (Z : List ℤ)
    (σ V : List ℝ) (hσ : σ.length = Z.length) (v z k : ℕ) (hv : v < V.length) (hz : z < Z.length) (hk : k < g.length) :
    (∀ out, scatterWK T core phonon ret g Z σ V = some out →
      ∃ one, scatterWK T core phonon ret [g[k]] [Z[z]] [σ[z]] [V[v]] = some one ∧ out.at_ v z k = one.at_ 0 0 0) ∧
    (∀ out, scatterHybrid T L core phonon ret g Z σ V = some out →
      ∃ one, scatterHybrid T L core phonon ret [g[k]] [Z[z]] [σ[z]] [V[v]] = some one ∧ out.at_ v z k = one.at_ 0 0 0) ∧
    (∀ intervals range sampling base eps out, scatterLVD L ret g Z σ V intervals range sampling base eps = some out →
      ∃ one, scatterLVD L ret [g[k]] [Z[z]] [σ[z]] [V[v]] intervals range sampling base eps = some one ∧
        (out.at_ v z k).re = (one.at_ 0 0 0).re ∧ (V.length = 1 → out.at_ v z k = one.at_ 0 0 0)) := by
  have e1 : g.getD k 0 = g[k] := by simp [hk]
  have e2 : Z.getD z 0 = Z[z] := by simp [hz]
  have e3 : σ.getD z 0 = σ[z] := by simp [hσ ▸ hz]
  have e4 : V.getD v 0 = V[v] := by simp [hv]
  refine ⟨?_, ?_, ?_⟩
  · intro out h
    unfold scatterWK at h
    by_cases c1 : (Z.any fun z => (rowOf 98 z).isNone) = true
    · rw [if_pos c1] at h; exact absurd h (by simp)
    rw [if_neg c1, if_neg (by rw [hσ]; simp)] at h
    refine ⟨_, by unfold scatterWK; rw [if_neg (single_none c1 hz), if_neg (by simp)], ?_⟩
    rw [← Option.some.inj h]
    simp only [e1, e2, e3, e4, List.getD_cons_zero]
  · intro out h
    unfold scatterHybrid at h
    by_cases c1 : (Z.any fun z => (rowOf 98 z).isNone) = true
    · rw [if_pos c1] at h; exact absurd h (by simp)
    rw [if_neg c1, if_neg (by rw [hσ]; simp)] at h
    by_cases c2 : ret ≠ "EMsoft" ∧ ret ≠ "ITC"
    · rw [if_pos c2] at h; exact absurd h (by simp)
    rw [if_neg c2] at h
    refine ⟨_, by unfold scatterHybrid; rw [if_neg (single_none c1 hz), if_neg (by simp), if_neg c2], ?_⟩
    rw [← Option.some.inj h]
    simp only [e1, e2, e3, e4, List.getD_cons_zero]
  · intro intervals range sampling base eps out h
    unfold scatterLVD at h ⊢
    by_cases c1 : (Z.any fun z => (rowOf 102 z).isNone) = true
    · rw [if_pos c1] at h; exact absurd h (by simp)
    rw [if_neg c1, if_neg (by rw [hσ]; simp)] at h
    rw [if_neg (single_none c1 hz), if_neg (by simp)]
    dsimp only at h ⊢
    by_cases c2 : ret = "ITC"
    · rw [if_pos c2] at h ⊢
      refine ⟨_, rfl, ?_⟩
      rw [← Option.some.inj h]
      simp only [e1, e2, List.getD_cons_zero, implies_true, and_self]
    rw [if_neg c2] at h ⊢
    cases hr : ewaldRange intervals range sampling base eps with
    | none => rw [hr] at h; exact absurd h (by simp)
    | some xs =>
      rw [hr, Option.bind_some] at h
      rw [Option.bind_some, if_neg (by simp)]
      by_cases c3 : V.length ≠ 1 ∧ V.length ≠ g.length
      · rw [if_pos c3] at h; exact absurd h (by simp)
      rw [if_neg c3] at h
      refine ⟨_, rfl, ?_⟩
      rw [← Option.some.inj h]
      refine ⟨by simp only [e1, e2, e3, e4, List.getD_cons_zero], ?_⟩
      intro hV
      have hv0 : v = 0 := by omega
      subst hv0
      simp only [e1, e2, e3, e4, List.getD_cons_zero, if_pos hV, List.length_singleton, if_true]

/-- The hypotheses hold for two elements, two voltages and three magnitudes. -/
example (T : ℕ → Fit) : ∃ out one, scatterWK T true true "EMsoft" [0, 1, 2] [26, 8] [0.08, 0.1] [20, 30] = some out ∧
    scatterWK T true true "EMsoft" [2] [8] [0.1] [20] = some one ∧ out.at_ 0 1 2 = one.at_ 0 0 0 := by
  have h1 : (List.any [26, 8] fun z => (rowOf 98 z).isNone) = false := by decide
  have hs : ∃ out, scatterWK T true true "EMsoft" [0, 1, 2] [26, 8] [0.08, 0.1] [20, 30] = some out :=
    ⟨_, by unfold scatterWK; rw [if_neg (by rw [h1]; decide), if_neg (by simp)]⟩
  obtain ⟨out, ho⟩ := hs
  obtain ⟨one, h2, h3⟩ := (C113_batch_partial T (fun _ => ⟨0, 0⟩) true true "EMsoft" [0, 1, 2] [26, 8] [0.08, 0.1] [20, 30] rfl
    0 1 2 (by simp) (by simp) (by simp)).1 out ho
  exact ⟨out, one, ho, h2, h3⟩

/-- A fit with a single constant term, to exhibit the failure below. -/
private def flat : Lob := ⟨fun k => if k = 0 then 1 else 0, 0⟩

private lemma flat_eval (s : ℝ) : evalLVD flat s = 2 := by
  unfold evalLVD flat
  simp

private lemma grid : ewaldRange 2 (0, 1) "linspace" 2 1 = some [0, 1 / 2, 1] := by
  unfold ewaldRange
  rw [if_pos rfl]
  simp [List.range, List.range.loop]

private lemma flat_integral : ∃ y, 0 < y ∧ ewaldIntegral flat [0, 1 / 2, 1] 0 (1 ^ 2 * (8 * π ^ 2)) = some y := by
  have hM : 0 < 1 ^ 2 * (8 * π ^ 2) := by positivity
  generalize 1 ^ 2 * (8 * π ^ 2) = M at *
  have hf : ∀ sx sy, integrand flat sx sy 0 M = 4 * (1 - exp (-2 * M * (sx ^ 2 + sy ^ 2))) := by
    intro sx sy
    unfold integrand
    rw [flat_eval, flat_eval]
    norm_num
  have hn : ∀ sx sy, 0 ≤ integrand flat sx sy 0 M := by
    intro sx sy
    rw [hf]
    have := exp_le_one_iff.mpr (show -2 * M * (sx ^ 2 + sy ^ 2) ≤ 0 by
      have : 0 ≤ 2 * M * (sx ^ 2 + sy ^ 2) := by positivity
      linarith)
    linarith
  have hp : 0 < integrand flat 1 1 0 M := by
    rw [hf]
    have := exp_lt_one_iff.mpr (show -2 * M * ((1 : ℝ) ^ 2 + 1 ^ 2) < 0 by
      have : 0 < 2 * M * ((1 : ℝ) ^ 2 + 1 ^ 2) := by positivity
      linarith)
    linarith
  have simp3 : ∀ a b c : ℝ, Numerics.simpson [a, b, c] [0, 1 / 2, 1] = .ok ((a + 4 * b + c) / 6) := by
    intro a b c
    unfold Numerics.simpson
    simp [Numerics.simpsonPair, Numerics.gap, Numerics.at']
    norm_num
    ring
  refine ⟨_, ?_, by
    unfold ewaldIntegral
    simp only [List.map_cons, List.map_nil, simp3]
    rfl⟩
  · have := hn 0 0; have := hn 0 (1 / 2); have := hn 0 1; have := hn (1 / 2) 0; have := hn (1 / 2) (1 / 2); have := hn (1 / 2) 1
    have := hn 1 0; have := hn 1 (1 / 2)
    generalize integrand flat 0 0 0 M = a00 at *
    generalize integrand flat 0 (1 / 2) 0 M = a01 at *
    generalize integrand flat 0 1 0 M = a02 at *
    generalize integrand flat (1 / 2) 0 0 M = a10 at *
    generalize integrand flat (1 / 2) (1 / 2) 0 M = a11 at *
    generalize integrand flat (1 / 2) 1 0 M = a12 at *
    generalize integrand flat 1 0 0 M = a20 at *
    generalize integrand flat 1 (1 / 2) 0 M = a21 at *
    generalize integrand flat 1 1 0 M = a22 at *
    positivity

/-- C113 fails for `scatter_factor_LVD` with several voltages.  With as many voltages as scattering magnitudes the absorption at
voltage `v` is divided by the wave number of another voltage: for 20 and 30 kV at two equal magnitudes the entry for 20 kV is
not the one computed for 20 kV alone.  With any other number of voltages above one the call raises. -/
theorem C113_batch_fails :
    (∃ (L : ℕ → Lob) (out one : Out),
      scatterLVD L "EMsoft" [0, 0] [1] [1] [20, 30] 2 (0, 1) "linspace" 2 1 = some out ∧
      scatterLVD L "EMsoft" [0] [1] [1] [20] 2 (0, 1) "linspace" 2 1 = some one ∧ out.at_ 0 0 1 ≠ one.at_ 0 0 0) ∧
    (∀ (L : ℕ → Lob) (ret : String) (g : List ℝ) (Z : List ℤ) (σ V : List ℝ) intervals range sampling base eps, ret ≠ "ITC" →
      1 < V.length → V.length ≠ g.length → scatterLVD L ret g Z σ V intervals range sampling base eps = none) := by
  have hr : rowOf 102 1 = some 0 := by decide
  have hne : ("EMsoft" = "ITC") = False := by decide
  constructor
  · obtain ⟨y, hy, he⟩ := flat_integral
    refine ⟨fun _ => flat, _, _, by
        unfold scatterLVD
        rw [if_neg (by simp [hr]), if_neg (by simp)]
        simp only [hne, if_false]
        rw [grid, Option.bind_some, if_neg (by simp)], by
        unfold scatterLVD
        rw [if_neg (by simp [hr]), if_neg (by simp)]
        simp only [hne, if_false]
        rw [grid, Option.bind_some, if_neg (by simp)], ?_⟩
    · simp only [List.getD_cons_zero, List.getD_cons_succ, List.length_cons, List.length_nil, zero_div, he, Option.map_some]
      norm_num only
      intro h
      have h := congrArg Entry.im h
      simp only [Option.some.injEq] at h
      have hπ := pi_pos
      have hw : ∀ E, 0 < wavelength E := fun E => exp_pos _
      have hd := exp_pos (-(1 * (8 * π ^ 2) : ℝ) * 0)
      have key : wavelength 30000 < wavelength 20000 := by
        unfold wavelength
        apply exp_lt_exp.mpr
        have l1 : log 20000 < log 30000 := log_lt_log (by norm_num) (by norm_num)
        have l2 : log (1 + 20000 * 9.7847589066012e-07) < log (1 + 30000 * 9.7847589066012e-07) :=
          log_lt_log (by norm_num) (by norm_num)
        linarith
      have w2 := hw 20000
      have w3 := hw 30000
      simp only [if_false, if_true, List.getD_cons_zero, List.getD_cons_succ] at h
      rw [show (1000 : ℝ) * 30 = 30000 by norm_num, show (1000 : ℝ) * 20 = 20000 by norm_num] at h
      have hc : (0 : ℝ) < 4 * π * (4 * y * exp (-(1 * (8 * π ^ 2) : ℝ) * 0)) := by positivity
      have h := mul_left_cancel₀ hc.ne' h
      rw [div_div_eq_mul_div, div_div_eq_mul_div, div_left_inj' (by positivity)] at h
      linarith
  · intro L ret g Z σ V intervals range sampling base eps h0 h1 h2
    unfold scatterLVD
    by_cases c1 : (Z.any fun z => (rowOf 102 z).isNone) = true
    · rw [if_pos c1]
    rw [if_neg c1]
    by_cases c2 : σ.length * g.length ≠ Z.length * g.length
    · rw [if_pos c2]
    rw [if_neg c2]
    dsimp only
    rw [if_neg h0]
    cases ewaldRange intervals range sampling base eps with
    | none => rfl
    | some xs => rw [Option.bind_some, if_pos ⟨by omega, h2⟩]

/-- C114, what holds: in `scatter_factor_WK` the thermal damping of the real part is the Debye-Waller factor at wave vector
transfer `g`; in `scatter_factor_hybrid` and (with one voltage) `scatter_factor_LVD` it is the Debye-Waller factor at `2 pi g`.
So at `g` for the first and `g / (2 pi)` for the others the same displacement damps by the same factor. -/
theorem C114_units_partial (T : ℕ → Fit) (L : ℕ → Lob) (core phonon : Bool) (g : ℝ) (Z : ℤ) (h1 : 1 ≤ Z) (h2 : Z ≤ 98) (σ V : ℝ) :
    ∃ w w0 h h0, scatterWK T core phonon "EMsoft" [g] [Z] [σ] [V] = some w ∧
      scatterWK T core phonon "EMsoft" [g] [Z] [0] [V] = some w0 ∧
      scatterHybrid T L core phonon "EMsoft" [g / (2 * π)] [Z] [σ] [V] = some h ∧
      scatterHybrid T L core phonon "EMsoft" [g / (2 * π)] [Z] [0] [V] = some h0 ∧
      (w.at_ 0 0 0).re = (w0.at_ 0 0 0).re * debyeWaller σ g ∧
      (h.at_ 0 0 0).re = (h0.at_ 0 0 0).re * debyeWaller σ g ∧
      ∀ intervals range sampling base eps l, scatterLVD L "EMsoft" [g / (2 * π)] [Z] [σ] [V] intervals range sampling base eps =
        some l → ∃ l0, scatterLVD L "EMsoft" [g / (2 * π)] [Z] [0] [V] intervals range sampling base eps = some l0 ∧
          (l.at_ 0 0 0).re = (l0.at_ 0 0 0).re * debyeWaller σ g := by
  have hr : rowOf 98 Z = some (Z - 1).toNat := rowOf_valid h1 h2
  have hne : ("EMsoft" = "ITC") = False := by decide
  have hne2 : ¬ ("EMsoft" ≠ "EMsoft" ∧ "EMsoft" ≠ "ITC") := by simp
  have hπ := pi_pos
  refine ⟨_, _, _, _, by unfold scatterWK; rw [if_neg (by simp [hr]), if_neg (by simp)],
    by unfold scatterWK; rw [if_neg (by simp [hr]), if_neg (by simp)],
    by unfold scatterHybrid; rw [if_neg (by simp [hr]), if_neg (by simp), if_neg hne2],
    by unfold scatterHybrid; rw [if_neg (by simp [hr]), if_neg (by simp), if_neg hne2], ?_, ?_, ?_⟩
  · simp only [wkEntry, List.getD_cons_zero, hr, Option.getD_some, hne, if_false, if_true]
    have e1 : exp (-0.5 * σ ^ 2 * g ^ 2) = debyeWaller σ g := by unfold debyeWaller; congr 1; norm_num; ring
    rw [e1]
    norm_num
    ring
  · simp only [hybridEntry, List.getD_cons_zero, hr, Option.getD_some, if_true]
    have e1 : exp (-0.5 * σ ^ 2 * (g / (2 * π) * 2 * π) ^ 2) = debyeWaller σ g := by
      unfold debyeWaller; congr 1
      rw [show g / (2 * π) * 2 * π = g by field_simp]
      norm_num; ring
    rw [e1]
    norm_num
    ring
  · intro intervals range sampling base eps l h
    unfold scatterLVD at h ⊢
    have hr' : rowOf 102 Z = some (Z - 1).toNat := by
      unfold rowOf; rw [if_pos ⟨by omega, by push_cast; omega⟩]
    have c1 : ¬ ([Z].any fun z => (rowOf 102 z).isNone) = true := by simp [hr']
    rw [if_neg c1, if_neg (by simp)] at h ⊢
    dsimp only at h ⊢
    simp only [hne, if_false] at h ⊢
    cases hw : ewaldRange intervals range sampling base eps with
    | none => rw [hw] at h; exact absurd h (by simp)
    | some xs =>
      rw [hw, Option.bind_some, if_neg (by simp)] at h
      rw [Option.bind_some, if_neg (by simp)]
      refine ⟨_, rfl, ?_⟩
      rw [← Option.some.inj h]
      simp only [List.getD_cons_zero]
      have e1 : exp (-(σ ^ 2 * (8 * π ^ 2)) * (g / (2 * π) / 2) ^ 2) = debyeWaller σ g := by
        unfold debyeWaller; congr 1; field_simp; norm_num; ring
      rw [e1]
      norm_num
      ring

/-- The hypotheses hold for iron. -/
example (T : ℕ → Fit) (L : ℕ → Lob) : ∃ w w0, scatterWK T true true "EMsoft" [5] [26] [0.08] [20] = some w ∧
    scatterWK T true true "EMsoft" [5] [26] [0] [20] = some w0 ∧
    (w.at_ 0 0 0).re = (w0.at_ 0 0 0).re * debyeWaller 0.08 5 := by
  obtain ⟨w, w0, _, _, h1, h2, _, _, h3, _⟩ := C114_units_partial T L true true 5 26 (by norm_num) (by norm_num) 0.08 20
  exact ⟨w, w0, h1, h2, h3⟩

/-- C114 fails: given the same scattering magnitude, as the reflection lists of the library do, the two parameterisations damp by
different factors: by `e^{-1/2}` and `e^{-2 pi^2}` at `g = 1` and displacement 1. -/
theorem C114_units_fails (T : ℕ → Fit) (L : ℕ → Lob) (core phonon : Bool) (V : ℝ) :
    ∃ w w0 h h0, scatterWK T core phonon "EMsoft" [1] [26] [1] [V] = some w ∧
      scatterWK T core phonon "EMsoft" [1] [26] [0] [V] = some w0 ∧
      scatterHybrid T L core phonon "EMsoft" [1] [26] [1] [V] = some h ∧
      scatterHybrid T L core phonon "EMsoft" [1] [26] [0] [V] = some h0 ∧
      (w.at_ 0 0 0).re = (w0.at_ 0 0 0).re * exp (-(1 / 2)) ∧
      (h.at_ 0 0 0).re = (h0.at_ 0 0 0).re * exp (-(2 * π ^ 2)) ∧ exp (-(2 * π ^ 2)) < 0.01 * exp (-(1 / 2)) := by
  obtain ⟨w, w0, _, _, h1, h2, _, _, h3, _⟩ := C114_units_partial T L core phonon 1 26 (by norm_num) (by norm_num) 1 V
  obtain ⟨_, _, h, h0, _, _, h4, h5, _, h6, _⟩ := C114_units_partial T L core phonon (2 * π) 26 (by norm_num) (by norm_num) 1 V
  have hπ : (2 * π) / (2 * π) = 1 := div_self (by positivity)
  rw [hπ] at h4 h5
  refine ⟨w, w0, h, h0, h1, h2, h4, h5, ?_, ?_, ?_⟩
  · rw [h3]; unfold debyeWaller; congr 2; norm_num
  · rw [h6]; unfold debyeWaller; congr 2; ring
  · have p3 := pi_gt_three
    have e1 : exp (-(2 * π ^ 2)) ≤ exp (-18) := exp_le_exp.mpr (by nlinarith)
    have e2 : exp (-18 : ℝ) = exp (-(1 / 2)) * exp (-(17.5)) := by rw [← exp_add]; norm_num
    have e3 : exp (-(17.5) : ℝ) < 0.01 := by
      have : exp (-(17.5) : ℝ) ≤ exp (-1) ^ 17 := by rw [← exp_nat_mul]; exact exp_le_exp.mpr (by norm_num)
      have h' : exp (-1 : ℝ) < 1 / 2 := by
        rw [exp_neg, inv_eq_one_div]
        have := exp_one_gt_d9
        exact one_div_lt_one_div_of_lt (by norm_num) (by linarith)
      calc exp (-(17.5) : ℝ) ≤ exp (-1) ^ 17 := this
        _ ≤ (1 / 2) ^ 17 := pow_le_pow_left₀ (exp_pos _).le h'.le _
        _ < 0.01 := by norm_num
    have := exp_pos (-(1 / 2) : ℝ)
    nlinarith

end Verif.Scat
