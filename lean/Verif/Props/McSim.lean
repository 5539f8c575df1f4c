import Verif.Model.McSim
import Verif.Props.McKernel
import Verif.Props.Numerics
/-! C124 (`run_simulation`), C125 (`_find_required_steps`) and C126 (`resample_to_linear`) of the Monte Carlo simulator. -/
namespace Verif.Mck
open Verif Real

/-- The counts that `n` launches collect in bin `(e, d, x, y)` when the first `m.nExtra` energy bins are not counted. -/
noncomputable def kept (m : McSim) (runs : ℕ → Hist) (n : ℕ) : Hist := fun e d x y => ∑ r ∈ Finset.range n, runs r (e + m.nExtra) d x y

/-- The sum of all entries of a histogram without extra energy bins. -/
noncomputable def allBins (m : McSim) (h : Hist) : ℝ :=
  ∑ e ∈ Finset.range m.nFillable, ∑ d ∈ Finset.range m.nDepth, ∑ x ∈ Finset.range m.nDir, ∑ y ∈ Finset.range m.nDir, h e d x y

theorem sum_flip (n : ℕ) (f : ℕ → ℝ) : ∑ y ∈ Finset.range n, (f y + f (n - 1 - y)) / 2 = ∑ y ∈ Finset.range n, f y := by
  rw [← Finset.sum_div, Finset.sum_add_distrib, Finset.sum_range_reflect f n]
  ring

theorem marginal_clean (m : McSim) (h : Hist) (e : ℕ) : m.marginal (m.clean h) e =
    ∑ d ∈ Finset.range m.nDepth, ∑ x ∈ Finset.range m.nDir, ∑ y ∈ Finset.range m.nDir, h (e + m.nExtra) d x y := by
  unfold McSim.marginal McSim.clean
  by_cases ho : m.omega = 0
  · simp only [if_pos ho]
    exact Finset.sum_congr rfl fun d _ => Finset.sum_congr rfl fun x _ => sum_flip m.nDir fun y => h (e + m.nExtra) d x y
  · simp only [if_neg ho]

theorem mass_clean (m : McSim) (h : Hist) : m.mass (m.clean h) = allBins m fun e d x y => h (e + m.nExtra) d x y := by
  unfold McSim.mass allBins
  exact Finset.sum_congr rfl fun e _ => marginal_clean m h e

theorem allBins_add (m : McSim) (f g : Hist) : allBins m (fun e d x y => f e d x y + g e d x y) = allBins m f + allBins m g := by
  unfold allBins
  simp only [Finset.sum_add_distrib]

theorem allBins_kept (m : McSim) (runs : ℕ → Hist) (n : ℕ) :
    allBins m (kept m runs n) = ∑ r ∈ Finset.range n, m.mass (m.clean (runs r)) := by
  induction n with
  | zero => simp [kept, allBins]
  | succ n ih =>
    rw [Finset.sum_range_succ, ← ih, mass_clean, ← allBins_add]
    congr 1
    funext e d x y
    unfold kept
    rw [Finset.sum_range_succ]

theorem loop_spec (m : McSim) (per : ℕ) (runs : ℕ → Hist) (fuel r : ℕ) (h : Hist) (bse : ℝ) (sim : ℕ) (H : Hist) (total : ℕ)
    (hl : m.loop per runs fuel r h bse sim = some (H, total)) : ∃ j : ℕ,
      (∀ e d x y, H e d x y = h e d x y + ∑ i ∈ Finset.range j, m.clean (runs (r + i)) e d x y) ∧ total = sim + j * per ∧
      m.minMass ≤ bse + ∑ i ∈ Finset.range j, m.mass (m.clean (runs (r + i))) ∧
      ∀ k < j, bse + ∑ i ∈ Finset.range k, m.mass (m.clean (runs (r + i))) < m.minMass := by
  induction fuel generalizing r h bse sim with
  | zero => simp [McSim.loop] at hl
  | succ n ih =>
    unfold McSim.loop at hl
    by_cases hc : bse < m.minMass
    · rw [if_pos hc] at hl
      obtain ⟨j, h1, h2, h3, h4⟩ := ih _ _ _ _ hl
      have e : ∀ i, r + 1 + i = r + (i + 1) := by intro i; omega
      simp only [e] at h1 h3 h4
      refine ⟨j + 1, ?_, ?_, ?_, ?_⟩
      · intro a b c d
        rw [h1, Finset.sum_range_succ', add_assoc]
        congr 1
        rw [add_comm, add_zero]
      · rw [h2]; ring
      · rw [Finset.sum_range_succ', add_zero]; linarith
      · intro k hk
        cases k with
        | zero => simpa using hc
        | succ k =>
          have := h4 k (by omega)
          rw [Finset.sum_range_succ', add_zero]; linarith
    · rw [if_neg hc] at hl
      obtain ⟨rfl, rfl⟩ := Prod.mk.inj (Option.some.inj hl)
      exact ⟨0, by simp, by simp, by simpa using hc, by simp⟩

theorem loop_term (m : McSim) (per : ℕ) (runs : ℕ → Hist) (j r : ℕ) (h : Hist) (bse : ℝ) (sim : ℕ)
    (hj : m.minMass ≤ bse + ∑ i ∈ Finset.range j, m.mass (m.clean (runs (r + i)))) :
    (m.loop per runs (j + 1) r h bse sim).isSome := by
  induction j generalizing r h bse sim with
  | zero =>
    unfold McSim.loop
    rw [if_neg (by simpa using hj)]
    rfl
  | succ j ih =>
    unfold McSim.loop
    by_cases hc : bse < m.minMass
    · rw [if_pos hc]
      apply ih
      rw [Finset.sum_range_succ', add_zero] at hj
      have e : ∀ i, r + 1 + i = r + (i + 1) := by intro i; omega
      simp only [e]
      linarith
    · rw [if_neg hc]; rfl

/-- C124: whatever the launches return, if `run_simulation` returns then for some number `n ≥ 1` of launches its histogram is the sum of
their counts without the extra energy bins (averaged with its mirror image, and hence symmetric, if `omega = 0`), the second result is
the number of electrons simulated in all of them, the histogram holds exactly the counts kept, at least `min_histogram_mass`, and one
launch fewer would not have been enough. -/
theorem C124_result (m : McSim) (nElectrons trials : ℕ) (runs : ℕ → Hist) (fuel : ℕ) (H : Hist) (total : ℕ)
    (h : m.run nElectrons trials runs fuel = some (H, total)) : ∃ n : ℕ, 1 ≤ n ∧
      (m.omega = 0 → ∀ e d x y, H e d x y = (kept m runs n e d x y + kept m runs n e d x (m.nDir - 1 - y)) / 2) ∧
      (m.omega ≠ 0 → ∀ e d x y, H e d x y = kept m runs n e d x y) ∧
      (m.omega = 0 → ∀ e d x y, y < m.nDir → H e d x (m.nDir - 1 - y) = H e d x y) ∧
      total = n * (nElectrons * trials) ∧ allBins m H = allBins m (kept m runs n) ∧ m.minMass ≤ allBins m H ∧
      ∀ k, 1 ≤ k → k < n → allBins m (kept m runs k) < m.minMass := by
  obtain ⟨j, h1, h2, h3, h4⟩ := loop_spec m _ runs fuel _ _ _ _ H total h
  have hsum : ∀ (f : ℕ → ℝ) (k : ℕ), f 0 + ∑ i ∈ Finset.range k, f (1 + i) = ∑ i ∈ Finset.range (k + 1), f i := by
    intro f k
    rw [Finset.sum_range_succ', add_comm]
    congr 1
    exact Finset.sum_congr rfl fun i _ => by rw [add_comm]
  have hH : ∀ e d x y, H e d x y = ∑ r ∈ Finset.range (j + 1), m.clean (runs r) e d x y := by
    intro e d x y
    rw [h1, hsum fun r => m.clean (runs r) e d x y]
  have ha : m.omega = 0 → ∀ e d x y, H e d x y = (kept m runs (j + 1) e d x y + kept m runs (j + 1) e d x (m.nDir - 1 - y)) / 2 := by
    intro ho e d x y
    rw [hH]
    unfold McSim.clean kept
    simp only [if_pos ho]
    rw [← Finset.sum_div, Finset.sum_add_distrib]
  have hb : m.omega ≠ 0 → ∀ e d x y, H e d x y = kept m runs (j + 1) e d x y := by
    intro ho e d x y
    rw [hH]
    unfold McSim.clean kept
    simp only [if_neg ho]
  have hm : allBins m H = allBins m (kept m runs (j + 1)) := by
    by_cases ho : m.omega = 0
    · unfold allBins
      refine Finset.sum_congr rfl fun e _ => Finset.sum_congr rfl fun d _ => Finset.sum_congr rfl fun x _ => ?_
      rw [← sum_flip m.nDir fun y => kept m runs (j + 1) e d x y]
      exact Finset.sum_congr rfl fun y _ => ha ho e d x y
    · unfold allBins
      exact Finset.sum_congr rfl fun e _ => Finset.sum_congr rfl fun d _ => Finset.sum_congr rfl fun x _ =>
        Finset.sum_congr rfl fun y _ => hb ho e d x y
  refine ⟨j + 1, by omega, ha, hb, ?_, ?_, hm, ?_, ?_⟩
  · intro ho e d x y hy
    rw [ha ho, ha ho, show m.nDir - 1 - (m.nDir - 1 - y) = y by omega, add_comm]
  · rw [h2]; ring
  · rw [hm, allBins_kept, ← hsum fun r => m.mass (m.clean (runs r))]
    linarith
  · intro k hk hkn
    obtain ⟨k, rfl⟩ : ∃ i, k = i + 1 := ⟨k - 1, by omega⟩
    rw [allBins_kept, ← hsum fun r => m.mass (m.clean (runs r))]
    have := h4 k (by omega)
    linarith

/-- C124: `run_simulation` returns if and only if finitely many launches collect `min_histogram_mass` counts. -/
theorem C124_returns (m : McSim) (nElectrons trials : ℕ) (runs : ℕ → Hist) :
    (∃ fuel, (m.run nElectrons trials runs fuel).isSome) ↔ ∃ n, 1 ≤ n ∧ m.minMass ≤ allBins m (kept m runs n) := by
  constructor
  · rintro ⟨fuel, h⟩
    obtain ⟨⟨H, total⟩, hr⟩ := Option.isSome_iff_exists.mp h
    obtain ⟨n, h1, -, -, -, -, h5, h6, -⟩ := C124_result m nElectrons trials runs fuel H total hr
    exact ⟨n, h1, h5 ▸ h6⟩
  · rintro ⟨n, h1, h2⟩
    obtain ⟨j, rfl⟩ : ∃ j, n = j + 1 := ⟨n - 1, by omega⟩
    refine ⟨j + 1, loop_term m _ runs j _ _ _ _ ?_⟩
    rw [allBins_kept, Finset.sum_range_succ'] at h2
    have : ∑ i ∈ Finset.range j, m.mass (m.clean (runs (1 + i))) = ∑ i ∈ Finset.range j, m.mass (m.clean (runs (i + 1))) :=
      Finset.sum_congr rfl fun i _ => by rw [add_comm]
    rw [this]; linarith

/-- C124: energy bin `k` of the result holds the electrons that leave with an energy in `(kV - (k+1) b, kV - k b]`; the beam of the
simulation has the energy `kV + n_energy_bins_extra * b`, and what leaves above `kV` is not counted. -/
theorem C124_energies (m : McSim) (hb : 0 < m.binE) (hd : 0 < m.binDepth) (hk : 0 < m.kV) (hn : m.nDir ≠ 0) (Z rho A : ℝ) (hZ : 0 < Z)
    (hr : 0 < rho) (hA : 0 < A) (trials maxSteps : ℕ) (esc : ℝ) (hesc : 0 ≤ esc) (st : KState)
    (hE : st.energy ≤ (m.kparams Z rho A trials maxSteps).startE) (k : ℕ) :
    (kBin (m.kparams Z rho A trials maxSteps) esc st).1 = ((k + m.nExtra : ℕ) : ℤ) ↔
      m.kV - (k + 1) * m.binE < st.energy ∧ st.energy ≤ m.kV - k * m.binE := by
  have hp : Phys (m.kparams Z rho A trials maxSteps) := by
    refine ⟨?_, hb, hd, hZ, hr, hA⟩
    have : (0 : ℝ) ≤ m.nExtra * m.binE := by positivity
    simp only [McSim.kparams]
    linarith
  have := (C121_bins _ hp hn esc hesc st hE).2.2.1 ((k + m.nExtra : ℕ) : ℤ)
  rw [this]
  simp only [McSim.kparams]
  push_cast
  constructor
  · rintro ⟨h1, h2⟩; exact ⟨by linarith, by linarith⟩
  · rintro ⟨h1, h2⟩; exact ⟨by linarith, by linarith⟩

theorem item_nosteps (p : KParams) (h : p.maxSteps = 0) (n : ℕ) (s : Seed) : (kItem p n s).1 = [] := by
  induction n generalizing s with
  | zero => rfl
  | succ n ih =>
    unfold kItem
    dsimp only
    rw [ih, h]
    rfl

/-- C124 fails: `run_simulation` need not return: with `n_max_steps_override = 0` no launch ever counts anything, and the loop runs for
ever. -/
theorem C124_fails (m : McSim) (hm : 0 < m.minMass) (Z rho A : ℝ) (nElectrons trials : ℕ) (seeds : ℕ → List Seed) (sched : ℕ → List ℤ)
    (h : ∀ r, Interleaving ((seeds r).map fun s => (kItem (m.kparams Z rho A trials 0) trials s).1) (sched r)) (fuel : ℕ) :
    m.run nElectrons trials (fun r => launchHist (m.kparams Z rho A trials 0) (sched r)) fuel = none := by
  have hs : ∀ r, sched r = [] := by
    intro r
    have := (interleaving_perm (h r)).length_eq
    rw [List.length_flatten] at this
    have h0 : (List.map List.length ((seeds r).map fun s => (kItem (m.kparams Z rho A trials 0) trials s).1)).sum = 0 := by
      rw [List.sum_eq_zero]
      intro x hx
      simp only [List.map_map, List.mem_map, Function.comp] at hx
      obtain ⟨s, -, rfl⟩ := hx
      rw [item_nosteps _ rfl]; rfl
    rw [h0] at this
    exact List.length_eq_zero_iff.mp this
  by_contra hc
  have hsome := Option.isSome_iff_ne_none.mpr hc
  obtain ⟨n, -, hn⟩ := (C124_returns m nElectrons trials _).mp ⟨fuel, hsome⟩
  have : allBins m (kept m (fun r => launchHist (m.kparams Z rho A trials 0) (sched r)) n) = 0 := by
    unfold allBins kept launchHist
    simp [hs, kLaunch]
  linarith

/-! ### C125 -/

/-- The counts of energy bin `e` of a test launch, without the extra bins. -/
noncomputable def energyCount (m : McSim) (h : Hist) (e : ℕ) : ℝ :=
  ∑ d ∈ Finset.range m.nDepth, ∑ x ∈ Finset.range m.nDir, ∑ y ∈ Finset.range m.nDir, h (e + m.nExtra) d x y

theorem filled_iff (m : McSim) (h : Hist) (hh : ∀ e d x y, 0 ≤ h e d x y) :
    m.filled h 0 ↔ ∀ e < m.nFillable, 0 < energyCount m h e := by
  have hc : ∀ e, m.marginal (m.clean h) e = energyCount m h e := marginal_clean m h
  have hnn : ∀ e, 0 ≤ energyCount m h e := fun e =>
    Finset.sum_nonneg fun _ _ => Finset.sum_nonneg fun _ _ => Finset.sum_nonneg fun _ _ => hh _ _ _ _
  unfold McSim.filled
  simp only [hc]
  constructor
  · intro h1 e he
    obtain ⟨h2, h3⟩ := h1 e he
    rcases (hnn e).eq_or_lt with h4 | h4
    · rw [← h4, zero_div] at h3; exact absurd h3 (lt_irrefl _)
    · exact h4
  · intro h1 e he
    have hS : 0 < ∑ i ∈ Finset.range m.nFillable, energyCount m h i :=
      Finset.sum_pos (fun i hi => h1 i (Finset.mem_range.mp hi)) ⟨e, Finset.mem_range.mpr he⟩
    exact ⟨hS.ne', div_pos (h1 e he) hS⟩

theorem findLoop_spec (m : McSim) (test : ℕ → Hist) (t : ℝ) (l : List ℕ) :
    (m.findLoop test t l ∈ l ∧ m.filled (test (m.findLoop test t l)) t ∨
      m.findLoop test t l = 2000 ∧ ∀ n ∈ l, ¬ m.filled (test n) t) ∧
    (l.Pairwise (· < ·) → ∀ n ∈ l, n < m.findLoop test t l → ¬ m.filled (test n) t) := by
  induction l with
  | nil => exact ⟨Or.inr ⟨by unfold McSim.findLoop; decide, by simp⟩, by simp⟩
  | cons a l ih =>
    unfold McSim.findLoop
    by_cases h : m.filled (test a) t
    · rw [if_pos h]
      refine ⟨Or.inl ⟨List.mem_cons_self, h⟩, fun hp n hn hlt => ?_⟩
      rcases List.mem_cons.mp hn with rfl | hn
      · exact absurd hlt (lt_irrefl _)
      · exact absurd ((List.pairwise_cons.mp hp).1 n hn) (by omega)
    · rw [if_neg h]
      refine ⟨?_, fun hp n hn hlt => ?_⟩
      · rcases ih.1 with ⟨h1, h2⟩ | ⟨h1, h2⟩
        · exact Or.inl ⟨List.mem_cons_of_mem _ h1, h2⟩
        · refine Or.inr ⟨h1, fun n hn => ?_⟩
          rcases List.mem_cons.mp hn with rfl | hn
          · exact h
          · exact h2 n hn
      · rcases List.mem_cons.mp hn with rfl | hn
        · exact h
        · exact ih.2 (List.pairwise_cons.mp hp).2 n hn hlt

/-- C125, partial: the number of steps is one of 250, 500, ..., 2000; every smaller one of these left some energy bin below the beam
energy empty in its test launch, and if the result is below 2000, its test launch filled all of them.  Missing: 2000 is returned also
if no test launch filled all bins, see `C125_fails`. -/
theorem C125_steps_partial (m : McSim) (test : ℕ → Hist) (hh : ∀ n e d x y, 0 ≤ test n e d x y) :
    (∃ i, 1 ≤ i ∧ i ≤ 8 ∧ m.findSteps test 0 = 250 * i) ∧
    (∀ i, 1 ≤ i → 250 * i < m.findSteps test 0 → ∃ e < m.nFillable, energyCount m (test (250 * i)) e ≤ 0) ∧
    (m.findSteps test 0 < 2000 → ∀ e < m.nFillable, 0 < energyCount m (test (m.findSteps test 0)) e) := by
  have hs := findLoop_spec m test 0 stepSizes
  have hmem : m.findSteps test 0 ∈ stepSizes := by
    rcases hs.1 with h | h
    · exact h.1
    · unfold McSim.findSteps; rw [h.1]; decide
  have hi : ∃ i, 1 ≤ i ∧ i ≤ 8 ∧ m.findSteps test 0 = 250 * i := by
    have : ∀ n ∈ stepSizes, ∃ i, 1 ≤ i ∧ i ≤ 8 ∧ n = 250 * i := by
      intro n hn
      refine ⟨n / 250, ?_⟩
      simp only [stepSizes, List.mem_cons, List.not_mem_nil, or_false] at hn
      omega
    exact this _ hmem
  refine ⟨hi, fun i h1 h2 => ?_, fun hlt => ?_⟩
  · have hin : 250 * i ∈ stepSizes := by
      obtain ⟨j, -, hj, e⟩ := hi
      have : i < 8 := by omega
      simp only [stepSizes, List.mem_cons, List.not_mem_nil, or_false]
      omega
    have := hs.2 (by decide) _ hin h2
    rw [filled_iff m _ (hh _)] at this
    push Not at this
    exact this
  · rcases hs.1 with ⟨-, h⟩ | ⟨h, -⟩
    · exact (filled_iff m _ (hh _)).mp h
    · exact absurd h (by unfold McSim.findSteps at hlt; omega)

/-- C125 fails: if the test launches count nothing (for instance because they have no electrons), 2000 steps are "sufficient" although
every energy bin is empty. -/
theorem C125_fails (m : McSim) (hn : 0 < m.nFillable) :
    m.findSteps (fun _ _ _ _ _ => 0) 0 = 2000 ∧ energyCount m (fun _ _ _ _ => 0) 0 = 0 := by
  have h0 : energyCount m (fun _ _ _ _ => 0) 0 = 0 := by simp [energyCount]
  refine ⟨?_, h0⟩
  rcases (findLoop_spec m (fun _ _ _ _ _ => 0) 0 stepSizes).1 with ⟨-, h⟩ | ⟨h, -⟩
  · have := (filled_iff m _ (fun _ _ _ _ => le_rfl)).mp h 0 hn
    rw [h0] at this
    exact absurd this (lt_irrefl _)
  · exact h

/-! ### C126 -/

theorem edges_eq (m : McSim) (hb : 0 < m.binDepth) : m.edges = (List.range (m.nDepth + 1)).map fun d : ℕ => exp (d * m.binDepth) - 1 := by
  unfold McSim.edges arange
  rw [show (m.nDepth * m.binDepth + m.binDepth - 0) / m.binDepth = ((m.nDepth + 1 : ℕ) : ℝ) by push_cast; field_simp; ring,
    Nat.ceil_natCast, List.map_map]
  apply List.map_congr_left
  intro d _
  simp only [Function.comp, zero_add]

theorem zip_edges (m : McSim) (hb : 0 < m.binDepth) (f : ℝ → ℝ → ℝ) : List.zipWith f m.edges.tail m.edges.dropLast =
    (List.range m.nDepth).map fun d : ℕ => f (exp ((d + 1 : ℕ) * m.binDepth) - 1) (exp (d * m.binDepth) - 1) := by
  rw [edges_eq m hb]
  apply List.ext_getElem
  · simp
  · intro i h1 h2
    simp

theorem markers_eq (m : McSim) (hb : 0 < m.binDepth) : m.markers = (List.range m.nDepth).map fun d : ℕ =>
    ((exp ((d + 1 : ℕ) * m.binDepth) - 1) + (exp (d * m.binDepth) - 1)) / 2 := zip_edges m hb _

theorem sizes_eq (m : McSim) (hb : 0 < m.binDepth) : m.sizes = (List.range m.nDepth).map fun d : ℕ =>
    (exp ((d + 1 : ℕ) * m.binDepth) - 1) - (exp (d * m.binDepth) - 1) := zip_edges m hb _

theorem markers_sorted (m : McSim) (hb : 0 < m.binDepth) : m.markers.Pairwise (· < ·) := by
  rw [markers_eq m hb, List.pairwise_map]
  refine List.pairwise_lt_range.imp ?_
  intro a b hab
  have h1 : exp (a * m.binDepth) < exp (b * m.binDepth) :=
    exp_lt_exp.mpr (mul_lt_mul_of_pos_right (by exact_mod_cast hab) hb)
  have h2 : exp ((a + 1 : ℕ) * m.binDepth) < exp ((b + 1 : ℕ) * m.binDepth) :=
    exp_lt_exp.mpr (mul_lt_mul_of_pos_right (by exact_mod_cast Nat.succ_lt_succ hab) hb)
  linarith

theorem centers_eq (n : ℕ) {w : ℝ} (hw : 0 < w) : arange (w / 2) (n * w) w = (List.range n).map fun i : ℕ => (i + 1 / 2) * w := by
  have hlen : ⌈(n * w - w / 2) / w⌉₊ = n := by
    rw [show (n * w - w / 2) / w = (n : ℝ) - 1 / 2 by field_simp]
    rcases Nat.eq_zero_or_pos n with rfl | hn
    · exact Nat.ceil_eq_zero.mpr (by norm_num)
    · rw [Nat.ceil_eq_iff (by omega), Nat.cast_sub (by omega)]
      push_cast
      constructor <;> linarith
  unfold arange
  rw [hlen]
  exact List.map_congr_left fun i _ => by ring

/-- C126: `resample_to_linear` with quadratic interpolation returns `n_linear_bins` values per energy and direction, none negative; and if
the counts come from a density per nm that is a quadratic polynomial in the depth (sampled at the midpoints of the logarithmic bins), the
values are that density, clamped at zero, at the centres of the linear bins. -/
theorem C126_density (m : McSim) (hmode : m.depthMode = "log") (hb : 0 < m.binDepth) (h3 : 3 ≤ m.nDepth) (n : ℕ) (w : ℝ) (hw : 0 < w) :
    (∀ row : List ℝ, ∃ out, m.resampleRow row n w "quadratic" = .ok out ∧ out.length = n ∧ ∀ v ∈ out, 0 ≤ v) ∧
    ∀ a b c : ℝ, m.resampleRow ((List.range m.nDepth).map fun d : ℕ =>
        (a + b * ((exp (d * m.binDepth) - 1 + (exp ((d + 1) * m.binDepth) - 1)) / 2)
          + c * ((exp (d * m.binDepth) - 1 + (exp ((d + 1) * m.binDepth) - 1)) / 2) ^ 2)
          * (exp ((d + 1) * m.binDepth) - exp (d * m.binDepth))) n w "quadratic" =
      .ok ((List.range n).map fun i : ℕ => max (a + b * ((i + 1 / 2) * w) + c * ((i + 1 / 2) * w) ^ 2) 0) := by
  constructor
  · intro row
    unfold McSim.resampleRow
    rw [if_neg (by rw [hmode]; decide)]
    dsimp only
    rw [if_neg (by decide), if_pos rfl]
    refine ⟨_, rfl, ?_, ?_⟩
    · rw [List.length_map, centers_eq n hw, List.length_map, List.length_range]
    · intro v hv
      obtain ⟨x, -, rfl⟩ := List.mem_map.mp hv
      exact le_max_right _ _
  · intro a b c
    unfold McSim.resampleRow
    rw [if_neg (by rw [hmode]; decide)]
    dsimp only
    rw [if_neg (by decide), if_pos rfl]
    have hden : List.zipWith (fun h s => h / s) ((List.range m.nDepth).map fun d : ℕ =>
        (a + b * ((exp (d * m.binDepth) - 1 + (exp ((d + 1) * m.binDepth) - 1)) / 2)
          + c * ((exp (d * m.binDepth) - 1 + (exp ((d + 1) * m.binDepth) - 1)) / 2) ^ 2)
          * (exp ((d + 1) * m.binDepth) - exp (d * m.binDepth))) m.sizes = m.markers.map fun t => a + b * t + c * t ^ 2 := by
      rw [sizes_eq m hb, markers_eq m hb]
      apply List.ext_getElem
      · simp
      · intro i h1 h2
        simp only [List.getElem_zipWith, List.getElem_map, List.getElem_range]
        have : exp (i * m.binDepth) < exp ((i + 1 : ℕ) * m.binDepth) :=
          exp_lt_exp.mpr (mul_lt_mul_of_pos_right (by exact_mod_cast Nat.lt_succ_self i) hb)
        push_cast at this ⊢
        generalize exp (i * m.binDepth) = p at *
        generalize exp ((i + 1) * m.binDepth) = q at *
        rw [show q - 1 - (p - 1) = q - p by ring, mul_div_assoc, div_self (by linarith), mul_one, add_comm (p - 1) (q - 1)]
    rw [hden, centers_eq n hw, List.map_map]
    congr 1
    apply List.map_congr_left
    intro i _
    simp only [Function.comp]
    rw [Numerics.C60_quadratic_exact a b c m.markers (markers_sorted m hb) (by rw [markers_eq m hb]; simpa using h3) _ "error"
      (fun h => absurd h (by decide))]

/-- C126: a histogram that was not binned on the logarithmic scale, and an interpolation method other than "linear" and "quadratic",
are rejected with `ValueError`. -/
theorem C126_rejects (m : McSim) (row : List ℝ) (n : ℕ) (w : ℝ) (method : String)
    (h : m.depthMode ≠ "log" ∨ (method ≠ "linear" ∧ method ≠ "quadratic")) : m.resampleRow row n w method = .error .valueError := by
  unfold McSim.resampleRow
  by_cases hm : m.depthMode ≠ "log"
  · rw [if_pos hm]
  · rw [if_neg hm]
    rcases h with h | h
    · exact absurd h hm
    · dsimp only
      rw [if_neg h.1, if_neg h.2]

/-- C126: with `normalize=True` the values of the whole tensor sum to one (unless they are all zero). -/
theorem C126_normalised (m : McSim) (rows : List (List ℝ)) (n : ℕ) (w : ℝ) (method : String) (raw out : List (List ℝ))
    (h0 : m.resample rows n w method false = .ok raw) (h1 : m.resample rows n w method true = .ok out) (hne : (raw.map List.sum).sum ≠ 0) :
    (out.map List.sum).sum = 1 ∧ out = raw.map (List.map fun v => v / (raw.map List.sum).sum) := by
  unfold McSim.resample at h0 h1
  cases hr : rows.mapM fun r => m.resampleRow r n w method with
  | error e => rw [hr] at h0; cases h0
  | ok o =>
    rw [hr] at h0 h1
    simp only [Except.map, Bool.false_eq_true, if_false, if_true, Except.ok.injEq] at h0 h1
    subst h0
    refine ⟨?_, h1.symm⟩
    rw [← h1, List.map_map]
    have : (List.sum ∘ List.map fun v => v / (o.map List.sum).sum) = fun l : List ℝ => l.sum / (o.map List.sum).sum := by
      funext l
      simp only [Function.comp]
      generalize (o.map List.sum).sum = S
      induction l with
      | nil => simp
      | cons a l ih => rw [List.map_cons, List.sum_cons, List.sum_cons, ih]; ring
    rw [this]
    have key : ∀ (S : ℝ) (l : List (List ℝ)), (l.map fun x => x.sum / S).sum = (l.map List.sum).sum / S := by
      intro S l
      induction l with
      | nil => simp
      | cons a l ih => rw [List.map_cons, List.sum_cons, List.map_cons, List.sum_cons, ih]; ring
    rw [key, div_self hne]

/-- Three depth bins with the edges 0, 1, 3 and 7 nm. -/
noncomputable def threeBins : McSim := ⟨20, 70, 1, Real.log 2, 3, "log", 101, 4, 1000, 0⟩

theorem threeBins_edges : threeBins.markers = [1 / 2, 2, 5] ∧ threeBins.sizes = [1, 2, 4] := by
  have hb : 0 < threeBins.binDepth := log_pos (by norm_num)
  have e1 : exp (Real.log 2) = 2 := exp_log (by norm_num)
  have e2 : exp (2 * Real.log 2) = 4 := by rw [two_mul, exp_add, e1]; norm_num
  have e3 : exp (3 * Real.log 2) = 8 := by
    rw [show 3 * Real.log 2 = 2 * Real.log 2 + Real.log 2 by ring, exp_add, e1, e2]; norm_num
  rw [markers_eq _ hb, sizes_eq _ hb]
  have hn : threeBins.nDepth = 3 := rfl
  have hbd : threeBins.binDepth = Real.log 2 := rfl
  rw [hn, hbd]
  constructor
  · norm_num [List.range_succ, e1, e2, e3]
  · norm_num [List.range_succ, e1, e2, e3]

/-- C126 fails for linear interpolation and beyond the last bin.  With the depth bins [0,1], [1,3], [3,7] nm: electrons only in the first bin (one per nm)
give, linearly interpolated at 1 nm, density 0 instead of 2/3, because the straight line of the next segment is used; a query in the
last segment between two markers raises `ValueError`; and quadratic interpolation with `extrapolate="error"` does not raise at 10 nm,
beyond the deepest bin, but extrapolates to more than five times the largest density. -/
theorem C126_fails :
    threeBins.resampleRow [1, 0, 0] 1 2 "linear" = .ok [0] ∧
    threeBins.resampleRow [1, 0, 0] 1 6 "linear" = .error .valueError ∧
    threeBins.resampleRow [0, 0, 4] 1 20 "quadratic" = .ok [152 / 27] := by
  have hc : ∀ w : ℝ, 0 < w → arange (w / 2) ((1 : ℕ) * w) w = [w / 2] := by
    intro w hw
    rw [centers_eq 1 hw]
    simp
    ring
  have hm : ¬ threeBins.depthMode ≠ "log" := by simp [threeBins]
  have s1 : Numerics.searchsorted [2⁻¹, 2, 5] 1 = 1 := by norm_num [Numerics.searchsorted, List.countP_cons]
  have s2 : Numerics.searchsorted [2⁻¹, 2, 5] 3 = 2 := by norm_num [Numerics.searchsorted, List.countP_cons]
  refine ⟨?_, ?_, ?_⟩
  · unfold McSim.resampleRow
    rw [if_neg hm]
    dsimp only
    rw [if_pos rfl, hc 2 (by norm_num), threeBins_edges.1, threeBins_edges.2, show (2 : ℝ) / 2 = 1 by norm_num]
    simp [Numerics.interp, Numerics.slope, Numerics.offset, Numerics.at', s1, Except.map, List.mapM_cons, bind, Except.bind, pure, Except.pure]
  · unfold McSim.resampleRow
    rw [if_neg hm]
    dsimp only
    rw [if_pos rfl, hc 6 (by norm_num), threeBins_edges.1, threeBins_edges.2, show (6 : ℝ) / 2 = 3 by norm_num]
    simp [Numerics.interp, s2, Except.map, List.mapM_cons, bind, Except.bind]
  · unfold McSim.resampleRow
    rw [if_neg hm]
    dsimp only
    rw [if_neg (by decide), if_pos rfl, hc 20 (by norm_num), threeBins_edges.1, threeBins_edges.2, show (20 : ℝ) / 2 = 10 by norm_num]
    simp [Numerics.interpquad, Numerics.at']
    norm_num

/-! ### the hypotheses can be met -/

/-- every launch counts one electron in energy bin 7 -/
noncomputable def oneEach : ℕ → Hist := fun _ e d x y => if e = 7 ∧ d = 0 ∧ x = 0 ∧ y = 0 then 1 else 0

example : ∃ fuel H total, threeBins.run 5 2 oneEach fuel = some (H, total) := by
  have : ∃ n, 1 ≤ n ∧ threeBins.minMass ≤ allBins threeBins (kept threeBins oneEach n) := by
    refine ⟨1000, by norm_num, ?_⟩
    have hf : threeBins.nFillable = 20 := by
      unfold McSim.nFillable threeBins
      norm_num
    have e1 : ∀ n, allBins threeBins (kept threeBins oneEach n) = n := by
      intro n
      have hk : kept threeBins oneEach n = fun e d x y => if e = 3 ∧ d = 0 ∧ x = 0 ∧ y = 0 then (n : ℝ) else 0 := by
        funext e d x y
        unfold kept oneEach
        have : e + threeBins.nExtra = 7 ↔ e = 3 := by
          have : threeBins.nExtra = 4 := rfl
          omega
        simp only [this, Finset.sum_const, Finset.card_range, nsmul_eq_mul]
        split <;> simp
      rw [hk]
      unfold allBins
      rw [hf, Finset.sum_eq_single 3, Finset.sum_eq_single 0, Finset.sum_eq_single 0, Finset.sum_eq_single 0]
      · simp
      · intro b _ hb; simp [hb]
      · intro h; exact absurd (Finset.mem_range.mpr (by simp [threeBins])) h
      · intro b _ hb; simp [hb]
      · intro h; exact absurd (Finset.mem_range.mpr (by simp [threeBins])) h
      · intro b _ hb; simp [hb]
      · intro h; exact absurd (Finset.mem_range.mpr (by simp [threeBins])) h
      · intro b _ hb; simp [hb]
      · intro h; exact absurd (Finset.mem_range.mpr (by norm_num)) h
    rw [e1]
    simp [threeBins]
  obtain ⟨fuel, h⟩ := (C124_returns threeBins 5 2 oneEach).mpr this
  obtain ⟨⟨H, t⟩, hr⟩ := Option.isSome_iff_exists.mp h
  exact ⟨fuel, H, t, hr⟩

example : ∀ fuel, threeBins.run 2 1 (fun _ => launchHist (threeBins.kparams 28 8.9 58.69 1 0) []) fuel = none :=
  fun fuel => C124_fails threeBins (by simp [threeBins]) 28 8.9 58.69 2 1 (fun _ => [⟨2, 8, 16, 128⟩, ⟨3, 9, 17, 129⟩]) (fun _ => [])
    (fun _ => .nil _ (by
      intro l hl
      simp only [List.map_cons, List.map_nil, List.mem_cons, List.not_mem_nil, or_false] at hl
      rcases hl with rfl | rfl <;> exact item_nosteps _ rfl _ _)) fuel

example : 0 < threeBins.nFillable ∧ threeBins.depthMode = "log" ∧ 0 < threeBins.binDepth ∧ 3 ≤ threeBins.nDepth := by
  refine ⟨?_, rfl, log_pos (by norm_num), le_rfl⟩
  unfold McSim.nFillable threeBins
  norm_num

example : threeBins.resampleRow [1, 2, 4] 2 1 "quadratic" = .ok [1, 1] := by
  have hb : 0 < threeBins.binDepth := log_pos (by norm_num)
  have h := (C126_density threeBins rfl hb le_rfl 2 1 one_pos).2 1 0 0
  have e1 : exp (Real.log 2) = 2 := exp_log (by norm_num)
  have e2 : exp (2 * Real.log 2) = 4 := by rw [two_mul, exp_add, e1]; norm_num
  have e3 : exp (3 * Real.log 2) = 8 := by
    rw [show 3 * Real.log 2 = 2 * Real.log 2 + Real.log 2 by ring, exp_add, e1, e2]; norm_num
  have hn : threeBins.nDepth = 3 := rfl
  have hbd : threeBins.binDepth = Real.log 2 := rfl
  rw [hn, hbd] at h
  have hrow : ((List.range 3).map fun d : ℕ =>
        (1 + 0 * ((exp (d * Real.log 2) - 1 + (exp ((d + 1) * Real.log 2) - 1)) / 2)
          + 0 * ((exp (d * Real.log 2) - 1 + (exp ((d + 1) * Real.log 2) - 1)) / 2) ^ 2)
          * (exp ((d + 1) * Real.log 2) - exp (d * Real.log 2))) = [1, 2, 4] := by
    simp [List.range_succ, e1, show (1 : ℝ) + 1 = 2 by norm_num, show (2 : ℝ) + 1 = 3 by norm_num, e2, e3]
    norm_num
  rw [hrow] at h
  rw [h]
  simp [List.range_succ]

end Verif.Mck
