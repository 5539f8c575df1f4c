import Verif.Model.MonteCarlo
import Verif.Props.Sphere
/-!
C51 (histogram mass), C52 (direction update), C68 (termination), C69 (loop invariants) of `bse_sim_mc`.
-/
namespace Verif
open Spec Classical

/-! ### C52 -/

theorem mcScatter_unit {c : V} (h : IsUnit3 c) (phi psi : ℝ) : IsUnit3 (mcScatter c phi psi) := by
  have h1 := Real.sin_sq_add_cos_sq phi
  have h2 := Real.sin_sq_add_cos_sq psi
  unfold mcScatter
  simp only
  by_cases hz : |c.z| > 0.99999
  · rw [if_pos hz]
    have h0 : |c.z| ≠ 0 := by intro h0; rw [h0] at hz; norm_num at hz
    have hs : (c.z / |c.z|) ^ 2 = 1 := by rw [div_pow, sq_abs, div_self]; rw [← sq_abs]; positivity
    simp only [IsUnit3]
    linear_combination Real.sin phi ^ 2 * h2 + Real.cos phi ^ 2 * hs + h1
  · rw [if_neg hz]
    have hlt : 0 < 1 - c.z ^ 2 := by
      have := not_lt.1 hz
      have h3 : |c.z| ^ 2 ≤ 0.99999 ^ 2 := pow_le_pow_left₀ (abs_nonneg _) this 2
      rw [sq_abs] at h3; norm_num at h3 ⊢; linarith
    rw [max_eq_left hlt.le]
    have hd := Real.sq_sqrt hlt.le
    have hd0 : Real.sqrt (1 - c.z ^ 2) ≠ 0 := (Real.sqrt_pos.2 hlt).ne'
    generalize Real.sqrt (1 - c.z ^ 2) = D at *
    unfold IsUnit3 at h ⊢
    generalize Real.sin phi = sp at *
    generalize Real.cos phi = cp at *
    generalize Real.sin psi = ss at *
    generalize Real.cos psi = cs at *
    obtain ⟨x, y, z⟩ := c
    simp only at *
    have hxy : x ^ 2 + y ^ 2 = D ^ 2 := by linarith
    have e : (sp * (x * z * cs - y * ss) * (1 / D) + x * cp) ^ 2 + (sp * (y * z * cs + x * ss) * (1 / D) + y * cp) ^ 2
        + (-1 * sp * cs * D + z * cp) ^ 2
        = (x ^ 2 + y ^ 2) / D ^ 2 * (sp ^ 2 * (z ^ 2 * cs ^ 2 + ss ^ 2)) + 2 * sp * cp * z * cs * ((x ^ 2 + y ^ 2) / D - D)
          + (x ^ 2 + y ^ 2 + z ^ 2) * cp ^ 2 + sp ^ 2 * cs ^ 2 * D ^ 2 := by
      field_simp; ring
    rw [e, hxy, div_self (by positivity)]
    have : D ^ 2 / D - D = 0 := by rw [sq, mul_div_assoc, div_self hd0]; ring
    rw [this]
    linear_combination sp ^ 2 * cs ^ 2 * hd + cp ^ 2 * (hd) + sp ^ 2 * h2 + h1

/-- C52: the scattered direction of a unit vector is a unit vector, for all angles (also in the polar branch). -/
theorem C52_unit (c : V) (h : IsUnit3 c) (phi psi : ℝ) : IsUnit3 (mcScatter c phi psi) := mcScatter_unit h phi psi

/-- C52: away from the poles (`|z| ≤ 0.99999`) and exactly at the poles the new direction makes the sampled polar
angle with the old one. Missing: the polar caps `0.99999 < |z| < 1` (`C52_polar_fails`, `C52_polar_bound`). -/
theorem C52_angle_partial (c : V) (h : IsUnit3 c) (phi psi : ℝ) (hz : |c.z| ≤ 0.99999 ∨ |c.z| = 1) :
    (mcScatter c phi psi).x * c.x + (mcScatter c phi psi).y * c.y + (mcScatter c phi psi).z * c.z = Real.cos phi := by
  unfold mcScatter
  simp only
  unfold IsUnit3 at h
  by_cases hp : |c.z| > 0.99999
  · rw [if_pos hp]
    have h1 : |c.z| = 1 := by rcases hz with hz | hz <;> [(exfalso; linarith); exact hz]
    have h2 : c.z ^ 2 = 1 := by rw [← sq_abs, h1]; norm_num
    have hx : c.x = 0 := by nlinarith [sq_nonneg c.x, sq_nonneg c.y]
    have hy : c.y = 0 := by nlinarith [sq_nonneg c.x, sq_nonneg c.y]
    simp only [hx, hy, h1]
    linear_combination Real.cos phi * h2
  · rw [if_neg hp]
    have hlt : 0 < 1 - c.z ^ 2 := by
      have := not_lt.1 hp
      have h3 : |c.z| ^ 2 ≤ 0.99999 ^ 2 := pow_le_pow_left₀ (abs_nonneg _) this 2
      rw [sq_abs] at h3; norm_num at h3 ⊢; linarith
    rw [max_eq_left hlt.le]
    have hd := Real.sq_sqrt hlt.le
    have hd0 : Real.sqrt (1 - c.z ^ 2) ≠ 0 := (Real.sqrt_pos.2 hlt).ne'
    generalize Real.sqrt (1 - c.z ^ 2) = D at *
    obtain ⟨x, y, z⟩ := c
    simp only at *
    have hxy : x ^ 2 + y ^ 2 = D ^ 2 := by linarith
    have e : (Real.sin phi * (x * z * Real.cos psi - y * Real.sin psi) * (1 / D) + x * Real.cos phi) * x +
        (Real.sin phi * (y * z * Real.cos psi + x * Real.sin psi) * (1 / D) + y * Real.cos phi) * y +
        (-1 * Real.sin phi * Real.cos psi * D + z * Real.cos phi) * z
        = Real.sin phi * z * Real.cos psi * ((x ^ 2 + y ^ 2) / D - D) + (x ^ 2 + y ^ 2 + z ^ 2) * Real.cos phi := by
      field_simp; ring
    rw [e, hxy]
    have : D ^ 2 / D - D = 0 := by rw [sq, mul_div_assoc, div_self hd0]; ring
    rw [this]
    linear_combination Real.cos phi * hd

/-- C52: inside a polar cap the error of the cosine of the polar angle is below 0.005. -/
theorem C52_polar_bound (c : V) (h : IsUnit3 c) (phi psi : ℝ) (hz : 0.99999 < |c.z|) :
    |(mcScatter c phi psi).x * c.x + (mcScatter c phi psi).y * c.y + (mcScatter c phi psi).z * c.z - Real.cos phi|
      ≤ 0.005 := by
  unfold mcScatter
  simp only
  rw [if_pos hz]
  unfold IsUnit3 at h
  have h0 : |c.z| ≠ 0 := by intro h0; rw [h0] at hz; norm_num at hz
  have hzz : c.z / |c.z| * Real.cos phi * c.z = |c.z| * Real.cos phi := by
    rw [div_mul_eq_mul_div, div_mul_eq_mul_div, div_eq_iff h0]
    have := abs_mul_abs_self c.z
    linear_combination (-Real.cos phi) * this
  rw [hzz]
  have h1 := Real.sin_sq_add_cos_sq phi
  have h2 := Real.sin_sq_add_cos_sq psi
  have hz1 : |c.z| ≤ 1 := unit3_z h
  have hz2 : c.x ^ 2 + c.y ^ 2 ≤ 0.00002 := by
    have : |c.z| ^ 2 = c.z ^ 2 := sq_abs _
    nlinarith
  have hcs : (Real.cos psi * c.x + Real.sin psi * c.y) ^ 2 ≤ 0.00002 := by
    nlinarith [sq_nonneg (Real.cos psi * c.y - Real.sin psi * c.x)]
  have hsp : Real.sin phi ^ 2 ≤ 1 := by nlinarith [sq_nonneg (Real.cos phi)]
  have hA : |Real.sin phi * (Real.cos psi * c.x + Real.sin psi * c.y)| ≤ 0.0045 := by
    apply abs_le_of_sq_le_sq _ (by norm_num)
    rw [mul_pow]
    calc _ ≤ 1 * (0.00002 : ℝ) := mul_le_mul hsp hcs (sq_nonneg _) (by norm_num)
      _ ≤ _ := by norm_num
  have hB : |(|c.z| - 1) * Real.cos phi| ≤ 0.00001 := by
    rw [abs_mul]
    have e1 : abs (|c.z| - 1) ≤ 0.00001 := by rw [abs_le]; constructor <;> linarith
    have e2 := Real.abs_cos_le_one phi
    calc _ ≤ 0.00001 * (1:ℝ) := mul_le_mul e1 e2 (abs_nonneg _) (by norm_num)
      _ = _ := by norm_num
  have : Real.sin phi * Real.cos psi * c.x + Real.sin phi * Real.sin psi * c.y + |c.z| * Real.cos phi - Real.cos phi
      = Real.sin phi * (Real.cos psi * c.x + Real.sin psi * c.y) + (|c.z| - 1) * Real.cos phi := by ring
  rw [this]
  calc _ ≤ _ := abs_add_le _ _
    _ ≤ 0.0045 + 0.00001 := add_le_add hA hB
    _ ≤ _ := by norm_num

/-- A unit vector inside the polar cap: `t = 1/1000` in the rational parametrisation. -/
noncomputable def capDir : V := ⟨2000 / 1000001, 0, 999999 / 1000001⟩

/-- C52 is violated inside the polar caps: the polar angle of the new direction is not the sampled one. -/
theorem C52_polar_fails : IsUnit3 capDir ∧ ∃ phi psi : ℝ, 0 ≤ phi ∧ phi ≤ Real.pi ∧
    (mcScatter capDir phi psi).x * capDir.x + (mcScatter capDir phi psi).y * capDir.y
      + (mcScatter capDir phi psi).z * capDir.z ≠ Real.cos phi := by
  have hp := Real.pi_pos
  refine ⟨by norm_num [IsUnit3, capDir], Real.pi / 2, 0, by linarith, by linarith, ?_⟩
  unfold mcScatter capDir
  simp only
  rw [if_pos (by rw [abs_of_pos] <;> norm_num)]
  simp

/-- C52: for a positive screening factor and a uniform draw the sampled angle is genuine: the cosine in the
`acos` is within `[-1, 1]`, so `cos phi` is Joy's formula. -/
theorem C52_phi (alpha u : ℝ) (ha : 0 < alpha) (h0 : 0 ≤ u) (h1 : u < 1) :
    Real.cos (mcPhi alpha u) = 1 - 2 * alpha * u / (1 + alpha - u) ∧ 0 ≤ mcPhi alpha u ∧ mcPhi alpha u ≤ Real.pi := by
  have hd : 0 < 1 + alpha - u := by linarith
  have hn : 0 ≤ 2 * alpha * u / (1 + alpha - u) := by positivity
  have hle : 2 * alpha * u / (1 + alpha - u) ≤ 2 := by
    rw [div_le_iff₀ hd]; nlinarith
  unfold mcPhi
  exact ⟨Real.cos_arccos (by linarith) (by linarith), Real.arccos_nonneg _, Real.arccos_le_pi _⟩

example : IsUnit3 ⟨0.6, 0, 0.8⟩ ∧ |(0.8 : ℝ)| ≤ 0.99999 := by
  refine ⟨by norm_num [IsUnit3], by rw [abs_of_pos] <;> norm_num⟩

/-! ### C69: invariants -/

theorem vnormalize_unit {v : V} (h : IsUnit3 v) : vnormalize v = v := by
  have : v.norm = 1 := by unfold V.norm IsUnit3 at *; rw [h]; simp
  unfold vnormalize
  rw [this]
  ext <;> simp [V.sdiv]

theorem mcStartDir_unit (p : McParams) : IsUnit3 (mcStartDir p) := by
  have key : ∀ s o : ℝ, IsUnit3 ⟨Real.sin s * Real.cos o, Real.sin s * Real.sin o, Real.cos s⟩ := by
    intro s o
    have h1 := Real.sin_sq_add_cos_sq s
    have h2 := Real.sin_sq_add_cos_sq o
    simp only [IsUnit3]
    linear_combination Real.sin s ^ 2 * h2 + h1
  unfold mcStartDir
  simp only
  rw [vnormalize_unit (key _ _)]
  exact key _ _

theorem mcMove_unit (p : McParams) {e : Electron} (h : IsUnit3 e.dir) (d : McDraw) : IsUnit3 (mcMove p e d).dir := by
  have := mcScatter_unit h (mcPhi (mcAlpha p e.energy) d.phi) d.psi
  unfold mcMove
  simp only
  rw [vnormalize_unit this]
  exact this

/-- What holds of every electron between iterations. -/
structure ElOk (p : McParams) (e : Electron) : Prop where
  unit : IsUnit3 e.dir
  depth : 0 ≤ e.depth
  tick : e.tick ≤ p.maxSteps

theorem dir_index_ok (n : ℕ) (r : ℝ) (h : |r| ≤ 1) (hn : n ≠ 0) :
    0 ≤ truncInt ((r * 0.499999 + 0.5) * n) ∧ truncInt ((r * 0.499999 + 0.5) * n) < n := by
  have hb := abs_le.1 h
  have hn' : (0:ℝ) < n := by exact_mod_cast Nat.pos_of_ne_zero hn
  have h0 : 0 ≤ (r * 0.499999 + 0.5) * n := mul_nonneg (by nlinarith) hn'.le
  have h1 : (r * 0.499999 + 0.5) * n < n := by nlinarith
  unfold truncInt
  rw [if_pos h0]
  exact ⟨Int.floor_nonneg.2 h0, by rw [Int.floor_lt]; exact_mod_cast h1⟩

theorem index_ok {p : McParams} (hn : p.nDir ≠ 0) {m : Moved} (hv : mcValid p m) : mcIndexOk p (mcBin p m) := by
  obtain ⟨h1, h2, h3, h4⟩ := hv
  have hr := C20_range m.dir
  exact ⟨⟨h3, h2⟩, ⟨h4, h1⟩, dir_index_ok _ _ hr.1 hn, dir_index_ok _ _ hr.2 hn⟩

theorem mcBody_some {p : McParams} (hn : p.nDir ≠ 0) {n : ℕ} (s : McState n) (d : Fin n → McDraw) :
    ∃ s', mcBody p s d = some s' := by
  unfold mcBody
  simp only
  rw [if_pos]
  · exact ⟨_, rfl⟩
  · intro i hi
    exact index_ok hn (Finset.mem_filter.1 hi).2

theorem mcBody_ok {p : McParams} {n : ℕ} {s s' : McState n} {d : Fin n → McDraw}
    (h : mcBody p s d = some s') (hs : ∀ i, ElOk p (s.el i)) : ∀ i, ElOk p (s'.el i) := by
  unfold mcBody at h
  simp only at h
  split at h
  · have := Option.some.inj h
    subst this
    intro i
    simp only
    by_cases hi : i ∈ mcReset p s d
    · rw [if_pos hi]
      exact ⟨mcStartDir_unit p, le_rfl, Nat.zero_le _⟩
    · rw [if_neg hi]
      have : ¬ ((s.el i).tick + 1 > p.maxSteps ∨ (mcMove p (s.el i) (d i)).depth < 0) := by
        simpa [mcReset] using hi
      push Not at this
      exact ⟨mcMove_unit p (hs i).unit _, this.2, this.1⟩
  · cases h

theorem mcRun_ok {p : McParams} {n : ℕ} (draws : ℕ → Fin n → McDraw) (k : ℕ) (s : McState n)
    (h : mcRun p draws k = some s) : ∀ i, ElOk p (s.el i) := by
  induction k generalizing s with
  | zero =>
    have := Option.some.inj h
    subst this
    intro i
    exact ⟨mcStartDir_unit p, le_rfl, Nat.zero_le _⟩
  | succ k ih =>
    simp only [mcRun] at h
    cases hk : mcRun p draws k with
    | none => rw [hk] at h; cases h
    | some s0 =>
      rw [hk] at h
      simp only [Option.bind_some] at h
      by_cases hg : mcGuard p s0
      · rw [if_pos hg] at h; exact mcBody_ok h (ih s0 hk)
      · rw [if_neg hg] at h
        have := Option.some.inj h
        subst this
        exact ih s0 hk

/-- C69: for every stream of random numbers and every number of iterations, no bin index is ever out of range
(the run never raises), and every electron has a unit direction, is inside the sample, and is at most
`n_max_steps` old. -/
theorem C69_invariants (p : McParams) (hn : p.nDir ≠ 0) (n : ℕ) (draws : ℕ → Fin n → McDraw) (k : ℕ) :
    ∃ s, mcRun p draws k = some s ∧
      ∀ i, IsUnit3 (s.el i).dir ∧ 0 ≤ (s.el i).depth ∧ (s.el i).tick ≤ p.maxSteps := by
  have hsome : ∃ s, mcRun p draws k = some s := by
    induction k with
    | zero => exact ⟨_, rfl⟩
    | succ k ih =>
      obtain ⟨s, hs⟩ := ih
      simp only [mcRun, hs, Option.bind_some]
      by_cases hg : mcGuard p s
      · rw [if_pos hg]; exact mcBody_some hn s _
      · rw [if_neg hg]; exact ⟨s, rfl⟩
  obtain ⟨s, hs⟩ := hsome
  refine ⟨s, hs, fun i => ?_⟩
  have := mcRun_ok draws k s hs i
  exact ⟨this.unit, this.depth, this.tick⟩

/-- C69: an electron that leaves the sample moves upwards (its `z` cosine is not zero), so its escape depth
`|depth / z|` is well defined. -/
theorem C69_exit_moves (p : McParams) (n : ℕ) (draws : ℕ → Fin n → McDraw) (k : ℕ) (s : McState n)
    (h : mcRun p draws k = some s) (d : Fin n → McDraw) (i : Fin n) (hi : i ∈ mcExited p s d) :
    (mcMove p (s.el i) (d i)).dir.z ≠ 0 := by
  have hd := (mcRun_ok draws k s h i).depth
  have := (Finset.mem_filter.1 hi).2
  intro hz
  have e : (mcMove p (s.el i) (d i)).depth
      = (s.el i).depth + mcStep p (s.el i).energy (d i).step * (mcMove p (s.el i) (d i)).dir.z := rfl
  rw [e, hz, mul_zero, add_zero] at this
  linarith

/-- C69: the number of counted back-scattered electrons never exceeds the number of finished trajectories. -/
theorem C69_counts (p : McParams) (n : ℕ) (draws : ℕ → Fin n → McDraw) (k : ℕ) (s : McState n)
    (h : mcRun p draws k = some s) : s.bse ≤ s.sims := by
  induction k generalizing s with
  | zero => have := Option.some.inj h; subst this; exact le_rfl
  | succ k ih =>
    simp only [mcRun] at h
    cases hk : mcRun p draws k with
    | none => rw [hk] at h; cases h
    | some s0 =>
      rw [hk] at h
      simp only [Option.bind_some] at h
      by_cases hg : mcGuard p s0
      · rw [if_pos hg] at h
        unfold mcBody at h
        simp only at h
        split at h
        · have := Option.some.inj h
          subst this
          simp only
          have : (mcExited p s0 (draws k)).card ≤ (mcReset p s0 (draws k)).card := by
            apply Finset.card_le_card
            intro i hi
            simp only [mcExited, mcReset, Finset.mem_filter, Finset.mem_univ, true_and] at hi ⊢
            exact Or.inr hi
          have := ih s0 hk
          omega
        · cases h
      · rw [if_neg hg] at h
        have := Option.some.inj h
        subst this
        exact ih s0 hk

/-- Electrons above the surface after the move of iteration `t` (none after the loop has ended). -/
noncomputable def exitsAt (p : McParams) {n : ℕ} (draws : ℕ → Fin n → McDraw) (t : ℕ) : ℕ :=
  match mcRun p draws t with
  | none => 0
  | some s => if mcGuard p s then (Finset.univ.filter fun i => (mcMove p (s.el i) (draws t i)).depth < 0).card else 0

/-- Electrons whose trajectory ends in iteration `t`: above the surface, or already `n_max_steps` old. -/
noncomputable def endsAt (p : McParams) {n : ℕ} (draws : ℕ → Fin n → McDraw) (t : ℕ) : ℕ :=
  match mcRun p draws t with
  | none => 0
  | some s => if mcGuard p s then
      (Finset.univ.filter fun i => (mcMove p (s.el i) (draws t i)).depth < 0 ∨ p.maxSteps ≤ (s.el i).tick).card else 0

/-- C69: the two counters of the loop are exact: the yield is the number of electrons that ever left the sample, and the
number of simulated trajectories the number of those that left or got too old. -/
theorem C69_counters (p : McParams) (n : ℕ) (draws : ℕ → Fin n → McDraw) (k : ℕ) (s : McState n)
    (h : mcRun p draws k = some s) :
    s.bse = ∑ t ∈ Finset.range k, exitsAt p draws t ∧ s.sims = ∑ t ∈ Finset.range k, endsAt p draws t := by
  induction k generalizing s with
  | zero => have := Option.some.inj h; subst this; simp [mcInit]
  | succ k ih =>
    simp only [mcRun] at h
    cases hk : mcRun p draws k with
    | none => rw [hk] at h; cases h
    | some s0 =>
      rw [hk] at h
      simp only [Option.bind_some] at h
      rw [Finset.sum_range_succ, Finset.sum_range_succ, ← (ih s0 hk).1, ← (ih s0 hk).2]
      have ex : exitsAt p draws k = if mcGuard p s0 then
          (Finset.univ.filter fun i => (mcMove p (s0.el i) (draws k i)).depth < 0).card else 0 := by
        unfold exitsAt; rw [hk]
      have en : endsAt p draws k = if mcGuard p s0 then (Finset.univ.filter fun i =>
          (mcMove p (s0.el i) (draws k i)).depth < 0 ∨ p.maxSteps ≤ (s0.el i).tick).card else 0 := by
        unfold endsAt; rw [hk]
      rw [ex, en]
      by_cases hg : mcGuard p s0
      · rw [if_pos hg] at h
        rw [if_pos hg, if_pos hg]
        unfold mcBody at h
        simp only at h
        split at h
        · have := Option.some.inj h
          subst this
          refine ⟨rfl, ?_⟩
          simp only [mcReset]
          congr 2
          ext i
          simp only [Finset.mem_filter, Finset.mem_univ, true_and]
          rw [or_comm, gt_iff_lt, Nat.lt_succ_iff]
        · cases h
      · rw [if_neg hg] at h
        rw [if_neg hg, if_neg hg]
        have := Option.some.inj h
        subst this
        exact ⟨rfl, rfl⟩

/-! ### C82: energy -/

/-- The mean ionisation potential used for the energy loss (Joy and Luo), in keV. -/
noncomputable def ionisation (z : ℝ) : ℝ := (9.76 * z + 58.5 * z ^ (-0.19 : ℝ)) * 1e-3

/-- C82 (part): an electron whose energy is at least `0.0089 / 1.166` of the mean ionisation potential does not gain energy
in a step, in any material and for any draw in `(0, 1]`, and strictly loses energy if its energy is above this bound and
the draw below one.  Missing: electrons below the bound (`C82_low_energy_fails`). -/
theorem C82_energy_decreases_partial (p : McParams) (e : Electron) (d : McDraw) (hz : 0 < p.atomNum)
    (hA : 0 < p.weightA) (hr : 0 < p.rho) (hE : 0 < e.energy) (hu : 0 < d.step) (hu1 : d.step ≤ 1)
    (hb : 0.0089 * ionisation p.atomNum ≤ 1.166 * e.energy) :
    (mcMove p e d).energy ≤ e.energy ∧
    (0.0089 * ionisation p.atomNum < 1.166 * e.energy → d.step < 1 → (mcMove p e d).energy < e.energy) := by
  have hal : 0 < mcAlpha p e.energy := by unfold mcAlpha; positivity
  have hI : 0 < ionisation p.atomNum := by unfold ionisation; positivity
  obtain ⟨m, hm, hstep⟩ : ∃ m : ℝ, 0 < m ∧ mcStep p e.energy d.step = m * -Real.log d.step := by
    refine ⟨1.0e7 * p.weightA / (p.rho * (5.21 * 602.2 * (p.atomNum / e.energy) ^ 2
      * (4 * Real.pi / (mcAlpha p e.energy * (1 + mcAlpha p e.energy)))
      * ((511 + e.energy) / (1024 + e.energy)) ^ 2)), ?_, ?_⟩
    · have := Real.pi_pos
      positivity
    · unfold mcStep; ring
  have hlog : 0 ≤ -Real.log d.step := by have := Real.log_nonpos hu.le hu1; linarith
  obtain ⟨c, hc, hde⟩ : ∃ c : ℝ, 0 < c ∧ mcDeDs p e.energy
      = -(c * Real.log (1.166 * e.energy / ionisation p.atomNum + 0.9911)) := by
    refine ⟨0.00785 * (p.atomNum / (p.weightA * e.energy)), by positivity, ?_⟩
    unfold mcDeDs ionisation
    norm_num
  have harg : 1 ≤ 1.166 * e.energy / ionisation p.atomNum + 0.9911 := by
    have : 0.0089 ≤ 1.166 * e.energy / ionisation p.atomNum := by rw [le_div_iff₀ hI]; exact hb
    linarith
  have h2 := Real.log_nonneg harg
  have e1 : (mcMove p e d).energy = e.energy - m * -Real.log d.step * p.rho
      * (c * Real.log (1.166 * e.energy / ionisation p.atomNum + 0.9911)) := by
    show e.energy + mcStep p e.energy d.step * p.rho * mcDeDs p e.energy = _
    rw [hstep, hde]; ring
  rw [e1]
  constructor
  · have : 0 ≤ m * -Real.log d.step * p.rho * (c * Real.log (1.166 * e.energy / ionisation p.atomNum + 0.9911)) := by
      positivity
    linarith
  · intro hb' hu'
    have h3 : 0 < -Real.log d.step := by have := Real.log_neg hu hu'; linarith
    have h4 : 0 < Real.log (1.166 * e.energy / ionisation p.atomNum + 0.9911) := by
      apply Real.log_pos
      have : 0.0089 < 1.166 * e.energy / ionisation p.atomNum := by rw [lt_div_iff₀ hI]; exact hb'
      linarith
    have : 0 < m * -Real.log d.step * p.rho * (c * Real.log (1.166 * e.energy / ionisation p.atomNum + 0.9911)) := by
      positivity
    linarith

/-- What is missing in C82: there is no energy cut-off in the loop, and below the bound a step *adds* energy. -/
theorem C82_low_energy_fails (p : McParams) (e : Electron) (d : McDraw) (hz : 0 < p.atomNum)
    (hA : 0 < p.weightA) (hr : 0 < p.rho) (hE : 0 < e.energy) (hu : 0 < d.step) (hu1 : d.step < 1)
    (hb : 1.166 * e.energy < 0.0089 * ionisation p.atomNum) : e.energy < (mcMove p e d).energy := by
  have hal : 0 < mcAlpha p e.energy := by unfold mcAlpha; positivity
  have hI : 0 < ionisation p.atomNum := by unfold ionisation; positivity
  obtain ⟨m, hm, hstep⟩ : ∃ m : ℝ, 0 < m ∧ mcStep p e.energy d.step = m * -Real.log d.step := by
    refine ⟨1.0e7 * p.weightA / (p.rho * (5.21 * 602.2 * (p.atomNum / e.energy) ^ 2
      * (4 * Real.pi / (mcAlpha p e.energy * (1 + mcAlpha p e.energy)))
      * ((511 + e.energy) / (1024 + e.energy)) ^ 2)), ?_, ?_⟩
    · have := Real.pi_pos
      positivity
    · unfold mcStep; ring
  have hlog : 0 < -Real.log d.step := by have := Real.log_neg hu hu1; linarith
  obtain ⟨c, hc, hde⟩ : ∃ c : ℝ, 0 < c ∧ mcDeDs p e.energy
      = c * -Real.log (1.166 * e.energy / ionisation p.atomNum + 0.9911) := by
    refine ⟨0.00785 * (p.atomNum / (p.weightA * e.energy)), by positivity, ?_⟩
    unfold mcDeDs ionisation
    norm_num
  have h0 : 0 ≤ 1.166 * e.energy / ionisation p.atomNum := by positivity
  have h1 : 1.166 * e.energy / ionisation p.atomNum < 0.0089 := by rw [div_lt_iff₀ hI]; exact hb
  have h2 : 0 < -Real.log (1.166 * e.energy / ionisation p.atomNum + 0.9911) := by
    have := Real.log_neg (x := 1.166 * e.energy / ionisation p.atomNum + 0.9911) (by linarith) (by linarith)
    linarith
  have e1 : (mcMove p e d).energy = e.energy + m * -Real.log d.step * p.rho
      * (c * -Real.log (1.166 * e.energy / ionisation p.atomNum + 0.9911)) := by
    show e.energy + mcStep p e.energy d.step * p.rho * mcDeDs p e.energy = _
    rw [hstep, hde]
  rw [e1]
  have : 0 < m * -Real.log d.step * p.rho * (c * -Real.log (1.166 * e.energy / ionisation p.atomNum + 0.9911)) := by
    positivity
  linarith

/-- Both cases occur: for atomic number one the bound is about 0.5 eV. -/
example : 0.0089 * ionisation 1 < 1.166 * (20 : ℝ) ∧ 1.166 * (0.0001 : ℝ) < 0.0089 * ionisation 1 := by
  unfold ionisation; norm_num

/-! ### C68: termination -/

/-- Total age of the electrons plus `(n_max_steps + 1)` per finished trajectory. -/
def mcWork (p : McParams) {n : ℕ} (s : McState n) : ℕ := ∑ i, (s.el i).tick + (p.maxSteps + 1) * s.sims

theorem mcBody_work {p : McParams} {n : ℕ} {s s' : McState n} {d : Fin n → McDraw}
    (h : mcBody p s d = some s') (hs : ∀ i, ElOk p (s.el i)) : mcWork p s + n ≤ mcWork p s' := by
  unfold mcBody at h
  simp only at h
  split at h
  · have := Option.some.inj h
    subst this
    unfold mcWork
    simp only
    have hsum : ∑ i, ((s.el i).tick + 1) ≤ ∑ i, ((if i ∈ mcReset p s d then (0:ℕ) else (s.el i).tick + 1)
        + (if i ∈ mcReset p s d then p.maxSteps + 1 else 0)) := by
      apply Finset.sum_le_sum
      intro i _
      have := (hs i).tick
      by_cases hi : i ∈ mcReset p s d
      · simp only [if_pos hi]; omega
      · simp only [if_neg hi]; omega
    have e1 : ∑ i, ((s.el i).tick + 1) = ∑ i, (s.el i).tick + n := by
      rw [Finset.sum_add_distrib]; simp
    have e2 : ∑ i : Fin n, (if i ∈ mcReset p s d then p.maxSteps + 1 else 0)
        = (p.maxSteps + 1) * (mcReset p s d).card := by
      rw [← Finset.sum_filter, Finset.sum_const, smul_eq_mul, mul_comm]
      congr 2
      ext i; simp
    have e3 : ∀ i, (if i ∈ mcReset p s d then (⟨p.startE, 0, mcStartDir p, 0⟩ : Electron)
        else ⟨(mcMove p (s.el i) (d i)).energy, (mcMove p (s.el i) (d i)).depth, (mcMove p (s.el i) (d i)).dir,
          (s.el i).tick + 1⟩).tick = if i ∈ mcReset p s d then (0:ℕ) else (s.el i).tick + 1 := by
      intro i; split <;> rfl
    rw [e1, Finset.sum_add_distrib, e2] at hsum
    simp only [e3]
    rw [Nat.mul_add]
    omega
  · cases h

/-- C68: for every stream of random numbers, with at least one electron the loop stops: after
`(n_max_steps + 1) · (n_simulations_max + n)` iterations the loop condition is false. -/
theorem C68_terminates (p : McParams) (hn : p.nDir ≠ 0) (n : ℕ) (h1 : 0 < n) (draws : ℕ → Fin n → McDraw) :
    ∃ s, mcRun p draws ((p.maxSteps + 1) * (p.simMax + n)) = some s ∧ ¬ mcGuard p s := by
  obtain ⟨s, hs, _⟩ := C69_invariants p hn n draws ((p.maxSteps + 1) * (p.simMax + n))
  refine ⟨s, hs, fun hg => ?_⟩
  -- while the guard holds, the work grows by n per iteration
  have key : ∀ k s, mcRun p draws k = some s → mcGuard p s → n * k ≤ mcWork p s := by
    intro k
    induction k with
    | zero => intro s _ _; simp
    | succ k ih =>
      intro s h hg
      simp only [mcRun] at h
      cases hk : mcRun p draws k with
      | none => rw [hk] at h; cases h
      | some s0 =>
        rw [hk] at h
        simp only [Option.bind_some] at h
        by_cases hg0 : mcGuard p s0
        · rw [if_pos hg0] at h
          have := mcBody_work h (mcRun_ok draws k s0 hk)
          have := ih s0 hk hg0
          rw [Nat.mul_succ]; omega
        · rw [if_neg hg0] at h
          have := Option.some.inj h
          subst this
          exact absurd hg hg0
  have hw := key _ s hs hg
  have hticks : ∑ i, (s.el i).tick ≤ n * p.maxSteps := by
    calc ∑ i, (s.el i).tick ≤ ∑ _i : Fin n, p.maxSteps := Finset.sum_le_sum fun i _ => (mcRun_ok draws _ s hs i).tick
      _ = n * p.maxSteps := by simp
  have hsim : s.sims < p.simMax := hg.2
  have : mcWork p s < n * ((p.maxSteps + 1) * (p.simMax + n)) := by
    unfold mcWork
    have h2 : (p.maxSteps + 1) * s.sims ≤ (p.maxSteps + 1) * p.simMax := Nat.mul_le_mul_left _ hsim.le
    have h3 : (p.maxSteps + 1) * p.simMax ≤ n * ((p.maxSteps + 1) * p.simMax) := Nat.le_mul_of_pos_left _ h1
    have h4 : n * p.maxSteps < n * ((p.maxSteps + 1) * n) := by
      apply Nat.mul_lt_mul_of_pos_left _ h1
      calc p.maxSteps < (p.maxSteps + 1) * 1 := by omega
        _ ≤ _ := Nat.mul_le_mul_left _ h1
    have h5 : n * ((p.maxSteps + 1) * (p.simMax + n))
        = n * ((p.maxSteps + 1) * p.simMax) + n * ((p.maxSteps + 1) * n) := by ring
    omega
  omega

/-- Without electrons the loop never ends (unless a limit is zero): the state never changes. -/
theorem C68_no_electrons (p : McParams) (hn : p.nDir ≠ 0) (draws : ℕ → Fin 0 → McDraw) (hb : 0 < p.bseMax)
    (hm : 0 < p.simMax) (k : ℕ) : ∃ s, mcRun p draws k = some s ∧ mcGuard p s := by
  have key : ∀ k s, mcRun p draws k = some s → s.bse = 0 ∧ s.sims = 0 := by
    intro k
    induction k with
    | zero => intro s h; have := Option.some.inj h; subst this; exact ⟨rfl, rfl⟩
    | succ k ih =>
      intro s h
      simp only [mcRun] at h
      cases hk : mcRun p draws k with
      | none => rw [hk] at h; cases h
      | some s0 =>
        rw [hk] at h
        have h0 := ih s0 hk
        simp only [Option.bind_some] at h
        split at h
        · unfold mcBody at h
          simp only at h
          split at h
          · have := Option.some.inj h
            subst this
            have e1 : mcExited p s0 (draws k) = ∅ := Finset.eq_empty_of_isEmpty _
            have e2 : mcReset p s0 (draws k) = ∅ := Finset.eq_empty_of_isEmpty _
            simp only [e1, e2, Finset.card_empty]
            exact h0
          · cases h
        · have := Option.some.inj h
          subst this
          exact h0
  obtain ⟨s, hs, _⟩ := C69_invariants p hn 0 draws k
  have := key k s hs
  exact ⟨s, hs, by unfold mcGuard; omega⟩

/-! ### C51 -/

/-- The cells of the accumulator. -/
noncomputable def mcCells (p : McParams) : Finset McBin :=
  Finset.Ico 0 (p.nEnergy : ℤ) ×ˢ Finset.Ico 0 (p.nDepth : ℤ) ×ˢ Finset.Ico 0 (p.nDir : ℤ) ×ˢ Finset.Ico 0 (p.nDir : ℤ)

/-- The total mass of the accumulator. -/
noncomputable def mcMass (p : McParams) {n : ℕ} (s : McState n) : ℕ := ∑ b ∈ mcCells p, s.acc b

/-- The set of back-scattered electrons with valid bins in iteration `t` of a run (empty after the loop ended). -/
noncomputable def validAt (p : McParams) {n : ℕ} (draws : ℕ → Fin n → McDraw) (t : ℕ) : Finset (Fin n) :=
  match mcRun p draws t with
  | none => ∅
  | some s => if mcGuard p s then mcCounted p s (draws t) else ∅

/-- The bin of electron `i` in iteration `t`. -/
noncomputable def binAt (p : McParams) {n : ℕ} (draws : ℕ → Fin n → McDraw) (t : ℕ) (i : Fin n) : McBin :=
  match mcRun p draws t with
  | none => (0, 0, 0, 0)
  | some s => mcBin p (mcMove p (s.el i) (draws t i))

theorem mass_step {p : McParams} (hn : p.nDir ≠ 0) {n : ℕ} {s s' : McState n} {d : Fin n → McDraw}
    (h : mcBody p s d = some s') :
    mcMass p s' = mcMass p s + ((mcCounted p s d).image fun i => mcBin p (mcMove p (s.el i) (d i))).card := by
  unfold mcBody at h
  simp only at h
  split at h
  · have := Option.some.inj h
    subst this
    unfold mcMass
    simp only
    have e : ∀ b, (if ∃ i ∈ mcCounted p s d, mcBin p (mcMove p (s.el i) (d i)) = b then s.acc b + 1 else s.acc b)
        = s.acc b + if b ∈ (mcCounted p s d).image (fun i => mcBin p (mcMove p (s.el i) (d i))) then 1 else 0 := by
      intro b
      simp only [Finset.mem_image]
      split <;> rfl
    simp only [e]
    rw [Finset.sum_add_distrib]
    congr 1
    rw [← Finset.sum_filter, Finset.sum_const, smul_eq_mul, mul_one]
    congr 1
    ext b
    simp only [Finset.mem_filter, and_iff_right_iff_imp]
    intro hb
    obtain ⟨i, hi, rfl⟩ := Finset.mem_image.1 hb
    have := index_ok hn (Finset.mem_filter.1 hi).2
    obtain ⟨h1, h2, h3, h4⟩ := this
    simp only [mcCells, Finset.mem_product, Finset.mem_Ico]
    exact ⟨h1, h2, h3, h4⟩
  · cases h

/-- C51, exact account: for every stream of random numbers and after every number of iterations the mass of the
accumulator is the sum over the iterations of the number of *distinct* bins hit in the iteration. -/
theorem C51_mass_exact_partial (p : McParams) (hn : p.nDir ≠ 0) (n : ℕ) (draws : ℕ → Fin n → McDraw) (k : ℕ)
    (s : McState n) (h : mcRun p draws k = some s) :
    mcMass p s = ∑ t ∈ Finset.range k, ((validAt p draws t).image (binAt p draws t)).card := by
  induction k generalizing s with
  | zero =>
    have := Option.some.inj h
    subst this
    simp [mcMass, mcInit]
  | succ k ih =>
    simp only [mcRun] at h
    cases hk : mcRun p draws k with
    | none => rw [hk] at h; cases h
    | some s0 =>
      rw [hk] at h
      simp only [Option.bind_some] at h
      rw [Finset.sum_range_succ, ← ih s0 hk]
      have hb : binAt p draws k = fun i => mcBin p (mcMove p (s0.el i) (draws k i)) := by
        funext i; unfold binAt; rw [hk]
      by_cases hg : mcGuard p s0
      · have hv : validAt p draws k = mcCounted p s0 (draws k) := by unfold validAt; rw [hk]; simp only; rw [if_pos hg]
        rw [if_pos hg] at h
        rw [mass_step hn h, hv, hb]
      · have hv : validAt p draws k = ∅ := by unfold validAt; rw [hk]; simp only; rw [if_neg hg]
        rw [if_neg hg] at h
        have := Option.some.inj h
        subst this
        rw [hv]; simp

/-- C51, what follows: the mass never exceeds the number of valid back-scattered electrons, and equals it exactly
when no two electrons of the same iteration fall into the same bin (in particular with one electron at a time).
Missing: equality in general (`C51_fails`). -/
theorem C51_mass_partial (p : McParams) (hn : p.nDir ≠ 0) (n : ℕ) (draws : ℕ → Fin n → McDraw) (k : ℕ)
    (s : McState n) (h : mcRun p draws k = some s) :
    mcMass p s ≤ ∑ t ∈ Finset.range k, (validAt p draws t).card ∧
    (mcMass p s = ∑ t ∈ Finset.range k, (validAt p draws t).card ↔
      ∀ t < k, Set.InjOn (binAt p draws t) (validAt p draws t)) := by
  rw [C51_mass_exact_partial p hn n draws k s h]
  refine ⟨Finset.sum_le_sum fun t _ => Finset.card_image_le, ?_⟩
  rw [Finset.sum_eq_sum_iff_of_le fun t _ => Finset.card_image_le]
  constructor
  · intro hh t ht; exact Finset.card_image_iff.1 (hh t (Finset.mem_range.2 ht))
  · intro hh t ht; exact Finset.card_image_iff.2 (hh t (Finset.mem_range.1 ht))

/-- C51 with one electron: nothing is lost. -/
theorem C51_one_electron_partial (p : McParams) (hn : p.nDir ≠ 0) (draws : ℕ → Fin 1 → McDraw) (k : ℕ)
    (s : McState 1) (h : mcRun p draws k = some s) :
    mcMass p s = ∑ t ∈ Finset.range k, (validAt p draws t).card := by
  rw [(C51_mass_partial p hn 1 draws k s h).2]
  intro t _ i _ j _ _
  exact Subsingleton.elim i j

/-- A small experiment: carbon-like target, one keV, normal incidence, an energy bin wide enough. -/
noncomputable def mcDemo (w : ℝ) : McParams :=
  { startE := 1, nEnergy := 4, nDir := 5, nDepth := 3, binE := w, binDepth := 1, atomNum := 1, rho := 1,
    weightA := 1, bseMax := 10, simMax := 10, maxSteps := 7, sigma := 0, omega := 0 }

/-- A draw that scatters by more than 90 degrees: `alpha = 0.0034`. -/
noncomputable def mcDemoDraw : McDraw := ⟨1 / 2, (1 + 1.5 * 0.0034) / (1 + 2 * 0.0034), 0⟩

/-- C51 is violated: two electrons leave in the same iteration, both with valid bins, but the histogram counts one
(`accumulator[idx] += 1` writes each repeated index once). -/
theorem C51_fails : ∃ (p : McParams) (draws : ℕ → Fin 2 → McDraw) (s : McState 2),
    p.nDir ≠ 0 ∧ (∀ t i, 0 ≤ (draws t i).step ∧ (draws t i).step < 1 ∧ 0 ≤ (draws t i).phi ∧ (draws t i).phi < 1) ∧
    mcRun p draws 1 = some s ∧ (validAt p draws 0).card = 2 ∧ mcMass p s = 1 := by
  -- the energy loss of the first step decides the width of the energy bin
  set m0 := mcMove (mcDemo 1) ⟨1, 0, mcStartDir (mcDemo 1), 0⟩ mcDemoDraw with hm0
  set w := 1 + |1 - m0.energy| with hw
  have hwpos : 0 < w := by positivity
  have hmove : mcMove (mcDemo w) ⟨1, 0, mcStartDir (mcDemo w), 0⟩ mcDemoDraw = m0 := rfl
  have hdir : mcStartDir (mcDemo 1) = ⟨0, 0, 1⟩ := by
    have : (⟨Real.sin (0 * Real.pi / 180) * Real.cos (0 * Real.pi / 180),
      Real.sin (0 * Real.pi / 180) * Real.sin (0 * Real.pi / 180), Real.cos (0 * Real.pi / 180)⟩ : V) = ⟨0, 0, 1⟩ := by
      ext <;> simp
    unfold mcStartDir
    simp only [mcDemo]
    rw [this, vnormalize_unit (by norm_num [IsUnit3])]
  have halpha : mcAlpha (mcDemo 1) 1 = 0.0034 := by
    simp only [mcAlpha, mcDemo, Real.one_rpow]; norm_num
  have hphi : Real.cos (mcPhi (mcAlpha (mcDemo 1) 1) mcDemoDraw.phi) < 0 := by
    rw [halpha, (C52_phi _ _ (by norm_num) (by norm_num [mcDemoDraw]) (by norm_num [mcDemoDraw])).1]
    norm_num [mcDemoDraw]
  have hstep : 0 < mcStep (mcDemo 1) 1 mcDemoDraw.step := by
    unfold mcStep
    simp only [halpha]
    have hl : Real.log mcDemoDraw.step < 0 := Real.log_neg (by norm_num [mcDemoDraw]) (by norm_num [mcDemoDraw])
    have hpi := Real.pi_pos
    simp only [mcDemo]
    have : 0 < 1.0e7 * 1 / (1 * (5.21 * 602.2 * (1 / 1) ^ 2 * (4 * Real.pi / (0.0034 * (1 + 0.0034)))
      * ((511 + 1) / (1024 + 1)) ^ 2)) := by positivity
    nlinarith
  have hz : m0.dir.z < 0 := by
    have hu := mcScatter_unit (c := ⟨0, 0, 1⟩) (by norm_num [IsUnit3])
      (mcPhi (mcAlpha (mcDemo 1) 1) mcDemoDraw.phi) mcDemoDraw.psi
    have : m0.dir = mcScatter ⟨0, 0, 1⟩ (mcPhi (mcAlpha (mcDemo 1) 1) mcDemoDraw.phi) mcDemoDraw.psi := by
      rw [hm0]; unfold mcMove; simp only; rw [hdir, vnormalize_unit hu]
    rw [this]
    unfold mcScatter
    simp only
    rw [if_pos (by norm_num)]
    simpa using hphi
  have hdepth : m0.depth < 0 := by
    have : m0.depth = 0 + mcStep (mcDemo 1) 1 mcDemoDraw.step * m0.dir.z := rfl
    rw [this]; nlinarith
  have hesc : m0.escape = 0 := by
    have : m0.escape = |0 / m0.dir.z| := rfl
    rw [this]; simp
  have hE : truncInt ((1 - m0.energy) / w) = 0 := by
    have h1 : |(1 - m0.energy) / w| < 1 := by
      rw [abs_div, abs_of_pos hwpos, div_lt_one hwpos, hw]; linarith
    have h2 := abs_lt.1 h1
    unfold truncInt
    split
    · rw [Int.floor_eq_zero_iff]; exact ⟨by assumption, h2.2⟩
    · rw [Int.ceil_eq_zero_iff]; exact ⟨h2.1, by linarith⟩
  have hvalid : mcValid (mcDemo w) m0 := by
    unfold mcValid mcBin
    simp only [hesc]
    have : (mcDemo w).startE = 1 := rfl
    have hb : (mcDemo w).binE = w := rfl
    rw [this, hb, hE]
    simp [truncInt, mcDemo]
  have hcount : mcCounted (mcDemo w) (mcInit (mcDemo w) 2) (fun _ => mcDemoDraw) = Finset.univ := by
    ext i
    simp only [mcCounted, mcExited, Finset.mem_filter, Finset.mem_univ, true_and, iff_true]
    exact ⟨hdepth, hvalid⟩
  obtain ⟨s, hs, _⟩ := C69_invariants (mcDemo w) (by simp [mcDemo]) 2 (fun _ _ => mcDemoDraw) 1
  have hg : mcGuard (mcDemo w) (mcInit (mcDemo w) 2) := by simp [mcGuard, mcInit, mcDemo]
  have hv : validAt (mcDemo w) (n := 2) (fun _ _ => mcDemoDraw) 0 = Finset.univ := by
    unfold validAt
    simp only [mcRun]
    rw [if_pos hg]
    exact hcount
  refine ⟨mcDemo w, fun _ _ => mcDemoDraw, s, by simp [mcDemo], fun t i => by norm_num [mcDemoDraw], hs, ?_, ?_⟩
  · rw [hv]; simp
  · rw [C51_mass_exact_partial _ (by simp [mcDemo]) _ _ _ _ hs, Finset.sum_range_one, hv]
    have : binAt (mcDemo w) (n := 2) (fun _ _ => mcDemoDraw) 0 = fun _ => mcBin (mcDemo w) m0 := rfl
    rw [this, Finset.image_const ⟨0, Finset.mem_univ _⟩, Finset.card_singleton]

end Verif
