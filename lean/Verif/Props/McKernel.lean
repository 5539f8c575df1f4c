import Verif.Model.McKernel
import Verif.Props.MonteCarlo
import Verif.Props.Lfsr
import Mathlib.Analysis.Real.Pi.Bounds
/-! C120 (trajectories), C121 (histogram of a launch) and C122 (mirror symmetry) of the Monte Carlo kernel. -/
namespace Verif.Mck
open Verif Verif.Spec Real

/-- Physically meaningful arguments. -/
structure Phys (p : KParams) : Prop where
  startE : 0 < p.startE
  binE : 0 < p.binE
  binDepth : 0 < p.binDepth
  atomNum : 0 < p.atomNum
  rho : 0 < p.rho
  weightA : 0 < p.weightA

/-- The three numbers that step `k` of a trial draws when the trial starts with the generator state `s`. -/
noncomputable def draw (s : Seed) (k : ℕ) : ℝ × ℝ × ℝ :=
  ((lfsr^[3 * k + 1] s).rand, (lfsr^[3 * k + 2] s).rand, (lfsr^[3 * k + 3] s).rand)

/-- The state after `k` scattering events with the draws `u`. -/
noncomputable def path (p : KParams) (u : ℕ → ℝ × ℝ × ℝ) : ℕ → KState
  | 0 => kStart p
  | k + 1 => (kMove p (path p u k) (u k).1 (u k).2.1 (u k).2.2).2

/-- The escape depth computed in event `k`. -/
noncomputable def escape (p : KParams) (u : ℕ → ℝ × ℝ × ℝ) (k : ℕ) : ℝ := (kMove p (path p u k) (u k).1 (u k).2.1 (u k).2.2).1

/-- The electron is still in the sample, with positive energy, after the first `k` events (none of which drew an infinite step). -/
def Inside (p : KParams) (u : ℕ → ℝ × ℝ × ℝ) (k : ℕ) : Prop :=
  ∀ j < k, (u j).1 ≠ 0 ∧ 0 < (path p u (j + 1)).energy ∧ 0 ≤ (path p u (j + 1)).depth

/-- The electron leaves the sample through its surface in event `k`. -/
def Leaves (p : KParams) (u : ℕ → ℝ × ℝ × ℝ) (k : ℕ) : Prop :=
  Inside p u k ∧ (u k).1 ≠ 0 ∧ 0 < (path p u (k + 1)).energy ∧ (path p u (k + 1)).depth < 0

theorem scatter_eq {c : V} (h : IsUnit3 c) (phi psi : ℝ) : kScatter c phi psi = mcScatter c phi psi := by
  have hz : 0 ≤ 1 - c.z ^ 2 := by
    unfold IsUnit3 at h; nlinarith [sq_nonneg c.x, sq_nonneg c.y]
  unfold kScatter mcScatter
  dsimp only
  by_cases hc : |c.z| > 0.99999
  · rw [if_pos hc, if_pos hc]
    have : (if c.z > 0 then (1 : ℝ) else -1) = c.z / |c.z| := by
      by_cases h0 : c.z > 0
      · rw [if_pos h0, abs_of_pos h0, div_self h0.ne']
      · have hne : c.z ≠ 0 := by rintro h1; rw [h1, abs_zero] at hc; norm_num at hc
        have hlt : c.z < 0 := lt_of_le_of_ne (not_lt.mp h0) hne
        rw [if_neg h0, abs_of_neg hlt, div_neg, div_self hne]
    rw [this]
  · rw [if_neg hc, if_neg hc, max_eq_left hz, pow_two]
    ext <;> dsimp only; ring

theorem start_unit (p : KParams) : IsUnit3 (kStart p).dir := by
  have key : ∀ s o : ℝ, IsUnit3 ⟨sin s * cos o, sin s * sin o, cos s⟩ := by
    intro s o
    have h1 := sin_sq_add_cos_sq s
    have h2 := sin_sq_add_cos_sq o
    simp only [IsUnit3]
    linear_combination sin s ^ 2 * h2 + h1
  unfold kStart
  dsimp only
  rw [vnormalize_unit (key _ _)]
  exact key _ _

theorem move_dir {p : KParams} {st : KState} (h : IsUnit3 st.dir) (step phi psi : ℝ) :
    (kMoveWith p st step phi psi).2.dir = mcScatter st.dir phi psi ∧ IsUnit3 (kMoveWith p st step phi psi).2.dir := by
  have := mcScatter_unit h phi psi
  unfold kMoveWith
  dsimp only
  rw [scatter_eq h, vnormalize_unit this]
  exact ⟨rfl, this⟩

theorem path_unit (p : KParams) (u : ℕ → ℝ × ℝ × ℝ) (k : ℕ) : IsUnit3 (path p u k).dir := by
  induction k with
  | zero => exact start_unit p
  | succ k ih => exact (move_dir ih _ _ _).2

theorem kPi_pos : 0 < kPi := by unfold kPi; norm_num

theorem mfp_pos {p : KParams} (hp : Phys p) {e : ℝ} (he : 0 < e) : 0 < kMfp p e := by
  obtain ⟨-, -, -, hZ, hr, hA⟩ := hp
  have := kPi_pos
  have ha : 0 < kAlpha p e := by unfold kAlpha; positivity
  unfold kMfp
  dsimp only
  positivity

theorem step_pos {p : KParams} (hp : Phys p) {e u : ℝ} (he : 0 < e) (h0 : 0 < u) (h1 : u < 1) : 0 < kStepNm p e u := by
  have := mfp_pos hp he
  have := log_neg h0 h1
  unfold kStepNm
  nlinarith

/-- C120: in every trial, whatever is drawn, the direction of flight is a unit vector at every step, and its angle with the previous
direction has the sampled cosine (exactly unless the electron flies within 0.26° of the surface normal, where the error of the cosine
is at most 0.005). -/
theorem C120_directions (p : KParams) (u : ℕ → ℝ × ℝ × ℝ) (k : ℕ) (he : 0 < (path p u k).energy) (hZ : 0 < p.atomNum)
    (h0 : 0 ≤ (u k).2.1) (h1 : (u k).2.1 < 1) :
    IsUnit3 (path p u k).dir ∧ ∃ c : ℝ,
      c = 1 - 2 * (3.4e-3 * p.atomNum ^ (0.66667 : ℝ) / (path p u k).energy) * (u k).2.1 /
        (1 + 3.4e-3 * p.atomNum ^ (0.66667 : ℝ) / (path p u k).energy - (u k).2.1) ∧ -1 ≤ c ∧ c ≤ 1 ∧
      |V.dot (path p u (k + 1)).dir (path p u k).dir - c| ≤ 0.005 ∧
      (|(path p u k).dir.z| ≤ 0.99999 → V.dot (path p u (k + 1)).dir (path p u k).dir = c) := by
  have hu := path_unit p u k
  refine ⟨hu, cos (kPhi (kAlpha p (path p u k).energy) (u k).2.1), ?_, neg_one_le_cos _, cos_le_one _, ?_, ?_⟩
  · have ha : 0 < kAlpha p (path p u k).energy := by unfold kAlpha; positivity
    have hd : 0 < 1 + kAlpha p (path p u k).energy - (u k).2.1 := by linarith
    have hn : 0 ≤ 2 * kAlpha p (path p u k).energy * (u k).2.1 / (1 + kAlpha p (path p u k).energy - (u k).2.1) := by positivity
    have hle : 2 * kAlpha p (path p u k).energy * (u k).2.1 / (1 + kAlpha p (path p u k).energy - (u k).2.1) ≤ 2 := by
      rw [div_le_iff₀ hd]; nlinarith
    unfold kPhi
    rw [cos_arccos (by linarith) (by linarith)]
    unfold kAlpha
    rw [mul_one_div]
  · have hd : (path p u (k + 1)).dir = _ := (move_dir (p := p) hu (kStepNm p (path p u k).energy (u k).1)
      (kPhi (kAlpha p (path p u k).energy) (u k).2.1) (2 * kPi * (u k).2.2)).1
    rw [hd]
    by_cases hz : 0.99999 < |(path p u k).dir.z|
    · exact C52_polar_bound _ hu _ _ hz
    · have := C52_angle_partial _ hu (kPhi (kAlpha p (path p u k).energy) (u k).2.1) (2 * kPi * (u k).2.2) (Or.inl (not_lt.mp hz))
      unfold V.dot
      rw [this, sub_self, abs_zero]; norm_num
  · intro hz
    have hd : (path p u (k + 1)).dir = _ := (move_dir (p := p) hu (kStepNm p (path p u k).energy (u k).1)
      (kPhi (kAlpha p (path p u k).energy) (u k).2.1) (2 * kPi * (u k).2.2)).1
    rw [hd]
    exact C52_angle_partial _ hu _ _ (Or.inl hz)

theorem inside_state {p : KParams} (hp : Phys p) {u : ℕ → ℝ × ℝ × ℝ} {k : ℕ} (h : Inside p u k) :
    0 < (path p u k).energy ∧ 0 ≤ (path p u k).depth := by
  cases k with
  | zero => exact ⟨hp.startE, le_rfl⟩
  | succ k => exact ⟨(h k (Nat.lt_succ_self k)).2.1, (h k (Nat.lt_succ_self k)).2.2⟩

/-- C120: an electron that leaves the sample flies out of the surface (`z < 0`), and the recorded escape depth is the distance along its
last direction from the last scattering site to the surface; it is shorter than the last step. -/
theorem C120_escape (p : KParams) (hp : Phys p) (u : ℕ → ℝ × ℝ × ℝ) (hu : ∀ k, 0 ≤ (u k).1 ∧ (u k).1 < 1) (k : ℕ) (h : Leaves p u k) :
    (path p u (k + 1)).dir.z < 0 ∧ (path p u k).depth + escape p u k * (path p u (k + 1)).dir.z = 0 ∧ 0 ≤ escape p u k ∧
      escape p u k < kStepNm p (path p u k).energy (u k).1 := by
  obtain ⟨hin, h0, -, hd⟩ := h
  obtain ⟨he, hdep⟩ := inside_state hp hin
  have hs := step_pos hp he (lt_of_le_of_ne (hu k).1 (Ne.symm h0)) (hu k).2
  have e1 : (path p u (k + 1)).depth = (path p u k).depth + kStepNm p (path p u k).energy (u k).1 * (path p u (k + 1)).dir.z := rfl
  have e2 : escape p u k = |(path p u k).depth / (path p u (k + 1)).dir.z| := rfl
  rw [e1] at hd
  have hz : (path p u (k + 1)).dir.z < 0 := by
    by_contra hc
    push Not at hc
    have := mul_nonneg hs.le hc
    linarith
  have e3 : escape p u k = (path p u k).depth / -(path p u (k + 1)).dir.z := by
    rw [e2, abs_div, abs_of_nonneg hdep, abs_of_neg hz]
  refine ⟨hz, ?_, by rw [e2]; exact abs_nonneg _, ?_⟩
  · rw [e3]
    have : -(path p u (k + 1)).dir.z ≠ 0 := by linarith
    field_simp
    rw [div_self hz.ne]; ring
  · rw [e3, div_lt_iff₀ (by linarith)]
    linarith

/-- C120, energy, partial: an event costs energy as long as the electron has at least 0.0077 times the mean ionisation potential.
Missing: below that the logarithm of the stopping power changes sign, see `C120_energy_fails`. -/
theorem C120_energy_partial (p : KParams) (hp : Phys p) (u : ℕ → ℝ × ℝ × ℝ) (hu : ∀ k, 0 ≤ (u k).1 ∧ (u k).1 < 1) (k : ℕ)
    (hin : Inside p u k) (h0 : (u k).1 ≠ 0)
    (hE : 0.0077 * (((9.76 * p.atomNum) + (58.5 * p.atomNum ^ (-0.19 : ℝ))) * 1.0e-3) ≤ (path p u k).energy) :
    (path p u (k + 1)).energy < (path p u k).energy := by
  obtain ⟨he, -⟩ := inside_state hp hin
  have hs := step_pos hp he (lt_of_le_of_ne (hu k).1 (Ne.symm h0)) (hu k).2
  have e1 : (path p u (k + 1)).energy = (path p u k).energy +
      kStepNm p (path p u k).energy (u k).1 * p.rho * kDeDs p (path p u k).energy := rfl
  obtain ⟨-, -, -, hZ, hr, hA⟩ := hp
  have hm : 0 < kMip p := by unfold kMip; positivity
  have hlog : 0 < log ((1.166 * (path p u k).energy / kMip p) + 0.9911) := by
    apply log_pos
    have : 0.00897 ≤ 1.166 * (path p u k).energy / kMip p := by
      rw [le_div_iff₀ hm]
      have : 0.0077 * kMip p ≤ (path p u k).energy := hE
      nlinarith
    linarith
  have hd : kDeDs p (path p u k).energy < 0 := by
    unfold kDeDs
    have : 0 < 0.00785 * (p.atomNum / p.weightA) * (1 / (path p u k).energy) := by positivity
    nlinarith
  rw [e1]
  have := mul_pos hs hr
  nlinarith

/-- C120 fails for very slow electrons: below 0.0076 times the mean ionisation potential an event *adds* energy. -/
theorem C120_energy_fails (p : KParams) (hp : Phys p) (st : KState) (u1 u2 u3 : ℝ) (h0 : 0 < u1) (h1 : u1 < 1) (he : 0 < st.energy)
    (hE : st.energy ≤ 0.0076 * (((9.76 * p.atomNum) + (58.5 * p.atomNum ^ (-0.19 : ℝ))) * 1.0e-3)) :
    st.energy < (kMove p st u1 u2 u3).2.energy := by
  have hs := step_pos hp he h0 h1
  obtain ⟨-, -, -, hZ, hr, hA⟩ := hp
  have hm : 0 < kMip p := by unfold kMip; positivity
  have hlog : log ((1.166 * st.energy / kMip p) + 0.9911) < 0 := by
    apply log_neg
    · positivity
    · have : 1.166 * st.energy / kMip p ≤ 0.00887 := by
        rw [div_le_iff₀ hm]
        have : st.energy ≤ 0.0076 * kMip p := hE
        nlinarith
      linarith
  have hd : 0 < kDeDs p st.energy := by
    unfold kDeDs
    have : 0 < 0.00785 * (p.atomNum / p.weightA) * (1 / st.energy) := by positivity
    nlinarith
  have e1 : (kMove p st u1 u2 u3).2.energy = st.energy + kStepNm p st.energy u1 * p.rho * kDeDs p st.energy := rfl
  rw [e1]
  have := mul_pos (mul_pos hs hr) hd
  linarith

/-! ### C121 -/

theorem rand_zero_iff (s : Seed) : s.rand = 0 ↔ s.word = 0 := by
  unfold Seed.rand
  rw [div_eq_zero_iff]
  constructor
  · rintro (h | h)
    · have : s.word.toNat = 0 := by exact_mod_cast h
      exact BitVec.eq_of_toNat_eq (by simpa using this)
    · norm_num at h
  · intro h
    left; rw [h]; simp

theorem draw_shift (s : Seed) (k : ℕ) : draw (lfsr (lfsr (lfsr s))) k = draw s (k + 1) := by
  have h : ∀ n, lfsr^[n] (lfsr (lfsr (lfsr s))) = lfsr^[n + 3] s := by
    intro n; rw [Function.iterate_add_apply]; rfl
  unfold draw
  rw [h, h, h, show 3 * (k + 1) + 1 = 3 * k + 1 + 3 by ring, show 3 * (k + 1) + 2 = 3 * k + 2 + 3 by ring,
    show 3 * (k + 1) + 3 = 3 * k + 3 + 3 by ring]

/-- the path from an arbitrary state -/
noncomputable def pathFrom (p : KParams) (st : KState) (u : ℕ → ℝ × ℝ × ℝ) : ℕ → KState
  | 0 => st
  | k + 1 => (kMove p (pathFrom p st u k) (u k).1 (u k).2.1 (u k).2.2).2

theorem pathFrom_start (p : KParams) (u : ℕ → ℝ × ℝ × ℝ) (k : ℕ) : pathFrom p (kStart p) u k = path p u k := by
  induction k with
  | zero => rfl
  | succ k ih => simp only [pathFrom, path, ih]

theorem pathFrom_shift (p : KParams) (st : KState) (u : ℕ → ℝ × ℝ × ℝ) (k : ℕ) :
    pathFrom p st u (k + 1) = pathFrom p (kMove p st (u 0).1 (u 0).2.1 (u 0).2.2).2 (fun j => u (j + 1)) k := by
  induction k with
  | zero => rfl
  | succ k ih => rw [pathFrom, ih]; rfl

/-- what the loop over steps does, from an arbitrary state -/
theorem trial_from (p : KParams) (fuel : ℕ) (st : KState) (s : Seed) (i : ℤ) :
    (kTrial p fuel st s).1 = some i ↔ ∃ k < fuel,
      (∀ j < k, (draw s j).1 ≠ 0 ∧ 0 < (pathFrom p st (draw s) (j + 1)).energy ∧ 0 ≤ (pathFrom p st (draw s) (j + 1)).depth) ∧
      (draw s k).1 ≠ 0 ∧ 0 < (pathFrom p st (draw s) (k + 1)).energy ∧ (pathFrom p st (draw s) (k + 1)).depth < 0 ∧
      kValid p (kBin p (kMove p (pathFrom p st (draw s) k) (draw s k).1 (draw s k).2.1 (draw s k).2.2).1
        (pathFrom p st (draw s) (k + 1))) ∧
      i = kIndex p (kBin p (kMove p (pathFrom p st (draw s) k) (draw s k).1 (draw s k).2.1 (draw s k).2.2).1
        (pathFrom p st (draw s) (k + 1))) := by
  induction fuel generalizing st s with
  | zero => simp [kTrial]
  | succ n ih =>
    have hd : draw s 0 = ((lfsr s).rand, (lfsr (lfsr s)).rand, (lfsr (lfsr (lfsr s))).rand) := rfl
    have e1 : pathFrom p st (draw s) 1 = (kMove p st (lfsr s).rand (lfsr (lfsr s)).rand (lfsr (lfsr (lfsr s))).rand).2 := rfl
    unfold kTrial
    dsimp only
    by_cases h1 : (lfsr s).word = 0 ∨ (kMove p st (lfsr s).rand (lfsr (lfsr s)).rand (lfsr (lfsr (lfsr s))).rand).2.energy ≤ 0
    · rw [if_pos h1]
      simp only [reduceCtorEq, false_iff, not_exists, not_and]
      rintro k hk hall h2 h3
      exfalso
      have : (draw s 0).1 ≠ 0 ∧ 0 < (pathFrom p st (draw s) 1).energy := by
        cases k with
        | zero => exact ⟨h2, h3⟩
        | succ k => exact ⟨(hall 0 (Nat.succ_pos k)).1, (hall 0 (Nat.succ_pos k)).2.1⟩
      rw [e1] at this
      rcases h1 with h1 | h1
      · exact this.1 ((rand_zero_iff _).mpr h1)
      · linarith [this.2]
    rw [if_neg h1]
    push Not at h1
    have h1w : (draw s 0).1 ≠ 0 := fun h => h1.1 ((rand_zero_iff _).mp h)
    by_cases h2 : (kMove p st (lfsr s).rand (lfsr (lfsr s)).rand (lfsr (lfsr (lfsr s))).rand).2.depth < 0
    · rw [if_pos h2]
      constructor
      · intro h
        refine ⟨0, Nat.succ_pos n, fun j hj => absurd hj (Nat.not_lt_zero j), h1w, h1.2, h2, ?_⟩
        split at h
        · rename_i hv
          exact ⟨hv, (Option.some.inj h).symm⟩
        · simp at h
      · rintro ⟨k, hk, hall, k1, k2, k3, k4, k5⟩
        cases k with
        | zero =>
          rw [k5]
          exact if_pos k4
        | succ k =>
          exfalso
          have := (hall 0 (Nat.succ_pos k)).2.2
          rw [e1] at this
          linarith
    · rw [if_neg h2, ih]
      have hs : draw (lfsr (lfsr (lfsr s))) = fun j => draw s (j + 1) := funext fun j => draw_shift s j
      have hp : ∀ j, pathFrom p (kMove p st (lfsr s).rand (lfsr (lfsr s)).rand (lfsr (lfsr (lfsr s))).rand).2
          (draw (lfsr (lfsr (lfsr s)))) j = pathFrom p st (draw s) (j + 1) := by
        intro j; rw [pathFrom_shift, hs]; rfl
      constructor
      · rintro ⟨k, hk, hall, k1, k2, k3, k4, k5⟩
        refine ⟨k + 1, by omega, ?_, ?_⟩
        · intro j hj
          cases j with
          | zero => exact ⟨h1w, by rw [e1]; exact h1.2, by rw [e1]; exact not_lt.mp h2⟩
          | succ j =>
            have := hall j (by omega)
            rwa [hp, draw_shift] at this
        · rw [hp, draw_shift] at k4 k5
          rw [hp] at k2 k3 k4 k5
          rw [draw_shift] at k1
          exact ⟨k1, k2, k3, k4, k5⟩
      · rintro ⟨k, hk, hall, k1, k2, k3, k4, k5⟩
        cases k with
        | zero => rw [e1] at k3; exact absurd k3 h2
        | succ k =>
          refine ⟨k, by omega, ?_, ?_⟩
          · intro j hj
            rw [hp, draw_shift]
            exact hall (j + 1) (by omega)
          · rw [hp, hp, draw_shift]
            exact ⟨k1, k2, k3, k4, k5⟩

/-- C121: a trial increments the cell `i` if and only if the electron leaves the sample within the allowed number of steps and `i` is the
flat index of its energy, depth and direction bins, all in range. -/
theorem C121_trial (p : KParams) (s : Seed) (i : ℤ) : (kTrial p p.maxSteps (kStart p) s).1 = some i ↔
    ∃ k < p.maxSteps, Leaves p (draw s) k ∧ kValid p (kBin p (escape p (draw s) k) (path p (draw s) (k + 1))) ∧
      i = kIndex p (kBin p (escape p (draw s) k) (path p (draw s) (k + 1))) := by
  rw [trial_from]
  simp only [pathFrom_start]
  constructor
  · rintro ⟨k, hk, h1, h2, h3, h4, h5, h6⟩
    exact ⟨k, hk, ⟨h1, h2, h3, h4⟩, h5, h6⟩
  · rintro ⟨k, hk, ⟨h1, h2, h3, h4⟩, h5, h6⟩
    exact ⟨k, hk, h1, h2, h3, h4, h5, h6⟩

/-- C121: flat indices of bins in range are in range of the accumulator, and different bins have different indices. -/
theorem C121_index (p : KParams) (a b : KBin) (ha : kValid p a) (hb : kValid p b) :
    0 ≤ kIndex p a ∧ kIndex p a < p.nEnergy * p.nDepth * p.nDir * p.nDir ∧ (kIndex p a = kIndex p b → a = b) := by
  obtain ⟨a1, a2, a3, a4⟩ := a
  obtain ⟨b1, b2, b3, b4⟩ := b
  unfold kValid at ha hb
  dsimp only at ha hb
  obtain ⟨ha1, ha2, ha3, ha4, ha5, ha6, ha7, ha8⟩ := ha
  obtain ⟨hb1, hb2, hb3, hb4, hb5, hb6, hb7, hb8⟩ := hb
  unfold kIndex
  dsimp only
  generalize (p.nEnergy : ℤ) = E at *
  generalize (p.nDepth : ℤ) = D at *
  generalize (p.nDir : ℤ) = N at *
  have uniq : ∀ {n q1 q2 r1 r2 : ℤ}, 0 ≤ r1 → r1 < n → 0 ≤ r2 → r2 < n → q1 * n + r1 = q2 * n + r2 → q1 = q2 ∧ r1 = r2 := by
    intro n q1 q2 r1 r2 h1 h2 h3 h4 h
    have h5 : q1 = q2 := by
      by_contra hne
      rcases lt_or_gt_of_ne hne with hl | hl
      · have : (q1 + 1) * n ≤ q2 * n := mul_le_mul_of_nonneg_right (by omega) (by omega)
        linarith
      · have : (q2 + 1) * n ≤ q1 * n := mul_le_mul_of_nonneg_right (by omega) (by omega)
        linarith
    subst h5
    exact ⟨rfl, by linarith⟩
  have hN : 0 ≤ N := by omega
  have hNN : 0 ≤ N * N := mul_nonneg hN hN
  have hD : 0 ≤ D := by omega
  refine ⟨by positivity, ?_, fun h => ?_⟩
  · have s3 : a3 * N + a4 < N * N := by
      have : (a3 + 1) * N ≤ N * N := mul_le_mul_of_nonneg_right (by omega) hN
      linarith
    have s2 : a2 * (N * N) + (a3 * N + a4) < D * (N * N) := by
      have : (a2 + 1) * (N * N) ≤ D * (N * N) := mul_le_mul_of_nonneg_right (by omega) hNN
      linarith
    have : (a1 + 1) * (D * (N * N)) ≤ E * (D * (N * N)) := mul_le_mul_of_nonneg_right (by omega) (mul_nonneg hD hNN)
    linarith
  · have h' : ((a1 * D + a2) * N + a3) * N + a4 = ((b1 * D + b2) * N + b3) * N + b4 := by linarith
    obtain ⟨k1, k2⟩ := uniq ha7 ha8 hb7 hb8 h'
    obtain ⟨k3, k4⟩ := uniq ha5 ha6 hb5 hb6 k1
    obtain ⟨k5, k6⟩ := uniq ha3 ha4 hb3 hb4 k3
    rw [k2, k4, k5, k6]

/-- the generator state with which trial `t` of a work item starts -/
noncomputable def trialSeed (p : KParams) (s : Seed) : ℕ → Seed
  | 0 => s
  | t + 1 => (kTrial p p.maxSteps (kStart p) (trialSeed p s t)).2

theorem trialSeed_shift (p : KParams) (s : Seed) (t : ℕ) :
    trialSeed p s (t + 1) = trialSeed p (kTrial p p.maxSteps (kStart p) s).2 t := by
  induction t with
  | zero => rfl
  | succ t ih => rw [trialSeed, ih]; rfl

theorem item_count (p : KParams) (n : ℕ) (s : Seed) (i : ℤ) :
    (kItem p n s).1.count i =
      ((Finset.range n).filter fun t => (kTrial p p.maxSteps (kStart p) (trialSeed p s t)).1 = some i).card := by
  induction n generalizing s with
  | zero => simp [kItem]
  | succ n ih =>
    unfold kItem
    dsimp only
    rw [List.count_append, ih, Finset.card_filter, Finset.card_filter, Finset.sum_range_succ']
    rw [add_comm]
    congr 1
    · exact Finset.sum_congr rfl fun t _ => by rw [trialSeed_shift]
    · rw [trialSeed]
      rcases (kTrial p p.maxSteps (kStart p) s).1 with _ | j
      · simp
      · by_cases h : j = i
        · simp [h]
        · simp [h]

theorem item_length (p : KParams) (n : ℕ) (s : Seed) : (kItem p n s).1.length ≤ n := by
  induction n generalizing s with
  | zero => simp [kItem]
  | succ n ih =>
    unfold kItem
    dsimp only
    rw [List.length_append]
    have := ih (kTrial p p.maxSteps (kStart p) s).2
    have : (kTrial p p.maxSteps (kStart p) s).1.toList.length ≤ 1 := by
      cases (kTrial p p.maxSteps (kStart p) s).1 <;> simp
    omega

theorem interleaving_perm {ls : List (List ℤ)} {sched : List ℤ} (h : Interleaving ls sched) : sched.Perm ls.flatten := by
  induction h with
  | nil ls h =>
    have : ls.flatten = [] := by
      rw [List.flatten_eq_nil_iff]; exact h
    rw [this]
  | step pre post i l sched h ih =>
    rw [List.flatten_append, List.flatten_cons] at ih ⊢
    rw [List.cons_append]
    exact (List.Perm.cons i ih).trans (List.perm_middle).symm

theorem launch_fold (sched : List ℤ) (acc : ℤ → BitVec 32) (i : ℤ) :
    (sched.foldl atomicInc acc) i = acc i + BitVec.ofNat 32 (sched.count i) := by
  induction sched generalizing acc with
  | nil => simp
  | cons j l ih =>
    rw [List.foldl_cons, ih]
    unfold atomicInc
    by_cases h : i = j
    · subst h
      rw [if_pos rfl, List.count_cons_self, BitVec.add_assoc]
      congr 1
      apply BitVec.eq_of_toNat_eq
      simp [BitVec.toNat_add, Nat.add_comm]
    · rw [if_neg h, List.count_cons_of_ne (Ne.symm h)]

/-- C121: whatever the order in which the device executes the increments of the work items, the accumulator of a launch holds, in each
cell, the number of trials that end in that cell (modulo 2^32, so exactly whenever there are fewer than 2^32 trials in all); in
particular the histogram does not depend on the schedule, and its total is at most the number of trials. -/
theorem C121_histogram (p : KParams) (seeds : List Seed) (sched : List ℤ)
    (h : Interleaving (seeds.map fun s => (kItem p p.trials s).1) sched) (i : ℤ) :
    (kLaunch sched i).toNat = ((seeds.map fun s => ((Finset.range p.trials).filter fun t =>
        (kTrial p p.maxSteps (kStart p) (trialSeed p s t)).1 = some i).card).sum) % 2 ^ 32 ∧
      (seeds.length * p.trials < 2 ^ 32 →
        (kLaunch sched i).toNat = (seeds.map fun s => ((Finset.range p.trials).filter fun t =>
          (kTrial p p.maxSteps (kStart p) (trialSeed p s t)).1 = some i).card).sum) ∧
      sched.length ≤ seeds.length * p.trials := by
  have hp := interleaving_perm h
  have hcount : sched.count i = (seeds.map fun s => ((Finset.range p.trials).filter fun t =>
      (kTrial p p.maxSteps (kStart p) (trialSeed p s t)).1 = some i).card).sum := by
    rw [hp.count_eq, List.count_flatten, List.map_map]
    congr 1
    apply List.map_congr_left
    intro s _
    exact item_count p p.trials s i
  have hlen : sched.length ≤ seeds.length * p.trials := by
    rw [hp.length_eq, List.length_flatten, List.map_map]
    clear h hp hcount
    induction seeds with
    | nil => simp
    | cons s l ih =>
      rw [List.map_cons, List.sum_cons, List.length_cons, Nat.succ_mul]
      have := item_length p p.trials s
      simp only [Function.comp] at ih ⊢
      omega
  have hval : (kLaunch sched i).toNat = sched.count i % 2 ^ 32 := by
    unfold kLaunch
    rw [launch_fold]
    simp
  refine ⟨by rw [hval, hcount], fun hlt => ?_, hlen⟩
  rw [hval, ← hcount, Nat.mod_eq_of_lt]
  exact lt_of_le_of_lt (List.count_le_length) (lt_of_le_of_lt hlen hlt)

theorem truncInt_eq_iff {x : ℝ} (hx : 0 ≤ x) (n : ℤ) : truncInt x = n ↔ (n : ℝ) ≤ x ∧ x < n + 1 := by
  unfold truncInt
  rw [if_pos hx, Int.floor_eq_iff]

theorem lambert_range (v : V) : |(kLambert v).1| ≤ 1 ∧ |(kLambert v).2| ≤ 1 := by
  have hr := C20_range v
  have hpi := pi_pos
  have hk := kPi_pos
  have hle : π / kPi ≤ 1 := by
    rw [div_le_one hk]
    unfold kPi
    linarith [pi_lt_d20]
  have h0 : 0 ≤ π / kPi := by positivity
  have e8 : sqrt 8 = (8 : ℝ) ^ (0.5 : ℝ) := by rw [sqrt_eq_rpow]; norm_num
  have e2 : sqrt 2 = (2 : ℝ) ^ (0.5 : ℝ) := by rw [sqrt_eq_rpow]; norm_num
  have key : ∀ c : ℝ, c * (2 * (2 : ℝ) ^ (0.5 : ℝ) / kPi) = c * (2 * (2 : ℝ) ^ (0.5 : ℝ) / π) * (π / kPi) := by
    intro c; field_simp
  have scale : ∀ c : ℝ, |c| ≤ 1 → |c * (π / kPi)| ≤ 1 := by
    intro c hc
    rw [abs_mul, abs_of_nonneg h0]
    calc |c| * (π / kPi) ≤ 1 * 1 := mul_le_mul hc hle h0 (by norm_num)
      _ = 1 := by norm_num
  unfold roscaLambert at hr
  unfold kLambert
  dsimp only at hr ⊢
  rw [e8, e2, key]
  by_cases hc : |v.y| ≤ |v.x|
  · simp only [if_pos hc] at hr ⊢
    exact ⟨hr.1, scale _ hr.2⟩
  · simp only [if_neg hc] at hr ⊢
    exact ⟨scale _ hr.1, hr.2⟩

/-- C121: what the bins mean.  The direction indices are always in range; for an electron that has not gained energy the energy index is
the number of whole energy bins it has lost, and the depth index the number of whole depth bins (of constant width, or in logarithmic
mode with edges `exp (d * binDepth) - 1`). -/
theorem C121_bins (p : KParams) (hp : Phys p) (hn : p.nDir ≠ 0) (esc : ℝ) (hesc : 0 ≤ esc) (st : KState) (hE : st.energy ≤ p.startE) :
    (0 ≤ (kBin p esc st).2.2.1 ∧ (kBin p esc st).2.2.1 < p.nDir) ∧ (0 ≤ (kBin p esc st).2.2.2 ∧ (kBin p esc st).2.2.2 < p.nDir) ∧
      (∀ e : ℤ, (kBin p esc st).1 = e ↔ p.startE - (e + 1) * p.binE < st.energy ∧ st.energy ≤ p.startE - e * p.binE) ∧
      (∀ d : ℤ, (kBin p esc st).2.1 = d ↔
        if p.logDepth then exp (d * p.binDepth) - 1 ≤ esc ∧ esc < exp ((d + 1) * p.binDepth) - 1
        else d * p.binDepth ≤ esc ∧ esc < (d + 1) * p.binDepth) := by
  have hl := lambert_range st.dir
  have hb := hp.binE
  have hbd := hp.binDepth
  refine ⟨dir_index_ok _ _ hl.1 hn, dir_index_ok _ _ hl.2 hn, fun e => ?_, fun d => ?_⟩
  · unfold kBin
    dsimp only
    rw [mul_one_div, truncInt_eq_iff (div_nonneg (by linarith) hb.le), le_div_iff₀ hb, div_lt_iff₀ hb]
    constructor
    · rintro ⟨h1, h2⟩; exact ⟨by linarith, by linarith⟩
    · rintro ⟨h1, h2⟩; exact ⟨by linarith, by linarith⟩
  · unfold kBin
    dsimp only
    cases p.logDepth
    · simp only [Bool.false_eq_true, if_false]
      rw [truncInt_eq_iff (div_nonneg hesc hbd.le), le_div_iff₀ hbd, div_lt_iff₀ hbd]
    · simp only [if_true]
      have hpos : 0 < esc + 1 := by linarith
      rw [truncInt_eq_iff (div_nonneg (log_nonneg (by linarith)) hbd.le), le_div_iff₀ hbd, div_lt_iff₀ hbd, le_log_iff_exp_le hpos,
        log_lt_iff_lt_exp hpos]
      constructor
      · rintro ⟨h1, h2⟩; exact ⟨by linarith, by linarith⟩
      · rintro ⟨h1, h2⟩; exact ⟨by linarith, by linarith⟩

/-! ### C122: mirror symmetry -/

/-- Reflection in the plane that contains the beam and the surface normal when `omega = 0`. -/
def flipY (v : V) : V := ⟨v.x, -v.y, v.z⟩

/-- The same draws with every azimuth reversed (the azimuth of event `k` is `2 PI` times the third draw). -/
def revAzimuth (u : ℕ → ℝ × ℝ × ℝ) : ℕ → ℝ × ℝ × ℝ := fun k => ((u k).1, (u k).2.1, -(u k).2.2)

theorem scatter_flip (c : V) (phi psi : ℝ) : kScatter (flipY c) phi (-psi) = flipY (kScatter c phi psi) := by
  unfold kScatter flipY
  dsimp only
  by_cases h : |c.z| > 0.99999
  · rw [if_pos h, if_pos h, cos_neg, sin_neg]
    ext <;> dsimp only
    ring
  · rw [if_neg h, if_neg h, cos_neg, sin_neg]
    ext <;> dsimp only <;> ring

theorem vnormalize_flip (v : V) : vnormalize (flipY v) = flipY (vnormalize v) := by
  have : (flipY v).norm = v.norm := by unfold flipY V.norm; dsimp only; rw [neg_sq]
  unfold vnormalize
  rw [this]
  unfold flipY V.sdiv
  ext <;> dsimp only
  rw [neg_div]

theorem atan2_neg_nonneg {y x : ℝ} (hx : 0 ≤ x) : atan2 (-y) x = -atan2 y x := by
  unfold atan2
  have : (⟨x, -y⟩ : ℂ) = (starRingEnd ℂ) ⟨x, y⟩ := by apply Complex.ext <;> simp
  rw [this, Complex.arg_conj, if_neg]
  intro h
  rw [Complex.arg_eq_pi_iff] at h
  exact absurd h.1 (not_lt.mpr hx)

theorem lambert_flip (v : V) : kLambert (flipY v) = ((kLambert v).1, -(kLambert v).2) := by
  unfold kLambert flipY
  dsimp only
  by_cases h : |v.y| ≤ |v.x|
  · have h' : |-v.y| ≤ |v.x| := by rwa [abs_neg]
    simp only [if_pos h, if_pos h']
    rw [neg_mul, atan2_neg_nonneg (abs_nonneg _)]
    simp only [mul_neg, neg_mul]
  · have h' : ¬ |-v.y| ≤ |v.x| := by rwa [abs_neg]
    simp only [if_neg h, if_neg h']
    have hne : v.y ≠ 0 := by rintro h0; rw [h0, abs_zero] at h; exact h (abs_nonneg _)
    rcases lt_or_gt_of_ne hne with hl | hl
    · have h1 : ¬ -v.y < 0 := by linarith
      rw [if_neg h1, if_pos hl, abs_neg]
      ext
      · dsimp only
        rw [show v.x * -1 = -(v.x * 1) by ring, atan2_neg_nonneg (abs_nonneg _)]
        ring
      · dsimp only; ring
    · have h1 : -v.y < 0 := by linarith
      have h2 : ¬ v.y < 0 := by linarith
      rw [if_pos h1, if_neg h2, abs_neg]
      ext
      · dsimp only
        rw [show v.x * -1 = -(v.x * 1) by ring, atan2_neg_nonneg (abs_nonneg _)]
        ring
      · dsimp only; ring

theorem path_flip (p : KParams) (ho : p.omega = 0) (u : ℕ → ℝ × ℝ × ℝ) (k : ℕ) :
    path p (revAzimuth u) k = ⟨flipY (path p u k).dir, (path p u k).depth, (path p u k).energy⟩ := by
  induction k with
  | zero =>
    unfold path kStart
    dsimp only
    rw [ho, zero_mul, zero_div, sin_zero, mul_zero, ← vnormalize_flip]
    unfold flipY
    dsimp only
    rw [neg_zero]
  | succ k ih =>
    have e : ∀ (w : ℕ → ℝ × ℝ × ℝ), path p w (k + 1) = (kMove p (path p w k) (w k).1 (w k).2.1 (w k).2.2).2 := fun _ => rfl
    rw [e, e, ih]
    unfold kMove kMoveWith revAzimuth
    dsimp only
    rw [show 2 * kPi * -(u k).2.2 = -(2 * kPi * (u k).2.2) by ring, scatter_flip, vnormalize_flip]
    rfl

theorem escape_flip (p : KParams) (ho : p.omega = 0) (u : ℕ → ℝ × ℝ × ℝ) (k : ℕ) : escape p (revAzimuth u) k = escape p u k := by
  have e : ∀ (w : ℕ → ℝ × ℝ × ℝ), escape p w k = |(path p w k).depth / (path p w (k + 1)).dir.z| := fun _ => rfl
  rw [e, e, path_flip p ho, path_flip p ho]
  rfl

theorem truncInt_mirror {n : ℕ} {t : ℝ} (h0 : 0 ≤ t) (h1 : t ≤ n) (hni : ∀ m : ℤ, t ≠ m) : truncInt (n - t) = n - 1 - truncInt t := by
  unfold truncInt
  rw [if_pos h0, if_pos (by linarith), Int.floor_eq_iff]
  have h2 := Int.floor_le t
  have h3 := Int.lt_floor_add_one t
  have h4 : (⌊t⌋ : ℝ) < t := lt_of_le_of_ne h2 (Ne.symm (hni _))
  push_cast
  constructor <;> linarith

/-- C122: with `omega = 0` the simulation is mirror symmetric.  Reversing all azimuths of a trajectory reflects it in the plane of beam and
surface normal: same depths, same energies, it leaves the sample in the same event with the same escape depth, and is counted in the
same energy, depth and first direction bins; the last direction index `i` becomes `nDir - 1 - i`, unless the direction lies on the
border between two bins. -/
theorem C122_mirror (p : KParams) (ho : p.omega = 0) (u : ℕ → ℝ × ℝ × ℝ) (k : ℕ) :
    ((path p (revAzimuth u) k).dir.x = (path p u k).dir.x ∧ (path p (revAzimuth u) k).dir.y = -(path p u k).dir.y ∧
      (path p (revAzimuth u) k).dir.z = (path p u k).dir.z ∧ (path p (revAzimuth u) k).depth = (path p u k).depth ∧
      (path p (revAzimuth u) k).energy = (path p u k).energy) ∧
    (Leaves p (revAzimuth u) k ↔ Leaves p u k) ∧
    ∀ b b' : KBin, b = kBin p (escape p u k) (path p u (k + 1)) → b' = kBin p (escape p (revAzimuth u) k) (path p (revAzimuth u) (k + 1)) →
      b'.1 = b.1 ∧ b'.2.1 = b.2.1 ∧ b'.2.2.1 = b.2.2.1 ∧
      ((∀ m : ℤ, ((kLambert (path p u (k + 1)).dir).2 * 0.499999 + 0.5) * p.nDir ≠ m) → b'.2.2.2 = p.nDir - 1 - b.2.2.2) := by
  refine ⟨?_, ?_, ?_⟩
  · rw [path_flip p ho]
    exact ⟨rfl, rfl, rfl, rfl, rfl⟩
  · unfold Leaves Inside
    simp only [path_flip p ho]
    rfl
  · rintro b b' rfl rfl
    rw [escape_flip p ho, path_flip p ho]
    unfold kBin
    dsimp only
    rw [lambert_flip]
    refine ⟨rfl, rfl, rfl, fun hni => ?_⟩
    dsimp only
    have hl := abs_le.mp (lambert_range (path p u (k + 1)).dir).2
    have hN : (0 : ℝ) ≤ p.nDir := Nat.cast_nonneg _
    rw [← truncInt_mirror _ _ hni]
    · congr 1; ring
    · exact mul_nonneg (by linarith) hN
    · calc _ ≤ 1 * (p.nDir : ℝ) := mul_le_mul_of_nonneg_right (by linarith) hN
        _ = _ := one_mul _

/-! ### the hypotheses can be met -/

/-- Nickel at 20 kV, normal incidence. -/
noncomputable def nickel : KParams := ⟨10, 20, 20, 501, 100, 1, 1, 28, 8.9, 58.69, 300, 0, 0, false⟩

theorem nickel_phys : Phys nickel := by constructor <;> simp only [nickel] <;> norm_num

/-- an electron that is reflected in its first event and leaves -/
theorem nickel_leaves : ∃ u : ℕ → ℝ × ℝ × ℝ, (∀ k, 0 ≤ (u k).1 ∧ (u k).1 < 1) ∧ Leaves nickel u 0 := by
  set M := |kMfp nickel 20 * nickel.rho * kDeDs nickel 20| with hM
  have hM0 : 0 ≤ M := abs_nonneg _
  set d := 1 / (1 + M) with hd
  have hd0 : 0 < d := by positivity
  refine ⟨fun _ => (exp (-d), 1, 0), fun k => ⟨(exp_pos _).le, ?_⟩, fun j hj => absurd hj (Nat.not_lt_zero j), (exp_pos _).ne', ?_, ?_⟩
  · dsimp only
    rw [exp_lt_one_iff]; linarith
  · have e : (path nickel (fun _ => (exp (-d), 1, 0)) (0 + 1)).energy =
        20 + kStepNm nickel 20 (exp (-d)) * nickel.rho * kDeDs nickel 20 := rfl
    rw [e]
    unfold kStepNm
    rw [log_exp]
    have h1 : |d * (kMfp nickel 20 * nickel.rho * kDeDs nickel 20)| ≤ 1 := by
      rw [abs_mul, abs_of_pos hd0, ← hM, hd, div_mul_eq_mul_div, one_mul, div_le_one (by linarith)]
      linarith
    have h2 := (abs_le.mp h1).1
    nlinarith
  · have hdir : (kStart nickel).dir = ⟨0, 0, 1⟩ := by
      unfold kStart
      simp only [nickel, zero_mul, zero_div, sin_zero, cos_zero]
      exact vnormalize_unit (by simp [IsUnit3])
    have e : (path nickel (fun _ => (exp (-d), 1, 0)) (0 + 1)).depth =
        0 + kStepNm nickel 20 (exp (-d)) * (path nickel (fun _ => (exp (-d), 1, 0)) (0 + 1)).dir.z := rfl
    have ha : kAlpha nickel 20 ≠ 0 := by unfold kAlpha nickel; positivity
    have hphi : kPhi (kAlpha nickel 20) 1 = π := by
      unfold kPhi
      rw [show 1 + kAlpha nickel 20 - 1 = kAlpha nickel 20 by ring, mul_one, mul_div_assoc, div_self ha]
      norm_num
    have hz : (path nickel (fun _ => (exp (-d), 1, 0)) (0 + 1)).dir.z = -1 := by
      have := (move_dir (p := nickel) (start_unit nickel) (kStepNm nickel 20 (exp (-d))) (kPhi (kAlpha nickel 20) 1) (2 * kPi * 0)).1
      have e2 : (path nickel (fun _ => (exp (-d), 1, 0)) (0 + 1)).dir =
        (kMoveWith nickel (kStart nickel) (kStepNm nickel 20 (exp (-d))) (kPhi (kAlpha nickel 20) 1) (2 * kPi * 0)).2.dir := rfl
      rw [e2, this, hdir, hphi]
      unfold mcScatter
      norm_num
    rw [e, hz]
    have := step_pos nickel_phys (e := 20) (by norm_num) (exp_pos (-d)) (by rw [exp_lt_one_iff]; linarith)
    linarith

example : ∃ u : ℕ → ℝ × ℝ × ℝ, (path nickel u 1).dir.z < 0 ∧ 0 ≤ escape nickel u 0 := by
  obtain ⟨u, hu, hl⟩ := nickel_leaves
  have := C120_escape nickel nickel_phys u hu 0 hl
  exact ⟨u, this.1, this.2.2.1⟩

example : (path nickel (fun _ => (1 / 2, 1 / 2, 1 / 2)) 1).energy < 20 := by
  refine C120_energy_partial nickel nickel_phys _ (fun _ => by norm_num) 0 (fun j hj => absurd hj (Nat.not_lt_zero j)) (by norm_num) ?_
  have h1 : (28 : ℝ) ^ (-0.19 : ℝ) ≤ 1 := rpow_le_one_of_one_le_of_nonpos (by norm_num) (by norm_num)
  have e : (path nickel (fun _ => (1 / 2, 1 / 2, 1 / 2)) 0).energy = 20 := rfl
  rw [e]
  simp only [nickel]
  nlinarith

example : (0.0001 : ℝ) < (kMove nickel ⟨⟨0, 0, 1⟩, 5, 0.0001⟩ (1 / 2) (1 / 2) (1 / 2)).2.energy := by
  refine C120_energy_fails nickel nickel_phys ⟨⟨0, 0, 1⟩, 5, 0.0001⟩ (1 / 2) (1 / 2) (1 / 2) (by norm_num) (by norm_num) (by norm_num) ?_
  have h1 : 0 ≤ (28 : ℝ) ^ (-0.19 : ℝ) := by positivity
  simp only [nickel]
  nlinarith

example : kValid nickel (3, 7, 250, 12) ∧ kValid nickel (3, 7, 250, 13) := by
  unfold kValid nickel; norm_num

/-- two work items and one of the three possible orders of their increments -/
example : Interleaving [[1, 2], [3]] [1, 3, 2] ∧ Interleaving [[1, 2], [3]] [3, 1, 2] ∧ kLaunch [1, 3, 1] 1 = 2#32 :=
  ⟨.step [] [[3]] 1 [2] _ (.step [[2]] [] 3 [] _ (.step [] [[]] 2 [] _ (.nil _ (by simp)))),
   .step [[1, 2]] [] 3 [] _ (.step [] [[]] 1 [2] _ (.step [] [[]] 2 [] _ (.nil _ (by simp)))), by decide⟩

example : nickel.omega = 0 ∧ ∃ u, Leaves nickel u 0 := ⟨rfl, nickel_leaves.imp fun _ h => h.2⟩

end Verif.Mck
