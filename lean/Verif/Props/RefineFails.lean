import Verif.Props.RefineBatch
/-! Property C85: where local grid refinement does not do what it should (ebsd/refining.py). -/
namespace Verif.Refine
open Verif Verif.Cubo Verif.Samp Verif.Spec Real

/-- The grid lies inside the cube of semi-edge `0.12` degrees. -/
def SmallGrid (l : List V) : Prop := ∀ c ∈ l, max (max |c.x| |c.y|) |c.z| ≤ semiEdge 0.12

theorem six_pi : (6 / π) ^ ((1 : ℝ) / 3) * π ^ ((2 : ℝ) / 3) < 3 := by
  have hpi := pi_pos
  have h1 : (6 / π) ^ ((1 : ℝ) / 3) * π ^ ((2 : ℝ) / 3) = (6 * π) ^ ((1 : ℝ) / 3) := by
    have e : π ^ ((2 : ℝ) / 3) = (π ^ 2) ^ ((1 : ℝ) / 3) := by
      rw [← rpow_natCast, ← rpow_mul hpi.le]; norm_num
    rw [e, ← mul_rpow (by positivity) (by positivity)]
    congr 1
    field_simp
  rw [h1]
  have h3 : (3 : ℝ) = (27 : ℝ) ^ ((1 : ℝ) / 3) := by
    rw [show (27 : ℝ) = 3 ^ (3 : ℝ) by norm_num, ← rpow_mul (by norm_num)]; norm_num
  refine lt_of_lt_of_eq (rpow_lt_rpow (y := 27) (by positivity) ?_ (by norm_num)) h3.symm
  have := pi_lt_d2
  linarith

theorem small_identity (A : Argsort) (single : Bool) {c : V} (h : max (max |c.x| |c.y|) |c.z| ≤ semiEdge 0.12) :
    cu2qu A single c = ⟨1, 0, 0, 0⟩ := by
  apply ho2qu_small
  rw [sq_norm, abs_of_nonneg (by positivity)]
  have hn : (cu2ho A c).norm < 1e-3 := by
    rw [C84_radius]
    have hK : 0 ≤ (6 / π) ^ ((1 : ℝ) / 3) := by positivity
    calc _ ≤ (6 / π) ^ ((1 : ℝ) / 3) * semiEdge 0.12 := mul_le_mul_of_nonneg_left h hK
      _ = ((6 / π) ^ ((1 : ℝ) / 3) * π ^ ((2 : ℝ) / 3)) * (0.12 / 360) := by unfold semiEdge; ring
      _ < 3 * (0.12 / 360) := by
        apply mul_lt_mul_of_pos_right six_pi; norm_num
      _ = 1e-3 := by norm_num
  have h0 : 0 ≤ (cu2ho A c).norm := by unfold V.norm; positivity
  calc _ < (1e-3 : ℝ) ^ 2 := pow_lt_pow_left₀ hn h0 (by norm_num)
    _ = 1e-6 := by norm_num

theorem small_shrink {l : List V} (h : SmallGrid l) {shrink : ℝ} (hs : |shrink| ≤ 1) :
    SmallGrid (l.map (V.smul shrink)) := by
  intro c hc
  obtain ⟨c', hc', rfl⟩ := List.mem_map.mp hc
  have := h c' hc'
  simp only [V.smul, abs_mul]
  have key : ∀ x : ℝ, |shrink| * |x| ≤ |x| := fun x => mul_le_of_le_one_left (abs_nonneg x) hs
  exact (max_le_max (max_le_max (key _) (key _)) (key _)).trans this

theorem linspace_abs {a : ℝ} (ha : 0 ≤ a) {n : ℕ} {x : ℝ} (h : x ∈ linspace (-a) a n) : |x| ≤ a := by
  unfold linspace at h
  split at h
  · simp at h
    rw [h, abs_neg, abs_of_nonneg ha]
  · rename_i hn
    obtain ⟨k, hk, rfl⟩ := List.mem_map.mp h
    have hk := List.mem_range.mp hk
    have hn1 : (1 : ℝ) ≤ (n : ℝ) - 1 := by
      have : (2 : ℝ) ≤ n := by exact_mod_cast (show 2 ≤ n by omega)
      linarith
    have hk1 : (k : ℝ) ≤ (n : ℝ) - 1 := by
      have : ((k + 1 : ℕ) : ℝ) ≤ n := by exact_mod_cast hk
      push_cast at this
      linarith
    have hk0 : (0 : ℝ) ≤ k := Nat.cast_nonneg k
    have h1 : (k : ℝ) / ((n : ℝ) - 1) ≤ 1 := (div_le_one (by linarith)).mpr hk1
    have h0 : 0 ≤ (k : ℝ) / ((n : ℝ) - 1) := div_nonneg hk0 (by linarith)
    have e : -a + (k : ℝ) * ((a - -a) / ((n : ℝ) - 1)) = -a + 2 * a * ((k : ℝ) / ((n : ℝ) - 1)) := by ring
    rw [e, abs_le]
    have h2 : 2 * a * ((k : ℝ) / ((n : ℝ) - 1)) ≤ 2 * a * 1 := mul_le_mul_of_nonneg_left h1 (by linarith)
    have h3 : 0 ≤ 2 * a * ((k : ℝ) / ((n : ℝ) - 1)) := mul_nonneg (by linarith) h0
    constructor <;> linarith

theorem small_grid {deg : ℝ} (h0 : 0 ≤ deg) (h : deg ≤ 0.12) {r : ℕ} {dim : ℤ} {grid : List V}
    (hg : localGrid deg r dim = some grid) : SmallGrid grid := by
  have hs : ∀ v ∈ mesh3 (linspace (-semiEdge deg) (semiEdge deg) (2 * r + 1)),
      max (max |v.x| |v.y|) |v.z| ≤ semiEdge 0.12 := by
    intro v hv
    have hp : 0 ≤ π ^ ((2 : ℝ) / 3) := by positivity
    have he : 0 ≤ semiEdge deg := by unfold semiEdge; positivity
    have hle : semiEdge deg ≤ semiEdge 0.12 := by
      unfold semiEdge
      exact div_le_div_of_nonneg_right (mul_le_mul_of_nonneg_right h hp) (by norm_num)
    obtain ⟨hx, hy, hz⟩ := (mem_mesh3 _ v).mp hv
    exact max_le (max_le ((linspace_abs he hx).trans hle) ((linspace_abs he hy).trans hle)) ((linspace_abs he hz).trans hle)
  unfold localGrid at hg
  simp only at hg
  split at hg
  · obtain rfl := Option.some.inj hg; exact hs
  · split at hg
    · obtain rfl := Option.some.inj hg
      exact fun v hv => hs v (List.mem_of_mem_filter hv)
    · split at hg
      · obtain rfl := Option.some.inj hg
        exact fun v hv => hs v (List.mem_of_mem_filter hv)
      · exact absurd hg (by simp)

/-- On a small grid all candidates coincide. -/
theorem small_iters (A : Argsort) (single : Bool) (n : ℕ) (h1 : 1 ≤ n) (h2 : n ≤ 11) (shrink : ℝ) (hs : |shrink| ≤ 1)
    (score : Q → ℝ) : ∀ (k : ℕ) (s s' : Cur) (q : Q), s.grid ≠ [] → SmallGrid s.grid →
    oriToFz (quStd s.qu) n = some q → iters A single n shrink score k s = some s' →
    s'.dots = s.dots ++ List.replicate k (score q) ∧ (0 < k → s'.qu = q) := by
  intro k
  induction k with
  | zero => intro s s' q _ _ _ h; obtain rfl := Option.some.inj h; simp
  | succ k ih =>
    intro s s' q hne hsm hq h
    obtain ⟨s1, e1, ⟨c, hc, hcq⟩, hd, _⟩ := C85_step A single n h1 h2 shrink score s hne
    rw [small_identity A single (hsm c hc), quProd_one_left, hq] at hcq
    have hq1 := Option.some.inj hcq
    rw [iters, e1, Option.bind_some] at h
    obtain ⟨hz, hw, _, _⟩ := fz_inZone h1 h2 hq
    have hq' : oriToFz (quStd s1.qu) n = some q := by
      rw [← hq1, quStd, if_pos hw]
      exact fz_fix h1 h2 hz hw
    have hg1 : s1.grid ≠ [] ∧ SmallGrid s1.grid := by
      rcases iter_grid e1 with hh | hh
      · rw [hh]; exact ⟨hne, hsm⟩
      · rw [hh]; exact ⟨by simpa using hne, small_shrink hsm hs⟩
    obtain ⟨i1, i2⟩ := ih s1 s' q hg1.1 hg1.2 hq' h
    refine ⟨?_, fun _ => ?_⟩
    · rw [i1, hd, ← hq1, List.append_assoc, List.replicate_succ]; rfl
    · rcases Nat.eq_zero_or_pos k with rfl | hk
      · obtain rfl := Option.some.inj h
        exact hq1.symm
      · exact i2 hk

/-- C85 fails for fine grids: with a semi-edge of at most 0.12 degrees (and a shrink factor of magnitude at most one) no
master pattern, no experimental pattern and no number of iterations moves an orientation of the fundamental zone: every
candidate is the current orientation itself (the small-norm cut of the homochoric conversion). -/
theorem C85_floor_fails {d : ℕ} (mp : V → ℝ) (dirs : Fin d → V) (e : Fin d → ℝ) (A : Argsort) (single : Bool) (n : ℕ)
    (h1 : 1 ≤ n) (h2 : n ≤ 11) (shrink : ℝ) (hs : |shrink| ≤ 1) (deg : ℝ) (hd0 : 0 ≤ deg) (hd : deg ≤ 0.12) (r : ℕ)
    (hr : 1 ≤ r) (dim : ℤ) (grid : List V) (hg : localGrid deg r dim = some grid) (q : Q)
    (hq : oriInFz q n = some true) (hw : 0 ≤ q.w) (k : ℕ) :
    ∃ s', iters A single n shrink (gridScore mp dirs e) k ⟨grid, q, []⟩ = some s' ∧ s'.qu = q := by
  have hne := List.ne_nil_of_mem (origin_mem hr hg)
  obtain ⟨s', hs'⟩ := iters_total A single n h1 h2 shrink (gridScore mp dirs e) k ⟨grid, q, []⟩ hne
  refine ⟨s', hs', ?_⟩
  obtain ⟨b, hb, hbi⟩ := C09_closed_form q hw n h1 h2
  rw [hb] at hq
  obtain rfl := Option.some.inj hq
  obtain ⟨_, hqk⟩ := small_iters A single n h1 h2 shrink hs _ k _ s' q hne (small_grid hd0 hd hg)
    (by rw [quStd, if_pos hw]; exact fz_fix h1 h2 (hbi.mp rfl) hw) hs'
  rcases Nat.eq_zero_or_pos k with rfl | hk
  · obtain rfl := Option.some.inj hs'; rfl
  · exact hqk hk

example : ∃ grid, localGrid 0.1 1 1 = some grid := ⟨_, rfl⟩

/-- the start, its reduction, the directions and the master pattern of `C85_outside_fails` -/
noncomputable def wq : Q := ⟨1/5, 2/5, 2/5, 4/5⟩
noncomputable def wr : Q := ⟨4/5, -(2/5), 2/5, -(1/5)⟩
noncomputable def wdirs : Fin 2 → V := ![⟨0, 3/5, 4/5⟩, ⟨0, 0, 1⟩]
def wmp : V → ℝ := fun v => v.x * v.y

theorem wq_reduce : oriToFz (quStd wq) 2 = some wr := by
  have hstd : quStd wq = wq := by rw [quStd, if_pos (by norm_num [wq])]
  have e0 : laueElements 2 = some laueC2 := rfl
  have e1 : getLaueMult 2 = some 4 := rfl
  rw [hstd]
  unfold oriToFz
  rw [e0, e1]
  have h0 : quProdPosReal wq ⟨1, 0, 0, 0⟩ = 1/5 := by norm_num [quProdPosReal, wq]
  have h1 : quProdPosReal wq ⟨0, 0, 0, 1⟩ = 4/5 := by norm_num [quProdPosReal, wq]
  have e2 : laueC2.map (quProdPosReal wq) = [1/5, 4/5] := by
    simp only [laueC2, List.map_cons, List.map_nil, h0, h1]
  have : argmaxFirst ([1/5, 4/5] : List ℝ) = 1 := by
    rw [argmaxFirst_iff (by simp)]
    constructor
    · intro y hy
      simp only [List.mem_cons, List.not_mem_nil, or_false] at hy
      rcases hy with rfl | rfl <;> norm_num
    · intro j hj
      obtain rfl : j = 0 := by omega
      norm_num
  simp only [Option.bind_eq_bind, Option.bind_some, e2, this]
  norm_num [laueC2, quProd, quProdRaw, quStd, Q.neg, wq, wr]

theorem w_scores : gridScore wmp wdirs (simPattern wmp wdirs wq) wr < gridScore wmp wdirs (simPattern wmp wdirs wq) wq := by
  simp only [gridScore, zeroMean, simPattern, Fin.sum_univ_two, quApply, wdirs, wmp, wq, wr, Matrix.cons_val_zero,
    Matrix.cons_val_one]
  norm_num

theorem outside_core (A : Argsort) (single : Bool) (n : ℕ) (h1 : 1 ≤ n) (h2 : n ≤ 11) (sc : Q → ℝ) (q r : Q)
    (hred : oriToFz (quStd q) n = some r) (hlt : sc r < sc q) (k : ℕ) (deg : ℝ) (h0 : 0 ≤ deg) (h : deg ≤ 0.12) (grid : List V)
    (m : ℕ) (hm : 1 ≤ m) (dim : ℤ) (hg : localGrid deg m dim = some grid) (shrink : ℝ) (hs : |shrink| ≤ 1) :
    ∃ s', iters A single n shrink sc k ⟨grid, q, []⟩ = some s' ∧ s'.dots.length = k ∧ ∀ x ∈ s'.dots, x < sc q := by
  have hne := List.ne_nil_of_mem (origin_mem hm hg)
  obtain ⟨s', hs'⟩ := iters_total A single n h1 h2 shrink sc k ⟨grid, q, []⟩ hne
  obtain ⟨hdots, _⟩ := small_iters A single n h1 h2 shrink hs sc k ⟨grid, q, []⟩ s' r hne
    (small_grid h0 h hg) hred hs'
  refine ⟨s', hs', by rw [hdots]; simp, ?_⟩
  intro x hx
  rw [hdots, List.nil_append] at hx
  rw [List.eq_of_mem_replicate hx]
  exact hlt

/-- C85 fails for starting orientations outside the zone: the reduction to the zone multiplies by a crystal rotation on
the right, which changes the simulated pattern although the master pattern has the symmetry (here monoclinic, and the
two-fold axis is z).  The experimental pattern is the exact simulation of the start; every recorded score is lower than
the score of the start. -/
theorem C85_outside_fails : ∃ (mp : V → ℝ) (dirs : Fin 2 → V) (q : Q), (∀ v : V, mp ⟨-v.x, -v.y, v.z⟩ = mp v) ∧
    IsUnit4 q ∧ (∀ i, (dirs i).x ^ 2 + (dirs i).y ^ 2 + (dirs i).z ^ 2 = 1) ∧
    ∀ (A : Argsort) (single : Bool) (k : ℕ) (grid : List V), localGrid 0.1 1 1 = some grid →
      ∃ s', iters A single 2 (1/2) (gridScore mp dirs (simPattern mp dirs q)) k ⟨grid, q, []⟩ = some s' ∧
        s'.dots.length = k ∧ ∀ x ∈ s'.dots, x < gridScore mp dirs (simPattern mp dirs q) q := by
  refine ⟨wmp, wdirs, wq, fun v => by simp [wmp], by norm_num [IsUnit4, wq],
    fun i => by fin_cases i <;> norm_num [wdirs], ?_⟩
  intro A single k grid hg
  exact outside_core A single 2 (by norm_num) (by norm_num) _ wq wr wq_reduce w_scores k 0.1 (by norm_num) (by norm_num) grid 1
    (le_refl 1) 1 hg _ (by rw [abs_of_pos] <;> norm_num)

end Verif.Refine
