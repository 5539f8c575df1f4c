import Verif.Props.CuRand
/-! C170: the grid of `so3_cubochoric_grid` is spread uniformly over the orientations in the limit of fine grids. -/
namespace Verif.Cubo
open Verif Verif.Samp Verif.Spec Real MeasureTheory Filter Topology

/-! ### Nodes near every point -/

/-- Share of a node: the half-open box above it. -/
def above (N : ℕ) (v : V) : Set (Fin 3 → ℝ) := {u | ∀ i, comp v i ≤ u i ∧ u i < comp v i + edge / N}

theorem above_volume (N : ℕ) (hN : 0 < N) (v : V) : volume (above N v) = ENNReal.ofReal (π ^ 2 / N ^ 3) := by
  have e : above N v = Set.univ.pi fun i => Set.Ico (comp v i) (comp v i + edge / N) := by ext u; simp [above]
  have h0 : 0 ≤ edge / N := by have := edge_pos; positivity
  rw [e, volume_pi_pi]
  simp only [Real.volume_Ico, add_sub_cancel_left, Fin.prod_univ_three]
  rw [← ENNReal.ofReal_mul h0, ← ENNReal.ofReal_mul (by positivity), ← edge_cube]
  congr 1
  field_simp

theorem list_cover (N : ℕ) (hN : 0 < N) (l : List V) :
    volume {u | ∃ v ∈ l, u ∈ above N v} ≤ l.length * ENNReal.ofReal (π ^ 2 / N ^ 3) := by
  induction l with
  | nil => simp
  | cons a l ih =>
    have : {u | ∃ v ∈ a :: l, u ∈ above N v} = above N a ∪ {u | ∃ v ∈ l, u ∈ above N v} := by
      ext u; simp
    rw [this, List.length_cons, Nat.cast_succ, add_mul, one_mul, add_comm]
    refine (measure_union_le _ _).trans ?_
    rw [above_volume N hN]
    exact add_le_add le_rfl ih

/-- The node below a point. -/
noncomputable def below (N : ℕ) (u : Fin 3 → ℝ) : Fin 3 → ℝ := fun i => (-(1 / 2) + (⌊(u i / edge + 1 / 2) * N⌋₊ : ℝ) / N) * edge

theorem below_near (N : ℕ) (hN : 0 < N) (u : Fin 3 → ℝ) (hu : ∀ i, |u i| < 0.5 * edge) (i : Fin 3) :
    below N u i ≤ u i ∧ u i < below N u i + edge / N ∧ ⌊(u i / edge + 1 / 2) * N⌋₊ < N := by
  have hE := edge_pos
  have hN' : (0 : ℝ) < N := by exact_mod_cast hN
  obtain ⟨h1, h2⟩ := abs_lt.mp (hu i)
  have ha : -(1 / 2) < u i / edge := by rw [lt_div_iff₀ hE]; norm_num at h1 ⊢; linarith
  have hb : u i / edge < 1 / 2 := by rw [div_lt_iff₀ hE]; norm_num at h2 ⊢; linarith
  have h0 : 0 ≤ (u i / edge + 1 / 2) * N := mul_nonneg (by linarith) hN'.le
  have f1 := Nat.floor_le h0
  have f2 := Nat.lt_floor_add_one ((u i / edge + 1 / 2) * N)
  have e : u i = u i / edge * edge := by field_simp
  refine ⟨?_, ?_, ?_⟩
  · unfold below
    generalize (⌊(u i / edge + 1 / 2) * N⌋₊ : ℝ) = m at *
    have : m / N ≤ u i / edge + 1 / 2 := by rw [div_le_iff₀ hN']; exact f1
    rw [e]
    have e2 : u i / edge * edge / edge = u i / edge := by field_simp
    gcongr
    linarith
  · unfold below
    generalize (⌊(u i / edge + 1 / 2) * N⌋₊ : ℝ) = m at *
    have : u i / edge + 1 / 2 < (m + 1) / N := by rw [lt_div_iff₀ hN']; exact f2
    have h3 : u i / edge * edge < (-(1 / 2) + (m + 1) / N) * edge := by gcongr; linarith
    rw [← e] at h3
    refine h3.trans_eq ?_
    ring
  · rw [Nat.floor_lt h0]
    nlinarith

/-- Open sets contain at least their share of the nodes. -/
theorem grid_open3 (U : Set (Fin 3 → ℝ)) (hU : IsOpen U) (hb : ∀ u ∈ U, ∀ i, |u i| < 0.5 * edge) {δ : ENNReal} (hδ : δ ≠ 0) :
    ∀ᶠ N : ℕ in atTop, volume U ≤ (open Classical in ((cubochoricPoints N).filter fun v => comp v ∈ U).length) * ENNReal.ofReal (π ^ 2 / N ^ 3) + δ := by
  classical
  have hE := edge_pos
  let G : ℕ → Set (Fin 3 → ℝ) := fun N => {u | ∃ v ∈ (cubochoricPoints N).filter fun v => comp v ∈ U, u ∈ above N v}
  have hsub : U ⊆ ⋃ n, ⋂ m ≥ n, G m := by
    intro u hu
    have hlim : Tendsto (fun N => below N u) atTop (𝓝 u) := by
      rw [tendsto_pi_nhds]
      intro i
      have hz : Tendsto (fun N : ℕ => edge / (N : ℝ)) atTop (𝓝 0) := tendsto_const_div_atTop_nhds_zero_nat edge
      rw [tendsto_iff_norm_sub_tendsto_zero]
      refine squeeze_zero' (Eventually.of_forall fun N => norm_nonneg _) ?_ hz
      filter_upwards [eventually_gt_atTop 0] with N hN
      obtain ⟨a, b, -⟩ := below_near N hN u (hb u hu) i
      rw [norm_eq_abs, abs_le]
      constructor <;> linarith
    have hev := hlim.eventually (hU.mem_nhds hu)
    obtain ⟨n, hn⟩ := eventually_atTop.mp (hev.and (eventually_gt_atTop 0))
    refine Set.mem_iUnion.mpr ⟨n, Set.mem_iInter₂.mpr fun m hm => ?_⟩
    obtain ⟨h1, h2⟩ := hn m hm
    have hnear := below_near m h2 u (hb u hu)
    refine ⟨ofComp (below m u), ?_, fun i => ?_⟩
    · rw [List.mem_filter]
      refine ⟨?_, by rw [decide_eq_true_eq, comp_ofComp]; exact h1⟩
      rw [(Samp.C62_cubochoric_points m).2.2.1]
      exact ⟨_, _, _, (hnear 0).2.2, (hnear 1).2.2, (hnear 2).2.2, rfl⟩
    · rw [comp_ofComp]
      exact ⟨(hnear i).1, (hnear i).2.1⟩
  have hmono : Monotone fun n => ⋂ m ≥ n, G m := by
    intro a b hab u hu
    simp only [Set.mem_iInter] at hu ⊢
    exact fun m hm => hu m (hab.trans hm)
  have hfin : volume U ≠ ⊤ := by
    have hbx : U ⊆ Set.univ.pi fun _ : Fin 3 => Set.Icc (-(0.5 * edge)) (0.5 * edge) := fun u hu i _ => abs_le.mp (hb u hu i).le
    refine ne_top_of_le_ne_top ?_ (measure_mono hbx)
    rw [volume_pi_pi]
    simp only [Real.volume_Icc]
    exact ENNReal.prod_ne_top fun _ _ => ENNReal.ofReal_ne_top
  have hle := measure_mono (μ := volume) hsub
  rw [hmono.measure_iUnion] at hle
  have hex : ∃ n, volume U ≤ volume (⋂ m ≥ n, G m) + δ := by
    by_cases h0 : volume U = 0
    · exact ⟨0, by rw [h0]; exact bot_le⟩
    have hlt : volume U - δ < volume U := ENNReal.sub_lt_self hfin h0 hδ
    obtain ⟨n, hn⟩ := lt_iSup_iff.mp (hlt.trans_le hle)
    exact ⟨n, tsub_le_iff_right.mp hn.le⟩
  obtain ⟨n, hn⟩ := hex
  filter_upwards [eventually_ge_atTop n, eventually_gt_atTop 0] with N h1 h2
  refine hn.trans (add_le_add ?_ le_rfl)
  refine le_trans (measure_mono ?_) (list_cover N h2 _)
  intro u hu
  simp only [Set.mem_iInter] at hu
  exact hu N h1

/-! ### The conversion is continuous off a null set -/

/-- A quaternion from four numbers. -/
def quat4 (y : Fin 4 → ℝ) : Q := ⟨y 0, y 1, y 2, y 3⟩

theorem quat4_comp (q : Q) : quat4 (comp4 q) = q := rfl

theorem sect_open (g : Equiv.Perm (Fin 3) × (Fin 3 → Bool)) : IsOpen (sect g) := by
  have hf : Continuous (fold g) := continuous_pi fun j => (continuous_apply (g.1 j)).const_mul _
  have hc : IsOpen cone := by
    unfold cone
    exact (isOpen_lt continuous_const (continuous_apply 0)).inter
      ((isOpen_lt (continuous_apply 0) (continuous_apply 1)).inter (isOpen_lt (continuous_apply 1) (continuous_apply 2)))
  exact hc.preimage hf

theorem cu2ho_continuous (A : Argsort) {g : Equiv.Perm (Fin 3) × (Fin 3 → Bool)} {u : Fin 3 → ℝ} (hu : u ∈ sect g) :
    ContinuousAt (onArray (cu2ho A)) u := by
  have e : onArray (cu2ho A) =ᶠ[𝓝 u] fun v => unfold' g (stage2 L K (stage1 (fold g v))) := by
    filter_upwards [(sect_open g).mem_nhds hu] with v hv
    rw [← (sorted_eq _ hv).1, ← fold_map A hv, unfold_fold]
  refine ContinuousAt.congr ?_ e.symm
  have hf : Continuous (fold g) := continuous_pi fun j => (continuous_apply (g.1 j)).const_mul _
  have hun : Continuous (unfold' g) := continuous_pi fun j => (continuous_apply (g.1.symm j)).const_mul _
  obtain ⟨M, hM, -⟩ := stage1_deriv _ hu
  have c1 : ContinuousAt stage1 (fold g u) := continuousAt_pi.mpr fun i => (hM i).continuousAt
  have hc : fold g u ∈ cone := hu
  obtain ⟨N, hN, -⟩ := stage2_deriv L K (stage1 (fold g u)) (hc.1.trans (hc.2.1.trans hc.2.2)) (sorted_eq _ hc).2
  have c2 : ContinuousAt (stage2 L K) (stage1 (fold g u)) := continuousAt_pi.mpr fun i => (hN i).continuousAt
  exact hun.continuousAt.comp (ContinuousAt.comp (f := fold g) (x := u) (ContinuousAt.comp c2 c1) hf.continuousAt)

theorem poly_continuous (single : Bool) : Continuous (ho2axPoly single) := by
  unfold ho2axPoly ho2axFit
  cases single
  · simp only [Bool.false_eq_true, if_false, List.zipIdx_cons, List.zipIdx_nil, List.map_cons, List.map_nil, List.sum_cons, List.sum_nil]
    fun_prop
  · simp only [if_true, List.zipIdx_cons, List.zipIdx_nil, List.map_cons, List.map_nil, List.sum_cons, List.sum_nil]
    fun_prop

theorem ho2qu_continuous (single : Bool) {h : Fin 3 → ℝ} (hh : h 0 ^ 2 + h 1 ^ 2 + h 2 ^ 2 ≠ 1e-6) :
    ContinuousAt (fun h => comp4 (ho2qu single (ofComp h))) h := by
  have hn : Continuous fun h : Fin 3 → ℝ => h 0 ^ 2 + h 1 ^ 2 + h 2 ^ 2 := by fun_prop
  have hnn : ∀ h : Fin 3 → ℝ, |h 0 ^ 2 + h 1 ^ 2 + h 2 ^ 2| = h 0 ^ 2 + h 1 ^ 2 + h 2 ^ 2 := fun h => abs_of_nonneg (by positivity)
  rcases lt_or_gt_of_ne hh with h1 | h1
  · have e : (fun h => comp4 (ho2qu single (ofComp h))) =ᶠ[𝓝 h] fun _ => comp4 (ax2qu ⟨⟨0, 0, 1⟩, 0⟩) := by
      filter_upwards [(isOpen_lt hn continuous_const).mem_nhds h1] with v hv
      have hv' : v 0 ^ 2 + v 1 ^ 2 + v 2 ^ 2 < 1e-6 := hv
      unfold ho2qu ho2ax ofComp
      dsimp only
      rw [hnn, if_pos hv']
    exact continuousAt_const.congr e.symm
  · let s : (Fin 3 → ℝ) → ℝ := fun v => 2 * arccos (clamp1 (ho2axPoly single (v 0 ^ 2 + v 1 ^ 2 + v 2 ^ 2))) / 2
    let k : (Fin 3 → ℝ) → ℝ := fun v => 1 / √(v 0 ^ 2 + v 1 ^ 2 + v 2 ^ 2)
    have e : (fun h => comp4 (ho2qu single (ofComp h))) =ᶠ[𝓝 h] fun v => ![cos (s v), k v * v 0 * sin (s v), k v * v 1 * sin (s v), k v * v 2 * sin (s v)] := by
      filter_upwards [(isOpen_lt continuous_const hn).mem_nhds h1] with v hv
      have hv' : 1e-6 < v 0 ^ 2 + v 1 ^ 2 + v 2 ^ 2 := hv
      unfold ho2qu ho2ax ofComp
      dsimp only
      rw [hnn, if_neg (not_lt.mpr hv'.le)]
      simp only [Bool.true_eq_false, and_false, if_false]
      rfl
    refine ContinuousAt.congr ?_ e.symm
    have cs : Continuous s := by
      have c1 : Continuous clamp1 := by unfold clamp1; fun_prop
      exact ((continuous_arccos.comp (c1.comp ((poly_continuous single).comp hn))).const_mul 2).div_const 2
    have hpos : √(h 0 ^ 2 + h 1 ^ 2 + h 2 ^ 2) ≠ 0 := (sqrt_pos.mpr (by linarith)).ne'
    have ck : ContinuousAt k h := (continuousAt_const.div (continuous_sqrt.comp hn).continuousAt hpos)
    have cc : ContinuousAt (fun v => cos (s v)) h := (continuous_cos.comp cs).continuousAt
    have csn : ContinuousAt (fun v => sin (s v)) h := (continuous_sin.comp cs).continuousAt
    rw [continuousAt_pi]
    intro i
    fin_cases i
    · exact cc
    · exact (ck.mul (continuous_apply 0).continuousAt).mul csn
    · exact (ck.mul (continuous_apply 1).continuousAt).mul csn
    · exact (ck.mul (continuous_apply 2).continuousAt).mul csn

/-- Points of the open cube off the planes of symmetry and off the surface where `ho2ax` switches. -/
def Good : Set (Fin 3 → ℝ) := {u | (∀ i, |u i| < 0.5 * edge) ∧ (u ∈ ⋃ g, sect g) ∧ ∀ i, |u i| ≠ 1e-3 / K}

theorem good_open : IsOpen Good := by
  have h1 : IsOpen {u : Fin 3 → ℝ | ∀ i, |u i| < 0.5 * edge} := by
    simp only [Set.ofPred_forall]
    exact isOpen_iInter_of_finite fun i => isOpen_lt (continuous_abs.comp (continuous_apply i)) continuous_const
  have h2 : IsOpen {u : Fin 3 → ℝ | ∀ i, |u i| ≠ 1e-3 / K} := by
    simp only [Set.ofPred_forall]
    exact isOpen_iInter_of_finite fun i => isOpen_ne_fun (continuous_abs.comp (continuous_apply i)) continuous_const
  exact h1.inter ((isOpen_iUnion sect_open).inter h2)

theorem coord_level (i : Fin 3) (c : ℝ) : volume {u : Fin 3 → ℝ | u i = c} = 0 := by
  have h1 : {u : Fin 3 → ℝ | u i = c} = (fun u => u + fun _ => -c) ⁻¹' {x : Fin 3 → ℝ | x i = 0} := by
    ext u
    simp only [Set.mem_ofPred_eq, Set.mem_preimage, Pi.add_apply]
    constructor <;> intro h <;> linarith
  rw [h1, measure_preimage_add_right, coord_null]

theorem good_full : volume ({u : Fin 3 → ℝ | ∀ i, -(0.5 * edge) ≤ u i ∧ u i < 0.5 * edge} \ Good) = 0 := by
  have hz : volume ((⋃ i : Fin 3, {u : Fin 3 → ℝ | u i = -(0.5 * edge)}) ∪ ((⋃ g, sect g)ᶜ ∪
      ((⋃ i : Fin 3, {u : Fin 3 → ℝ | u i = 1e-3 / K}) ∪ ⋃ i : Fin 3, {u : Fin 3 → ℝ | u i = -(1e-3 / K)}))) = 0 :=
    measure_union_null (measure_iUnion_null fun i => coord_level i _)
      (measure_union_null sect_cover (measure_union_null (measure_iUnion_null fun i => coord_level i _) (measure_iUnion_null fun i => coord_level i _)))
  refine measure_mono_null ?_ hz
  rintro u ⟨hu, hg⟩
  by_contra hc
  simp only [Set.mem_union, not_or, Set.mem_compl_iff, not_not] at hc
  obtain ⟨c1, c2, c3, c4⟩ := hc
  have ne : ∀ c, u ∉ (⋃ i : Fin 3, {u : Fin 3 → ℝ | u i = c}) → ∀ i, u i ≠ c := fun c h i hi => h (Set.mem_iUnion.mpr ⟨i, hi⟩)
  apply hg
  refine ⟨fun i => abs_lt.mpr ⟨lt_of_le_of_ne (hu i).1 (Ne.symm (ne _ c1 i)), (hu i).2⟩, c2, fun i h => ?_⟩
  have hp : 0 ≤ 1e-3 / K := by have := K_pos; positivity
  rcases (abs_eq hp).mp h with h | h
  · exact ne _ c3 i h
  · exact ne _ c4 i h

theorem good_continuous (A : Argsort) (single : Bool) {u : Fin 3 → ℝ} (hu : u ∈ Good) :
    ContinuousAt (fun u => comp4 (cu2qu A single (ofComp u))) u := by
  obtain ⟨-, h2, h3⟩ := hu
  obtain ⟨g, hg⟩ := Set.mem_iUnion.mp h2
  have c1 := cu2ho_continuous A hg
  have hr := C84_radius A (ofComp u)
  change _ = K * max (max |u 0| |u 1|) |u 2| at hr
  set h := onArray (cu2ho A) u with hh
  have hc : cu2ho A (ofComp u) = ofComp h := by rw [hh]; unfold onArray; rw [ofComp_comp]
  rw [hc, norm_len] at hr
  have hK := K_pos
  have hsq : h 0 ^ 2 + h 1 ^ 2 + h 2 ^ 2 = len3 h ^ 2 := by unfold len3; rw [sq_sqrt (by positivity)]
  have hne : h 0 ^ 2 + h 1 ^ 2 + h 2 ^ 2 ≠ 1e-6 := by
    rw [hsq]
    intro e
    have h0 : 0 ≤ len3 h := sqrt_nonneg _
    have e1 : len3 h = 1e-3 := (pow_left_inj₀ h0 (by norm_num) (by norm_num : (2 : ℕ) ≠ 0)).mp (by rw [e]; norm_num)
    rw [e1] at hr
    have hm : max (max |u 0| |u 1|) |u 2| = 1e-3 / K := by field_simp; linarith
    rcases max_choice (max |u 0| |u 1|) |u 2| with k | k
    · rcases max_choice |u 0| |u 1| with k' | k'
      · exact h3 0 (by rw [← hm, k, k'])
      · exact h3 1 (by rw [← hm, k, k'])
    · exact h3 2 (by rw [← hm, k])
  have c2 := ho2qu_continuous single hne
  have e : (fun u => comp4 (cu2qu A single (ofComp u))) = (fun h => comp4 (ho2qu single (ofComp h))) ∘ onArray (cu2ho A) := by
    funext v
    simp only [Function.comp, cu2qu, onArray, ofComp_comp]
  rw [e]
  exact ContinuousAt.comp c2 c1

/-! ### The grid -/

/-- Number of members of the grid in a set. -/
noncomputable def gridCount (A : Argsort) (single : Bool) (N : ℕ) (S : Set Q) : ℕ :=
  open Classical in ((so3CubochoricGrid A single N).filter fun q => q ∈ S).length

theorem quStd_mem {S : Set Q} (hS : ∀ q, q ∈ S ↔ q.neg ∈ S) (q : Q) : quStd q ∈ S ↔ q ∈ S := by
  unfold quStd
  split
  · rfl
  · exact (hS q).symm

theorem out_mem {S : Set Q} (hS : ∀ q, q ∈ S ↔ q.neg ∈ S) (A : Argsort) (single : Bool) (u : Fin 3 → ℝ) :
    outOf A single u ∈ S ↔ cu2qu A single (ofComp u) ∈ S := by
  rcases outOf_pm A single u with e | e
  · rw [e]
  · rw [e, ← hS]

theorem draws_volume (A : Argsort) (single : Bool) (S : Set Q) :
    ENNReal.ofReal (π ^ 2) * volume (drawsInto A single S) =
      volume {u : Fin 3 → ℝ | (∀ i, -(0.5 * edge) ≤ u i ∧ u i < 0.5 * edge) ∧ outOf A single u ∈ S} := by
  have hE := edge_pos
  rw [← scale_volume {u : Fin 3 → ℝ | (∀ i, -(0.5 * edge) ≤ u i ∧ u i < 0.5 * edge) ∧ outOf A single u ∈ S}, draws_eq]
  congr 2
  ext d
  have : ∀ i, (0 ≤ d i ∧ d i < 1) ↔ (-(0.5 * edge) ≤ edge * d i - 0.5 * edge ∧ edge * d i - 0.5 * edge < 0.5 * edge) := by
    intro i
    constructor
    · rintro ⟨a, b⟩
      constructor <;> nlinarith
    · rintro ⟨a, b⟩
      constructor
      · by_contra hc
        nlinarith
      · by_contra hc
        nlinarith
  simp only [Set.mem_ofPred_eq, this]

/-- **C170**, open sets of orientations get at least their share of a fine grid: the probability of C169. -/
theorem C170_open (A : Argsort) (single : Bool) (S : Set Q) (hS : ∀ q, q ∈ S ↔ q.neg ∈ S) (hopen : IsOpen {y | quat4 y ∈ S})
    {δ : ENNReal} (hδ : δ ≠ 0) :
    ∀ᶠ N : ℕ in atTop, ENNReal.ofReal (π ^ 2) * volume (drawsInto A single S) ≤ gridCount A single N S * ENNReal.ofReal (π ^ 2 / N ^ 3) + δ := by
  classical
  let U : Set (Fin 3 → ℝ) := {u | u ∈ Good ∧ quat4 (comp4 (cu2qu A single (ofComp u))) ∈ S}
  have hU : IsOpen U := by
    rw [isOpen_iff_mem_nhds]
    rintro u ⟨h1, h2⟩
    have := (good_continuous A single h1).preimage_mem_nhds (hopen.mem_nhds h2)
    filter_upwards [good_open.mem_nhds h1, this] with v a b
    exact ⟨a, b⟩
  filter_upwards [grid_open3 U hU (fun u hu => hu.1.1) hδ] with N hN
  rw [draws_volume]
  have hvol : volume {u : Fin 3 → ℝ | (∀ i, -(0.5 * edge) ≤ u i ∧ u i < 0.5 * edge) ∧ outOf A single u ∈ S} ≤ volume U := by
    have hsub : {u : Fin 3 → ℝ | (∀ i, -(0.5 * edge) ≤ u i ∧ u i < 0.5 * edge) ∧ outOf A single u ∈ S} ⊆
        ({u : Fin 3 → ℝ | ∀ i, -(0.5 * edge) ≤ u i ∧ u i < 0.5 * edge} \ Good) ∪ U := by
      rintro u ⟨h1, h2⟩
      by_cases h : u ∈ Good
      · exact Or.inr ⟨h, (out_mem hS A single u).mp h2⟩
      · exact Or.inl ⟨h1, h⟩
    refine (measure_mono hsub).trans ((measure_union_le _ _).trans ?_)
    rw [good_full, zero_add]
  refine hvol.trans (hN.trans ?_)
  gcongr
  unfold gridCount so3CubochoricGrid
  rw [List.filter_map, List.length_map]
  refine List.Sublist.length_le (List.monotone_filter_right _ fun v hv => ?_)
  have hv : comp v ∈ U := by simpa only [decide_eq_true_eq] using hv
  simp only [Function.comp, decide_eq_true_eq]
  rw [quStd_mem hS]
  have := hv.2
  rwa [ofComp_comp] at this

/-- The whole grid. -/
theorem gridCount_compl (A : Argsort) (single : Bool) (N : ℕ) (S : Set Q) : gridCount A single N S + gridCount A single N Sᶜ = N ^ 3 := by
  classical
  rw [← (C62_cubochoric_grid A single N []).1]
  unfold gridCount
  generalize so3CubochoricGrid A single N = l
  induction l with
  | nil => simp
  | cons a l ih =>
    by_cases h : a ∈ S
    · simp only [List.filter_cons, h, decide_true, if_true, List.length_cons, Set.mem_compl_iff, not_true_eq_false, decide_false] at ih ⊢
      simp only [Bool.false_eq_true, if_false]
      omega
    · simp only [List.filter_cons, h, decide_true, if_true, List.length_cons, Set.mem_compl_iff, not_false_eq_true, decide_false] at ih ⊢
      simp only [Bool.false_eq_true, if_false]
      omega

theorem draws_compl (A : Argsort) (single : Bool) (S : Set Q) : 1 ≤ volume (drawsInto A single S) + volume (drawsInto A single Sᶜ) := by
  have hcube : volume {d : Fin 3 → ℝ | ∀ i, 0 ≤ d i ∧ d i < 1} = 1 := by
    have : {d : Fin 3 → ℝ | ∀ i, 0 ≤ d i ∧ d i < 1} = Set.univ.pi fun _ => Set.Ico 0 1 := by ext d; simp
    rw [this, volume_pi_pi]; simp
  rw [← hcube]
  refine (measure_mono ?_).trans (measure_union_le _ _)
  intro d hd
  rw [draws_eq, draws_eq]
  by_cases h : outOf A single (fun i => Cubo.edge * d i - 0.5 * Cubo.edge) ∈ S
  · exact Or.inl ⟨hd, h⟩
  · exact Or.inr ⟨hd, h⟩

/-- **C170**, closed sets get at most their share. -/
theorem C170_closed (A : Argsort) (single : Bool) (S : Set Q) (hS : ∀ q, q ∈ S ↔ q.neg ∈ S) (hclosed : IsClosed {y | quat4 y ∈ S})
    {δ : ENNReal} (hδ : δ ≠ 0) :
    ∀ᶠ N : ℕ in atTop, gridCount A single N S * ENNReal.ofReal (π ^ 2 / N ^ 3) ≤ ENNReal.ofReal (π ^ 2) * volume (drawsInto A single S) + δ := by
  have h := C170_open A single Sᶜ (fun q => not_congr (hS q)) hclosed.isOpen_compl hδ
  filter_upwards [h, eventually_gt_atTop 0] with N hN h0
  have hsum : (gridCount A single N S : ENNReal) * ENNReal.ofReal (π ^ 2 / N ^ 3) + gridCount A single N Sᶜ * ENNReal.ofReal (π ^ 2 / N ^ 3) =
      ENNReal.ofReal (π ^ 2) := by
    have hN' : (0 : ℝ) < N := by exact_mod_cast h0
    rw [← add_mul, ← Nat.cast_add, gridCount_compl, ← ENNReal.ofReal_natCast, ← ENNReal.ofReal_mul (by positivity)]
    congr 1
    push_cast
    field_simp
  have hfin : (gridCount A single N Sᶜ : ENNReal) * ENNReal.ofReal (π ^ 2 / N ^ 3) ≠ ⊤ := ENNReal.mul_ne_top (ENNReal.natCast_ne_top _) ENNReal.ofReal_ne_top
  have hone : ENNReal.ofReal (π ^ 2) ≤ ENNReal.ofReal (π ^ 2) * volume (drawsInto A single S) + ENNReal.ofReal (π ^ 2) * volume (drawsInto A single Sᶜ) := by
    rw [← mul_add]
    exact le_mul_of_one_le_right' (draws_compl A single S)
  have key := hsum.le.trans (hone.trans (add_le_add le_rfl hN))
  rw [← add_assoc, add_right_comm] at key
  exact (ENNReal.add_le_add_iff_right hfin).mp key

/-- **C170**: in terms of the uniform measure of orientations, up to the accuracy of the conversion. -/
theorem C170_haar (A : Argsort) (single : Bool) (S : Set Q) (hS : ∀ q, q ∈ S ↔ q.neg ∈ S) {δ : ENNReal} (hδ : δ ≠ 0) :
    (IsClosed {y | quat4 y ∈ S} → ∀ᶠ N : ℕ in atTop, gridCount A single N S * ENNReal.ofReal (π ^ 2 / N ^ 3) ≤
      haar (Near (acc single) S) + (open Classical in if (⟨1, 0, 0, 0⟩ : Q) ∈ S then ENNReal.ofReal 2e-8 else 0) + δ) ∧
    (IsOpen {y | quat4 y ∈ S} → ∀ᶠ N : ℕ in atTop, haar {p | 0 < p.w ∧ p ∉ Near (acc single) Sᶜ} ≤
      gridCount A single N S * ENNReal.ofReal (π ^ 2 / N ^ 3) + (open Classical in if (⟨1, 0, 0, 0⟩ : Q) ∈ S then 0 else ENNReal.ofReal 2e-8) + δ) := by
  constructor
  · intro hc
    filter_upwards [C170_closed A single S hS hc hδ] with N hN
    exact hN.trans (add_le_add (C169_upper A single S) le_rfl)
  · intro ho
    filter_upwards [C170_open A single S hS ho hδ] with N hN
    refine (C169_lower A single S).trans ((add_le_add hN le_rfl).trans_eq ?_)
    rw [add_right_comm]

/-! ### Non-vacuity -/

/-- Rotations of at least a right angle: a closed set, the same for both signs. -/
example (A : Argsort) : ∀ᶠ N : ℕ in atTop, gridCount A false N {q | |q.w| ≤ √2 / 2} * ENNReal.ofReal (π ^ 2 / N ^ 3) ≤
    haar (Near 2e-8 {q | |q.w| ≤ √2 / 2}) + 1 := by
  classical
  have h := (C170_haar A false {q | |q.w| ≤ √2 / 2} (fun q => by simp [Q.neg]) (δ := 1) one_ne_zero).1
    (isClosed_le (continuous_abs.comp (continuous_apply 0)) continuous_const)
  have h2 : ¬ ((1 : ℝ) ≤ √2 / 2) := by
    have : √2 < 2 := by rw [sqrt_lt' (by norm_num)]; norm_num
    linarith
  rw [if_neg (by simpa using h2), add_zero] at h
  simpa [acc] using h

end Verif.Cubo
