import Verif.Props.Cubo
import Verif.Lemmas.CuboVolume
import Mathlib.MeasureTheory.Measure.Haar.Unique
/-! C156: the cubochoric and homochoric maps preserve volumes. -/
namespace Verif.Cubo
open Verif Real MeasureTheory

/-! ### The sorted map -/

theorem sorted_inj : Set.InjOn sortedMap cone := by
  intro u hu v hv e
  obtain ⟨h0, h1, h2⟩ := hu
  obtain ⟨g0, g1, g2⟩ := hv
  obtain ⟨-, -, -, -, -, -, n1, i1⟩ := fwd_all h0.le h1.le h2.le
  obtain ⟨-, -, -, -, -, -, n2, i2⟩ := fwd_all g0.le g1.le g2.le
  change cu2hoSorted (u 0) (u 1) (u 2) = cu2hoSorted (v 0) (v 1) (v 2) at e
  have hK := K_pos
  rw [e, n2] at n1
  have hb : K * v 2 = K * u 2 := by
    rwa [sq_eq_sq₀ (mul_nonneg hK.le (by linarith)) (mul_nonneg hK.le (by linarith))] at n1
  rw [e, ← hb, i2] at i1
  have a0 := congrFun i1 0
  have a1 := congrFun i1 1
  have a2 := congrFun i1 2
  funext i
  fin_cases i
  exacts [a0.symm, a1.symm, a2.symm]

theorem sorted_cone (u : Fin 3 → ℝ) (hu : u ∈ cone) : sortedMap u ∈ cone := by
  obtain ⟨h0, h1, h2⟩ := hu
  obtain ⟨p, z, o1, o2, e1, e2, -, -⟩ := fwd_all h0.le h1.le h2.le
  refine ⟨lt_of_le_of_ne (p 0) fun h => ?_, lt_of_le_of_ne o1 fun h => ?_, lt_of_le_of_ne o2 fun h => ?_⟩
  · exact h0.ne' ((z 0).mp h.symm)
  · exact h1.ne (e1.mp h)
  · exact h2.ne (e2.mp h)

theorem sorted_onto (x : Fin 3 → ℝ) (hx : x ∈ cone) : ∃ u ∈ cone, sortedMap u = x := by
  obtain ⟨h0, h1, h2⟩ := hx
  obtain ⟨s, m, b, -, s0, sm, mb, e⟩ := bwd_all h0.le h1.le h2.le rfl
  obtain ⟨p, z, o1, o2, e1, e2, -, -⟩ := fwd_all s0 sm mb
  have a0 : cu2hoSorted s m b 0 = x 0 := by rw [e]; rfl
  have a1 : cu2hoSorted s m b 1 = x 1 := by rw [e]; rfl
  have a2 : cu2hoSorted s m b 2 = x 2 := by rw [e]; rfl
  rw [a0, a1] at e1
  rw [a1, a2] at e2
  have z0 := z 0
  rw [a0] at z0
  refine ⟨![s, m, b], ⟨lt_of_le_of_ne s0 fun h => ?_, lt_of_le_of_ne sm fun h => ?_, lt_of_le_of_ne mb fun h => ?_⟩, ?_⟩
  · exact h0.ne' (z0.mpr h.symm)
  · exact h1.ne (e1.mpr h)
  · exact h2.ne (e2.mpr h)
  · funext i
    fin_cases i
    exacts [a0, a1, a2]

theorem sorted_image (B : Set (Fin 3 → ℝ)) (hB : MeasurableSet B) (hc : B ⊆ cone) :
    MeasurableSet (sortedMap '' B) ∧ volume (sortedMap '' B) = volume B := by
  obtain ⟨r0, r2, r3, r4⟩ := sqrt2_facts
  have hK := K_pos
  have hpi := pi_pos
  have i1 : Set.InjOn stage1 B := by
    intro u hu v hv e
    apply sorted_inj (hc hu) (hc hv)
    rw [(sorted_eq u (hc hu)).1, (sorted_eq v (hc hv)).1, e]
  have i2 : Set.InjOn (stage2 L K) (stage1 '' B) := by
    rintro _ ⟨u, hu, rfl⟩ _ ⟨v, hv, rfl⟩ e
    rw [← (sorted_eq u (hc hu)).1, ← (sorted_eq v (hc hv)).1] at e
    rw [sorted_inj (hc hu) (hc hv) e]
  choose! M hM using stage1_deriv
  obtain ⟨m1, v1⟩ := volume_of_rows (F := stage1) (M := M) (c := π / (12 * √2)) (by positivity) hB
    (fun u hu => (hM u (hc hu)).1) (fun u hu => (hM u (hc hu)).2) i1
  have hex : ∀ p ∈ stage1 '' B, ∃ N : Matrix (Fin 3) (Fin 3) ℝ, (∀ i, D3 (fun v => stage2 L K v i) (N i) p) ∧ N.det = L ^ 2 * K := by
    rintro _ ⟨u, hu, rfl⟩
    have h := hc hu
    exact stage2_deriv L K _ (h.1.trans (h.2.1.trans h.2.2)) (sorted_eq u h).2
  choose! N hN using hex
  obtain ⟨m2, v2⟩ := volume_of_rows (F := stage2 L K) (M := N) (c := L ^ 2 * K) (by unfold L; positivity) m1
    (fun u hu => (hN u hu).1) (fun u hu => (hN u hu).2) i2
  have e : sortedMap '' B = stage2 L K '' (stage1 '' B) := by
    rw [Set.image_image]
    exact Set.image_congr fun u hu => (sorted_eq u (hc hu)).1
  rw [e]
  refine ⟨m2, ?_⟩
  rw [v2, v1, ← mul_assoc, ← ENNReal.ofReal_mul (by unfold L; positivity)]
  have : L ^ 2 * K * (π / (12 * √2)) = 1 := by
    have k3 : K ^ 3 = 6 / π := by
      unfold K
      rw [← rpow_natCast, ← rpow_mul (by positivity)]; norm_num
    unfold L
    rw [mul_pow, sq_sqrt (by positivity), show 2 * √2 * K ^ 2 * K * (π / (12 * √2)) = K ^ 3 * (π / 6) by field_simp; ring, k3]
    field_simp
  rw [this, ENNReal.ofReal_one, one_mul]

theorem sorted_preimage_measurable (B : Set (Fin 3 → ℝ)) (hB : MeasurableSet B) : MeasurableSet {u | u ∈ cone ∧ sortedMap u ∈ B} := by
  have : {u | u ∈ cone ∧ sortedMap u ∈ B} = cone ∩ (fun u => stage2 L K (stage1 u)) ⁻¹' B := by
    ext u
    constructor
    · rintro ⟨h, g⟩; exact ⟨h, by rw [(sorted_eq u h).1] at g; exact g⟩
    · rintro ⟨h, g⟩; exact ⟨h, by rw [(sorted_eq u h).1]; exact g⟩
  rw [this]
  exact cone_measurable.inter (((stage2_measurable L K).comp stage1_measurable) hB)

theorem sorted_preimage (B : Set (Fin 3 → ℝ)) (hB : MeasurableSet B) :
    volume {u | u ∈ cone ∧ sortedMap u ∈ B} = volume (B ∩ cone) := by
  rw [← (sorted_image _ (sorted_preimage_measurable B hB) (fun u h => h.1)).2]
  congr 1
  ext x
  constructor
  · rintro ⟨u, ⟨h, g⟩, rfl⟩; exact ⟨g, sorted_cone u h⟩
  · rintro ⟨g, h⟩
    obtain ⟨u, hu, rfl⟩ := sorted_onto x h
    exact ⟨u, ⟨hu, g⟩, rfl⟩

/-! ### The 48 sectors -/

/-- sign of a component in a sector -/
def sg (e : Fin 3 → Bool) (i : Fin 3) : ℝ := if e i then -1 else 1

theorem sg_sq (e : Fin 3 → Bool) (i : Fin 3) : sg e i * sg e i = 1 := by unfold sg; split <;> norm_num

/-- magnitudes in sorted order, in the sector of a permutation and signs -/
def fold (g : Equiv.Perm (Fin 3) × (Fin 3 → Bool)) (v : Fin 3 → ℝ) : Fin 3 → ℝ := fun j => sg g.2 (g.1 j) * v (g.1 j)

/-- its inverse -/
def unfold' (g : Equiv.Perm (Fin 3) × (Fin 3 → Bool)) (u : Fin 3 → ℝ) : Fin 3 → ℝ := fun i => sg g.2 i * u (g.1.symm i)

theorem fold_unfold (g : Equiv.Perm (Fin 3) × (Fin 3 → Bool)) (u : Fin 3 → ℝ) : fold g (unfold' g u) = u := by
  funext j
  simp only [fold, unfold', Equiv.symm_apply_apply]
  rw [← mul_assoc, sg_sq, one_mul]

theorem unfold_fold (g : Equiv.Perm (Fin 3) × (Fin 3 → Bool)) (v : Fin 3 → ℝ) : unfold' g (fold g v) = v := by
  funext j
  simp only [fold, unfold', Equiv.apply_symm_apply]
  rw [← mul_assoc, sg_sq, one_mul]

theorem fold_measurable (g : Equiv.Perm (Fin 3) × (Fin 3 → Bool)) : Measurable (fold g) :=
  measurable_pi_iff.mpr fun j => (measurable_pi_apply (g.1 j)).const_mul _

theorem unfold_measurable (g : Equiv.Perm (Fin 3) × (Fin 3 → Bool)) : Measurable (unfold' g) :=
  measurable_pi_iff.mpr fun j => (measurable_pi_apply (g.1.symm j)).const_mul _

theorem fold_preserving (g : Equiv.Perm (Fin 3) × (Fin 3 → Bool)) : MeasurePreserving (fold g) volume volume := by
  have h1 : MeasurePreserving (fun v : Fin 3 → ℝ => fun i => sg g.2 i * v i) volume volume := by
    apply volume_preserving_pi (f := fun i x => sg g.2 i * x)
    intro i
    unfold sg
    split
    · have : (fun x : ℝ => -1 * x) = fun x => -x := by funext x; ring
      rw [this]
      exact Measure.measurePreserving_neg (volume : Measure ℝ)
    · simp only [one_mul]
      exact MeasurePreserving.id _
  have h2 := (volume_measurePreserving_piCongrLeft (fun _ : Fin 3 => ℝ) g.1).symm
  have h3 := h2.comp h1
  have e : fold g = ⇑(MeasurableEquiv.piCongrLeft (fun _ : Fin 3 => ℝ) g.1).symm ∘ fun v i => sg g.2 i * v i := rfl
  rw [e]
  exact h3

/-- a sector: magnitudes strictly sorted by a permutation, given signs -/
def sect (g : Equiv.Perm (Fin 3) × (Fin 3 → Bool)) : Set (Fin 3 → ℝ) := fold g ⁻¹' cone

theorem sect_measurable (g : Equiv.Perm (Fin 3) × (Fin 3 → Bool)) : MeasurableSet (sect g) := fold_measurable g cone_measurable

theorem sect_pos {g : Equiv.Perm (Fin 3) × (Fin 3 → Bool)} {v : Fin 3 → ℝ} (hv : v ∈ sect g) (j : Fin 3) :
    0 < fold g v j ∧ fold g v j = |v (g.1 j)| := by
  obtain ⟨h0, h1, h2⟩ := hv
  have p : 0 < fold g v j := by
    fin_cases j
    exacts [h0, h0.trans h1, h0.trans (h1.trans h2)]
  refine ⟨p, ?_⟩
  have a : |fold g v j| = |v (g.1 j)| := by
    unfold fold sg
    split <;> simp
  rw [← a, abs_of_pos p]

theorem sect_strict {g : Equiv.Perm (Fin 3) × (Fin 3 → Bool)} {v : Fin 3 → ℝ} (hv : v ∈ sect g) :
    |v (g.1 0)| < |v (g.1 1)| ∧ |v (g.1 1)| < |v (g.1 2)| := by
  rw [← (sect_pos hv 0).2, ← (sect_pos hv 1).2, ← (sect_pos hv 2).2]
  exact ⟨hv.2.1, hv.2.2⟩

/-- strictly sorted magnitudes have only one sorting permutation -/
theorem perm_unique {g : Equiv.Perm (Fin 3) × (Fin 3 → Bool)} {v : Fin 3 → ℝ} (hv : v ∈ sect g) (σ : Equiv.Perm (Fin 3))
    (hσ : Monotone ((fun i => |v i|) ∘ σ)) : σ = g.1 := by
  obtain ⟨h1, h2⟩ := sect_strict hv
  have hg : Monotone ((fun i => |v i|) ∘ g.1) := mono3 h1.le h2.le
  have e := sort_unique _ σ g.1 hσ hg
  have hinj : Function.Injective ((fun i => |v i|) ∘ g.1) := by
    intro i j hij
    fin_cases i <;> fin_cases j <;> simp only [Function.comp] at hij <;> first | rfl | (exfalso; simp at hij; linarith)
  ext1 j
  have := congrFun e j
  obtain ⟨k, hk⟩ : ∃ k, g.1 k = σ j := ⟨g.1.symm (σ j), by simp⟩
  simp only [Function.comp] at this
  rw [← hk] at this ⊢
  rw [hinj this]

/-- the whole map, on arrays of three numbers -/
noncomputable def onArray (F : V → V) (u : Fin 3 → ℝ) : Fin 3 → ℝ := comp (F (ofComp u))

theorem fold_map (A : Argsort) {g : Equiv.Perm (Fin 3) × (Fin 3 → Bool)} {v : Fin 3 → ℝ} (hv : v ∈ sect g) :
    fold g (onArray (cu2ho A) v) = sortedMap (fold g v) := by
  obtain ⟨σ, hσ, h⟩ := cu2ho_spec A (ofComp v)
  simp only [comp_ofComp] at hσ h
  rw [perm_unique hv σ hσ] at h
  have hv' := hv
  obtain ⟨h0, h1, h2⟩ := hv'
  have p := (fwd_all h0.le h1.le h2.le).1
  funext j
  change sg g.2 (g.1 j) * comp (cu2ho A (ofComp v)) (g.1 j) = cu2hoSorted (fold g v 0) (fold g v 1) (fold g v 2) j
  rw [(h j).2, ← (sect_pos hv 0).2, ← (sect_pos hv 1).2, ← (sect_pos hv 2).2]
  have p' := p j
  have q := (sect_pos hv j).1
  generalize cu2hoSorted (fold g v 0) (fold g v 1) (fold g v 2) j = x at *
  unfold fold at q
  unfold copysign
  unfold sg at *
  split_ifs at * <;> first | (exfalso; linarith) | (rw [abs_of_nonneg p']; ring)

theorem map_sect (A : Argsort) (g : Equiv.Perm (Fin 3) × (Fin 3 → Bool)) (B : Set (Fin 3 → ℝ)) :
    {v | onArray (cu2ho A) v ∈ B} ∩ sect g = fold g ⁻¹' {u | u ∈ cone ∧ sortedMap u ∈ unfold' g ⁻¹' B} := by
  ext v
  constructor
  · rintro ⟨h, hv⟩
    refine ⟨hv, ?_⟩
    rw [Set.mem_preimage, ← fold_map A hv, unfold_fold]
    exact h
  · rintro ⟨hv, h⟩
    refine ⟨?_, hv⟩
    rw [Set.mem_preimage, ← fold_map A hv, unfold_fold] at h
    exact h

theorem map_sect_volume (A : Argsort) (g : Equiv.Perm (Fin 3) × (Fin 3 → Bool)) (B : Set (Fin 3 → ℝ)) (hB : MeasurableSet B) :
    MeasurableSet ({v | onArray (cu2ho A) v ∈ B} ∩ sect g) ∧ volume ({v | onArray (cu2ho A) v ∈ B} ∩ sect g) = volume (B ∩ sect g) := by
  have hB' := unfold_measurable g hB
  have hm := sorted_preimage_measurable _ hB'
  rw [map_sect]
  refine ⟨fold_measurable g hm, ?_⟩
  rw [(fold_preserving g).measure_preimage hm.nullMeasurableSet, sorted_preimage _ hB',
    ← (fold_preserving g).measure_preimage (hB'.inter cone_measurable).nullMeasurableSet]
  congr 1
  ext v
  constructor
  · rintro ⟨h, hv⟩
    exact ⟨by rw [Set.mem_preimage, unfold_fold] at h; exact h, hv⟩
  · rintro ⟨h, hv⟩
    exact ⟨by rw [Set.mem_preimage, unfold_fold]; exact h, hv⟩

theorem sect_disjoint : Pairwise (Function.onFun Disjoint sect) := by
  intro g g' hne
  rw [Function.onFun, Set.disjoint_left]
  intro v hv hv'
  apply hne
  obtain ⟨h1, h2⟩ := sect_strict hv'
  have e1 : g'.1 = g.1 := perm_unique hv g'.1 (mono3 h1.le h2.le)
  refine Prod.ext e1.symm (funext fun i => ?_)
  have a := (sect_pos hv (g.1.symm i)).1
  have b := (sect_pos hv' (g'.1.symm i)).1
  simp only [fold, Equiv.apply_symm_apply, sg] at a b
  cases hx : g.2 i <;> cases hy : g'.2 i <;> simp only [hx, hy] at a b <;> first | rfl | (exfalso; simp at a b; linarith)

theorem hyperplane_null (a : Fin 3 → ℝ) (ha : a ≠ 0) : volume {v : Fin 3 → ℝ | ∑ i, a i * v i = 0} = 0 := by
  let ℓ : (Fin 3 → ℝ) →ₗ[ℝ] ℝ := ∑ i, a i • LinearMap.proj i
  have e : {v : Fin 3 → ℝ | ∑ i, a i * v i = 0} = (LinearMap.ker ℓ : Set (Fin 3 → ℝ)) := by
    ext v; simp [ℓ]
  rw [e]
  apply Measure.addHaar_submodule
  intro h
  apply ha
  funext i
  have : Pi.single i 1 ∈ LinearMap.ker ℓ := by rw [h]; trivial
  rw [LinearMap.mem_ker] at this
  simp [ℓ, Pi.single_apply] at this
  exact this

theorem sect_cover : volume (⋃ g, sect g)ᶜ = 0 := by
  let H : (Fin 3 → ℝ) → Set (Fin 3 → ℝ) := fun a => {v | ∑ i, a i * v i = 0}
  have hN : volume (H ![1, 0, 0] ∪ H ![0, 1, 0] ∪ H ![0, 0, 1] ∪ H ![1, -1, 0] ∪ H ![1, 1, 0] ∪ H ![1, 0, -1] ∪ H ![1, 0, 1] ∪
      H ![0, 1, -1] ∪ H ![0, 1, 1]) = 0 := by
    have key : ∀ a : Fin 3 → ℝ, (∃ i, a i ≠ 0) → volume (H a) = 0 := fun a ⟨i, h⟩ => hyperplane_null a fun e => h (by rw [e]; rfl)
    simp only [measure_union_null_iff]
    refine ⟨⟨⟨⟨⟨⟨⟨⟨?_, ?_⟩, ?_⟩, ?_⟩, ?_⟩, ?_⟩, ?_⟩, ?_⟩, ?_⟩ <;> apply key
    exacts [⟨0, by simp⟩, ⟨1, by simp⟩, ⟨2, by simp⟩, ⟨0, by simp⟩, ⟨0, by simp⟩, ⟨0, by simp⟩, ⟨0, by simp⟩, ⟨1, by simp⟩, ⟨1, by simp⟩]
  refine measure_mono_null ?_ hN
  intro v hv
  by_contra hn
  apply hv
  simp only [H, Set.mem_union, Set.mem_ofPred_eq, Fin.sum_univ_three, Matrix.cons_val_zero, Matrix.cons_val_one, Matrix.cons_val,
    not_or] at hn
  obtain ⟨⟨⟨⟨⟨⟨⟨⟨n0, n1⟩, n2⟩, m01⟩, p01⟩, m02⟩, p02⟩, m12⟩, p12⟩ := hn
  have nz : ∀ i, v i ≠ 0 := by
    intro i h
    fin_cases i
    · exact n0 (by simp only [Fin.zero_eta] at h; rw [h]; ring)
    · exact n1 (by simp only [Fin.mk_one] at h; rw [h]; ring)
    · exact n2 (by simp only [Fin.reduceFinMk] at h; rw [h]; ring)
  have ne : ∀ i j, i ≠ j → |v i| ≠ |v j| := by
    intro i j hij h
    rcases abs_eq_abs.mp h with h | h <;> fin_cases i <;> fin_cases j <;>
      simp only [Fin.zero_eta, Fin.mk_one, Fin.reduceFinMk, ne_eq, not_true_eq_false] at h hij
    · exact m01 (by rw [h]; ring)
    · exact m02 (by rw [h]; ring)
    · exact m01 (by rw [h]; ring)
    · exact m12 (by rw [h]; ring)
    · exact m02 (by rw [h]; ring)
    · exact m12 (by rw [h]; ring)
    · exact p01 (by rw [h]; ring)
    · exact p02 (by rw [h]; ring)
    · exact p01 (by rw [h]; ring)
    · exact p12 (by rw [h]; ring)
    · exact p02 (by rw [h]; ring)
    · exact p12 (by rw [h]; ring)
  set σ := Tuple.sort (fun i => |v i|) with hσ
  have mo : Monotone ((fun i => |v i|) ∘ σ) := Tuple.monotone_sort _
  rw [Set.mem_iUnion]
  refine ⟨(σ, fun i => decide (v i < 0)), ?_⟩
  have f : ∀ j, fold (σ, fun i => decide (v i < 0)) v j = |v (σ j)| := by
    intro j
    unfold fold sg
    simp only [decide_eq_true_eq]
    split
    · rename_i h; rw [abs_of_neg h]; ring
    · rename_i h; rw [abs_of_nonneg (not_lt.mp h)]; ring
  refine ⟨?_, ?_, ?_⟩
  · rw [f]; exact abs_pos.mpr (nz _)
  · rw [f, f]; exact lt_of_le_of_ne (mo (by decide : (0 : Fin 3) ≤ 1)) (ne _ _ (by simp))
  · rw [f, f]; exact lt_of_le_of_ne (mo (by decide : (1 : Fin 3) ≤ 2)) (ne _ _ (by simp))

theorem volume_sum (S : Set (Fin 3 → ℝ)) (h : ∀ g, MeasurableSet (S ∩ sect g)) : volume S = ∑ g, volume (S ∩ sect g) := by
  have hU : MeasurableSet (⋃ g, sect g) := MeasurableSet.iUnion sect_measurable
  rw [← measure_inter_add_sdiff S hU, show volume (S \ ⋃ g, sect g) = 0 from measure_mono_null (fun v hv => hv.2) sect_cover, add_zero,
    Set.inter_iUnion, measure_iUnion (fun i j hij => (sect_disjoint hij).mono Set.inter_subset_right Set.inter_subset_right) h, tsum_fintype]

/-- **C156**: `cu2ho` preserves volumes: the cubochoric vectors that are mapped into a region of homochoric space have the volume of
that region. -/
theorem C156_cu2ho (A : Argsort) (B : Set (Fin 3 → ℝ)) (hB : MeasurableSet B) :
    volume {u : Fin 3 → ℝ | comp (cu2ho A (ofComp u)) ∈ B} = volume B := by
  rw [volume_sum B fun g => hB.inter (sect_measurable g)]
  change volume {u : Fin 3 → ℝ | onArray (cu2ho A) u ∈ B} = _
  rw [volume_sum _ fun g => (map_sect_volume A g B hB).1]
  exact Finset.sum_congr rfl fun g _ => (map_sect_volume A g B hB).2

theorem ho2cu_onArray (A : Argsort) (u : Fin 3 → ℝ) : comp (ho2cu A (ofComp (onArray (cu2ho A) u))) = u := by
  unfold onArray
  rw [ofComp_comp, C84_ho2cu_cu2ho, comp_ofComp]

theorem onArray_sect (A : Argsort) (g : Equiv.Perm (Fin 3) × (Fin 3 → Bool)) (u : Fin 3 → ℝ) (hu : u ∈ sect g) :
    onArray (cu2ho A) u ∈ sect g := by
  change fold g _ ∈ cone
  rw [fold_map A hu]
  exact sorted_cone _ hu

theorem ho2cu_sect_measurable (A : Argsort) (B : Set (Fin 3 → ℝ)) (hB : MeasurableSet B) (g : Equiv.Perm (Fin 3) × (Fin 3 → Bool)) :
    MeasurableSet ({h : Fin 3 → ℝ | comp (ho2cu A (ofComp h)) ∈ B} ∩ sect g) := by
  have e : {h : Fin 3 → ℝ | comp (ho2cu A (ofComp h)) ∈ B} ∩ sect g = fold g ⁻¹' (sortedMap '' (unfold' g ⁻¹' B ∩ cone)) := by
    ext h
    constructor
    · rintro ⟨h1, h2⟩
      obtain ⟨u, hu, e⟩ := sorted_onto _ h2
      have hv : unfold' g u ∈ sect g := by change fold g _ ∈ cone; rw [fold_unfold]; exact hu
      have e2 : onArray (cu2ho A) (unfold' g u) = h := by
        rw [← unfold_fold g (onArray (cu2ho A) (unfold' g u)), fold_map A hv, fold_unfold, e, unfold_fold]
      refine ⟨u, ⟨?_, hu⟩, e⟩
      rw [Set.mem_preimage, ← ho2cu_onArray A (unfold' g u), e2]
      exact h1
    · rintro ⟨u, ⟨hu, hc⟩, e⟩
      have hv : unfold' g u ∈ sect g := by change fold g _ ∈ cone; rw [fold_unfold]; exact hc
      have e2 : onArray (cu2ho A) (unfold' g u) = h := by
        rw [← unfold_fold g (onArray (cu2ho A) (unfold' g u)), fold_map A hv, fold_unfold, e, unfold_fold]
      refine ⟨?_, ?_⟩
      · change comp (ho2cu A (ofComp h)) ∈ B
        rw [← e2, ho2cu_onArray]; exact hu
      · rw [← e2]; exact onArray_sect A g _ hv
  rw [e]
  exact fold_measurable g (sorted_image _ ((unfold_measurable g hB).inter cone_measurable) Set.inter_subset_right).1

theorem ho2cu_nullMeasurable (A : Argsort) (B : Set (Fin 3 → ℝ)) (hB : MeasurableSet B) :
    NullMeasurableSet {h : Fin 3 → ℝ | comp (ho2cu A (ofComp h)) ∈ B} volume := by
  have hU : MeasurableSet (⋃ g, {h : Fin 3 → ℝ | comp (ho2cu A (ofComp h)) ∈ B} ∩ sect g) :=
    MeasurableSet.iUnion (ho2cu_sect_measurable A B hB)
  refine hU.nullMeasurableSet.congr ?_
  rw [← Set.inter_iUnion]
  exact inter_ae_eq_left_of_ae_eq_univ (ae_eq_univ.mpr sect_cover)

/-- **C156**: so does `ho2cu`. -/
theorem C156_ho2cu (A : Argsort) (B : Set (Fin 3 → ℝ)) (hB : MeasurableSet B) :
    volume {h : Fin 3 → ℝ | comp (ho2cu A (ofComp h)) ∈ B} = volume B := by
  set S := {h : Fin 3 → ℝ | comp (ho2cu A (ofComp h)) ∈ B} with hS
  have hm : ∀ g, MeasurableSet (S ∩ sect g) := ho2cu_sect_measurable A B hB
  have key : ∀ g, volume (S ∩ sect g) = volume (B ∩ sect g) := by
    intro g
    rw [← C156_cu2ho A _ (hm g)]
    have hpre : {u : Fin 3 → ℝ | comp (cu2ho A (ofComp u)) ∈ S ∩ sect g} ∩ ⋃ g', sect g' = B ∩ sect g := by
      ext u
      constructor
      · rintro ⟨⟨h1, h2⟩, h3⟩
        obtain ⟨g', hg'⟩ := Set.mem_iUnion.mp h3
        have h4 := onArray_sect A g' u hg'
        have : g' = g := by
          by_contra hne
          exact Set.disjoint_left.mp (sect_disjoint hne) h4 h2
        subst this
        refine ⟨?_, hg'⟩
        have h5 : comp (ho2cu A (ofComp (onArray (cu2ho A) u))) ∈ B := h1
        rwa [ho2cu_onArray] at h5
      · rintro ⟨h1, h2⟩
        refine ⟨⟨?_, onArray_sect A g u h2⟩, Set.mem_iUnion.mpr ⟨g, h2⟩⟩
        change comp (ho2cu A (ofComp (onArray (cu2ho A) u))) ∈ B
        rw [ho2cu_onArray]; exact h1
    rw [← hpre, measure_inter_conull sect_cover]
  rw [volume_sum S hm, volume_sum B fun g => hB.inter (sect_measurable g)]
  exact Finset.sum_congr rfl fun g _ => key g

/-! ### Non-vacuity -/

/-- The set mapped into a unit cube that touches four sectors and the centre of a face. -/
example (A : Argsort) : volume {u : Fin 3 → ℝ | comp (cu2ho A (ofComp u)) ∈ Set.Icc (![-1, -1, 0] : Fin 3 → ℝ) ![1, 1, 1]} = 4 := by
  rw [C156_cu2ho A _ measurableSet_Icc, Real.volume_Icc_pi]
  simp [Fin.prod_univ_three]
  rw [← ENNReal.ofReal_mul (by norm_num)]
  norm_num

example (A : Argsort) : volume {h : Fin 3 → ℝ | comp (ho2cu A (ofComp h)) ∈ Set.Icc (![-1, -1, 0] : Fin 3 → ℝ) ![1, 1, 1]} = 4 := by
  rw [C156_ho2cu A _ measurableSet_Icc, Real.volume_Icc_pi]
  simp [Fin.prod_univ_three]
  rw [← ENNReal.ofReal_mul (by norm_num)]
  norm_num

end Verif.Cubo
