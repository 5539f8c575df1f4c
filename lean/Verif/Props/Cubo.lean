import Verif.Lemmas.Cubo
import Mathlib.Data.Fin.Tuple.Sort
/-!
C84: the cubochoric and homochoric maps are mutually inverse bijections, keep the signs and the order of
the components, and map the cube of half-edge `a` onto the ball of radius `(6/π)^(1/3) a`.
-/
namespace Verif.Cubo
open Verif Real

theorem sort_unique (w : Fin 3 → ℝ) (σ τ : Equiv.Perm (Fin 3)) (h1 : Monotone (w ∘ σ)) (h2 : Monotone (w ∘ τ)) :
    w ∘ σ = w ∘ τ := by
  rw [Tuple.comp_sort_eq_comp_iff_monotone.mpr h1, Tuple.comp_sort_eq_comp_iff_monotone.mpr h2]

theorem mono3 {f : Fin 3 → ℝ} (h1 : f 0 ≤ f 1) (h2 : f 1 ≤ f 2) : Monotone f := by
  intro i j hij
  fin_cases i <;> fin_cases j <;> simp_all
  · exact h1.trans h2

theorem Argsort.mono (A : Argsort) (v : Fin 3 → ℝ) : Monotone (v ∘ A.run v) :=
  mono3 (A.sorted v).1 (A.sorted v).2

theorem order3 {F G : Fin 3 → ℝ} (f1 : F 0 ≤ F 1) (f2 : F 1 ≤ F 2) (g1 : G 0 ≤ G 1) (g2 : G 1 ≤ G 2)
    (e1 : F 0 = F 1 ↔ G 0 = G 1) (e2 : F 1 = F 2 ↔ G 1 = G 2) (i j : Fin 3) : F i ≤ F j ↔ G i ≤ G j := by
  have a10 : F 1 ≤ F 0 ↔ G 1 ≤ G 0 :=
    ⟨fun h => (e1.mp (le_antisymm f1 h)).ge, fun h => (e1.mpr (le_antisymm g1 h)).ge⟩
  have a21 : F 2 ≤ F 1 ↔ G 2 ≤ G 1 :=
    ⟨fun h => (e2.mp (le_antisymm f2 h)).ge, fun h => (e2.mpr (le_antisymm g2 h)).ge⟩
  have a20 : F 2 ≤ F 0 ↔ G 2 ≤ G 0 :=
    ⟨fun h => (a21.mp (h.trans f1)).trans (a10.mp (f2.trans h)),
     fun h => (a21.mpr (h.trans g1)).trans (a10.mpr (g2.trans h))⟩
  fin_cases i <;> fin_cases j <;> simp [f1, f2, g1, g2, a10, a21, a20, f1.trans f2, g1.trans g2]

/-- order-isomorphic rows are sorted by the same permutations -/
theorem sort_transfer {v w : Fin 3 → ℝ} (h : ∀ i j, w i ≤ w j ↔ v i ≤ v j) (σ τ : Equiv.Perm (Fin 3))
    (hσ : Monotone (v ∘ σ)) (hτ : Monotone (w ∘ τ)) : w ∘ τ = w ∘ σ ∧ v ∘ τ = v ∘ σ := by
  constructor
  · exact sort_unique _ _ _ hτ fun i j hij => (h _ _).mpr (hσ hij)
  · exact sort_unique _ _ _ (fun i j hij => (h _ _).mp (hτ hij)) hσ

theorem comp_ofComp (f : Fin 3 → ℝ) : comp (ofComp f) = f := by
  funext i; fin_cases i <;> rfl

theorem ofComp_comp (v : V) : ofComp (comp v) = v := rfl

theorem comp_inj {a b : V} (h : comp a = comp b) : a = b := by
  rw [← ofComp_comp a, h, ofComp_comp]

theorem abs_copysign (a b : ℝ) : |copysign a b| = |a| := by
  unfold copysign; split <;> simp

theorem copysign_congr {a b : ℝ} (h : |a| = |b|) (c : ℝ) : copysign a c = copysign b c := by
  unfold copysign; rw [h]

theorem copysign_self' {a c : ℝ} (h : |a| = |c|) : copysign a c = c := by
  unfold copysign
  split
  · rename_i hc; rw [h, abs_of_neg hc]; ring
  · rename_i hc; rw [h, abs_of_nonneg (not_lt.mp hc)]

/-- the sorted forward map only depends on the magnitudes, up to sign -/
theorem cu2hoSorted_abs (s m b : ℝ) (j : Fin 3) : |cu2hoSorted s m b j| = |cu2hoSorted |s| |m| |b| j| := by
  have ht : |s| * π / (12 * |m|) = |s * π / (12 * m)| := by
    rw [abs_div, abs_mul, abs_mul, abs_of_pos pi_pos]; norm_num
  unfold cu2hoSorted
  simp only [ht, cos_abs, sq_abs]
  generalize s * π / (12 * m) = t
  have hs : abs (sin (abs t)) = abs (sin t) := by
    rcases abs_choice t with h | h <;> rw [h]
    rw [sin_neg, abs_neg]
  fin_cases j
  · simp [hs, abs_mul, abs_div]
  · simp [abs_mul, abs_div]
  · simp [abs_mul, abs_div]

/-- summary of the sorted forward map for all non-negative sorted inputs -/
theorem fwd_all {s m b : ℝ} (hs : 0 ≤ s) (hsm : s ≤ m) (hmb : m ≤ b) :
    (∀ j, 0 ≤ cu2hoSorted s m b j) ∧ (∀ j, cu2hoSorted s m b j = 0 ↔ (![s, m, b] : Fin 3 → ℝ) j = 0) ∧
    cu2hoSorted s m b 0 ≤ cu2hoSorted s m b 1 ∧ cu2hoSorted s m b 1 ≤ cu2hoSorted s m b 2 ∧
    (cu2hoSorted s m b 0 = cu2hoSorted s m b 1 ↔ s = m) ∧
    (cu2hoSorted s m b 1 = cu2hoSorted s m b 2 ↔ m = b) ∧
    cu2hoSorted s m b 0 ^ 2 + cu2hoSorted s m b 1 ^ 2 + cu2hoSorted s m b 2 ^ 2 = (K * b) ^ 2 ∧
    ho2cuSorted (K * b) (cu2hoSorted s m b 0) (cu2hoSorted s m b 1) (cu2hoSorted s m b 2) = ![s, m, b] := by
  rcases (hs.trans hsm).lt_or_eq with hm | hm
  · obtain ⟨x0, y0, z0, xz, xy, yz, exy, eyz⟩ := fwd_order hs hsm hm hmb
    refine ⟨?_, ?_, xy, yz, exy, eyz, fwd_norm hs hsm hm hmb, bwd_fwd hs hsm hm hmb⟩
    · intro j; fin_cases j
      exacts [x0, y0.le, z0.le]
    · intro j; fin_cases j
      · exact xz
      · exact ⟨fun h => absurd h y0.ne', fun h => absurd h hm.ne'⟩
      · exact ⟨fun h => absurd h z0.ne', fun h => absurd h (hm.trans_le hmb).ne'⟩
  · subst hm
    obtain rfl : s = 0 := le_antisymm hsm hs
    obtain ⟨h1, h2⟩ := bwd_fwd_zero hmb
    have hK := K_pos
    rw [h1]
    have hKb : 0 ≤ K * b := by positivity
    refine ⟨?_, ?_, le_refl _, hKb, by simp, ?_, by simp, h2⟩
    · intro j; fin_cases j
      exacts [le_refl _, le_refl _, hKb]
    · intro j; fin_cases j
      · simp
      · simp
      · simp [hK.ne']
    · simp [hK.ne', eq_comm]

/-- everything about one application of `cu2ho` -/
theorem cu2ho_spec (A : Argsort) (c : V) :
    ∃ σ : Equiv.Perm (Fin 3), Monotone ((fun i => |comp c i|) ∘ σ) ∧
      ∀ j, |comp (cu2ho A c) (σ j)| = cu2hoSorted |comp c (σ 0)| |comp c (σ 1)| |comp c (σ 2)| j ∧
        comp (cu2ho A c) (σ j) = copysign (cu2hoSorted |comp c (σ 0)| |comp c (σ 1)| |comp c (σ 2)| j) (comp c (σ j)) := by
  refine ⟨A.run fun i => |comp c i|, A.mono _, fun j => ?_⟩
  obtain ⟨h1, h2⟩ := A.sorted fun i => |comp c i|
  have h := (fwd_all (abs_nonneg _) h1 h2).1 j
  have e : comp (cu2ho A c) ((A.run fun i => |comp c i|) j) = copysign
      (cu2hoSorted |comp c ((A.run fun i => |comp c i|) 0)| |comp c ((A.run fun i => |comp c i|) 1)|
        |comp c ((A.run fun i => |comp c i|) 2)| j) (comp c ((A.run fun i => |comp c i|) j)) := by
    unfold cu2ho
    simp only [comp_ofComp, Equiv.symm_apply_apply]
    exact copysign_congr (cu2hoSorted_abs _ _ _ _) _
  refine ⟨?_, e⟩
  rw [e, abs_copysign, abs_of_nonneg h]

theorem norm_comp (v : V) (σ : Equiv.Perm (Fin 3)) :
    v.norm = √(|comp v (σ 0)| ^ 2 + |comp v (σ 1)| ^ 2 + |comp v (σ 2)| ^ 2) := by
  have h := Equiv.sum_comp σ fun i => comp v i ^ 2
  rw [Fin.sum_univ_three, Fin.sum_univ_three] at h
  simp only [sq_abs]
  rw [h]; rfl

theorem max_comp (v : V) (σ : Equiv.Perm (Fin 3)) (h : Monotone ((fun i => |comp v i|) ∘ σ)) :
    |comp v (σ 2)| = max (max |v.x| |v.y|) |v.z| := by
  have hle : ∀ i, |comp v i| ≤ |comp v (σ 2)| := by
    intro i
    have := h (show σ.symm i ≤ 2 from Fin.le_last _)
    simpa using this
  apply le_antisymm
  · have : ∀ i, |comp v i| ≤ max (max |v.x| |v.y|) |v.z| := by
      intro i; fin_cases i <;> simp [comp]
    exact this _
  · exact max_le (max_le (hle 0) (hle 1)) (hle 2)

/-- C84: the homochoric norm is a fixed multiple of the largest cubochoric coordinate: concentric cubes
are mapped into concentric spheres. -/
theorem C84_radius (A : Argsort) (c : V) :
    (cu2ho A c).norm = (6 / π) ^ ((1 : ℝ) / 3) * max (max |c.x| |c.y|) |c.z| := by
  obtain ⟨σ, hσ, h⟩ := cu2ho_spec A c
  rw [norm_comp _ σ, (h 0).1, (h 1).1, (h 2).1, ← max_comp c σ hσ]
  have h1 : |comp c (σ 0)| ≤ |comp c (σ 1)| := hσ (by decide : (0 : Fin 3) ≤ 1)
  have h2 : |comp c (σ 1)| ≤ |comp c (σ 2)| := hσ (by decide : (1 : Fin 3) ≤ 2)
  rw [(fwd_all (abs_nonneg _) h1 h2).2.2.2.2.2.2.1, sqrt_sq (mul_nonneg K_pos.le (abs_nonneg _))]
  rfl

/-- order and sign of the components are kept -/
theorem cu2ho_order (A : Argsort) (c : V) (i j : Fin 3) :
    |comp (cu2ho A c) i| ≤ |comp (cu2ho A c) j| ↔ |comp c i| ≤ |comp c j| := by
  obtain ⟨σ, hσ, h⟩ := cu2ho_spec A c
  have h1 : |comp c (σ 0)| ≤ |comp c (σ 1)| := hσ (by decide : (0 : Fin 3) ≤ 1)
  have h2 : |comp c (σ 1)| ≤ |comp c (σ 2)| := hσ (by decide : (1 : Fin 3) ≤ 2)
  obtain ⟨-, -, f1, f2, e1, e2, -, -⟩ := fwd_all (abs_nonneg _) h1 h2
  have := order3 (F := fun a => |comp (cu2ho A c) (σ a)|) (G := fun a => |comp c (σ a)|)
    (by simpa only [(h _).1] using f1) (by simpa only [(h _).1] using f2) h1 h2
    (by simpa only [(h _).1] using e1) (by simpa only [(h _).1] using e2) (σ.symm i) (σ.symm j)
  simpa using this

/-- C84: signs and order of the components are kept, so every octant and every pyramid of the cube is
mapped to the corresponding part of the ball. -/
theorem C84_sectors (A : Argsort) (c : V) (i j : Fin 3) :
    (comp (cu2ho A c) i < 0 ↔ comp c i < 0) ∧ (comp (cu2ho A c) i = 0 ↔ comp c i = 0) ∧
    (|comp (cu2ho A c) i| ≤ |comp (cu2ho A c) j| ↔ |comp c i| ≤ |comp c j|) := by
  obtain ⟨σ, hσ, h⟩ := cu2ho_spec A c
  have h1 : |comp c (σ 0)| ≤ |comp c (σ 1)| := hσ (by decide : (0 : Fin 3) ≤ 1)
  have h2 : |comp c (σ 1)| ≤ |comp c (σ 2)| := hσ (by decide : (1 : Fin 3) ≤ 2)
  obtain ⟨hn, hz, -⟩ := fwd_all (abs_nonneg _) h1 h2
  have hz' : ∀ a, comp (cu2ho A c) (σ a) = 0 ↔ comp c (σ a) = 0 := by
    intro a
    rw [← abs_eq_zero, (h a).1, hz a]
    fin_cases a <;> simp
  have hzi : comp (cu2ho A c) i = 0 ↔ comp c i = 0 := by simpa using hz' (σ.symm i)
  refine ⟨?_, hzi, cu2ho_order A c i j⟩
  have e := (h (σ.symm i)).2
  rw [Equiv.apply_symm_apply] at e
  rw [e] at hzi ⊢
  unfold copysign at hzi ⊢
  by_cases hc : comp c i < 0
  · rw [if_pos hc] at hzi ⊢
    simp only [hc, iff_true]
    have : ¬ comp c i = 0 := hc.ne
    rw [← hzi, neg_eq_zero] at this
    have h0 := abs_nonneg (cu2hoSorted |comp c (σ 0)| |comp c (σ 1)| |comp c (σ 2)| (σ.symm i))
    have := lt_of_le_of_ne h0 (Ne.symm this)
    linarith
  · rw [if_neg hc]
    simp only [hc, iff_false, not_lt]
    exact abs_nonneg _

/-- C84: `ho2cu` undoes `cu2ho` for every cubochoric vector (also outside the cube), however ties are
sorted in the two calls. -/
theorem C84_ho2cu_cu2ho (A B : Argsort) (c : V) : ho2cu B (cu2ho A c) = c := by
  obtain ⟨σ, hσ, h⟩ := cu2ho_spec A c
  have h1 : |comp c (σ 0)| ≤ |comp c (σ 1)| := hσ (by decide : (0 : Fin 3) ≤ 1)
  have h2 : |comp c (σ 1)| ≤ |comp c (σ 2)| := hσ (by decide : (1 : Fin 3) ≤ 2)
  obtain ⟨hn, hz, f1, f2, e1, e2, hN, hinv⟩ := fwd_all (abs_nonneg _) h1 h2
  obtain ⟨hw, hv⟩ := sort_transfer (v := fun i => |comp c i|) (w := fun i => |comp (cu2ho A c) i|)
    (cu2ho_order A c) σ (B.run fun i => |comp (cu2ho A c) i|) hσ (B.mono _)
  have hw' : ∀ j, |comp (cu2ho A c) ((B.run fun i => |comp (cu2ho A c) i|) j)| =
      |comp (cu2ho A c) (σ j)| := fun j => congrFun hw j
  have hv' : ∀ j, |comp c ((B.run fun i => |comp (cu2ho A c) i|) j)| = |comp c (σ j)| := fun j => congrFun hv j
  have hnorm : (cu2ho A c).norm = K * |comp c (σ 2)| := by
    rw [C84_radius, max_comp c σ hσ]; rfl
  apply comp_inj
  funext i
  unfold ho2cu
  simp only [comp_ofComp]
  rw [hw', hw', hw', (h 0).1, (h 1).1, (h 2).1, hnorm, hinv]
  set τ := B.run fun i => |comp (cu2ho A c) i| with hτ
  have hval : (![|comp c (σ 0)|, |comp c (σ 1)|, |comp c (σ 2)|] : Fin 3 → ℝ) (τ.symm i) = |comp c i| := by
    have e := hv' (τ.symm i)
    rw [Equiv.apply_symm_apply] at e
    rw [e]
    generalize τ.symm i = k
    fin_cases k <;> rfl
  rw [hval]
  have hs := (C84_sectors A c i i).1
  by_cases hc : comp c i < 0
  · unfold copysign; rw [if_pos (hs.mpr hc), abs_abs, abs_of_neg hc, neg_neg]
  · unfold copysign; rw [if_neg (mt hs.mp hc), abs_abs, abs_of_nonneg (not_lt.mp hc)]


theorem bwd_all {x y z r : ℝ} (hx : 0 ≤ x) (hxy : x ≤ y) (hyz : y ≤ z) (hr : r = √(x ^ 2 + y ^ 2 + z ^ 2)) :
    ∃ s m b : ℝ, ho2cuSorted r x y z = ![s, m, b] ∧ 0 ≤ s ∧ s ≤ m ∧ m ≤ b ∧ cu2hoSorted s m b = ![x, y, z] := by
  rcases (hx.trans hxy).lt_or_eq with hy | hy
  · have hz : 0 < z := hy.trans_le hyz
    obtain ⟨s, m, b, h1, h2, h3, -, h5, -, h7⟩ := fwd_bwd hx hxy hy hyz (r := r) (by rw [hr]; positivity)
      (by rw [hr, sq_sqrt (by positivity)])
    exact ⟨s, m, b, h1, h2, h3, h5, h7⟩
  · subst hy
    obtain rfl : x = 0 := le_antisymm hxy hx
    have hK := K_pos
    obtain ⟨h1, h2⟩ := bwd_fwd_zero (b := z / K) (by positivity)
    have e : K * (z / K) = z := by field_simp
    rw [e] at h1 h2
    have hrz : r = z := by rw [hr]; simp [sqrt_sq hyz]
    refine ⟨0, 0, z / K, by rw [hrz]; exact h2, le_refl _, le_refl _, by positivity, h1⟩

/-- C84: `cu2ho` undoes `ho2cu` for every homochoric vector. -/
theorem C84_cu2ho_ho2cu (A B : Argsort) (h : V) : cu2ho A (ho2cu B h) = h := by
  set σ := B.run fun i => |comp h i| with hσd
  have hσ : Monotone ((fun i => |comp h i|) ∘ σ) := B.mono _
  have h1 : |comp h (σ 0)| ≤ |comp h (σ 1)| := hσ (by decide : (0 : Fin 3) ≤ 1)
  have h2 : |comp h (σ 1)| ≤ |comp h (σ 2)| := hσ (by decide : (1 : Fin 3) ≤ 2)
  obtain ⟨s, m, b, e, s0, sm, mb, ef⟩ := bwd_all (abs_nonneg _) h1 h2 (norm_comp h σ)
  obtain ⟨-, hz, -, -, e1, e2, -, -⟩ := fwd_all s0 sm mb
  rw [ef] at hz e1 e2
  have hg : ∀ j, comp (ho2cu B h) (σ j) = copysign ((![s, m, b] : Fin 3 → ℝ) j) (comp h (σ j)) := by
    intro j
    unfold ho2cu
    simp only [comp_ofComp, ← hσd, e, Equiv.symm_apply_apply]
  have hga : ∀ j, |comp (ho2cu B h) (σ j)| = (![s, m, b] : Fin 3 → ℝ) j := by
    intro j; rw [hg j, abs_copysign, abs_of_nonneg]
    fin_cases j
    exacts [s0, s0.trans sm, (s0.trans sm).trans mb]
  have hx : ∀ j, |comp h (σ j)| = (![|comp h (σ 0)|, |comp h (σ 1)|, |comp h (σ 2)|] : Fin 3 → ℝ) j := by
    intro j; fin_cases j <;> rfl
  have hord : ∀ i j, |comp h i| ≤ |comp h j| ↔ |comp (ho2cu B h) i| ≤ |comp (ho2cu B h) j| := by
    intro i j
    have := order3 (F := fun a => |comp h (σ a)|) (G := fun a => |comp (ho2cu B h) (σ a)|) h1 h2
      (by simp only [hga]; exact sm) (by simp only [hga]; exact mb) (by simp only [hga]; exact e1)
      (by simp only [hga]; exact e2) (σ.symm i) (σ.symm j)
    simpa using this
  have hneg : ∀ i, comp (ho2cu B h) i < 0 ↔ comp h i < 0 := by
    intro i
    have hz1 : comp h i = 0 ↔ comp (ho2cu B h) i = 0 := by
      rw [← abs_eq_zero, ← abs_eq_zero (a := comp (ho2cu B h) i)]
      have a := hz (σ.symm i)
      rw [← hga, ← hx] at a
      simpa using a
    have := hg (σ.symm i)
    rw [Equiv.apply_symm_apply] at this
    rw [this] at hz1 ⊢
    unfold copysign at hz1 ⊢
    by_cases hc : comp h i < 0
    · rw [if_pos hc] at hz1 ⊢
      simp only [hc, iff_true]
      have h0 := abs_nonneg ((![s, m, b] : Fin 3 → ℝ) (σ.symm i))
      have h3 := mt hz1.mpr hc.ne
      rw [neg_eq_zero] at h3
      have := lt_of_le_of_ne h0 (Ne.symm h3)
      linarith
    · rw [if_neg hc]
      simp only [hc, iff_false, not_lt]
      exact abs_nonneg _
  obtain ⟨τ, hτ, ht⟩ := cu2ho_spec A (ho2cu B h)
  have hσ' : Monotone ((fun i => |comp (ho2cu B h) i|) ∘ σ) := fun i j hij => (hord _ _).mp (hσ hij)
  obtain ⟨hw, hv⟩ := sort_transfer (v := fun i => |comp (ho2cu B h) i|) (w := fun i => |comp h i|)
    hord σ τ hσ' (fun i j hij => (hord _ _).mpr (hτ hij))
  have hv' : ∀ j, |comp (ho2cu B h) (τ j)| = (![s, m, b] : Fin 3 → ℝ) j := fun j => by
    rw [← hga]; exact congrFun hv j
  have hw' : ∀ j, |comp h (τ j)| = (![|comp h (σ 0)|, |comp h (σ 1)|, |comp h (σ 2)|] : Fin 3 → ℝ) j := fun j => by
    rw [← hx]; exact congrFun hw j
  apply comp_inj
  funext i
  have e := (ht (τ.symm i)).2
  rw [hv', hv', hv', Equiv.apply_symm_apply] at e
  simp only [Matrix.cons_val_zero, Matrix.cons_val_one, Matrix.cons_val_two, Matrix.tail_cons, Matrix.head_cons] at e
  rw [ef, ← hw', Equiv.apply_symm_apply] at e
  rw [e]
  by_cases hc : comp h i < 0
  · unfold copysign; rw [if_pos ((hneg i).mpr hc), abs_abs, abs_of_neg hc, neg_neg]
  · unfold copysign; rw [if_neg (mt (hneg i).mp hc), abs_abs, abs_of_nonneg (not_lt.mp hc)]

/-- C84: the cubochoric cube (half edge `½ π^(2/3)`) corresponds exactly to the homochoric ball of all
rotations (radius `(3π/4)^(1/3)`). -/
theorem C84_cube_is_ball (A : Argsort) (c : V) :
    (|c.x| ≤ 1 / 2 * π ^ ((2 : ℝ) / 3) ∧ |c.y| ≤ 1 / 2 * π ^ ((2 : ℝ) / 3) ∧ |c.z| ≤ 1 / 2 * π ^ ((2 : ℝ) / 3)) ↔
      (cu2ho A c).norm ≤ (3 * π / 4) ^ ((1 : ℝ) / 3) := by
  have hK := K_pos
  have e : (3 * π / 4) ^ ((1 : ℝ) / 3) = K * (1 / 2 * π ^ ((2 : ℝ) / 3)) := by
    have h1 : (1 / 2 : ℝ) = ((1 / 8 : ℝ)) ^ ((1 : ℝ) / 3) := by
      rw [show (1 / 8 : ℝ) = (1 / 2) ^ (3 : ℝ) by norm_num, ← rpow_mul (by norm_num)]; norm_num
    have h2 : π ^ ((2 : ℝ) / 3) = (π ^ (2:ℝ)) ^ ((1 : ℝ) / 3) := by
      rw [← rpow_mul pi_pos.le]; norm_num
    have hp := pi_pos
    rw [h1, h2]
    unfold K
    rw [← mul_rpow (by positivity) (by positivity), ← mul_rpow (by positivity) (by positivity)]
    congr 1
    rw [rpow_two]; field_simp; norm_num
  rw [C84_radius, e]
  change _ ↔ K * _ ≤ _
  rw [mul_le_mul_iff_right₀ hK, max_le_iff, max_le_iff, and_assoc]

/-- some argsort exists -/
theorem argsort_exists : Nonempty Argsort :=
  ⟨⟨Tuple.sort, fun v => ⟨Tuple.monotone_sort v (by decide : (0 : Fin 3) ≤ 1),
    Tuple.monotone_sort v (by decide : (1 : Fin 3) ≤ 2)⟩⟩⟩

/-- non-vacuity: a tie with mixed signs, and the centre of a face. -/
example : ∃ A : Argsort, ho2cu A (cu2ho A ⟨-1, 1, 1⟩) = ⟨-1, 1, 1⟩ ∧
    (cu2ho A ⟨0, 0, -1⟩).norm = (6 / π) ^ ((1 : ℝ) / 3) := by
  obtain ⟨A⟩ := argsort_exists
  refine ⟨A, C84_ho2cu_cu2ho A A _, ?_⟩
  rw [C84_radius]; simp

end Verif.Cubo
