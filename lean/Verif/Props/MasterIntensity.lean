import Verif.Props.MasterSim
/-!
C94 continued: intensities are non-negative; where the code departs from its documentation.
-/
namespace Verif.Diff
open Cryst Matrix
open SG (Err)

/-! ### Non-negative intensities -/

lemma re_list_sum (l : List ℂ) : l.sum.re = (l.map Complex.re).sum := by
  induction l with
  | nil => simp
  | cons x xs ih => simp [ih]

lemma finset_list_sum {α : Type} {n : ℕ} (l : List α) (f : Fin n → Fin n → α → ℝ) :
    ∑ i, ∑ j, (l.map (f i j)).sum = (l.map fun r => ∑ i, ∑ j, f i j r).sum := by
  induction l with
  | nil => simp
  | cons x xs ih =>
    simp only [List.map_cons, List.sum_cons, Finset.sum_add_distrib, ih]

/-- The quadratic form of one site on one wave function. -/
lemma quad_nonneg {l : Lattice} (h : 0 < l.dmt.det) (s : Site) (ho : 0 ≤ s.occ) (hd : 0 ≤ s.dw) (gs : List Hkl)
    (psi : Fin gs.length → ℂ) : 0 ≤ siteIntensity (sgh l s gs) (outer psi) := by
  have hterm : ∀ i j, (sgh l s gs i j * outer psi i j).re = (s.pos.map fun r =>
      s.Z ^ 2 * s.occ * (Real.exp (-(0.25 * s.dw) * ∑ k, (cart l (hklVec (gs.get j)) k - cart l (hklVec (gs.get i)) k) *
        (cart l (hklVec (gs.get j)) k - cart l (hklVec (gs.get i)) k)) *
      ((psi i * Complex.exp (-(2 * Real.pi * hklDot (gs.get i) r : ℝ) * Complex.I)) *
        (starRingEnd ℂ) (psi j * Complex.exp (-(2 * Real.pi * hklDot (gs.get j) r : ℝ) * Complex.I))).re)).sum := by
    intro i j
    have hlen : calcLength l (hklVec (sub (gs.get j) (gs.get i))) .r ^ 2 =
        ∑ k, (cart l (hklVec (gs.get j)) k - cart l (hklVec (gs.get i)) k) *
          (cart l (hklVec (gs.get j)) k - cart l (hklVec (gs.get i)) k) := by
      rw [(C78_length_angle l h _ 0 .r).1, hklVec_sub]
      have : cartesian l .r (hklVec (gs.get j) - hklVec (gs.get i)) =
          cart l (hklVec (gs.get j)) - cart l (hklVec (gs.get i)) := by
        exact Matrix.mulVec_sub _ _ _
      rw [this]; rfl
    unfold sgh sghTerm
    simp only
    rw [hlen, mul_assoc, ← List.sum_map_mul_right, re_list_sum, List.map_map]
    congr 1
    apply List.map_congr_left
    intro r _
    simp only [Function.comp, outer]
    have e1 : (Real.cos (2 * Real.pi * hklDot (sub (gs.get j) (gs.get i)) r) : ℂ) +
        Complex.I * Real.sin (2 * Real.pi * hklDot (sub (gs.get j) (gs.get i)) r) =
        Complex.exp (-(2 * Real.pi * hklDot (gs.get i) r : ℝ) * Complex.I) *
          (starRingEnd ℂ) (Complex.exp (-(2 * Real.pi * hklDot (gs.get j) r : ℝ) * Complex.I)) := by
      rw [← Complex.exp_conj, ← Complex.exp_add, hklDot_sub]
      have : -((2 * Real.pi * hklDot (gs.get i) r : ℝ) : ℂ) * Complex.I +
          (starRingEnd ℂ) (-((2 * Real.pi * hklDot (gs.get j) r : ℝ) : ℂ) * Complex.I) =
          ((2 * Real.pi * (hklDot (gs.get j) r - hklDot (gs.get i) r) : ℝ) : ℂ) * Complex.I := by
        simp only [map_mul, map_neg, Complex.conj_ofReal, Complex.conj_I]; push_cast; ring
      rw [this, Complex.exp_mul_I, ← Complex.ofReal_cos, ← Complex.ofReal_sin]; ring
    rw [e1]
    have e2 : -s.dw * (0.25 * ∑ k, (cart l (hklVec (gs.get j)) k - cart l (hklVec (gs.get i)) k) *
        (cart l (hklVec (gs.get j)) k - cart l (hklVec (gs.get i)) k)) = -(0.25 * s.dw) *
        ∑ k, (cart l (hklVec (gs.get j)) k - cart l (hklVec (gs.get i)) k) *
        (cart l (hklVec (gs.get j)) k - cart l (hklVec (gs.get i)) k) := by ring
    rw [e2, map_mul]
    generalize Real.exp _ = E
    generalize Complex.exp _ = a
    generalize (starRingEnd ℂ) (Complex.exp _) = b
    have : a * b * (((s.Z ^ 2 * s.occ * E : ℝ) : ℂ) * (psi i * (starRingEnd ℂ) (psi j))) =
        ((s.Z ^ 2 * s.occ * E : ℝ) : ℂ) * (psi i * a * ((starRingEnd ℂ) (psi j) * b)) := by ring
    rw [this, Complex.re_ofReal_mul]; ring
  unfold siteIntensity
  simp only [hterm]
  rw [finset_list_sum]
  apply List.sum_nonneg
  intro y hy
  obtain ⟨r, -, rfl⟩ := List.mem_map.1 hy
  have split : ∀ i j, s.Z ^ 2 * s.occ * (Real.exp (-(0.25 * s.dw) * ∑ k, (cart l (hklVec (gs.get j)) k - cart l (hklVec (gs.get i)) k) *
        (cart l (hklVec (gs.get j)) k - cart l (hklVec (gs.get i)) k)) *
      ((psi i * Complex.exp (-(2 * Real.pi * hklDot (gs.get i) r : ℝ) * Complex.I)) *
        (starRingEnd ℂ) (psi j * Complex.exp (-(2 * Real.pi * hklDot (gs.get j) r : ℝ) * Complex.I))).re) =
      s.Z ^ 2 * s.occ * ((psi i * Complex.exp (-(2 * Real.pi * hklDot (gs.get i) r : ℝ) * Complex.I)).re *
        (psi j * Complex.exp (-(2 * Real.pi * hklDot (gs.get j) r : ℝ) * Complex.I)).re *
        Real.exp (-(0.25 * s.dw) * ∑ k, (cart l (hklVec (gs.get j)) k - cart l (hklVec (gs.get i)) k) *
          (cart l (hklVec (gs.get j)) k - cart l (hklVec (gs.get i)) k))) +
      s.Z ^ 2 * s.occ * ((psi i * Complex.exp (-(2 * Real.pi * hklDot (gs.get i) r : ℝ) * Complex.I)).im *
        (psi j * Complex.exp (-(2 * Real.pi * hklDot (gs.get j) r : ℝ) * Complex.I)).im *
        Real.exp (-(0.25 * s.dw) * ∑ k, (cart l (hklVec (gs.get j)) k - cart l (hklVec (gs.get i)) k) *
          (cart l (hklVec (gs.get j)) k - cart l (hklVec (gs.get i)) k))) := by
    intro i j
    generalize Real.exp _ = E
    generalize psi i * Complex.exp _ = p
    generalize psi j * Complex.exp _ = q
    simp only [Complex.mul_re, Complex.conj_re, Complex.conj_im]; ring
  simp only [split, Finset.sum_add_distrib, ← Finset.mul_sum]
  have hz : 0 ≤ s.Z ^ 2 * s.occ := mul_nonneg (sq_nonneg _) ho
  have hb : 0 ≤ 0.25 * s.dw := mul_nonneg (by norm_num) hd
  exact add_nonneg
    (mul_nonneg hz (Gauss.gauss_kernel (fun i => cart l (hklVec (gs.get i))) (fun i => (psi i * _).re) hb))
    (mul_nonneg hz (Gauss.gauss_kernel (fun i => cart l (hklVec (gs.get i))) (fun i => (psi i * _).im) hb))

lemma siteIntensity_add {n : ℕ} (S L M : Matrix (Fin n) (Fin n) ℂ) :
    siteIntensity S (L + M) = siteIntensity S L + siteIntensity S M := by
  simp only [siteIntensity, Matrix.add_apply, mul_add, Complex.add_re, Finset.sum_add_distrib]

lemma siteIntensity_smul {n : ℕ} (S L : Matrix (Fin n) (Fin n) ℂ) (w : ℝ) :
    siteIntensity S ((w : ℂ) • L) = w * siteIntensity S L := by
  simp only [siteIntensity, Finset.mul_sum]
  refine Finset.sum_congr rfl fun i _ => Finset.sum_congr rfl fun j _ => ?_
  rw [Matrix.smul_apply, smul_eq_mul, show S i j * ((w : ℂ) * L i j) = (w : ℂ) * (S i j * L i j) by ring, Complex.re_ofReal_mul]

lemma siteIntensity_list {n : ℕ} (S : Matrix (Fin n) (Fin n) ℂ) (Ls : List (Matrix (Fin n) (Fin n) ℂ)) :
    siteIntensity S Ls.sum = (Ls.map (siteIntensity S)).sum := by
  induction Ls with
  | nil => simp [siteIntensity]
  | cons x xs ih => simp only [List.sum_cons, List.map_cons, siteIntensity_add, ih]

lemma column_nonneg {c : Crystal} (h : 0 < c.l.dmt.det) (hs : ∀ s ∈ c.sites, 0 ≤ s.occ ∧ 0 ≤ s.dw) (gs : List Hkl)
    (U : Matrix (Fin gs.length) (Fin gs.length) ℂ) (up : Fin gs.length → ℝ) (lam : ℝ) (ws : List ℝ) (hw : ∀ w ∈ ws, 0 ≤ w)
    (k : Vec) : ∀ x ∈ column c gs U up lam ws k, 0 ≤ x := by
  intro x hx
  unfold column at hx
  obtain ⟨s, hsm, rfl⟩ := List.mem_map.1 hx
  rw [depthLoop_pow]
  simp only
  rw [siteIntensity_list, List.map_map]
  apply List.sum_nonneg
  intro y hy
  obtain ⟨p, hp, rfl⟩ := List.mem_map.1 hy
  simp only [Function.comp, siteIntensity_smul]
  have hp1 : p.1 ∈ ws := by
    have := List.fst_mem_of_mem_zipIdx hp
    exact this
  exact mul_nonneg (hw _ hp1) (quad_nonneg h s (hs s hsm).1 (hs s hsm).2 gs _)

lemma mapM_mem {α β ε : Type} {f : α → Except ε β} {l : List α} {r : List β} (h : l.mapM f = .ok r) :
    ∀ y ∈ r, ∃ x ∈ l, f x = .ok y := by
  induction l generalizing r with
  | nil =>
    rw [List.mapM_nil] at h
    cases h
    simp
  | cons x xs ih =>
    rw [List.mapM_cons] at h
    cases hx : f x with
    | error e => rw [hx] at h; cases h
    | ok a =>
      rw [hx] at h
      cases hxs : xs.mapM f with
      | error e => rw [hxs] at h; cases h
      | ok as =>
        rw [hxs] at h
        cases h
        intro y hy
        rcases List.mem_cons.1 hy with rfl | hy
        · exact ⟨x, by simp, hx⟩
        · obtain ⟨z, hz, e⟩ := ih hxs y hy
          exact ⟨z, by simp [hz], e⟩

/-- **C94**.  For every crystal with non-negative occupancies and Debye–Waller factors, every voltage list, every
non-negative table of Monte Carlo weights and every scattering factor: all intensities that `ebsd_master_pattern` returns
are non-negative. -/
theorem C94_nonneg (mem : ℤ → ℂ) (sf : ScatterFactor) (c : Crystal) (h : 0 < c.l.dmt.det)
    (hs : ∀ s ∈ c.sites, 0 ≤ s.occ ∧ 0 ≤ s.dw) (kVs : List ℝ) (ds : ℝ) (mc : List (List ℝ))
    (hmc : ∀ r ∈ mc, ∀ w ∈ r, 0 ≤ w) (dmin : ℝ) (chunk : ℕ) (dirs : List Vec) (ab : Bool) (P : List (List (List ℝ)))
    (hP : masterPattern mem sf c kVs ds mc dmin chunk dirs ab = .ok P) : ∀ p ∈ P, ∀ col ∈ p, ∀ x ∈ col, 0 ≤ x := by
  unfold masterPattern at hP
  cases hd : diffs c dmin with
  | error e => rw [hd] at hP; cases hP
  | ok dl =>
    cases hg : beams c dmin with
    | error e => rw [hd, hg] at hP; cases hP
    | ok gs =>
      rw [hd, hg] at hP
      simp only [Except.bind] at hP
      intro p hp
      obtain ⟨⟨v, i⟩, -, e⟩ := mapM_mem hP p hp
      simp only at e
      by_cases hc : chunk = 0
      · rw [if_pos hc] at e; cases e
      · rw [if_neg hc] at e
        by_cases hdr : dirs = []
        · rw [if_pos hdr] at e; cases e; simp
        · rw [if_neg hdr] at e
          by_cases ha : ab = false
          · rw [if_pos ha] at e; cases e
          · rw [if_neg ha] at e
            cases hb : broadcastUp (kVs.map fun v => upmod0 sf c v ab) gs.length with
            | error x => rw [hb] at e; cases e
            | ok up =>
              rw [hb] at e
              simp only at e
              cases hr : (normWeights mc)[i]? with
              | none => rw [hr] at e; cases e
              | some row =>
                rw [hr] at e
                simp only at e
                rw [chunkLoop_eq hc _ _ (fun k => by simp [column])] at e
                have e := Except.ok.inj e
                subst e
                intro col hcol
                obtain ⟨k, -, rfl⟩ := List.mem_map.1 hcol
                refine column_nonneg h hs gs _ up _ _ (fun w hw => ?_) k
                have hrow : row ∈ normWeights mc := List.mem_of_getElem? hr
                unfold normWeights at hrow
                obtain ⟨r, hrm, rfl⟩ := List.mem_map.1 hrow
                obtain ⟨x, hx, rfl⟩ := List.mem_map.1 (List.mem_of_mem_take hw)
                refine div_nonneg (hmc r hrm x hx) ?_
                apply List.sum_nonneg
                intro y hy
                obtain ⟨r', hr', rfl⟩ := List.mem_map.1 hy
                exact List.sum_nonneg (hmc r' hr')

/-! ### Departures from the documentation -/

/-- Two or more voltages make the call fail (unless their number happens to equal the number of beams), because the
absorption of all voltages is broadcast against the beams. -/
theorem C94_voltages_fails (mem : ℤ → ℂ) (sf : ScatterFactor) (c : Crystal) (kVs : List ℝ) (ds : ℝ) (mc : List (List ℝ))
    (dmin : ℝ) (chunk : ℕ) (hc : chunk ≠ 0) (dirs : List Vec) (hd : dirs ≠ []) (gs : List Hkl) (hg : beams c dmin = .ok gs)
    (h2 : 2 ≤ kVs.length) (hn : kVs.length ≠ gs.length) :
    masterPattern mem sf c kVs ds mc dmin chunk dirs true = .error .runtimeError := by
  have hdl : ∃ dl, diffs c dmin = .ok dl := by
    obtain ⟨t, ht, -⟩ := except_map_ok hg
    have hm := limits_ne ht
    unfold diffs getReflections
    simp only [hm, if_false]
    exact ⟨_, rfl⟩
  obtain ⟨dl, hdl⟩ := hdl
  unfold masterPattern
  rw [hdl, hg]
  obtain ⟨v, vs, rfl⟩ : ∃ v vs, kVs = v :: vs := by
    cases kVs with
    | nil => simp at h2
    | cons v vs => exact ⟨v, vs, rfl⟩
  simp only [Except.bind, List.zipIdx_cons, List.mapM_cons, if_neg hc, if_neg hd, Bool.true_eq_false, if_false]
  have : broadcastUp ((v :: vs).map fun v => upmod0 sf c v true) gs.length = .error .runtimeError := by
    unfold broadcastUp
    rw [List.length_map, if_neg (by omega), if_neg hn]
  rw [this]
  rfl

/-- `absorption=False` always fails. -/
theorem C94_absorption_fails (mem : ℤ → ℂ) (sf : ScatterFactor) (c : Crystal) (v : ℝ) (vs : List ℝ) (ds : ℝ)
    (mc : List (List ℝ)) (dmin : ℝ) (chunk : ℕ) (hc : chunk ≠ 0) (dirs : List Vec) (hd : dirs ≠ []) (gs : List Hkl)
    (hg : beams c dmin = .ok gs) :
    masterPattern mem sf c (v :: vs) ds mc dmin chunk dirs false = .error .runtimeError := by
  have hdl : ∃ dl, diffs c dmin = .ok dl := by
    obtain ⟨t, ht, -⟩ := except_map_ok hg
    have hm := limits_ne ht
    unfold diffs getReflections
    simp only [hm, if_false]
    exact ⟨_, rfl⟩
  obtain ⟨dl, hdl⟩ := hdl
  unfold masterPattern
  rw [hdl, hg]
  simp only [Except.bind, List.zipIdx_cons, List.mapM_cons, if_neg hc, if_neg hd, if_true]
  rfl

/-! ### Depths -/

lemma cumsum_aux (l : List ℝ) (acc : List ℝ) (a : ℝ) :
    l.foldl (fun (s : List ℝ × ℝ) x => (s.1 ++ [s.2 + x], s.2 + x)) (acc, a) =
      (acc ++ (List.range l.length).map fun i => a + (l.take (i + 1)).sum, a + l.sum) := by
  induction l generalizing acc a with
  | nil => simp
  | cons x xs ih =>
    rw [List.foldl_cons, ih]
    simp only [List.append_assoc, List.length_cons, List.range_succ_eq_map, List.map_cons, List.map_map, List.sum_cons,
      List.take_succ_cons, List.take_zero, List.sum_nil, add_zero, List.singleton_append, Prod.mk.injEq, add_assoc, and_true]
    congr 2

lemma cumsum_eq (l : List ℝ) : cumsum l = (List.range l.length).map fun i => (l.take (i + 1)).sum := by
  unfold cumsum
  rw [cumsum_aux]; simp

lemma sum_map_div (l : List ℝ) (t : ℝ) : (l.map (· / t)).sum = l.sum / t := by
  induction l with
  | nil => simp
  | cons x xs ih => simp only [List.map_cons, List.sum_cons, ih]; ring

/-- **C94** (depths).  `depth_cutoffs` is the first depth by which at least 95 % of the weight has escaped: the weights up
to and including that depth hold at least 95 % of the total, the weights before it hold less. -/
theorem C94_cutoff (row : List ℝ) (h : 0 < row.sum) : depthCutoff row < row.length ∧
    0.95 * row.sum ≤ (row.take (depthCutoff row + 1)).sum ∧
    ∀ i < depthCutoff row, (row.take (i + 1)).sum < 0.95 * row.sum := by
  have hne : row ≠ [] := by rintro rfl; simp at h
  have hlen : 0 < row.length := List.length_pos_iff.2 hne
  have e : cumsum (row.map (· / row.sum)) = (List.range row.length).map fun i => (row.take (i + 1)).sum / row.sum := by
    rw [cumsum_eq, List.length_map]
    apply List.map_congr_left
    intro i _
    rw [← List.map_take, sum_map_div]
  cases hf : (cumsum (row.map (· / row.sum))).findIdx? fun x => decide (0.95 ≤ x) with
  | none =>
    exfalso
    rw [List.findIdx?_eq_none_iff] at hf
    have := hf (row.sum / row.sum) (by
      rw [e, List.mem_map]
      exact ⟨row.length - 1, by simp [hlen], by
        rw [Nat.sub_add_cancel hlen, List.take_of_length_le le_rfl]⟩)
    rw [div_self h.ne'] at this
    norm_num at this
  | some c =>
    have hc : depthCutoff row = c := by unfold depthCutoff; rw [hf]; rfl
    rw [hc]
    rw [List.findIdx?_eq_some_iff_getElem] at hf
    obtain ⟨hlt, hp, hb⟩ := hf
    have hl : (cumsum (row.map (· / row.sum))).length = row.length := by rw [e]; simp
    have get : ∀ i (hi : i < (cumsum (row.map (· / row.sum))).length),
        (cumsum (row.map (· / row.sum)))[i] = (row.take (i + 1)).sum / row.sum := by
      intro i hi
      simp only [e, List.getElem_map, List.getElem_range]
    refine ⟨by omega, ?_, ?_⟩
    · rw [get, decide_eq_true_eq, le_div_iff₀ h] at hp
      exact hp
    · intro i hi
      have := hb i hi
      rw [get, decide_eq_true_eq, not_le, div_lt_iff₀ h] at this
      exact this

/-- The depth loop leaves out the cut-off depth itself: for every row of weights with positive sum it covers **less** than
95 % of the weight (never at least 95 %). -/
theorem C94_depth_fails (row : List ℝ) (h : 0 < row.sum) :
    (row.take (min (depthCutoff row) 100)).sum < 0.95 * row.sum := by
  obtain ⟨h1, h2, h3⟩ := C94_cutoff row h
  rcases Nat.eq_zero_or_pos (min (depthCutoff row) 100) with e | e
  · rw [e, List.take_zero, List.sum_nil]; exact mul_pos (by norm_num) h
  · have := h3 (min (depthCutoff row) 100 - 1) (by omega)
    rwa [Nat.sub_add_cancel e] at this

/-- If the first depth already holds 95 % of the weight, no depth at all is used and the pattern is identically zero. -/
theorem C94_shallow_fails (c : Crystal) (gs : List Hkl) (U : Matrix (Fin gs.length) (Fin gs.length) ℂ)
    (up : Fin gs.length → ℝ) (lam : ℝ) (w : ℝ) (row : List ℝ) (h : 0 < (w :: row).sum) (hw : 0.95 * (w :: row).sum ≤ w) (k : Vec) :
    column c gs U up lam ((w :: row).take (min (depthCutoff (w :: row)) 100)) k = c.sites.map fun _ => 0 := by
  obtain ⟨h1, h2, h3⟩ := C94_cutoff (w :: row) h
  have : depthCutoff (w :: row) = 0 := by
    by_contra hne
    have := h3 0 (Nat.pos_of_ne_zero hne)
    simp only [zero_add, List.take_succ_cons, List.take_zero, List.sum_singleton] at this
    linarith
  rw [this]
  unfold column
  simp [depthLoop, siteIntensity]

/-! ### The physical reading -/

/-- The opposite reflection. -/
def neg (g : Hkl) : Hkl := (-g.1, -g.2.1, -g.2.2)

/-- Excitation error of the textbook (De Graef, eq. 2.86): `-g·(2k + g) / (2 |k + g| cos α)` with `α` the angle of `k + g` and `k`; the inner products are
those of the metric tensor `G`. -/
noncomputable def excitation (G : M3) (g k : Vec) : ℝ :=
  -(g ⬝ᵥ G.mulVec ((2 : ℝ) • k + g)) /
    (2 * √((k + g) ⬝ᵥ G.mulVec (k + g)) * ((k + g) ⬝ᵥ G.mulVec k / (√((k + g) ⬝ᵥ G.mulVec (k + g)) * √(k ⬝ᵥ G.mulVec k))))

lemma form_dot (G : M3) (p q : Vec) : form G p q = p ⬝ᵥ G.mulVec q := by
  simp only [form, dotProduct, Matrix.mulVec, Finset.mul_sum, mul_assoc]

lemma sgBatched_excitation (G : M3) (g k : Vec) : sgBatched G g k = excitation G g k := by
  simp only [sgBatched, excitation, form_dot]

/-- The Darwin–Howie–Whelan matrix of the textbook for the beams `g`: off-diagonal `U(g - h)`, diagonal `2 s_g/λ + i U'_0`,
times `iπλ`; the excitation error of the first beam is zero. -/
noncomputable def physMatrix {n : ℕ} (rmt : M3) (g : Fin n → Hkl) (U : Hkl → ℂ) (up lam : ℝ) (k : Vec) :
    Matrix (Fin n) (Fin n) ℂ :=
  fun i j => Complex.I * Real.pi * (lam : ℂ) *
    (if i = j then ((2 * (if i.val = 0 then 0 else excitation rmt ![((g i).1 : ℝ), (g i).2.1, (g i).2.2] k) / lam : ℝ) : ℂ) + (up : ℂ) * Complex.I
      else U ((g i).1 - (g j).1, (g i).2.1 - (g j).2.1, (g i).2.2 - (g j).2.2))

/-- The back-scattered intensity of the textbook for one site: `Σ_r Σ_{g,h} Z² occ DW(g-h) ψ_g ψ_h^* exp(2πi (g-h)·r)`. -/
noncomputable def physIntensity {n : ℕ} (l : Lattice) (s : Site) (g : Fin n → Hkl) (psi : Fin n → ℂ) : ℝ :=
  ∑ i, ∑ j, (s.pos.map fun r => ((s.Z ^ 2 * s.occ * Real.exp (-s.dw * (0.25 * calcLength l (hklVec (sub (g i) (g j))) .r ^ 2)) : ℝ) *
    (psi i * (starRingEnd ℂ) (psi j)) * 
    Complex.exp ((2 * Real.pi * (((g i).1 - (g j).1) * r 0 + ((g i).2.1 - (g j).2.1) * r 1 + ((g i).2.2 - (g j).2.2) * r 2) : ℝ) * Complex.I)).re).sum

lemma sub_neg' (g h : Hkl) : sub (neg g) (neg h) = sub h g := by
  unfold sub neg; ext <;> simp <;> ring

lemma hklVec_neg (g : Hkl) : hklVec (neg g) = -hklVec g := by
  unfold hklVec neg; ext i; fin_cases i <;> simp

/-- **C94** (physical reading).  Both tables use the difference column minus row, consistently: the intensity returned for
the wave vector `k` is the textbook intensity of the opposite beams `-g` for the wave vector `-k`, summed over the depths
with their weights.  (For a list of beams closed under negation this is the textbook value at `-k`.) -/
theorem C94_physical (sf : ScatterFactor) (c : Crystal) (gs : List Hkl) (kV up lam : ℝ) (ws : List ℝ) (k : Vec) :
    column c gs (fun i j => ucg sf c kV true (sub (gs.get j) (gs.get i))) (fun _ => up) lam ws k =
      c.sites.map fun s => (ws.zipIdx.map fun p => p.1 * physIntensity c.l s (fun i => neg (gs.get i))
        ((NormedSpace.exp ((p.2 + 1) • physMatrix c.l.rmt (fun i => neg (gs.get i)) (ucg sf c kV true) up lam (-k))).mulVec
          (psi0 gs.length))).sum := by
  have hM : structMatrix c.l gs (fun i j => ucg sf c kV true (sub (gs.get j) (gs.get i))) (fun _ => up) lam k =
      physMatrix c.l.rmt (fun i => neg (gs.get i)) (ucg sf c kV true) up lam (-k) := by
    ext i j
    unfold structMatrix physMatrix
    change _ = Complex.I * Real.pi * (lam : ℂ) *
      (if i = j then ((2 * (if i.val = 0 then 0 else excitation c.l.rmt (hklVec (neg (gs.get i))) (-k)) / lam : ℝ) : ℂ) + (up : ℂ) * Complex.I
        else ucg sf c kV true (sub (neg (gs.get i)) (neg (gs.get j))))
    rw [← sgBatched_excitation]
    by_cases e : i = j
    · subst e
      simp only [if_true, zero_add]
      have hs : sgRow c.l gs k i = if i.val = 0 then 0 else sgBatched c.l.rmt (hklVec (neg (gs.get i))) (-k) := by
        unfold sgRow
        congr 1
        rw [hklVec_neg]
        have := C92_symmetric c.l.rmt (-LinearMap.id) (fun p q => by
          simp [form]) (hklVec (gs.get i)) k
        simpa using this.symm
      rw [hs, mul_comm, Complex.mk_eq_add_mul_I]
    · rw [if_neg e, if_neg e, if_neg e, add_zero, sub_neg', mul_comm]
  unfold column
  simp only
  apply List.map_congr_left
  intro s _
  rw [C94_wave, hM]
  simp only
  rw [siteIntensity_list, List.map_map]
  congr 1
  apply List.map_congr_left
  intro p _
  simp only [Function.comp, siteIntensity_smul]
  congr 1
  suffices key : ∀ psi : Fin gs.length → ℂ,
      siteIntensity (sgh c.l s gs) (outer psi) = physIntensity c.l s (fun i => neg (gs.get i)) psi from key _
  intro psi
  unfold siteIntensity physIntensity
  refine Finset.sum_congr rfl fun i _ => Finset.sum_congr rfl fun j _ => ?_
  rw [sub_neg']
  unfold sgh sghTerm
  simp only
  rw [mul_assoc, ← List.sum_map_mul_right, re_list_sum, List.map_map]
  congr 1
  apply List.map_congr_left
  intro r _
  simp only [Function.comp, outer]
  congr 1
  have e : (((neg (gs.get i)).1 - (neg (gs.get j)).1) * r 0 + ((neg (gs.get i)).2.1 - (neg (gs.get j)).2.1) * r 1 +
      ((neg (gs.get i)).2.2 - (neg (gs.get j)).2.2) * r 2 : ℝ) = hklDot (sub (gs.get j) (gs.get i)) r := by
    simp only [neg, hklDot, sub]; push_cast; ring
  rw [e, Complex.exp_mul_I, ← Complex.ofReal_cos, ← Complex.ofReal_sin]; ring

/-! ### Concrete cases -/

/-- The hypotheses of the theorems above are met: the call returns a pattern for the concrete crystal and a scattering
factor without absorption, for two directions and weights over two depths. -/
example (mem : ℤ → ℂ) : ∃ P, masterPattern mem (fun _ Z _ _ => (Z : ℂ)) demo [20] 1 [[3, 1]] 0.4 7 [![0, 0, 1], ![1, 1, 1]] true = .ok P ∧
    0 < demo.l.dmt.det ∧ (∀ s ∈ demo.sites, 0 ≤ s.occ ∧ 0 ≤ s.dw) ∧ (∀ r ∈ [[(3:ℝ), 1]], ∀ w ∈ r, 0 ≤ w) := by
  obtain ⟨gs, ds, h1, h2⟩ := demo_tables
  obtain ⟨w, -, e⟩ := C94_value mem (fun _ Z _ _ => (Z : ℂ)) demo (by decide) (by decide) 20 1 [3, 1] [] 0.4 7 (by decide)
    [![0, 0, 1], ![1, 1, 1]] gs h1
  refine ⟨_, e, demo_det, ?_, ?_⟩
  · intro s hs
    simp only [demo, List.mem_cons, List.not_mem_nil, or_false] at hs
    rcases hs with rfl | rfl <;> norm_num
  · simp

/-- Weights 3 : 1 over two depths: the cut-off is the second depth. -/
example : depthCutoff [3, 1] = 1 := by
  obtain ⟨h1, h2, h3⟩ := C94_cutoff [3, 1] (by norm_num)
  by_contra hne
  have h0 : depthCutoff [3, 1] = 0 := by simp at h1; omega
  rw [h0] at h2
  norm_num at h2

end Verif.Diff
