import Verif.Props.StructMatrix
import Verif.Lemmas.GaussPsd
/-!
C94: the simulated master pattern.
-/
namespace Verif.Diff
open Cryst Matrix
open SG (Err)

/-! ### Chunks -/

lemma zip_zero {n : ℕ} (l : List ℝ) (h : l.length = n) : List.zipWith (· + ·) (List.replicate n (0:ℝ)) l = l := by
  induction l generalizing n with
  | nil => cases h; rfl
  | cons x xs ih =>
    cases h
    simp only [List.length_cons, List.replicate_succ, List.zipWith_cons_cons, zero_add]
    rw [ih rfl]

lemma zip_zeros {n : ℕ} (vs : List (List ℝ)) (h : ∀ v ∈ vs, v.length = n) :
    List.zipWith (List.zipWith (· + ·)) (List.replicate vs.length (List.replicate n (0:ℝ))) vs = vs := by
  induction vs with
  | nil => rfl
  | cons x xs ih =>
    simp only [List.length_cons, List.replicate_succ, List.zipWith_cons_cons]
    rw [zip_zero x (h x (by simp)), ih (fun v hv => h v (by simp [hv]))]

lemma addSlice_step {n : ℕ} (ks : List Vec) (f : Vec → List ℝ) (hf : ∀ k, (f k).length = n) (s chunk : ℕ) (hs : s ≤ ks.length) :
    addSlice ((ks.take s).map f ++ List.replicate (ks.length - s) (List.replicate n 0)) s (((ks.drop s).take chunk).map f) =
      (ks.take (s + chunk)).map f ++ List.replicate (ks.length - (s + chunk)) (List.replicate n 0) := by
  have hA : ((ks.take s).map f).length = s := by simp [hs]
  have hv : (((ks.drop s).take chunk).map f).length = min chunk (ks.length - s) := by simp
  unfold addSlice
  rw [List.take_append_of_le_length (by rw [hA]), List.take_of_length_le (by rw [hA])]
  rw [show List.drop s ((ks.take s).map f ++ List.replicate (ks.length - s) (List.replicate n (0:ℝ))) =
    List.replicate (ks.length - s) (List.replicate n 0) by
      rw [List.drop_append, hA, List.drop_of_length_le (by rw [hA]), Nat.sub_self, List.drop_zero, List.nil_append]]
  rw [show List.drop (s + (((ks.drop s).take chunk).map f).length)
      ((ks.take s).map f ++ List.replicate (ks.length - s) (List.replicate n (0:ℝ))) =
      List.replicate (ks.length - (s + chunk)) (List.replicate n 0) by
        rw [List.drop_append, hA, List.drop_of_length_le (by rw [hA]; omega), List.nil_append, List.drop_replicate, hv]
        congr 1
        omega]
  rw [List.take_replicate, show min (((ks.drop s).take chunk).map f).length (ks.length - s) =
    (((ks.drop s).take chunk).map f).length by rw [hv]; omega]
  rw [zip_zeros]
  · rw [List.take_add, List.map_append]
  · intro v hv
    obtain ⟨k, -, rfl⟩ := List.mem_map.1 hv
    exact hf k

lemma chunkLoop_eq {n chunk : ℕ} (hc : chunk ≠ 0) (ks : List Vec) (f : Vec → List ℝ) (hf : ∀ k, (f k).length = n) :
    chunkLoop n chunk ks f = .ok (ks.map f) := by
  unfold chunkLoop
  rw [if_neg hc]
  congr 1
  have hc' : 0 < chunk := Nat.pos_of_ne_zero hc
  have key : ∀ t, t ≤ (ks.length + chunk - 1) / chunk →
      ((List.range t).map (· * chunk)).foldl (fun arr s => addSlice arr s (((ks.drop s).take chunk).map f))
        (List.replicate ks.length (List.replicate n 0)) =
      (ks.take (t * chunk)).map f ++ List.replicate (ks.length - t * chunk) (List.replicate n 0) := by
    intro t
    induction t with
    | zero => intro _; simp
    | succ t ih =>
      intro ht
      rw [List.range_succ, List.map_append, List.foldl_append, ih (by omega)]
      simp only [List.map_cons, List.map_nil, List.foldl_cons, List.foldl_nil]
      have : t * chunk ≤ ks.length := by
        have h1 := Nat.div_mul_le_self (ks.length + chunk - 1) chunk
        have h2 : (t + 1) * chunk ≤ (ks.length + chunk - 1) / chunk * chunk := Nat.mul_le_mul_right _ ht
        have h3 : (t + 1) * chunk = t * chunk + chunk := by ring
        omega
      rw [addSlice_step ks f hf _ _ this]
      have h3 : (t + 1) * chunk = t * chunk + chunk := by ring
      rw [h3]
  rw [key _ le_rfl]
  have hge : ks.length ≤ (ks.length + chunk - 1) / chunk * chunk := by
    have := Nat.div_add_mod (ks.length + chunk - 1) chunk
    have h2 := Nat.mod_lt (ks.length + chunk - 1) hc'
    rw [Nat.mul_comm] at this
    omega
  rw [List.take_of_length_le hge, Nat.sub_eq_zero_of_le hge]
  simp

/-! ### The value -/

/-- **C94**.  The value of `ebsd_master_pattern` for one voltage: it does not depend on the chunk size, on the content of
uninitialised memory or on how the table was stored; every direction gets the column computed from its own wave vector, with
the off-diagonal entries `U(hkl[j] - hkl[i])`. -/
theorem C94_value (mem : ℤ → ℂ) (sf : ScatterFactor) (c : Crystal) (h1 : 1 ≤ c.sg) (h2 : c.sg ≤ 230) (kV depthStep : ℝ)
    (row : List ℝ) (rows : List (List ℝ)) (dmin : ℝ) (chunk : ℕ) (hc : chunk ≠ 0) (dirs : List Vec) (gs : List Hkl)
    (hg : beams c dmin = .ok gs) :
    ∃ w, (normWeights (row :: rows)).head? = some w ∧
    masterPattern mem sf c [kV] depthStep (row :: rows) dmin chunk dirs true = .ok [dirs.map fun d =>
      column c gs (fun i j => ucg sf c kV true (sub (gs.get j) (gs.get i))) (fun _ => upmod0 sf c kV true) (mlambda sf c kV)
        (w.take (min (depthCutoff w) 100)) (waveVector c.l (mlambda sf c kV) d)] := by
  have hd : ∃ ds, diffs c dmin = .ok ds := by
    obtain ⟨t, ht, -⟩ := except_map_ok hg
    have hm := limits_ne ht
    unfold diffs getReflections
    simp only [hm, if_false]
    exact ⟨_, rfl⟩
  obtain ⟨ds, hd⟩ := hd
  obtain ⟨w, hw⟩ : ∃ w, (normWeights (row :: rows)).head? = some w := ⟨_, rfl⟩
  have hw0 : (normWeights (row :: rows))[0]? = some w := by rw [← hw]; cases normWeights (row :: rows) <;> rfl
  refine ⟨w, hw, ?_⟩
  have hU : ucgDiff mem sf c dmin kV true gs ds = fun i j => ucg sf c kV true (sub (gs.get j) (gs.get i)) := by
    have hb : bloch mem sf c dmin kV true = .ok ⟨gs, ucgDiff mem sf c dmin kV true gs ds, upmod0 sf c kV true, mlambda sf c kV⟩ := by
      unfold bloch; rw [hd, hg]; rfl
    obtain ⟨-, e, -⟩ := C93_lookup mem sf c h1 h2 dmin kV true _ hb
    ext i j; exact e i j
  unfold masterPattern
  rw [hd, hg]
  simp only [Except.bind, List.zipIdx_cons, List.zipIdx_nil, List.mapM_cons, List.mapM_nil, if_neg hc]
  by_cases hds : dirs = []
  · subst hds; rfl
  · rw [if_neg hds]
    simp only [Bool.true_eq_false, if_false, List.map_cons, List.map_nil, broadcastUp, List.length_singleton, if_true,
      List.getD_cons_zero, hw0]
    rw [chunkLoop_eq hc _ _ (fun k => by simp [column]), hU, List.map_map]
    rfl

/-- **C94**.  In particular the chunk size, the depth step and the state of the memory have no influence on the result. -/
theorem C94_chunk_independent (mem mem' : ℤ → ℂ) (sf : ScatterFactor) (c : Crystal) (h1 : 1 ≤ c.sg) (h2 : c.sg ≤ 230)
    (kV ds ds' : ℝ) (mc : List (List ℝ)) (dmin : ℝ) (chunk chunk' : ℕ) (hc : chunk ≠ 0) (hc' : chunk' ≠ 0) (dirs : List Vec) :
    masterPattern mem sf c [kV] ds mc dmin chunk dirs true = masterPattern mem' sf c [kV] ds' mc dmin chunk' dirs true := by
  cases hg : beams c dmin with
  | error e =>
    have : ∀ ch m s, masterPattern m sf c [kV] s mc dmin ch dirs true = .error .runtimeError := by
      intro ch m s
      unfold masterPattern diffs getReflections
      unfold beams getReflections at hg
      by_cases hm : (hklLimits c.l dmin).1 = 0 ∨ (hklLimits c.l dmin).2.1 = 0 ∨ (hklLimits c.l dmin).2.2 = 0
      · simp only [hm, if_true]; rfl
      · simp only [hm, if_false] at hg; cases hg
    rw [this, this]
  | ok gs =>
    cases mc with
    | nil =>
      unfold masterPattern
      rw [hg]
      cases diffs c dmin with
      | error e => rfl
      | ok d =>
        simp only [Except.bind, List.zipIdx_cons, List.zipIdx_nil, List.mapM_cons, List.mapM_nil, if_neg hc, if_neg hc']
        by_cases hds : dirs = []
        · subst hds; rfl
        · simp only [if_neg hds]
          simp [broadcastUp, normWeights]
    | cons row rows =>
      obtain ⟨w, hw, e⟩ := C94_value mem sf c h1 h2 kV ds row rows dmin chunk hc dirs gs hg
      obtain ⟨w', hw', e'⟩ := C94_value mem' sf c h1 h2 kV ds' row rows dmin chunk' hc' dirs gs hg
      rw [hw] at hw'
      cases hw'
      rw [e, e']

/-- The result depends on the Monte Carlo weights only up to a common factor. -/
theorem C94_weights_scale (mem : ℤ → ℂ) (sf : ScatterFactor) (c : Crystal) (kVs : List ℝ) (ds : ℝ) (mc : List (List ℝ))
    (dmin : ℝ) (chunk : ℕ) (dirs : List Vec) (ab : Bool) (a : ℝ) (ha : a ≠ 0) :
    masterPattern mem sf c kVs ds (mc.map fun r => r.map (a * ·)) dmin chunk dirs ab =
      masterPattern mem sf c kVs ds mc dmin chunk dirs ab := by
  have hs : ∀ l : List ℝ, (l.map (a * ·)).sum = a * l.sum := fun l => by
    induction l with
    | nil => simp
    | cons x xs ih => simp only [List.map_cons, List.sum_cons, ih]; ring
  have : normWeights (mc.map fun r => r.map (a * ·)) = normWeights mc := by
    unfold normWeights
    have ht : (((mc.map fun r => r.map (a * ·)).map List.sum).sum) = a * (mc.map List.sum).sum := by
      rw [← hs]; simp only [List.map_map]; congr 1
      apply List.map_congr_left
      intro r _
      exact hs r
    rw [ht]
    simp only [List.map_map]
    apply List.map_congr_left
    intro r _
    simp only [Function.comp, List.map_map]
    apply List.map_congr_left
    intro x _
    exact mul_div_mul_left _ _ ha
  unfold masterPattern
  rw [this]

/-! ### Wave functions -/

/-- The outer product `ψ ψ^*`. -/
def outer {n : ℕ} (psi : Fin n → ℂ) : Matrix (Fin n) (Fin n) ℂ := fun i j => psi i * (starRingEnd ℂ) (psi j)

lemma depthLoop_pow {n : ℕ} (E : Matrix (Fin n) (Fin n) ℂ) (ws : List ℝ) :
    depthLoop E ws = ((E ^ ws.length).mulVec (psi0 n),
      (ws.zipIdx.map fun p => (p.1 : ℂ) • outer ((E ^ (p.2 + 1)).mulVec (psi0 n))).sum) := by
  unfold depthLoop
  induction ws using List.reverseRecOn with
  | nil => simp
  | append_singleton xs x ih =>
    rw [List.foldl_append, ih]
    simp only [List.foldl_cons, List.foldl_nil, List.length_append, List.length_singleton, List.zipIdx_append,
      List.zipIdx_cons, List.zipIdx_nil, List.map_append, List.map_cons, List.map_nil, List.sum_append, List.sum_singleton,
      zero_add]
    have : E.mulVec ((E ^ xs.length).mulVec (psi0 n)) = (E ^ (xs.length + 1)).mulVec (psi0 n) := by
      rw [Matrix.mulVec_mulVec, pow_succ']
    rw [this]
    rfl

/-- **C94**.  The depth loop follows the exact solution of the Darwin–Howie–Whelan equations: after `n` steps the wave
function is `exp(n·A) ψ₀`, and the accumulated matrix is the weighted sum of the outer products at the depths `1, …, n`. -/
theorem C94_wave {n : ℕ} (A : Matrix (Fin n) (Fin n) ℂ) (ws : List ℝ) :
    depthLoop (NormedSpace.exp A) ws = ((NormedSpace.exp (ws.length • A)).mulVec (psi0 n),
      (ws.zipIdx.map fun p => (p.1 : ℂ) • outer ((NormedSpace.exp ((p.2 + 1) • A)).mulVec (psi0 n))).sum) := by
  rw [depthLoop_pow]
  simp only [Matrix.exp_nsmul]

lemma struct_skew (l : Lattice) (gs : List Hkl) (U : Matrix (Fin gs.length) (Fin gs.length) ℂ) (hU : U.IsHermitian)
    (lam : ℝ) (k : Vec) : (structMatrix l gs U (fun _ => 0) lam k)ᴴ = -structMatrix l gs U (fun _ => 0) lam k := by
  ext i j
  rw [conjTranspose_apply, Matrix.neg_apply]
  unfold structMatrix
  have hij : star (U j i) = U i j := by rw [← conjTranspose_apply, hU]
  by_cases e : i = j
  · subst e
    simp only [if_true, zero_add]
    apply Complex.ext <;> simp
  · rw [if_neg e, if_neg e, if_neg (Ne.symm e), if_neg (Ne.symm e), add_zero, add_zero, star_mul', hij]
    have : star (Complex.I * (Real.pi : ℂ) * (lam : ℂ)) = -(Complex.I * Real.pi * lam) := by
      simp only [Complex.star_def, map_mul, Complex.conj_I, Complex.conj_ofReal]; ring
    rw [this]; ring

lemma exp_skew_norm {n : ℕ} (A : Matrix (Fin n) (Fin n) ℂ) (hA : Aᴴ = -A) (v : Fin n → ℂ) :
    star ((NormedSpace.exp A).mulVec v) ⬝ᵥ (NormedSpace.exp A).mulVec v = star v ⬝ᵥ v := by
  have h : (NormedSpace.exp A)ᴴ * NormedSpace.exp A = 1 := by
    rw [← Matrix.exp_conjTranspose, hA, Matrix.exp_neg, Matrix.nonsing_inv_mul]
    exact (Matrix.isUnit_iff_isUnit_det _).1 (Matrix.isUnit_exp A)
  rw [Matrix.star_mulVec, ← Matrix.dotProduct_mulVec, Matrix.mulVec_mulVec, h, Matrix.one_mulVec]

/-- **C94**.  Without absorption (real atomic factors) no intensity is lost: at every depth the beam intensities sum to one,
for every crystal, voltage and direction. -/
theorem C94_flux (mem : ℤ → ℂ) (sf : ScatterFactor) (c : Crystal) (h1 : 1 ≤ c.sg) (h2 : c.sg ≤ 230) (dmin kV : ℝ)
    (b : Bloch) (hb : bloch mem sf c dmin kV true = .ok b) (hr : ∀ Z u g, (sf kV Z u g).im = 0) (k : Vec) (n : ℕ) :
    let A := structMatrix c.l b.gs b.U (fun _ => b.up) b.lam k
    ∑ i, ‖(NormedSpace.exp (n • A)).mulVec (psi0 b.gs.length) i‖ ^ 2 = 1 := by
  intro A
  have hU := C93_hermitian mem sf c h1 h2 dmin kV true b hb hr
  obtain ⟨hg, -, -⟩ := C93_lookup mem sf c h1 h2 dmin kV true b hb
  have hup : b.up = 0 := by
    unfold bloch at hb
    cases hd : diffs c dmin with
    | error e => rw [hd] at hb; cases hb
    | ok ds =>
      rw [hd] at hb
      obtain ⟨gs, hg, rfl⟩ := except_map_ok hb
      show upmod0 sf c kV true = 0
      have : gg sf c kV (0, 0, 0) = 0 := by
        unfold gg
        rw [List.sum_eq_zero]
        intro y hy
        obtain ⟨s, hs, rfl⟩ := List.mem_map.1 hy
        unfold factor
        rw [hr]; simp
      simp [upmod0, this]
  have hA : (n • A)ᴴ = -(n • A) := by
    rw [conjTranspose_smul]
    have : Aᴴ = -A := by
      show (structMatrix c.l b.gs b.U (fun _ => b.up) b.lam k)ᴴ = _
      simp only [A, hup]
      exact struct_skew c.l b.gs b.U hU b.lam k
    rw [this, star_trivial, smul_neg]
  have key := exp_skew_norm (n • A) hA (psi0 b.gs.length)
  have hlen : 0 < b.gs.length := by
    obtain ⟨t, -, et⟩ := except_map_ok hg
    rw [← et]; simp
  have e0 : star (psi0 b.gs.length) ⬝ᵥ psi0 b.gs.length = 1 := by
    rw [dotProduct, Finset.sum_eq_single ⟨0, hlen⟩]
    · simp [psi0]
    · intro i _ hi
      have : i.val ≠ 0 := fun h => hi (Fin.ext h)
      simp [psi0, this]
    · simp
  rw [e0] at key
  have : ∀ v : Fin b.gs.length → ℂ, star v ⬝ᵥ v = ((∑ i, ‖v i‖ ^ 2 : ℝ) : ℂ) := by
    intro v
    rw [dotProduct]; push_cast
    refine Finset.sum_congr rfl fun i _ => ?_
    simp only [Pi.star_apply, Complex.star_def]
    rw [mul_comm, Complex.mul_conj, Complex.normSq_eq_norm_sq]; push_cast; rfl
  rw [this] at key
  exact_mod_cast key

end Verif.Diff
