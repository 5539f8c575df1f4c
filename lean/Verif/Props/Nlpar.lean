import Verif.Model.Nlpar
import Mathlib.Algebra.Order.BigOperators.Group.Finset
import Mathlib.Algebra.BigOperators.Ring.Finset
import Mathlib.Algebra.BigOperators.Field
import Mathlib.Data.Finset.Prod
import Mathlib.Order.Interval.Finset.Basic
import Mathlib.Data.Int.Interval
import Mathlib.Tactic.Linarith
import Mathlib.Tactic.Ring
import Mathlib.Tactic.Positivity
import Mathlib.Tactic.FieldSimp
import Mathlib.Tactic.NormNum
/-!
C39: NLPAR (preprocessing/nlpar.py) is a convex average of the patterns of the search window that lie on the scan.
-/
namespace Verif.Nlpar
open Finset

/-- Specification: the square search window of radius `k`. -/
noncomputable def window (k : ℕ) : Finset (ℤ × ℤ) := Finset.Icc (-(k : ℤ)) k ×ˢ Finset.Icc (-(k : ℤ)) k

/-- Specification: the scan position `(i, j)` moved by `o` is on the scan. -/
def OnScan (S : Scan) (i j : ℕ) (o : ℤ × ℤ) : Prop :=
  0 ≤ (i : ℤ) + o.1 ∧ (i : ℤ) + o.1 < S.h ∧ 0 ≤ (j : ℤ) + o.2 ∧ (j : ℤ) + o.2 < S.w

theorem on_iff (S : Scan) (i j : ℕ) (o : ℤ × ℤ) : S.on (i + o.1) (j + o.2) = true ↔ OnScan S i j o := by
  unfold Scan.on OnScan; exact decide_eq_true_iff

theorem mem_offsets (k : ℕ) (o : ℤ × ℤ) : o ∈ offsets k ↔ o ∈ window k := by
  obtain ⟨a, b⟩ := o
  unfold offsets window
  simp only [List.mem_flatMap, List.mem_map, List.mem_range, mem_product, mem_Icc, Prod.mk.injEq]
  constructor
  · rintro ⟨x, hx, y, hy, rfl, rfl⟩; omega
  · rintro ⟨h1, h2⟩
    exact ⟨(a + k).toNat, by omega, (b + k).toNat, by omega, by omega, by omega⟩

theorem offsets_nodup (k : ℕ) : (offsets k).Nodup := by
  unfold offsets
  rw [List.nodup_flatMap]
  constructor
  · intro a _
    refine List.Nodup.map ?_ List.nodup_range
    intro x y h
    simp only [Prod.mk.injEq, true_and] at h
    omega
  · refine List.Nodup.pairwise_of_forall_ne List.nodup_range ?_
    intro a _ b _ hab
    simp only [Function.onFun]
    rw [List.disjoint_left]
    intro p hp hq
    obtain ⟨x, -, rfl⟩ := List.mem_map.mp hp
    obtain ⟨y, -, h⟩ := List.mem_map.mp hq
    simp only [Prod.mk.injEq] at h
    omega

theorem run_nodup (A : OffsetSort) (k : ℕ) : (A.run k).Nodup := (A.perm k).nodup_iff.mpr (offsets_nodup k)

theorem mem_run (A : OffsetSort) (k : ℕ) (o : ℤ × ℤ) : o ∈ A.run k ↔ o ∈ window k := by
  rw [(A.perm k).mem_iff, mem_offsets]

theorem run_length (A : OffsetSort) (k : ℕ) : (A.run k).length = (2 * k + 1) * (2 * k + 1) := by
  rw [(A.perm k).length_eq]; unfold offsets; rw [List.length_flatMap]; simp

/-- sums over positions of the sorted list are sums over the window -/
theorem sum_run (A : OffsetSort) (k : ℕ) (f : ℤ × ℤ → ℝ) :
    ∑ l ∈ range (A.run k).length, f ((A.run k).getD l (0, 0)) = ∑ o ∈ window k, f o := by
  refine sum_bij (fun l _ => (A.run k).getD l (0, 0)) ?_ ?_ ?_ ?_
  · intro l hl
    rw [mem_range] at hl
    rw [← mem_run A, List.getD_eq_getElem?_getD, List.getElem?_eq_getElem hl]
    exact List.getElem_mem hl
  · intro l hl l' hl' h
    rw [mem_range] at hl hl'
    rw [List.getD_eq_getElem?_getD, List.getElem?_eq_getElem hl, List.getD_eq_getElem?_getD, List.getElem?_eq_getElem hl'] at h
    exact (List.Nodup.getElem_inj_iff (run_nodup A k)).mp h
  · intro o ho
    rw [← mem_run A] at ho
    obtain ⟨l, hl, e⟩ := List.getElem_of_mem ho
    exact ⟨l, mem_range.mpr hl, by rw [List.getD_eq_getElem?_getD, List.getElem?_eq_getElem hl, ← e]; rfl⟩
  · intro l _; rfl

/-- the first offset is the pattern itself -/
theorem run_head (A : OffsetSort) (k : ℕ) : ∃ t, A.run k = (0, 0) :: t := by
  have h0 : (0, 0) ∈ A.run k := by rw [mem_run]; unfold window; simp
  have hs := A.sorted k
  rcases hr : A.run k with _ | ⟨a, t⟩
  · rw [hr] at h0; simp at h0
  · rw [hr] at h0 hs
    rcases List.mem_cons.mp h0 with h | h
    · exact ⟨t, by rw [h]⟩
    · have := (List.pairwise_cons.mp hs).1 _ h
      unfold l1 at this
      simp only [abs_zero, add_zero] at this
      have n1 := abs_nonneg a.1
      have n2 := abs_nonneg a.2
      have h1 : a.1 = 0 := abs_eq_zero.mp (by omega)
      have h2 : a.2 = 0 := abs_eq_zero.mp (by omega)
      exact ⟨t, by rw [show a = (0, 0) from Prod.ext h1 h2]⟩

theorem weight0_nonpos (S : Scan) (O : List (ℤ × ℤ)) (i j : ℕ) (o : ℤ × ℤ) : weight0 S O i j o ≤ 0 := by
  unfold weight0
  have := le_max_right ((dist0 S i j o - S.n * var2 S O i j o) / (Real.sqrt 2 * Real.sqrt S.n * var2 S O i j o)) 0
  linarith

theorem weight0_self (S : Scan) (O : List (ℤ × ℤ)) (i j : ℕ) : weight0 S O i j (0, 0) = 0 := by
  unfold weight0
  have : dist0 S i j (0, 0) = 0 := by unfold dist0; simp
  rw [this, max_eq_right, neg_zero]
  apply div_nonpos_of_nonpos_of_nonneg
  · have : 0 ≤ var2 S O i j (0, 0) := by unfold var2; positivity
    have : (0 : ℝ) ≤ S.n * var2 S O i j (0, 0) := by positivity
    linarith
  · have : 0 ≤ var2 S O i j (0, 0) := by unfold var2; positivity
    positivity

/-- C39: whenever nlpar returns a finite result, every denoised pattern is an average of the patterns of the search window
around the same scan point: weights are non-negative and sum to one, offsets that leave the scan have weight zero, the
pattern itself has positive weight and no neighbour outweighs it — for every scan shape, radius, coefficient, tolerance,
bias and order of ties in the offset sort. -/
theorem C39_convex (A : OffsetSort) (S : Scan) (kRad : ℕ) (coeff tol bias : ℝ) (out : ℕ → ℕ → ℕ → ℝ)
    (h : nlpar A S kRad coeff tol bias = some out) :
    ∀ i < S.h, ∀ j < S.w, ∃ W : ℤ × ℤ → ℝ,
      (∀ o, 0 ≤ W o) ∧ (∀ o ∈ window kRad, ¬ OnScan S i j o → W o = 0) ∧ (∀ o ∈ window kRad, OnScan S i j o → 0 < W o) ∧
      ∑ o ∈ window kRad, W o = 1 ∧ (∀ o ∈ window kRad, W o ≤ W (0, 0)) ∧
      ∀ k, out i j k = ∑ o ∈ window kRad with 0 < W o, W o * S.pat ((i : ℤ) + o.1).toNat ((j : ℤ) + o.2).toNat k := by
  intro i hi j hj
  unfold nlpar at h
  simp only at h
  split at h
  swap
  · simp at h
  rcases hn : newton S (fun i j => ((A.run kRad).take 9).map (weight0 S (A.run kRad) i j)) coeff tol 10 1 with _ | g
  · rw [hn] at h; simp at h
  rw [hn] at h
  simp only [Option.bind_some] at h
  split at h
  · simp at h
  rename_i hg
  simp only [Option.some.injEq] at h
  obtain ⟨t, ht⟩ := run_head A kRad
  have hidx : ∀ l < (A.run kRad).length, (l = 0 ↔ (A.run kRad).getD l (0, 0) = (0, 0)) := by
    intro l hl
    have e0 : (A.run kRad).getD 0 (0, 0) = (0, 0) := by rw [ht]; rfl
    constructor
    · rintro rfl; exact e0
    · intro e
      rw [List.getD_eq_getElem?_getD, List.getElem?_eq_getElem hl] at e
      have h0 : 0 < (A.run kRad).length := by omega
      rw [List.getD_eq_getElem?_getD, List.getElem?_eq_getElem h0] at e0
      exact (List.Nodup.getElem_inj_iff (run_nodup A kRad)).mp (e.trans e0.symm)
  -- the weight as a function of the offset
  obtain ⟨E, hE⟩ : ∃ E : ℤ × ℤ → ℝ, E = fun o => if S.on (i + o.1) (j + o.2) then
      Real.exp (weight0 S (A.run kRad) i j o / g ^ 2 + if 0 < bias ∧ o = (0, 0) then bias else 0) else 0 := ⟨_, rfl⟩
  have E0 : ∀ o, 0 ≤ E o := by
    intro o; rw [hE]; dsimp only; split
    · exact (Real.exp_pos _).le
    · exact le_refl _
  have hOn0 : S.on ((i : ℤ) + (0 : ℤ)) ((j : ℤ) + (0 : ℤ)) = true := by
    unfold Scan.on; rw [decide_eq_true_iff]; omega
  have E1 : 1 ≤ E (0, 0) := by
    rw [hE]; dsimp only
    rw [if_pos hOn0, weight0_self, zero_div, zero_add, Real.one_le_exp_iff]
    split
    · rename_i hb; exact hb.1.le
    · exact le_refl _
  have hg2 : 0 < g ^ 2 := by positivity
  have Emax : ∀ o, E o ≤ E (0, 0) := by
    intro o
    by_cases ho : o = (0, 0)
    · rw [ho]
    · refine le_trans ?_ E1
      rw [hE]; dsimp only
      split
      · rw [if_neg (fun hc => ho hc.2), add_zero, Real.exp_le_one_iff]
        exact div_nonpos_of_nonpos_of_nonneg (weight0_nonpos _ _ _ _ _) hg2.le
      · norm_num
  have hz : (0, 0) ∈ window kRad := by unfold window; simp
  have T0 : 0 < ∑ o ∈ window kRad, E o :=
    lt_of_lt_of_le (by linarith) (single_le_sum (fun o _ => E0 o) hz)
  have hsoft : ∀ l < (A.run kRad).length, softWeight S (A.run kRad) g bias i j l =
      E ((A.run kRad).getD l (0, 0)) / ∑ o ∈ window kRad, E o := by
    intro l hl
    have key : ∀ l < (A.run kRad).length, (if S.on (i + ((A.run kRad).getD l (0, 0)).1) (j + ((A.run kRad).getD l (0, 0)).2) = true then
        Real.exp (logit S (A.run kRad) g bias i j l) else 0) = E ((A.run kRad).getD l (0, 0)) := by
      intro l hl
      rw [hE]; dsimp only
      split
      · unfold logit
        congr 2
        by_cases hl0 : l = 0
        · simp only [hl0, (hidx 0 (by omega)).mp rfl]
        · rw [if_neg (fun hc => hl0 hc.2), if_neg (fun hc => hl0 ((hidx l hl).mpr hc.2))]
      · rfl
    unfold softWeight
    simp only
    rw [key l hl, ← sum_run A kRad E]
    congr 1
    exact sum_congr rfl fun m hm => key m (mem_range.mp hm)
  refine ⟨fun o => E o / ∑ o ∈ window kRad, E o, fun o => div_nonneg (E0 o) T0.le, ?_, ?_, ?_, ?_, ?_⟩
  · intro o _ ho
    have : E o = 0 := by
      rw [hE]; dsimp only
      rw [if_neg]
      rw [on_iff]; exact ho
    simp only [this, zero_div]
  · intro o _ ho
    refine div_pos ?_ T0
    rw [hE]; dsimp only
    rw [if_pos ((on_iff S i j o).mpr ho)]
    exact Real.exp_pos _
  · rw [← sum_div]; exact div_self T0.ne'
  · intro o _
    exact div_le_div_of_nonneg_right (Emax o) T0.le
  · intro k
    rw [← h]
    dsimp only
    have : ∑ l ∈ range (A.run kRad).length,
        S.padded (i + ((A.run kRad).getD l (0, 0)).1) (j + ((A.run kRad).getD l (0, 0)).2) k * softWeight S (A.run kRad) g bias i j l =
        ∑ l ∈ range (A.run kRad).length, (fun o : ℤ × ℤ => S.padded (i + o.1) (j + o.2) k * (E o / ∑ o ∈ window kRad, E o))
          ((A.run kRad).getD l (0, 0)) := sum_congr rfl fun l hl => by rw [hsoft l (mem_range.mp hl)]
    rw [this, sum_run A kRad fun o : ℤ × ℤ => S.padded (i + o.1) (j + o.2) k * (E o / ∑ o ∈ window kRad, E o), sum_filter]
    refine sum_congr rfl fun o ho => ?_
    by_cases hon : S.on (i + o.1) (j + o.2) = true
    · have : 0 < E o / ∑ o ∈ window kRad, E o := by
        refine div_pos ?_ T0
        rw [hE]; dsimp only
        rw [if_pos hon]; exact Real.exp_pos _
      rw [if_pos this]
      unfold Scan.padded
      rw [if_pos hon, mul_comm]
    · have : E o = 0 := by
        rw [hE]; dsimp only
        rw [if_neg hon]
      have hz : ¬ 0 < E o / ∑ o ∈ window kRad, E o := by rw [this, zero_div]; exact lt_irrefl _
      rw [if_neg hz, this, zero_div, mul_zero]

/-- C39: consequently no denoised pixel leaves the range of that pixel over the window. -/
theorem C39_range (A : OffsetSort) (S : Scan) (kRad : ℕ) (coeff tol bias : ℝ) (out : ℕ → ℕ → ℕ → ℝ)
    (h : nlpar A S kRad coeff tol bias = some out) (k : ℕ) (lo hi : ℝ) (i j : ℕ) (hi' : i < S.h) (hj : j < S.w)
    (hb : ∀ a < S.h, ∀ b < S.w, |(a : ℤ) - i| ≤ kRad → |(b : ℤ) - j| ≤ kRad → lo ≤ S.pat a b k ∧ S.pat a b k ≤ hi) :
    lo ≤ out i j k ∧ out i j k ≤ hi := by
  obtain ⟨W, w0, w1, -, w2, -, w3⟩ := C39_convex A S kRad coeff tol bias out h i hi' j hj
  have s1 : ∑ o ∈ window kRad with 0 < W o, W o = 1 := by
    rw [← w2, sum_filter]
    refine sum_congr rfl fun o _ => ?_
    split
    · rfl
    · rename_i hc; exact le_antisymm (w0 o) (not_lt.mp hc)
  have hp : ∀ o ∈ (window kRad).filter (fun o => 0 < W o), lo ≤ S.pat ((i : ℤ) + o.1).toNat ((j : ℤ) + o.2).toNat k ∧
      S.pat ((i : ℤ) + o.1).toNat ((j : ℤ) + o.2).toNat k ≤ hi := by
    intro o ho
    rw [mem_filter] at ho
    have hon : OnScan S i j o := by
      by_contra hc
      have := w1 o ho.1 hc
      linarith [ho.2]
    obtain ⟨a, b, c, d⟩ := hon
    have hw := ho.1
    unfold window at hw
    rw [mem_product, mem_Icc, mem_Icc] at hw
    refine hb _ (by omega) _ (by omega) ?_ ?_
    · rw [abs_le]; omega
    · rw [abs_le]; omega
  rw [w3 k]
  constructor
  · calc lo = (∑ o ∈ window kRad with 0 < W o, W o) * lo := by rw [s1, one_mul]
      _ ≤ _ := by
        rw [sum_mul]
        exact sum_le_sum fun o ho => mul_le_mul_of_nonneg_left (hp o ho).1 (w0 o)
  · have e : hi = (∑ o ∈ window kRad with 0 < W o, W o) * hi := by rw [s1, one_mul]
    rw [sum_mul] at e
    refine le_of_le_of_eq ?_ e.symm
    exact sum_le_sum fun o ho => mul_le_mul_of_nonneg_left (hp o ho).2 (w0 o)

/-- C39 violation: a radius of 0 raises: there is no neighbour to estimate the noise from. -/
theorem C39_radius_zero_fails (A : OffsetSort) (S : Scan) (hh : 0 < S.h) (hw : 0 < S.w) (coeff tol bias : ℝ) :
    nlpar A S 0 coeff tol bias = none := by
  unfold nlpar
  simp only
  rw [if_neg]
  rintro ⟨h, -⟩
  have hsome := h 0 hh 0 hw
  have hl := run_length A 0
  obtain ⟨t, ht⟩ := run_head A 0
  rw [ht] at hl
  have : t = [] := by simpa using hl
  subst this
  unfold sigmaHat at hsome
  rw [ht] at hsome
  simp [minList] at hsome

theorem foldl_min_le (xs : List ℝ) (x : ℝ) : xs.foldl min x ≤ x ∧ ∀ v ∈ xs, xs.foldl min x ≤ v := by
  induction xs generalizing x with
  | nil => simp
  | cons a xs ih =>
    obtain ⟨h1, h2⟩ := ih (min x a)
    refine ⟨h1.trans (min_le_left _ _), fun v hv => ?_⟩
    rcases List.mem_cons.mp hv with rfl | hv
    · exact h1.trans (min_le_right _ _)
    · exact h2 v hv

theorem foldl_min_nonneg (xs : List ℝ) (x : ℝ) (hx : 0 ≤ x) (h : ∀ v ∈ xs, 0 ≤ v) : 0 ≤ xs.foldl min x := by
  induction xs generalizing x with
  | nil => exact hx
  | cons a xs ih =>
    exact ih _ (le_min hx (h a List.mem_cons_self)) fun v hv => h v (List.mem_cons_of_mem _ hv)

/-- C39 violation: with radius 1, if any two neighbouring patterns of the scan are identical the estimated noise is zero there
and the result is not finite (0/0 at the pattern itself). -/
theorem C39_duplicate_fails (A : OffsetSort) (S : Scan) (coeff tol bias : ℝ) (i j : ℕ) (hi : i < S.h) (hj : j < S.w)
    (o : ℤ × ℤ) (ho : o ∈ window 1) (hne : o ≠ (0, 0)) (hon : OnScan S i j o)
    (heq : ∀ k < S.n, S.pat ((i : ℤ) + o.1).toNat ((j : ℤ) + o.2).toNat k = S.pat i j k) :
    nlpar A S 1 coeff tol bias = none := by
  unfold nlpar
  simp only
  rw [if_neg]
  rintro ⟨-, -, -, -, hv⟩
  obtain ⟨t, ht⟩ := run_head A 1
  have hl := run_length A 1
  rw [ht] at hl
  have ht8 : t.length = 8 := by simpa using hl
  have hot : o ∈ t := by
    have := (mem_run A 1 o).mpr ho
    rw [ht] at this
    rcases List.mem_cons.mp this with h | h
    · exact absurd h hne
    · exact h
  have d0 : dist0 S i j o = 0 := by
    unfold dist0
    refine sum_eq_zero fun k hk => ?_
    have a : S.on (i + o.1) (j + o.2) = true := (on_iff S i j o).mpr hon
    have b : S.on (i : ℤ) (j : ℤ) = true := by unfold Scan.on; rw [decide_eq_true_iff]; omega
    unfold Scan.padded
    rw [if_pos a, if_pos b, heq k (mem_range.mp hk)]
    simp
  have dn : ∀ p, 0 ≤ dist0 S i j p := fun p => by unfold dist0; positivity
  have hs : sig S (A.run 1) i j = 0 := by
    unfold sig sigmaHat
    rw [ht]
    have e : (((0, 0) :: t).drop 1).take 8 = t := by
      simp only [List.drop_one, List.tail_cons]
      exact List.take_of_length_le (by omega)
    rw [e]
    rcases hc : t with _ | ⟨p, q⟩
    · simp [minList]
    · rw [hc] at hot
      simp only [List.map_cons, minList, Option.map_some, Option.getD_some]
      have z : (q.map (dist0 S i j)).foldl min (dist0 S i j p) = 0 := by
        apply le_antisymm
        · obtain ⟨f1, f2⟩ := foldl_min_le (q.map (dist0 S i j)) (dist0 S i j p)
          rcases List.mem_cons.mp hot with h | h
          · rw [← h, d0] at f1; rw [← h, d0]; exact f1
          · rw [← d0]; exact f2 _ (List.mem_map_of_mem h)
        · refine foldl_min_nonneg _ _ (dn _) ?_
          intro v hv
          obtain ⟨x, -, rfl⟩ := List.mem_map.mp hv
          exact dn x
      rw [z]; simp
  refine hv i hi j hj (0, 0) ((mem_run A 1 _).mpr (by unfold window; simp)) ?_
  unfold var2 sigmaPad
  have b : S.on ((i : ℤ) + (0 : ℤ)) ((j : ℤ) + (0 : ℤ)) = true := by unfold Scan.on; rw [decide_eq_true_iff]; omega
  rw [if_pos b]
  simp [hs]

/-! ### non-vacuity -/

theorem grad_neg {S : Scan} {nn : ℕ → ℕ → List ℝ} (h0 : ∀ i j, (nn i j).headD 0 = 0) (hn : ∀ i j, ∀ v ∈ nn i j, v ≤ 0)
    (hh : 0 < S.h) (hw : 0 < S.w) (hne : ∀ i j, i < S.h → j < S.w → ∃ v ∈ nn i j, v < 0) : gradient S nn 1 < 0 := by
  unfold gradient meanScan
  refine div_neg_of_neg_of_pos ?_ (mul_pos (by exact_mod_cast hh) (by exact_mod_cast hw))
  refine sum_neg (fun i hi => sum_neg (fun j hj => ?_) ⟨0, mem_range.mpr hw⟩) ⟨0, mem_range.mpr hh⟩
  simp only [h0, zero_div, zero_mul, Real.exp_zero, one_pow, div_one]
  have hs : ((nn i j).map fun v => v * Real.exp v).sum < 0 := by
    obtain ⟨v, hv, hv0⟩ := hne i j (mem_range.mp hi) (mem_range.mp hj)
    have gen : ∀ L : List ℝ, (∀ v ∈ L, v ≤ 0) → (L.map fun v => v * Real.exp v).sum ≤ 0 := by
      intro L hL
      induction L with
      | nil => simp
      | cons a L ih =>
        simp only [List.map_cons, List.sum_cons]
        have := ih fun v hv => hL v (List.mem_cons_of_mem _ hv)
        have := mul_nonpos_of_nonpos_of_nonneg (hL a List.mem_cons_self) (Real.exp_pos a).le
        linarith
    obtain ⟨l1, l2, e⟩ := List.append_of_mem hv
    have hn' := hn i j
    rw [e] at hn' ⊢
    simp only [List.map_append, List.map_cons, List.sum_append, List.sum_cons]
    have a := gen l1 fun v hv => hn' v (by simp [hv])
    have b := gen l2 fun v hv => hn' v (by simp [hv])
    have c := mul_neg_of_neg_of_pos hv0 (Real.exp_pos v)
    linarith
  have hz : ((nn i j).map fun _ => (0 : ℝ)).sum = 0 := by simp
  have hp : 0 < ((nn i j).map fun v => Real.exp v).sum := by
    obtain ⟨v, hv, -⟩ := hne i j (mem_range.mp hi) (mem_range.mp hj)
    obtain ⟨l1, l2, e⟩ := List.append_of_mem hv
    have gen : ∀ L : List ℝ, 0 ≤ (L.map fun v => Real.exp v).sum := by
      intro L
      apply List.sum_nonneg
      intro x hx
      obtain ⟨y, -, rfl⟩ := List.mem_map.mp hx
      exact (Real.exp_pos y).le
    rw [e]
    simp only [List.map_append, List.map_cons, List.sum_append, List.sum_cons]
    have := gen l1; have := gen l2; have := Real.exp_pos v
    linarith
  rw [hz]
  refine div_neg_of_neg_of_pos ?_ (by positivity)
  linarith

/-- a 1 by 2 scan of one-pixel patterns 3 and -3 -/
def exScan : Scan := ⟨1, 2, 1, fun _ j _ => if j = 0 then 3 else -3⟩

theorem exScan_dist (j : ℕ) (hj : j < 2) (o : ℤ × ℤ) : 
    (OnScan exScan 0 j o ∧ o ≠ (0, 0) → dist0 exScan 0 j o = 36) ∧ (¬ OnScan exScan 0 j o → dist0 exScan 0 j o = 9) := by
  have hself : exScan.padded ((0 : ℕ) : ℤ) (j : ℤ) 0 = if j = 0 then 3 else -3 := by
    have b : exScan.on ((0 : ℕ) : ℤ) (j : ℤ) = true := by
      unfold Scan.on; rw [decide_eq_true_iff]; simp only [exScan]; omega
    unfold Scan.padded
    rw [if_pos b]; simp [exScan]
  constructor
  · rintro ⟨hon, hne⟩
    have a := (on_iff exScan 0 j o).mpr hon
    obtain ⟨o1, o2⟩ := o
    unfold OnScan at hon
    simp only [exScan] at hon
    have e1 : o1 = 0 := by push_cast at hon; omega
    have e2 : (j = 0 ∧ o2 = 1) ∨ (j = 1 ∧ o2 = -1) := by
      have : o2 ≠ 0 := fun h => hne (by rw [e1, h])
      omega
    unfold dist0
    simp only [exScan, range_one, sum_singleton]
    change (exScan.padded _ _ 0 - exScan.padded _ _ 0) ^ 2 = 36
    rw [hself]
    unfold Scan.padded
    rw [if_pos a]
    rcases e2 with ⟨rfl, rfl⟩ | ⟨rfl, rfl⟩ <;> simp [exScan] <;> norm_num
  · intro hon
    have a : ¬ exScan.on (((0 : ℕ) : ℤ) + o.1) ((j : ℤ) + o.2) = true := fun h => hon ((on_iff exScan 0 j o).mp h)
    unfold dist0
    simp only [exScan, range_one, sum_singleton]
    change (exScan.padded _ _ 0 - exScan.padded _ _ 0) ^ 2 = 9
    rw [hself]
    unfold Scan.padded
    rw [if_neg a]
    split <;> norm_num

theorem exScan_sig (A : OffsetSort) (j : ℕ) (hj : j < 2) :
    (sigmaHat exScan (A.run 1) 0 j).isSome ∧ sig exScan (A.run 1) 0 j ^ 2 = 9 / 2 := by
  obtain ⟨t, ht⟩ := run_head A 1
  have hl := run_length A 1
  rw [ht] at hl
  have ht8 : t.length = 8 := by simpa using hl
  have e : (((0, 0) :: t).drop 1).take 8 = t := by
    simp only [List.drop_one, List.tail_cons]
    exact List.take_of_length_le (by omega)
  have hnd := run_nodup A 1
  rw [ht] at hnd
  have hne : ∀ o ∈ t, o ≠ (0, 0) := fun o ho h => (List.nodup_cons.mp hnd).1 (h ▸ ho)
  have hge : ∀ o ∈ t, 9 ≤ dist0 exScan 0 j o := by
    intro o ho
    by_cases hon : OnScan exScan 0 j o
    · rw [(exScan_dist j hj o).1 ⟨hon, hne o ho⟩]; norm_num
    · rw [(exScan_dist j hj o).2 hon]
  have hmem : ((1 : ℤ), (0 : ℤ)) ∈ t := by
    have : ((1 : ℤ), (0 : ℤ)) ∈ A.run 1 := (mem_run A 1 _).mpr (by unfold window; simp)
    rw [ht] at this
    rcases List.mem_cons.mp this with h | h
    · simp at h
    · exact h
  have h9 : dist0 exScan 0 j (1, 0) = 9 := by
    apply (exScan_dist j hj _).2
    unfold OnScan; simp [exScan]
  have hm : ∃ m, minList (t.map (dist0 exScan 0 j)) = some m ∧ m = 9 := by
    rcases hc : t with _ | ⟨p, q⟩
    · rw [hc] at hmem; simp at hmem
    · refine ⟨_, rfl, le_antisymm ?_ ?_⟩
      · obtain ⟨f1, f2⟩ := foldl_min_le (q.map (dist0 exScan 0 j)) (dist0 exScan 0 j p)
        rw [hc] at hmem
        rcases List.mem_cons.mp hmem with h | h
        · rw [← h, h9] at f1; rw [← h, h9]; exact f1
        · rw [← h9]; exact f2 _ (List.mem_map_of_mem h)
      · have gen : ∀ (xs : List ℝ) (x : ℝ), 9 ≤ x → (∀ v ∈ xs, 9 ≤ v) → 9 ≤ xs.foldl min x := by
          intro xs
          induction xs with
          | nil => intro x hx _; exact hx
          | cons a xs ih =>
            intro x hx h
            exact ih _ (le_min hx (h a List.mem_cons_self)) fun v hv => h v (List.mem_cons_of_mem _ hv)
        refine gen _ _ (hge p (by rw [hc]; simp)) ?_
        intro v hv
        obtain ⟨x, hx, rfl⟩ := List.mem_map.mp hv
        exact hge x (by rw [hc]; simp [hx])
  obtain ⟨m, hm1, hm2⟩ := hm
  unfold sig sigmaHat
  rw [ht, e, hm1, hm2]
  refine ⟨rfl, ?_⟩
  simp only [Option.map_some, Option.getD_some, exScan]
  rw [Real.sq_sqrt (by positivity)]
  norm_num

/-- the two-pattern scan has a finite result (here the coefficient asked for is the one already met by the starting guess, so that one
Newton step ends the fit) -/
theorem exScan_result (A : OffsetSort) (tol : ℝ) (htol : 0 < tol) :
    ∃ coeff out, nlpar A exScan 1 coeff tol 0 = some out ∧ -3 ≤ out 0 0 0 ∧ out 0 0 0 ≤ 3 := by
  set O := A.run 1 with hO
  set nn := fun i j => (O.take 9).map (weight0 exScan O i j) with hnn
  obtain ⟨t, ht⟩ := run_head A 1
  have hvar : ∀ j < 2, ∀ o, 0 < var2 exScan O 0 j o := by
    intro j hj o
    unfold var2
    rw [hO, (exScan_sig A j hj).2]
    positivity
  have hg : gradient exScan nn 1 < 0 := by
    have head : ∀ i j, (nn i j).headD 0 = 0 := by
      intro i j; rw [hnn]; dsimp only; rw [hO, ht]; simp [weight0_self]
    refine grad_neg head ?_ (by norm_num [exScan]) (by norm_num [exScan]) ?_
    · intro i j v hv
      rw [hnn] at hv
      obtain ⟨o, -, rfl⟩ := List.mem_map.mp hv
      exact weight0_nonpos _ _ _ _ _
    · intro i j hi hj
      simp only [exScan] at hi hj
      obtain rfl : i = 0 := by omega
      have hl : O.length = 9 := run_length A 1
      obtain ⟨o, ho, hon⟩ : ∃ o, o ∈ O ∧ OnScan exScan 0 j o ∧ o ≠ (0, 0) := by
        rcases (by omega : j = 0 ∨ j = 1) with rfl | rfl
        · exact ⟨(0, 1), (mem_run A 1 _).mpr (by unfold window; simp), by unfold OnScan; simp [exScan], by simp⟩
        · exact ⟨(0, -1), (mem_run A 1 _).mpr (by unfold window; simp), by unfold OnScan; simp [exScan], by simp⟩
      refine ⟨weight0 exScan O 0 j o, ?_, ?_⟩
      · rw [hnn]; dsimp only
        rw [List.take_of_length_le (by omega)]
        exact List.mem_map_of_mem ho
      · have hv : var2 exScan O 0 j o = 9 := by
          unfold var2 sigmaPad
          rw [if_pos ((on_iff exScan 0 j o).mpr hon.1), hO, (exScan_sig A j hj).2]
          obtain ⟨a, b, c, d⟩ := hon.1
          simp only [exScan] at a b c d
          have e1 : (((0 : ℕ) : ℤ) + o.1).toNat = 0 := by omega
          have e2 : ((j : ℤ) + o.2).toNat < 2 := by omega
          rw [e1, (exScan_sig A _ e2).2]; norm_num
        unfold weight0
        rw [hv, (exScan_dist j hj o).1 hon]
        have : 0 < (36 - ((exScan.n : ℕ) : ℝ) * 9) / (Real.sqrt 2 * Real.sqrt ((exScan.n : ℕ) : ℝ) * 9) := by
          simp only [exScan, Nat.cast_one, Real.sqrt_one]
          positivity
        have := lt_of_lt_of_le this (le_max_left _ 0)
        linarith
  obtain ⟨out, hout⟩ : ∃ out, nlpar A exScan 1 (objective exScan nn 0 1) tol 0 = some out := by
    have hobj : objective exScan nn (objective exScan nn 0 1) 1 = 0 := by unfold objective; ring
    have hnew : newton exScan nn (objective exScan nn 0 1) tol 10 1 = some 1 := by
      unfold newton
      rw [if_neg (by rintro (h | h); · norm_num at h
                     · exact hg.ne h)]
      simp only [hobj, zero_div, sub_zero, abs_zero, htol, if_true]
    unfold nlpar
    simp only
    rw [if_pos]
    · rw [← hO]
      rw [hnew]
      simp only [Option.bind_some]
      rw [if_neg one_ne_zero]
      exact ⟨_, rfl⟩
    · refine ⟨?_, by norm_num [exScan], by norm_num [exScan], by norm_num [exScan], ?_⟩
      · intro i hi j hj
        simp only [exScan] at hi hj
        obtain rfl : i = 0 := by omega
        exact (exScan_sig A j hj).1
      · intro i hi j hj o _
        simp only [exScan] at hi hj
        obtain rfl : i = 0 := by omega
        exact (hvar j hj o).ne'
  refine ⟨_, out, hout, ?_⟩
  refine C39_range A exScan 1 _ tol 0 out hout 0 (-3) 3 0 0 (by norm_num [exScan]) (by norm_num [exScan]) ?_
  intro a _ b _ _ _
  simp only [exScan]
  split <;> norm_num

/-- non-vacuity of C39_convex and C39_range -/
example (A : OffsetSort) : ∃ coeff out, nlpar A exScan 1 coeff 1 0 = some out ∧ -3 ≤ out 0 0 0 ∧ out 0 0 0 ≤ 3 :=
  exScan_result A 1 one_pos

end Verif.Nlpar
