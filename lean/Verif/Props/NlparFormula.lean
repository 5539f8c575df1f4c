import Verif.Props.Nlpar
import Verif.Spec.Nlpar
import Mathlib.Analysis.SpecialFunctions.ExpDeriv
import Mathlib.Analysis.Calculus.Deriv.Inv
import Mathlib.Analysis.Calculus.Deriv.Pow
import Mathlib.Analysis.Calculus.Deriv.Add
/-!
C145: the weights of NLPAR and the fit of its decay length.
-/
namespace Verif.Nlpar
open Finset Verif.Spec.Nlpar

theorem exp_sq_der (v : ℝ) {g : ℝ} (hg : g ≠ 0) : HasDerivAt (fun g : ℝ => Real.exp (v / g ^ 2)) (-2 * (v * Real.exp (v / g ^ 2)) / g ^ 3) g := by
  have h := ((hasDerivAt_const g v).div (hasDerivAt_pow 2 g) (pow_ne_zero 2 hg)).exp
  refine HasDerivAt.congr_deriv h ?_
  simp only [Pi.div_apply]
  push_cast
  field_simp
  ring

theorem sum_der (l : List ℝ) {g : ℝ} (hg : g ≠ 0) : HasDerivAt (fun g : ℝ => (l.map fun v => Real.exp (v / g ^ 2)).sum)
    (-2 * (l.map fun v => v * Real.exp (v / g ^ 2)).sum / g ^ 3) g := by
  induction l with
  | nil => simpa using hasDerivAt_const g (0 : ℝ)
  | cons a l ih =>
    simp only [List.map_cons, List.sum_cons]
    refine HasDerivAt.congr_deriv ((exp_sq_der a hg).add ih) ?_
    ring

theorem exp_sum_pos {l : List ℝ} (h : l ≠ []) (g : ℝ) : 0 < (l.map fun v => Real.exp (v / g ^ 2)).sum := by
  refine List.sum_pos _ ?_ (by simpa using h)
  intro x hx
  obtain ⟨v, -, rfl⟩ := List.mem_map.mp hx
  exact Real.exp_pos _

/-- the gradient in the code is the derivative of its objective -/
theorem objective_der (S : Scan) (nn : ℕ → ℕ → List ℝ) (hnn : ∀ i j, nn i j ≠ []) (coeff : ℝ) {g : ℝ} (hg : g ≠ 0) :
    HasDerivAt (objective S nn coeff) (gradient S nn g) g := by
  unfold objective gradient meanScan
  refine HasDerivAt.sub_const coeff (HasDerivAt.div_const (HasDerivAt.fun_sum fun i _ => HasDerivAt.fun_sum fun j _ => ?_) _)
  have hp := exp_sum_pos (hnn i j) g
  refine HasDerivAt.congr_deriv ((exp_sq_der ((nn i j).headD 0) hg).div (sum_der (nn i j) hg) hp.ne') ?_
  have e : ((nn i j).map fun v => (nn i j).headD 0 * Real.exp (v / g ^ 2)).sum = (nn i j).headD 0 * ((nn i j).map fun v => Real.exp (v / g ^ 2)).sum :=
    List.sum_map_mul_left ..
  simp only [e]
  generalize ((nn i j).map fun v => Real.exp (v / g ^ 2)).sum = T at *
  generalize ((nn i j).map fun v => v * Real.exp (v / g ^ 2)).sum = U at *
  field_simp
  ring

theorem newton_rel (S : Scan) (nn : ℕ → ℕ → List ℝ) (hnn : ∀ i j, nn i j ≠ []) (coeff tol : ℝ) : ∀ (n : ℕ) (g g' : ℝ),
    newton S nn coeff tol n g = some g' → Newton (objective S nn coeff) tol n g g' := by
  intro n
  induction n with
  | zero => intro g g' h; simp only [newton, Option.some.injEq] at h; rw [← h]; exact Newton.done g
  | succ n ih =>
    intro g g' h
    simp only [newton] at h
    split at h
    · simp at h
    rename_i hc
    push Not at hc
    have hd := objective_der S nn hnn coeff hc.1
    split at h
    · rename_i ht
      simp only [Option.some.injEq] at h
      rw [← h, ← hd.deriv]
      exact Newton.last n g hd.differentiableAt (by rw [hd.deriv]; exact hc.2) ht
    · rename_i ht
      refine Newton.step n g g' hd.differentiableAt (by rw [hd.deriv]; exact hc.2) (not_lt.mp ht) ?_
      rw [hd.deriv]
      exact ih _ _ h

theorem minList_inf {α : Type} (f : α → ℝ) {l : List α} (m : ℝ) (h : minList (l.map f) = some m) : m = sInf (f '' {a | a ∈ l}) := by
  rcases l with _ | ⟨a, l⟩
  · simp [minList] at h
  simp only [List.map_cons, minList, Option.some.injEq] at h
  have hmem : ∀ (xs : List ℝ) (x : ℝ), xs.foldl min x = x ∨ xs.foldl min x ∈ xs := by
    intro xs
    induction xs with
    | nil => intro x; left; rfl
    | cons y ys ih =>
      intro x
      rw [List.foldl_cons]
      rcases ih (min x y) with h | h
      · rw [h]
        rcases min_choice x y with h | h
        · left; exact h
        · right; rw [h]; exact List.mem_cons_self
      · right; exact List.mem_cons_of_mem _ h
  obtain ⟨f1, f2⟩ := foldl_min_le (l.map f) (f a)
  have : IsLeast (f '' {b | b ∈ a :: l}) m := by
    constructor
    · rw [← h]
      rcases hmem (l.map f) (f a) with h | h
      · rw [h]; exact ⟨a, List.mem_cons_self, rfl⟩
      · obtain ⟨b, hb, e⟩ := List.mem_map.mp h
        exact ⟨b, List.mem_cons_of_mem _ hb, e⟩
    · rintro _ ⟨b, hb, rfl⟩
      rw [← h]
      rcases List.mem_cons.mp hb with h | h
      · rw [h]; exact f1
      · exact f2 _ (List.mem_map_of_mem h)
  exact this.csInf_eq.symm

/-- the pattern at a position, zero off the scan -/
noncomputable def Scan.at_ (S : Scan) (p : ℤ × ℤ) (k : ℕ) : ℝ := open Classical in
  if 0 ≤ p.1 ∧ p.1 < S.h ∧ 0 ≤ p.2 ∧ p.2 < S.w then S.pat p.1.toNat p.2.toNat k else 0

/-- noise variance, one off the scan -/
noncomputable def Scan.var (S : Scan) (N : Finset (ℤ × ℤ)) (p : ℤ × ℤ) : ℝ := open Classical in
  if 0 ≤ p.1 ∧ p.1 < S.h ∧ 0 ≤ p.2 ∧ p.2 < S.w then noise2 S.at_ S.n N p else 1

/-- weight of the pattern at offset `o` from `p`, at decay length `g` -/
noncomputable def Scan.weight (S : Scan) (N : Finset (ℤ × ℤ)) (g bias : ℝ) (p o : ℤ × ℤ) : ℝ := open Classical in
  Real.exp (-excess S.at_ S.n (S.var N) p o / g ^ 2 + if o = 0 then max bias 0 else 0)

theorem padded_eq (S : Scan) (p : ℤ × ℤ) (k : ℕ) : S.padded p.1 p.2 k = S.at_ p k := by
  unfold Scan.padded Scan.at_ Scan.on
  simp only [decide_eq_true_eq]

theorem dist0_eq (S : Scan) (i j : ℕ) (o : ℤ × ℤ) : dist0 S i j o = d2 S.at_ S.n ((i : ℤ), (j : ℤ)) (((i : ℤ), (j : ℤ)) + o) := by
  unfold dist0 d2
  refine sum_congr rfl fun k _ => ?_
  rw [← padded_eq, ← padded_eq]
  rfl

/-- C145: whenever nlpar returns a finite result, it is the published average: each denoised pattern is the mean of the patterns of the search
window that lie on the scan, with weights `exp (-max (0, (d² - n (σ² + σ'²)) / (√(2n) (σ² + σ'²))) / g²)`, the central one multiplied by `exp bias` if
`bias > 0`; `σ²` is half the smallest mean squared difference to eight neighbours closest in the city-block distance, and the decay length `g` comes
from at most ten steps of Newton's method (with the true derivative) from 1 for the equation "mean central share = coeff".  Positions off the
scan count as zero patterns of variance one in the noise estimate and in the fit.  For every scan, radius, coefficient, tolerance, bias and order
of ties in the offset sort. -/
theorem C145_formula (A : OffsetSort) (S : Scan) (kRad : ℕ) (coeff tol bias : ℝ) (out : ℕ → ℕ → ℕ → ℝ)
    (h : nlpar A S kRad coeff tol bias = some out) :
    ∃ (N : Finset (ℤ × ℤ)) (g : ℝ), N ⊆ window kRad ∧ (0, 0) ∉ N ∧ N.card = 8 ∧
      (∀ o ∈ N, ∀ o' ∈ window kRad, o' ≠ (0, 0) → o' ∉ N → |o.1| + |o.2| ≤ |o'.1| + |o'.2|) ∧
      g ≠ 0 ∧ Newton (fun x => share S.at_ S.n S.h S.w (S.var N) N x - coeff) tol 10 1 g ∧
      ∀ i < S.h, ∀ j < S.w, ∀ k, out i j k =
        (open Classical in ∑ o ∈ window kRad with OnScan S i j o, S.weight N g bias ((i : ℤ), (j : ℤ)) o * S.at_ (((i : ℤ), (j : ℤ)) + o) k) /
        (open Classical in ∑ o ∈ window kRad with OnScan S i j o, S.weight N g bias ((i : ℤ), (j : ℤ)) o) := by
  classical
  have hcopy := h
  unfold nlpar at h
  simp only at h
  split at h
  swap
  · simp at h
  rename_i hall
  obtain ⟨hsome, hn0, hh0, hw0, hv⟩ := hall
  rcases hn : newton S (fun i j => ((A.run kRad).take 9).map (weight0 S (A.run kRad) i j)) coeff tol 10 1 with _ | g
  · rw [hn] at h; simp at h
  rw [hn] at h
  simp only [Option.bind_some] at h
  split at h
  · simp at h
  rename_i hg
  simp only [Option.some.injEq] at h
  obtain ⟨t, ht⟩ := run_head A kRad
  have hk : 1 ≤ kRad := by
    rcases Nat.eq_zero_or_pos kRad with h0 | h0
    · rw [h0, C39_radius_zero_fails A S hh0 hw0] at hcopy; simp at hcopy
    · exact h0
  have hlen : 8 ≤ t.length := by
    have := run_length A kRad
    rw [ht, List.length_cons] at this
    have : 3 * 3 ≤ (2 * kRad + 1) * (2 * kRad + 1) := Nat.mul_le_mul (by omega) (by omega)
    omega
  have hnd := run_nodup A kRad
  rw [ht] at hnd
  have hndt := (List.nodup_cons.mp hnd).2
  have h0t := (List.nodup_cons.mp hnd).1
  have hnd8 : (t.take 8).Nodup := (List.take_sublist 8 t).nodup hndt
  obtain ⟨N, hN⟩ : ∃ N : Finset (ℤ × ℤ), N = (t.take 8).toFinset := ⟨_, rfl⟩
  have hNset : (↑N : Set (ℤ × ℤ)) = {o | o ∈ t.take 8} := by ext o; rw [hN]; simp
  have h0N : (0, 0) ∉ N := by rw [hN, List.mem_toFinset]; exact fun hc => h0t (List.mem_of_mem_take hc)
  have hpt : ∀ i < S.h, ∀ j < S.w, (0 : ℤ) ≤ (i : ℤ) ∧ (i : ℤ) < S.h ∧ (0 : ℤ) ≤ (j : ℤ) ∧ (j : ℤ) < S.w := fun i hi j hj => by omega
  have dn : ∀ i j p, 0 ≤ dist0 S i j p := fun i j p => by unfold dist0; positivity
  -- the noise
  have hsig : ∀ i < S.h, ∀ j < S.w, sig S (A.run kRad) i j ^ 2 = S.var N ((i : ℤ), (j : ℤ)) := by
    intro i hi j hj
    have hs := hsome i hi j hj
    unfold Scan.var
    rw [if_pos (hpt i hi j hj)]
    unfold sig sigmaHat noise2 at *
    rw [ht] at hs ⊢
    simp only [List.drop_one, List.tail_cons] at hs ⊢
    rcases hm : minList ((t.take 8).map (dist0 S i j)) with _ | m
    · rw [hm] at hs; simp at hs
    have e := minList_inf (dist0 S i j) m hm
    have em : (fun o => d2 S.at_ S.n ((i : ℤ), (j : ℤ)) (((i : ℤ), (j : ℤ)) + o)) = dist0 S i j := by
      funext o; rw [dist0_eq]
    rw [em, hNset, ← e]
    simp only [Option.map_some, Option.getD_some]
    rw [Real.sq_sqrt]
    have : 0 ≤ m := by
      rw [e]; exact Real.sInf_nonneg (by rintro _ ⟨o, -, rfl⟩; exact dn i j o)
    positivity
  have hsp : ∀ p : ℤ × ℤ, sigmaPad S (A.run kRad) p.1 p.2 ^ 2 = S.var N p := by
    intro p
    unfold sigmaPad Scan.on
    by_cases hc : 0 ≤ p.1 ∧ p.1 < S.h ∧ 0 ≤ p.2 ∧ p.2 < S.w
    · rw [if_pos (by simpa using hc), hsig p.1.toNat (by omega) p.2.toNat (by omega)]
      congr 1
      exact Prod.ext (by simp [hc.1]) (by simp [hc.2.2.1])
    · rw [if_neg (by simpa using hc)]
      unfold Scan.var
      rw [if_neg hc]; norm_num
  have hwt : ∀ i < S.h, ∀ j < S.w, ∀ o, weight0 S (A.run kRad) i j o = -excess S.at_ S.n (S.var N) ((i : ℤ), (j : ℤ)) o := by
    intro i hi j hj o
    unfold weight0 excess var2
    rw [hsig i hi j hj, dist0_eq, ← Real.sqrt_mul (by norm_num : (0 : ℝ) ≤ 2)]
    have := hsp (((i : ℤ), (j : ℤ)) + o)
    simp only [Prod.fst_add, Prod.snd_add] at this
    rw [this]
  -- the fit
  have htake : (A.run kRad).take 9 = (0, 0) :: t.take 8 := by rw [ht]; rfl
  have hobj : ∀ x, objective S (fun i j => ((A.run kRad).take 9).map (weight0 S (A.run kRad) i j)) coeff x =
      share S.at_ S.n S.h S.w (S.var N) N x - coeff := by
    intro x
    unfold objective meanScan share
    congr 2
    refine sum_congr rfl fun i hi => sum_congr rfl fun j hj => ?_
    rw [htake]
    simp only [List.map_cons, List.headD_cons, List.sum_cons, weight0_self, zero_div, Real.exp_zero, List.map_map]
    congr 2
    rw [hN, List.sum_toFinset _ hnd8]
    congr 1
    refine List.map_congr_left fun o _ => ?_
    simp only [Function.comp]
    rw [hwt i (mem_range.mp hi) j (mem_range.mp hj), hN]
  have hNew := newton_rel S _ (fun i j => by rw [htake]; simp) coeff tol 10 1 g hn
  rw [show objective S (fun i j => ((A.run kRad).take 9).map (weight0 S (A.run kRad) i j)) coeff =
    fun x => share S.at_ S.n S.h S.w (S.var N) N x - coeff from funext hobj] at hNew
  refine ⟨N, g, ?_, h0N, ?_, ?_, hg, hNew, ?_⟩
  · intro o ho
    rw [hN, List.mem_toFinset] at ho
    rw [← mem_run A, ht]
    exact List.mem_cons_of_mem _ (List.mem_of_mem_take ho)
  · rw [hN, List.toFinset_card_of_nodup hnd8, List.length_take]; omega
  · intro o ho o' ho' hne hno
    rw [hN, List.mem_toFinset] at ho hno
    have hs := A.sorted kRad
    rw [ht] at hs
    have hs' := (List.pairwise_cons.mp hs).2
    rw [← List.take_append_drop 8 t] at hs'
    have := (List.pairwise_append.mp hs').2.2 o ho o' ?_
    · exact this
    · rw [← mem_run A, ht] at ho'
      rcases List.mem_cons.mp ho' with hc | hc
      · exact absurd hc hne
      · rw [← List.take_append_drop 8 t] at hc
        rcases List.mem_append.mp hc with hc | hc
        · exact absurd hc hno
        · exact hc
  · intro i hi j hj k
    have hidx : ∀ l < (A.run kRad).length, (l = 0 ↔ (A.run kRad).getD l (0, 0) = (0, 0)) := by
      intro l hl
      have e0 : (A.run kRad).getD 0 (0, 0) = (0, 0) := by rw [ht]; rfl
      constructor
      · rintro rfl; exact e0
      · intro e
        rw [List.getD_eq_getElem?_getD, List.getElem?_eq_getElem hl] at e
        have h0 : 0 < (A.run kRad).length := by omega
        rw [List.getD_eq_getElem?_getD, List.getElem?_eq_getElem h0] at e0
        exact (List.Nodup.getElem_inj_iff (run_nodup A kRad)).mp (e.trans e0.symm)
    obtain ⟨E, hE⟩ : ∃ E : ℤ × ℤ → ℝ, E = fun o => if OnScan S i j o then S.weight N g bias ((i : ℤ), (j : ℤ)) o else 0 := ⟨_, rfl⟩
    have key : ∀ l < (A.run kRad).length, (if S.on (i + ((A.run kRad).getD l (0, 0)).1) (j + ((A.run kRad).getD l (0, 0)).2) = true then
        Real.exp (logit S (A.run kRad) g bias i j l) else 0) = E ((A.run kRad).getD l (0, 0)) := by
      intro l hl
      rw [hE]
      dsimp only
      by_cases hon : OnScan S i j ((A.run kRad).getD l (0, 0))
      · rw [if_pos hon, if_pos ((on_iff _ _ _ _).mpr hon)]
        unfold logit Scan.weight
        rw [hwt i hi j hj]
        congr 2
        by_cases hl0 : l = 0
        · have e0 := (hidx l hl).mp hl0
          rw [if_pos (show (A.run kRad).getD l (0, 0) = 0 from e0)]
          by_cases hb : 0 < bias
          · rw [if_pos ⟨hb, hl0⟩, max_eq_left hb.le]
          · rw [if_neg (fun hc => hb hc.1), max_eq_right (not_lt.mp hb)]
        · rw [if_neg (fun hc => hl0 hc.2), if_neg (fun hc : (A.run kRad).getD l (0, 0) = 0 => hl0 ((hidx l hl).mpr hc))]
      · rw [if_neg hon, if_neg (fun hc => hon ((on_iff _ _ _ _).mp hc))]
    have hsoft : ∀ l < (A.run kRad).length, softWeight S (A.run kRad) g bias i j l =
        E ((A.run kRad).getD l (0, 0)) / ∑ o ∈ window kRad, E o := by
      intro l hl
      unfold softWeight
      simp only
      rw [key l hl, ← sum_run A kRad E]
      congr 1
      exact sum_congr rfl fun m hm => key m (mem_range.mp hm)
    rw [← h]
    dsimp only
    have e1 : ∑ l ∈ range (A.run kRad).length,
        S.padded (i + ((A.run kRad).getD l (0, 0)).1) (j + ((A.run kRad).getD l (0, 0)).2) k * softWeight S (A.run kRad) g bias i j l =
        ∑ l ∈ range (A.run kRad).length, (fun o : ℤ × ℤ => S.padded (i + o.1) (j + o.2) k * (E o / ∑ o ∈ window kRad, E o))
          ((A.run kRad).getD l (0, 0)) := sum_congr rfl fun l hl => by rw [hsoft l (mem_range.mp hl)]
    rw [e1, sum_run A kRad fun o : ℤ × ℤ => S.padded (i + o.1) (j + o.2) k * (E o / ∑ o ∈ window kRad, E o), sum_filter, sum_filter,
      sum_div]
    refine sum_congr rfl fun o _ => ?_
    have hp := padded_eq S (((i : ℤ), (j : ℤ)) + o) k
    simp only [Prod.fst_add, Prod.snd_add] at hp
    rw [hp, hE]
    dsimp only
    split
    · ring
    · simp

/-- the 1 by 2 scan of one-pixel patterns 3 and -3 of `exScan_result` meets the hypothesis of C145_formula -/
example (A : OffsetSort) : ∃ (coeff : ℝ) (out : ℕ → ℕ → ℕ → ℝ), nlpar A exScan 1 coeff 1 0 = some out := by
  obtain ⟨c, out, h, -⟩ := exScan_result A 1 one_pos
  exact ⟨c, out, h⟩

end Verif.Nlpar
