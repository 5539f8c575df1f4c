import Verif.Model.Refine
import Verif.Props.Fz
import Verif.Props.Indexing
import Verif.Props.LocalGrid
import Verif.Props.Cubo
/-! Property C85: local grid refinement of orientations (ebsd/refining.py). -/
namespace Verif.Refine
open Verif Verif.Cubo Verif.Samp Verif.Spec

theorem mapM_total {α β : Type} (f : α → Option β) (g : α → β) (l : List α) (h : ∀ a ∈ l, f a = some (g a)) :
    l.mapM f = some (l.map g) := by
  induction l with
  | nil => rfl
  | cons a t ih =>
    rw [List.mapM_cons, h a List.mem_cons_self, ih fun b hb => h b (List.mem_cons_of_mem _ hb)]
    rfl

theorem fz_total (n : ℕ) (h1 : 1 ≤ n) (h2 : n ≤ 11) : ∃ F : Q → Q, ∀ q, oriToFz q n = some (F q) := by
  choose F hF using fun q => C07_reduce q n h1 h2
  exact ⟨F, fun q => (hF q).1⟩

/-- `argmaxFirst` is the first position of the maximum. -/
theorem argmaxFirst_iff {l : List ℝ} {k : ℕ} (hk : k < l.length) :
    argmaxFirst l = k ↔ (∀ y ∈ l, y ≤ l[k]) ∧ ∀ j (hj : j < k), l[j] < l[k] := by
  classical
  have hne : l ≠ [] := by rintro rfl; simp at hk
  have hlt := argmaxFirst_lt hne
  have hmax := argmaxFirst_max hlt
  constructor
  · rintro rfl
    refine ⟨hmax, fun j hj => ?_⟩
    by_contra hc
    have hc := not_lt.mp hc
    have : argmaxFirst l ≤ j := by
      unfold argmaxFirst
      by_contra hcon
      have := List.not_of_lt_findIdx (not_le.mp hcon)
      simp only [decide_eq_false_iff_not] at this
      exact this fun y hy => (hmax y hy).trans hc
    omega
  · rintro ⟨h1, h2⟩
    rcases lt_trichotomy (argmaxFirst l) k with h | h | h
    · have := h2 _ h
      have := hmax _ (List.getElem_mem hk)
      linarith
    · exact h
    · have h3 : ∀ j (hj : j < argmaxFirst l), l[j] < l[argmaxFirst l] := by
        intro j hj
        by_contra hc
        have hc := not_lt.mp hc
        have : argmaxFirst l ≤ j := by
          unfold argmaxFirst
          by_contra hcon
          have := List.not_of_lt_findIdx (not_le.mp hcon)
          simp only [decide_eq_false_iff_not] at this
          exact this fun y hy => (hmax y hy).trans hc
        omega
      have := h3 k h
      have := h1 _ (List.getElem_mem hlt)
      linarith

/-- C85: one refinement iteration.  The new orientation is one of the candidates (grid rotation times current
orientation, reduced to the fundamental zone), its score is recorded and no candidate scores higher. -/
theorem C85_step (A : Argsort) (single : Bool) (n : ℕ) (h1 : 1 ≤ n) (h2 : n ≤ 11) (shrink : ℝ) (score : Q → ℝ)
    (s : Cur) (hne : s.grid ≠ []) :
    ∃ s', iter A single n shrink score s = some s' ∧
      (∃ c ∈ s.grid, oriToFz (quProd (cu2qu A single c) s.qu) n = some s'.qu) ∧
      s'.dots = s.dots ++ [score s'.qu] ∧
      ∀ c ∈ s.grid, ∀ q, oriToFz (quProd (cu2qu A single c) s.qu) n = some q → score q ≤ score s'.qu := by
  obtain ⟨F, hF⟩ := fz_total n h1 h2
  have hc : candidates A single n s = some (s.grid.map fun c => F (quProd (cu2qu A single c) s.qu)) :=
    mapM_total _ _ _ fun c _ => hF _
  obtain ⟨aug, haug⟩ : ∃ aug, aug = s.grid.map fun c => F (quProd (cu2qu A single c) s.qu) := ⟨_, rfl⟩
  rw [← haug] at hc
  have hne' : aug.map score ≠ [] := by rw [haug]; simpa using hne
  have hlt := argmaxFirst_lt hne'
  have hmax := argmaxFirst_max hlt
  have hlt' : argmaxFirst (aug.map score) < aug.length := by simpa using hlt
  refine ⟨_, by unfold iter; rw [hc, Option.bind_some]; simp only; rw [List.getElem?_eq_getElem hlt', Option.map_some],
    ?_, rfl, ?_⟩
  · have hm : aug[argmaxFirst (aug.map score)] ∈ aug := List.getElem_mem hlt'
    have hall : ∀ x ∈ aug, ∃ c ∈ s.grid, F (quProd (cu2qu A single c) s.qu) = x := by
      rw [haug]; intro x hx; exact List.mem_map.mp hx
    obtain ⟨c, hcm, hce⟩ := hall _ hm
    exact ⟨c, hcm, by rw [hF]; exact congrArg some hce⟩
  · intro c hcm q hq
    rw [hF] at hq
    have hq := Option.some.inj hq
    have hm : score q ∈ aug.map score := by
      rw [← hq, haug]
      exact List.mem_map_of_mem (List.mem_map_of_mem hcm)
    have := hmax _ hm
    rw [List.getElem_map] at this
    exact this

/-- C85: the grid of a pattern shrinks by the shrink factor exactly when its middle candidate is the best and beats all
earlier ones; otherwise it keeps its size. -/
theorem C85_shrink (A : Argsort) (single : Bool) (id : ℤ) (shrink : ℝ) (score : Q → ℝ) (s s' : Cur)
    (h : iter A single id shrink score s = some s') (m : ℕ) (hm : s.grid.length = 2 * m + 1) :
    ∃ aug : List Q, aug.length = s.grid.length ∧
      (∀ i (hi : i < s.grid.length) (hj : i < aug.length), oriToFz (quProd (cu2qu A single s.grid[i]) s.qu) id = some aug[i]) ∧
      ∃ hma : m < aug.length,
      (((∀ q ∈ aug, score q ≤ score aug[m]) ∧ ∀ j (hj : j < m), score aug[j] < score aug[m]) →
        s'.grid = s.grid.map (V.smul shrink)) ∧
      (¬ ((∀ q ∈ aug, score q ≤ score aug[m]) ∧ ∀ j (hj : j < m), score aug[j] < score aug[m]) →
        s'.grid = s.grid) := by
  unfold iter at h
  rw [Option.bind_eq_some_iff] at h
  obtain ⟨aug, hc, h⟩ := h
  simp only [Option.map_eq_some_iff] at h
  obtain ⟨q, hq, rfl⟩ := h
  have key : ∀ (l : List V) (aug : List Q), l.mapM (fun c => oriToFz (quProd (cu2qu A single c) s.qu) id) = some aug →
      aug.length = l.length ∧ ∀ i (hi : i < l.length) (hj : i < aug.length),
        oriToFz (quProd (cu2qu A single l[i]) s.qu) id = some aug[i] := by
    intro l
    induction l with
    | nil => intro aug h; simp at h; subst h; simp
    | cons c t ih =>
      intro aug h
      rw [List.mapM_cons] at h
      simp only [Option.bind_eq_bind, Option.bind_eq_some_iff, Option.pure_def, Option.some.injEq] at h
      obtain ⟨a, ha, b, hb, rfl⟩ := h
      obtain ⟨e1, e2⟩ := ih b hb
      refine ⟨by simp [e1], fun i hi hj => ?_⟩
      cases i with
      | zero => simpa using ha
      | succ i => simpa using e2 i (by simpa using hi) (by simpa using hj)
  obtain ⟨hl, hg⟩ := key _ _ hc
  have hma : m < aug.length := by omega
  refine ⟨aug, hl, hg, hma, ?_⟩
  have hiff := argmaxFirst_iff (l := aug.map score) (k := m) (by simpa using hma)
  have hiff' : argmaxFirst (aug.map score) = m ↔
      (∀ q ∈ aug, score q ≤ score aug[m]) ∧ ∀ j (hj : j < m), score aug[j] < score aug[m] := by
    rw [hiff]
    simp
  rw [← hiff']
  constructor
  · intro e
    simp only
    rw [if_pos (by omega)]
  · intro e
    simp only
    rw [if_neg (by omega)]

theorem ho2qu_small (A : Argsort) (single : Bool) (c : V)
    (h : |(cu2ho A c).x ^ 2 + (cu2ho A c).y ^ 2 + (cu2ho A c).z ^ 2| < 1e-6) : cu2qu A single c = ⟨1, 0, 0, 0⟩ := by
  unfold cu2qu ho2qu ho2ax
  simp only
  rw [if_pos h]
  simp [ax2qu]

theorem sq_norm (v : V) : v.x ^ 2 + v.y ^ 2 + v.z ^ 2 = v.norm ^ 2 := by
  unfold V.norm
  rw [Real.sq_sqrt (by positivity)]

/-- The origin of the grid is the identity rotation. -/
theorem cu2qu_zero (A : Argsort) (single : Bool) : cu2qu A single ⟨0, 0, 0⟩ = ⟨1, 0, 0, 0⟩ := by
  apply ho2qu_small
  rw [sq_norm, C84_radius]
  norm_num

theorem quProd_one_left (q : Q) : quProd ⟨1, 0, 0, 0⟩ q = quStd q := by
  unfold quProd quProdRaw
  congr 1
  ext <;> simp

theorem quProd_one_right (q : Q) : quProd q ⟨1, 0, 0, 0⟩ = quStd q := by
  unfold quProd quProdRaw
  congr 1
  ext <;> simp

theorem toH_neg' (q : Q) : toH q.neg = -toH q := toH_neg q

theorem inZone_std {n : ℕ} {q : Q} (h : InZone n (toH q)) : InZone n (toH (quStd q)) := by
  unfold quStd
  split
  · exact h
  · intro g hg
    rw [toH_neg', H_neg_mul, H_re_neg, H_re_neg, abs_neg, abs_neg]
    exact h g hg

theorem std_std (q : Q) : quStd (quStd q) = quStd q := by
  have := quStd_nonneg q
  rw [quStd.eq_1 (quStd q), if_pos this]

/-- An orientation of the zone with non-negative scalar part is its own reduction. -/
theorem fz_fix {n : ℕ} (h1 : 1 ≤ n) (h2 : n ≤ 11) {q : Q} (hz : InZone n (toH q)) (hw : 0 ≤ q.w) :
    oriToFz q n = some q := by
  obtain ⟨l, _, _, he⟩ := laueElements_some n h1 h2
  obtain ⟨m, hm, hlen⟩ := laueMult_len h1 h2 he
  obtain ⟨t, ht⟩ := laue_ne_nil h1 h2 he
  have hz' := (forall_rot_iff h1 h2 he (a := toH q) (c := |(toH q).re|)).mp hz
  have h0 : argmaxFirst ((l.map XQ.toQ).map (quProdPosReal q)) = 0 := by
    rw [ht, List.map_cons, argmaxFirst_zero]
    intro y hy
    obtain ⟨g, hg, rfl⟩ := List.mem_map.mp hy
    rw [posReal_eq, posReal_eq]
    refine (hz' g (by rw [ht]; exact List.mem_cons_of_mem _ hg)).trans (le_of_eq ?_)
    simp
  unfold oriToFz
  rw [hm, he]
  simp only [Option.bind_eq_bind, Option.bind_some, if_pos hlen, h0]
  rw [ht, List.getElem?_cons_zero, Option.bind_some, quProd_one_right, quStd, if_pos hw]
  rfl

theorem fz_inZone {n : ℕ} (h1 : 1 ≤ n) (h2 : n ≤ 11) {q r : Q} (h : oriToFz q n = some r) :
    InZone n (toH r) ∧ 0 ≤ r.w ∧ oriInFz r n = some true ∧ (IsUnit4 q → IsUnit4 r) := by
  obtain ⟨r', hr', _, h0, hu, _⟩ := C07_reduce q n h1 h2
  rw [h] at hr'
  obtain rfl := Option.some.inj hr'
  obtain ⟨r', hr', hin, _⟩ := C10_inside q n h1 h2
  rw [h] at hr'
  obtain rfl := Option.some.inj hr'
  obtain ⟨b, hb, hbi⟩ := C09_closed_form r h0 n h1 h2
  rw [hb] at hin
  obtain rfl := Option.some.inj hin
  exact ⟨hbi.mp rfl, h0, hb, hu⟩

theorem quApply_neg (q : Q) (p : V) : quApply q.neg p = quApply q p := by
  unfold quApply Q.neg
  ext <;> simp only <;> ring

theorem gridScore_std {d : ℕ} (mp : V → ℝ) (dirs : Fin d → V) (e : Fin d → ℝ) (q : Q) :
    gridScore mp dirs e (quStd q) = gridScore mp dirs e q := by
  unfold quStd
  split
  · rfl
  · unfold gridScore simPattern
    simp only [quApply_neg]

/-- The candidate of the grid origin. -/
theorem origin_candidate {n : ℕ} (h1 : 1 ≤ n) (h2 : n ≤ 11) (A : Argsort) (single : Bool) {q : Q}
    (hz : InZone n (toH q)) : oriToFz (quProd (cu2qu A single ⟨0, 0, 0⟩) q) n = some (quStd q) := by
  rw [cu2qu_zero, quProd_one_left]
  exact fz_fix h1 h2 (inZone_std hz) (quStd_nonneg q)

theorem iter_grid {A : Argsort} {single : Bool} {id : ℤ} {shrink : ℝ} {score : Q → ℝ} {s s' : Cur}
    (h : iter A single id shrink score s = some s') : s'.grid = s.grid ∨ s'.grid = s.grid.map (V.smul shrink) := by
  unfold iter at h
  rw [Option.bind_eq_some_iff] at h
  obtain ⟨aug, hc, h⟩ := h
  simp only [Option.map_eq_some_iff] at h
  obtain ⟨q, hq, rfl⟩ := h
  simp only
  split
  · exact Or.inr rfl
  · exact Or.inl rfl

theorem quProd_unit {a b : Q} (ha : IsUnit4 a) (hb : IsUnit4 b) : IsUnit4 (quProd a b) :=
  unit_std.mpr (unit_prodRaw ha hb)

theorem iters_spec {d : ℕ} (mp : V → ℝ) (dirs : Fin d → V) (e : Fin d → ℝ) (A : Argsort) (single : Bool) (n : ℕ)
    (h1 : 1 ≤ n) (h2 : n ≤ 11) (shrink : ℝ) : ∀ (k : ℕ) (s : Cur), (⟨0, 0, 0⟩ : V) ∈ s.grid → InZone n (toH s.qu) →
    s.dots.Pairwise (· ≤ ·) → (∀ x ∈ s.dots, x ≤ gridScore mp dirs e s.qu) →
    ∃ s', iters A single n shrink (gridScore mp dirs e) k s = some s' ∧ InZone n (toH s'.qu) ∧
      (∃ tl, s'.dots = s.dots ++ tl ∧ tl.length = k ∧ (∀ x ∈ tl, gridScore mp dirs e s.qu ≤ x) ∧
        (k = 0 → s'.qu = s.qu) ∧ (0 < k → tl.getLast? = some (gridScore mp dirs e s'.qu) ∧ oriInFz s'.qu n = some true)) ∧
      s'.dots.Pairwise (· ≤ ·) ∧ (∀ x ∈ s'.dots, x ≤ gridScore mp dirs e s'.qu) ∧ (IsUnit4 s.qu → IsUnit4 s'.qu) ∧
      gridScore mp dirs e s.qu ≤ gridScore mp dirs e s'.qu := by
  intro k
  induction k with
  | zero =>
    intro s _ hz hp hx
    exact ⟨s, rfl, hz, ⟨[], by simp, rfl, by simp, fun _ => rfl, fun h => by omega⟩, hp, hx, id, le_refl _⟩
  | succ k ih =>
    intro s h0 hz hp hx
    obtain ⟨s1, hs1, ⟨c, hc, hcq⟩, hd, hmax⟩ := C85_step A single n h1 h2 shrink (gridScore mp dirs e) s
      (List.ne_nil_of_mem h0)
    have hge : gridScore mp dirs e s.qu ≤ gridScore mp dirs e s1.qu := by
      have := hmax _ h0 _ (origin_candidate h1 h2 A single hz)
      rwa [gridScore_std] at this
    obtain ⟨hz1, hw1, hin1, hu1⟩ := fz_inZone h1 h2 hcq
    have h01 : (⟨0, 0, 0⟩ : V) ∈ s1.grid := by
      rcases iter_grid hs1 with h | h
      · rw [h]; exact h0
      · rw [h]; exact List.mem_map.mpr ⟨_, h0, by simp [V.smul]⟩
    have hx1 : ∀ x ∈ s1.dots, x ≤ gridScore mp dirs e s1.qu := by
      intro x hx'
      rw [hd] at hx'
      rcases List.mem_append.mp hx' with h | h
      · exact (hx x h).trans hge
      · rw [List.mem_singleton.mp h]
    have hp1 : s1.dots.Pairwise (· ≤ ·) := by
      rw [hd, List.pairwise_append]
      refine ⟨hp, by simp, fun a ha b hb => ?_⟩
      rw [List.mem_singleton.mp hb]
      exact (hx a ha).trans hge
    obtain ⟨s', hs', hz', ⟨tl, htl, htll, htlx, hk0, hk1⟩, hp', hx', hu', hge'⟩ := ih s1 h01 hz1 hp1 hx1
    refine ⟨s', by rw [iters, hs1, Option.bind_some, hs'], hz',
      ⟨gridScore mp dirs e s1.qu :: tl, ?_, by simp [htll], ?_, by omega, fun _ => ?_⟩, hp', hx', ?_, hge.trans hge'⟩
    · rw [htl, hd, List.append_assoc]; rfl
    · intro x hx
      rcases List.mem_cons.mp hx with rfl | hx
      · exact hge
      · exact hge.trans (htlx x hx)
    · rcases Nat.eq_zero_or_pos k with rfl | hk
      · rw [hk0 rfl]
        have : tl = [] := List.length_eq_zero_iff.mp htll
        subst this
        exact ⟨rfl, hin1⟩
      · obtain ⟨hl, hin⟩ := hk1 hk
        refine ⟨?_, hin⟩
        rw [List.getLast?_cons, hl]; rfl
    · intro hu
      exact hu' (hu1 (quProd_unit (C62_cu2qu_unit A single c) hu))

theorem origin_mem {deg : ℝ} {r : ℕ} (hr : 1 ≤ r) {dim : ℤ} {grid : List V} (hg : localGrid deg r dim = some grid) :
    (⟨0, 0, 0⟩ : V) ∈ grid := by
  obtain ⟨l, hl, _, _, _, hmid⟩ := C65_full_grid deg r hr
  have hm := List.mem_of_getElem? hmid
  unfold localGrid at hl hg
  simp only [if_true] at hl
  obtain rfl := Option.some.inj hl
  simp only at hg
  split at hg
  · obtain rfl := Option.some.inj hg; exact hm
  · split at hg
    · obtain rfl := Option.some.inj hg
      exact List.mem_filter.mpr ⟨hm, by simp [zeros]⟩
    · split at hg
      · obtain rfl := Option.some.inj hg
        exact List.mem_filter.mpr ⟨hm, by simp [zeros]⟩
      · exact absurd hg (by simp)

/-- C85 (refinement never loses score): starting from any orientation, with radius at least one, the recorded scores
never decrease from one iteration to the next; the last recorded score is the score of the returned orientation, which
lies in the fundamental zone and is a unit quaternion if the start was; and if the start lies in the fundamental zone no
recorded score is below the score of the start. -/
theorem C85_monotone_partial {d : ℕ} (mp : V → ℝ) (dirs : Fin d → V) (e : Fin d → ℝ) (A : Argsort) (single : Bool) (n : ℕ)
    (h1 : 1 ≤ n) (h2 : n ≤ 11) (shrink deg : ℝ) (r : ℕ) (hr : 1 ≤ r) (dim : ℤ) (grid : List V)
    (hg : localGrid deg r dim = some grid) (q : Q) (k : ℕ) :
    ∃ s', iters A single n shrink (gridScore mp dirs e) k ⟨grid, q, []⟩ = some s' ∧ s'.dots.length = k ∧
      s'.dots.Pairwise (· ≤ ·) ∧ (IsUnit4 q → IsUnit4 s'.qu) ∧
      (0 < k → s'.dots.getLast? = some (gridScore mp dirs e s'.qu) ∧ oriInFz s'.qu n = some true) ∧
      (oriInFz q n = some true → 0 ≤ q.w → ∀ x ∈ s'.dots, gridScore mp dirs e q ≤ x) := by
  have h0 := origin_mem hr hg
  cases k with
  | zero => exact ⟨_, rfl, rfl, by simp, id, by simp, by simp⟩
  | succ k =>
    obtain ⟨s1, hs1, ⟨c, hc, hcq⟩, hd, hmax⟩ := C85_step A single n h1 h2 shrink (gridScore mp dirs e) ⟨grid, q, []⟩
      (List.ne_nil_of_mem h0)
    obtain ⟨hz1, hw1, hin1, hu1⟩ := fz_inZone h1 h2 hcq
    have h01 : (⟨0, 0, 0⟩ : V) ∈ s1.grid := by
      rcases iter_grid hs1 with h | h
      · rw [h]; exact h0
      · rw [h]; exact List.mem_map.mpr ⟨_, h0, by simp [V.smul]⟩
    simp only [List.nil_append] at hd
    obtain ⟨s', hs', hz', ⟨tl, htl, htll, htlx, hk0, hk1⟩, hp', hx', hu', hge'⟩ :=
      iters_spec mp dirs e A single n h1 h2 shrink k s1 h01 hz1 (by rw [hd]; simp) (by rw [hd]; simp)
    refine ⟨s', by rw [iters, hs1, Option.bind_some, hs'], by rw [htl, hd]; simp [htll, Nat.add_comm], hp', ?_, ?_, ?_⟩
    · intro hu
      exact hu' (hu1 (quProd_unit (C62_cu2qu_unit A single c) hu))
    · intro _
      rcases Nat.eq_zero_or_pos k with rfl | hk
      · have : tl = [] := List.length_eq_zero_iff.mp htll
        rw [htl, hd, this, hk0 rfl]
        exact ⟨rfl, hin1⟩
      · obtain ⟨hl, hin⟩ := hk1 hk
        refine ⟨?_, hin⟩
        rw [htl, List.getLast?_append, hl]; rfl
    · intro hin hw x hx
      obtain ⟨b, hb, hbi⟩ := C09_closed_form q hw n h1 h2
      rw [hb] at hin
      obtain rfl := Option.some.inj hin
      have hge := hmax _ h0 _ (origin_candidate h1 h2 A single (hbi.mp rfl))
      rw [gridScore_std] at hge
      rw [htl, hd] at hx
      rcases List.mem_append.mp hx with h | h
      · rw [List.mem_singleton.mp h]; exact hge
      · exact hge.trans (htlx x h)

end Verif.Refine
