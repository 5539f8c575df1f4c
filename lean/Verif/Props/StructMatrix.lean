import Verif.Props.Excitation
import Verif.Props.Reflections
/-!
C93: the table of Fourier coefficients and the off-diagonal structure matrix.
-/
namespace Verif.Diff
open Cryst Matrix
open SG (Err)

/-! ### The flattened index -/

/-- Every component of a difference is at most twice the limit. -/
def InTable (m : ℕ × ℕ × ℕ) (g : Hkl) : Prop :=
  (-(2 * m.1 : ℤ) ≤ g.1 ∧ g.1 ≤ 2 * m.1) ∧ (-(2 * m.2.1 : ℤ) ≤ g.2.1 ∧ g.2.1 ≤ 2 * m.2.1) ∧
    (-(2 * m.2.2 : ℤ) ≤ g.2.2 ∧ g.2.2 ≤ 2 * m.2.2)

lemma digit_unique {C a z a' z' : ℤ} (h0 : 0 ≤ z) (h1 : z < C) (h2 : 0 ≤ z') (h3 : z' < C) (e : a * C + z = a' * C + z') :
    a = a' ∧ z = z' := by
  have hC : 0 < C := by omega
  have e1 : (a * C + z) / C = a := by
    rw [add_comm, Int.add_mul_ediv_right _ _ hC.ne', Int.ediv_eq_zero_of_lt h0 h1, zero_add]
  have e2 : (a' * C + z') / C = a' := by
    rw [add_comm, Int.add_mul_ediv_right _ _ hC.ne', Int.ediv_eq_zero_of_lt h2 h3, zero_add]
  have : a = a' := by rw [← e1, e, e2]
  refine ⟨this, ?_⟩
  subst this
  exact add_left_cancel e

lemma flatIndex_inj {m : ℕ × ℕ × ℕ} {g g' : Hkl} (h : InTable m g) (h' : InTable m g') (e : flatIndex m g = flatIndex m g') :
    g = g' := by
  obtain ⟨a, b, c⟩ := g
  obtain ⟨a', b', c'⟩ := g'
  obtain ⟨m1, m2, m3⟩ := m
  simp only [InTable] at h h'
  unfold flatIndex at e
  simp only at e
  have r : ∀ x y z : ℤ, (x + 2 * m1) * (4 * m2 + 1) * (4 * m3 + 1) + (y + 2 * m2) * (4 * m3 + 1) + (z + 2 * m3) =
      ((x + 2 * m1) * (4 * m2 + 1) + (y + 2 * m2)) * (4 * m3 + 1) + (z + 2 * m3) := fun x y z => by ring
  rw [r, r] at e
  obtain ⟨e1, e2⟩ := digit_unique (by omega) (by omega) (by omega) (by omega) e
  obtain ⟨e3, e4⟩ := digit_unique (by omega) (by omega) (by omega) (by omega) e1
  simp only [Prod.mk.injEq]
  omega

lemma flatIndex_bounds {m : ℕ × ℕ × ℕ} {g : Hkl} (h : InTable m g) : 0 ≤ flatIndex m g ∧ flatIndex m g < tableSize m := by
  obtain ⟨a, b, c⟩ := g
  obtain ⟨m1, m2, m3⟩ := m
  simp only [InTable] at h
  unfold flatIndex tableSize
  simp only
  obtain ⟨⟨a1, a2⟩, ⟨b1, b2⟩, c1, c2⟩ := h
  have p2 : (0:ℤ) ≤ m2 := by positivity
  have p3 : (0:ℤ) ≤ m3 := by positivity
  constructor
  · have : (0:ℤ) ≤ a + 2 * m1 := by omega
    have : (0:ℤ) ≤ b + 2 * m2 := by omega
    have : (0:ℤ) ≤ c + 2 * m3 := by omega
    positivity
  · have e1 : a + 2 * (m1 : ℤ) ≤ 4 * m1 := by omega
    have e2 : b + 2 * (m2 : ℤ) ≤ 4 * m2 := by omega
    have e3 : c + 2 * (m3 : ℤ) ≤ 4 * m3 := by omega
    have f1 : (a + 2 * (m1:ℤ)) * ((4 * m2 + 1) * (4 * m3 + 1)) ≤ 4 * m1 * ((4 * m2 + 1) * (4 * m3 + 1)) :=
      mul_le_mul_of_nonneg_right e1 (by positivity)
    have f2 : (b + 2 * (m2:ℤ)) * (4 * m3 + 1) ≤ 4 * m2 * (4 * m3 + 1) := mul_le_mul_of_nonneg_right e2 (by positivity)
    nlinarith [f1, f2, e3]

lemma table_get {mem : ℤ → ℂ} {m : ℕ × ℕ × ℕ} {ds : List Hkl} {u : Hkl → ℂ} (hds : ∀ d ∈ ds, InTable m d) {d : Hkl}
    (hd : InTable m d) : table mem m ds u (flatIndex m d) = if d ∈ ds then u d else mem (flatIndex m d) := by
  unfold table
  induction ds generalizing mem with
  | nil => simp
  | cons x xs ih =>
    rw [List.foldl_cons, ih (fun y hy => hds y (List.mem_cons_of_mem _ hy))]
    by_cases hx : d ∈ xs
    · rw [if_pos hx, if_pos (List.mem_cons_of_mem _ hx)]
    · rw [if_neg hx]
      by_cases e : d = x
      · subst e; simp
      · rw [if_neg (by simp [e, hx]), Function.update_of_ne]
        exact fun h => e (flatIndex_inj hd (hds x (by simp)) h)

/-! ### Which differences are in the table -/

lemma except_map_ok {ε α β : Type} {f : α → β} {x : Except ε α} {y : β} (h : x.map f = .ok y) : ∃ a, x = .ok a ∧ f a = y := by
  cases x with
  | error e => cases h
  | ok a => exact ⟨a, rfl, Except.ok.inj h⟩

lemma limits_ne {l : Lattice} {sg : ℕ} {dmin : ℝ} {b f : Bool} {t : List Hkl} (ht : getReflections l sg dmin b f = .ok t) :
    ¬ ((hklLimits l dmin).1 = 0 ∨ (hklLimits l dmin).2.1 = 0 ∨ (hklLimits l dmin).2.2 = 0) := by
  intro hm
  unfold getReflections at ht
  simp only [hm, if_true] at ht; cases ht

lemma zero_allowed {sg : ℕ} (h1 : 1 ≤ sg) (h2 : sg ≤ 230) : isGAllowed sg (0, 0, 0) = .ok true := by
  obtain ⟨b, eb, hb⟩ := allowed_centring h1 h2 (0, 0, 0)
  rw [eb, hb.2 (fun v _ => by simp [phase])]

lemma beams_mem {c : Crystal} (h1 : 1 ≤ c.sg) (h2 : c.sg ≤ 230) {dmin : ℝ} {gs : List Hkl} (hg : beams c dmin = .ok gs)
    {g : Hkl} (h : g ∈ gs) : InBox (hklLimits c.l dmin) g ∧ isGAllowed c.sg g = .ok true := by
  obtain ⟨t, ht, rfl⟩ := except_map_ok hg
  have hm := limits_ne ht
  rcases List.mem_cons.1 h with rfl | h
  · refine ⟨?_, zero_allowed h1 h2⟩
    generalize hklLimits c.l dmin = m at *
    simp only [InBox]; omega
  · obtain ⟨a, -, b⟩ := (C56_table_partial c.l c.sg h1 h2 dmin true t ht g).1 h
    exact ⟨a, b rfl⟩

lemma diffs_mem {c : Crystal} (h1 : 1 ≤ c.sg) (h2 : c.sg ≤ 230) {dmin : ℝ} {gs ds : List Hkl} (hg : beams c dmin = .ok gs)
    (hd : diffs c dmin = .ok ds) : (∀ d ∈ ds, InTable (hklLimits c.l dmin) d) ∧
    ∀ g ∈ gs, ∀ h ∈ gs, sub g h ∈ ds ∧ InTable (hklLimits c.l dmin) (sub g h) := by
  obtain ⟨t, ht, rfl⟩ := except_map_ok hd
  have hm := limits_ne ht
  unfold getReflections at ht
  simp only [hm, if_false, if_true] at ht
  have e := Except.ok.inj ht
  constructor
  · intro d h
    rcases List.mem_cons.1 h with rfl | h
    · simp only [InTable]; omega
    · rw [← e, mem_keepAllowed h1 h2, List.mem_filter, mem_meshgrid, mem_arangeSym, mem_arangeSym, mem_arangeSym] at h
      obtain ⟨⟨⟨q1, q2, q3⟩, -⟩, -⟩ := h
      simp only [InTable]
      push_cast at q1 q2 q3
      omega
  · intro g hgm g' hgm'
    obtain ⟨b, a⟩ := beams_mem h1 h2 hg hgm
    obtain ⟨b', a'⟩ := beams_mem h1 h2 hg hgm'
    obtain ⟨h, k, l'⟩ := g
    obtain ⟨h', k', l''⟩ := g'
    simp only [InBox] at b b'
    have hin : InTable (hklLimits c.l dmin) (sub (h, k, l') (h', k', l'')) := by
      simp only [InTable, sub]; omega
    refine ⟨?_, hin⟩
    by_cases hz : sub (h, k, l') (h', k', l'') = (0, 0, 0)
    · rw [hz]; exact List.mem_cons_self
    · refine List.mem_cons_of_mem _ ?_
      rw [← e, mem_keepAllowed h1 h2, List.mem_filter, mem_meshgrid, mem_arangeSym, mem_arangeSym, mem_arangeSym]
      simp only [sub] at hz ⊢
      refine ⟨⟨⟨?_, ?_, ?_⟩, ?_⟩, fun _ => ?_⟩
      · push_cast; constructor <;> omega
      · push_cast; constructor <;> omega
      · push_cast; constructor <;> omega
      · simp only [Prod.mk.injEq, not_and_or] at hz
        simp only [ne_eq, Bool.or_eq_true]
        rcases hz with hz | hz | hz
        · exact Or.inl (Or.inl (decide_eq_true hz))
        · exact Or.inl (Or.inr (decide_eq_true hz))
        · exact Or.inr (decide_eq_true hz)
      · obtain ⟨c0, ec, hc⟩ := allowed_centring h1 h2 (h - h', k - k', l' - l'')
        obtain ⟨c1, ec1, hc1⟩ := allowed_centring h1 h2 (h, k, l')
        obtain ⟨c2, ec2, hc2⟩ := allowed_centring h1 h2 (h', k', l'')
        have q1 : c1 = true := by rw [ec1] at a; exact Except.ok.inj a
        have q2 : c2 = true := by rw [ec2] at a'; exact Except.ok.inj a'
        rw [ec, hc.2 ?_]
        intro v hv
        have := dvd_sub (hc1.1 q1 v hv) (hc2.1 q2 v hv)
        have e : phase (h, k, l') v - phase (h', k', l'') v = phase (h - h', k - k', l' - l'') v := by
          simp only [phase]; ring
        rwa [e] at this

/-- **C93**.  For every space group, cell, `dmin` and voltage: the look-up never reads an entry of the table that was not
written (whatever the uninitialised memory contained), every position is inside the table, and entry `[i, j]` of the
returned matrix is the Fourier coefficient of `hkl[j] - hkl[i]`. -/
theorem C93_lookup (mem : ℤ → ℂ) (sf : ScatterFactor) (c : Crystal) (h1 : 1 ≤ c.sg) (h2 : c.sg ≤ 230) (dmin kV : ℝ)
    (ab : Bool) (b : Bloch) (hb : bloch mem sf c dmin kV ab = .ok b) :
    beams c dmin = .ok b.gs ∧ (∀ i j, b.U i j = ucg sf c kV ab (sub (b.gs.get j) (b.gs.get i))) ∧
    ∀ i j, 0 ≤ flatIndex (hklLimits c.l dmin) (sub (b.gs.get j) (b.gs.get i)) ∧
      flatIndex (hklLimits c.l dmin) (sub (b.gs.get j) (b.gs.get i)) < tableSize (hklLimits c.l dmin) := by
  unfold bloch at hb
  cases hd : diffs c dmin with
  | error e => rw [hd] at hb; cases hb
  | ok ds =>
    rw [hd] at hb
    obtain ⟨gs, hg, rfl⟩ := except_map_ok hb
    obtain ⟨d1, d2⟩ := diffs_mem h1 h2 hg hd
    refine ⟨hg, fun i j => ?_, fun i j => flatIndex_bounds (d2 _ (List.get_mem _ _) _ (List.get_mem _ _)).2⟩
    obtain ⟨q1, q2⟩ := d2 _ (List.get_mem gs j) _ (List.get_mem gs i)
    show table _ _ _ _ _ = _
    rw [table_get d1 q2, if_pos q1]

/-- A concrete crystal: primitive cubic, edge 1 nm, one atom of nickel at the origin and one at (1/4, 0, 0). -/
noncomputable def demo : Crystal := ⟨cubicCell, 221, [⟨28, 1, 0.005, [![0, 0, 0]]⟩, ⟨14, 1, 0.005, [![1 / 4, 0, 0]]⟩]⟩

lemma demo_det : 0 < cubicCell.dmt.det := by
  have : cubicCell.dmt = 1 := by
    ext i j; fin_cases i <;> fin_cases j <;> simp [Lattice.dmt, cubicCell]
  rw [this]; simp

lemma demo_tables : ∃ gs ds, beams demo 0.4 = .ok gs ∧ diffs demo 0.4 = .ok ds := by
  unfold beams diffs getReflections
  simp only [demo, cubic_limits]
  exact ⟨_, _, rfl, rfl⟩

/-- The hypotheses of `C93_lookup` are met: on the concrete crystal the code returns a matrix. -/
example (mem : ℤ → ℂ) (sf : ScatterFactor) : ∃ b, bloch mem sf demo 0.4 20 true = .ok b ∧ 1 ≤ demo.sg ∧ demo.sg ≤ 230 := by
  obtain ⟨gs, ds, h1, h2⟩ := demo_tables
  unfold bloch
  rw [h1, h2]
  exact ⟨_, rfl, by decide, by decide⟩

/-- Two different differences never share an entry of the table. -/
theorem C93_no_collision (c : Crystal) (h1 : 1 ≤ c.sg) (h2 : c.sg ≤ 230) (dmin : ℝ) (gs ds : List Hkl)
    (hg : beams c dmin = .ok gs) (hd : diffs c dmin = .ok ds) (d d' : Hkl) (h : d ∈ ds) (h' : d' ∈ ds)
    (e : flatIndex (hklLimits c.l dmin) d = flatIndex (hklLimits c.l dmin) d') : d = d' :=
  flatIndex_inj ((diffs_mem h1 h2 hg hd).1 d h) ((diffs_mem h1 h2 hg hd).1 d' h') e

/-! ### The coefficients -/

/-- The structure factor of International Tables: `Σ_sites occupancy · f_site(|g|) · Σ_r exp(-2πi g·r)`. -/
noncomputable def structureFactor (f : Site → Hkl → ℂ) (sites : List Site) (g : Hkl) : ℂ :=
  (sites.map fun s => (s.occ : ℂ) * f s g * (s.pos.map fun r => Complex.exp (-(2 * Real.pi * (g.1 * r 0 + g.2.1 * r 1 + g.2.2 * r 2) : ℝ) * Complex.I)).sum).sum

lemma p1_eq (s : Site) (g : Hkl) :
    p1 s g = (s.pos.map fun r => Complex.exp (-(2 * Real.pi * (g.1 * r 0 + g.2.1 * r 1 + g.2.2 * r 2) : ℝ) * Complex.I)).sum := by
  unfold p1 hklDot
  congr 1
  apply List.map_congr_left
  intro r _
  congr 1
  push_cast; ring

lemma list_sum_mul (l : List Site) (f : Site → ℂ) (a : ℂ) : (l.map fun s => f s * a).sum = (l.map f).sum * a := by
  induction l with
  | nil => simp
  | cons x xs ih => simp only [List.map_cons, List.sum_cons, ih]; ring

lemma list_sum_add (l : List Site) (f g : Site → ℂ) : (l.map fun s => f s + g s).sum = (l.map f).sum + (l.map g).sum := by
  induction l with
  | nil => simp
  | cons x xs ih => simp only [List.map_cons, List.sum_cons, ih]; ring

/-- **C93**.  With absorption the coefficient is `0.04787801/V · 0.66484… · F(g)` with the structure factor `F` of the
complex atomic factors; without absorption, of their real parts. -/
theorem C93_structure_factor (sf : ScatterFactor) (c : Crystal) (kV : ℝ) (g : Hkl) :
    ucg sf c kV true g = ((pref c * preg : ℝ) : ℂ) * structureFactor (factor sf c.l kV) c.sites g ∧
    ucg sf c kV false g = ((pref c * preg : ℝ) : ℂ) * structureFactor (fun s g => ((factor sf c.l kV s g).re : ℂ)) c.sites g := by
  have e : (⟨(ff sf c kV g).re - (gg sf c kV g).im, (ff sf c kV g).im + (gg sf c kV g).re⟩ : ℂ) =
      ff sf c kV g + gg sf c kV g * Complex.I := by
    apply Complex.ext <;> simp; ring
  constructor
  · unfold ucg
    simp only [if_true, e]
    congr 1
    unfold ff gg structureFactor
    rw [← list_sum_mul, ← list_sum_add]
    congr 1
    apply List.map_congr_left
    intro s _
    rw [p1_eq]
    conv_rhs => rw [← Complex.re_add_im (factor sf c.l kV s g)]
    ring
  · unfold ucg ff structureFactor
    simp only [Bool.false_eq_true, if_false]
    congr 2
    apply List.map_congr_left
    intro s _
    rw [p1_eq]; ring

lemma hklDot_sub (g h : Hkl) (r : Vec) : hklDot (sub g h) r = hklDot g r - hklDot h r := by
  unfold hklDot sub; push_cast; ring

lemma hklVec_sub (g h : Hkl) : hklVec (sub g h) = hklVec g - hklVec h := by
  unfold hklVec sub; ext i; fin_cases i <;> simp

lemma calcLength_sub_comm (l : Lattice) (g h : Hkl) : calcLength l (hklVec (sub g h)) .r = calcLength l (hklVec (sub h g)) .r := by
  unfold calcLength calcDot
  rw [hklVec_sub, hklVec_sub]
  congr 1
  apply Finset.sum_congr rfl; intro i _
  apply Finset.sum_congr rfl; intro j _
  simp only [Pi.sub_apply]; ring

lemma conj_list_sum (l : List ℂ) : (starRingEnd ℂ) l.sum = (l.map (starRingEnd ℂ)).sum := by
  induction l with
  | nil => simp
  | cons x xs ih => simp [ih]

/-- The coefficients of opposite differences are conjugate (Friedel) when the atomic factors at `g` are real. -/
theorem C93_friedel (sf : ScatterFactor) (c : Crystal) (kV : ℝ) (ab : Bool) (g h : Hkl)
    (hr : ∀ s ∈ c.sites, (factor sf c.l kV s (sub g h)).im = 0) :
    ucg sf c kV ab (sub h g) = (starRingEnd ℂ) (ucg sf c kV ab (sub g h)) := by
  have hf : ∀ s, factor sf c.l kV s (sub h g) = factor sf c.l kV s (sub g h) := fun s => by
    unfold factor; rw [calcLength_sub_comm]
  have key : ff sf c kV (sub h g) = (starRingEnd ℂ) (ff sf c kV (sub g h)) := by
    unfold ff
    rw [conj_list_sum, List.map_map]
    congr 1
    apply List.map_congr_left
    intro s _
    simp only [Function.comp, map_mul, Complex.conj_ofReal, hf]
    congr 2
    rw [p1_eq, p1_eq, conj_list_sum, List.map_map]
    congr 1
    apply List.map_congr_left
    intro r _
    simp only [Function.comp, sub, Int.cast_sub]
    rw [← Complex.exp_conj]
    congr 1
    simp only [map_mul, map_neg, Complex.conj_ofReal, Complex.conj_I]
    push_cast; ring
  have g0 : ∀ x, (∀ s ∈ c.sites, (factor sf c.l kV s x).im = 0) → gg sf c kV x = 0 := by
    intro x hx
    unfold gg
    rw [List.sum_eq_zero]
    intro y hy
    obtain ⟨s, hs, rfl⟩ := List.mem_map.1 hy
    rw [hx s hs]; simp
  have ga := g0 _ hr
  have gb := g0 (sub h g) (fun s hs => by rw [hf]; exact hr s hs)
  unfold ucg
  simp only [ga, gb, key]
  cases ab
  · simp
  · simp only [if_true, map_mul, Complex.conj_ofReal]
    congr 1
    apply Complex.ext <;> simp

/-- **C93**.  With real atomic factors the returned matrix is Hermitian. -/
theorem C93_hermitian (mem : ℤ → ℂ) (sf : ScatterFactor) (c : Crystal) (h1 : 1 ≤ c.sg) (h2 : c.sg ≤ 230) (dmin kV : ℝ)
    (ab : Bool) (b : Bloch) (hb : bloch mem sf c dmin kV ab = .ok b) (hr : ∀ Z u g, (sf kV Z u g).im = 0) :
    b.U.IsHermitian := by
  obtain ⟨-, e, -⟩ := C93_lookup mem sf c h1 h2 dmin kV ab b hb
  ext i j
  rw [conjTranspose_apply, e, e]
  have := C93_friedel sf c kV ab (b.gs.get i) (b.gs.get j) (fun s _ => hr _ _ _)
  rw [this]; rfl

/-- The direct beam is in the list twice (once prepended, once left in the table by `get_reflections`), and the code couples
it to its own copy with the mean potential `U(000)`, unless the table is a single point. -/
theorem C93_duplicate_fails (mem : ℤ → ℂ) (sf : ScatterFactor) (c : Crystal) (h1 : 1 ≤ c.sg) (h2 : c.sg ≤ 230) (dmin kV : ℝ)
    (ab : Bool) (b : Bloch) (hb : bloch mem sf c dmin kV ab = .ok b) (hbox : hklLimits c.l dmin ≠ (1, 1, 1)) :
    ∃ i j : Fin b.gs.length, i ≠ j ∧ b.gs.get i = (0, 0, 0) ∧ b.gs.get j = (0, 0, 0) ∧
      b.U i j = ucg sf c kV ab (0, 0, 0) := by
  obtain ⟨hg, e, -⟩ := C93_lookup mem sf c h1 h2 dmin kV ab b hb
  obtain ⟨t, ht, et⟩ := except_map_ok hg
  have hz := C56_zero_kept_fails c.l c.sg h1 h2 dmin true t ht hbox
  obtain ⟨n, hn⟩ := List.get_of_mem hz
  have hl : b.gs.length = t.length + 1 := by rw [← et]; rfl
  have e0 : b.gs.get ⟨0, by omega⟩ = (0, 0, 0) := by simp [← et]
  have e1 : b.gs.get ⟨n.1 + 1, by omega⟩ = (0, 0, 0) := by
    rw [← hn]; simp [← et]
  refine ⟨⟨0, by omega⟩, ⟨n.1 + 1, by omega⟩, by simp [Fin.ext_iff], e0, e1, ?_⟩
  rw [e, e0, e1]; rfl

/-- The hypotheses of `C93_hermitian` and `C93_duplicate_fails` are met on the concrete crystal with a real factor. -/
example (mem : ℤ → ℂ) : ∃ b, bloch mem (fun _ Z _ _ => (Z : ℂ)) demo 0.4 20 true = .ok b ∧ b.U.IsHermitian ∧
    ∃ i j : Fin b.gs.length, i ≠ j ∧ b.gs.get i = (0, 0, 0) ∧ b.gs.get j = (0, 0, 0) := by
  obtain ⟨gs, ds, h1, h2⟩ := demo_tables
  obtain ⟨b, hb⟩ : ∃ b, bloch mem (fun _ Z _ _ => (Z : ℂ)) demo 0.4 20 true = .ok b := by
    unfold bloch
    rw [h1, h2]; exact ⟨_, rfl⟩
  refine ⟨_, hb, C93_hermitian mem _ demo (by decide) (by decide) _ _ _ _ hb (fun Z u g => by simp), ?_⟩
  obtain ⟨i, j, q1, q2, q3, -⟩ := C93_duplicate_fails mem _ demo (by decide) (by decide) _ _ _ _ hb (by
    show hklLimits cubicCell 0.4 ≠ _
    rw [cubic_limits]; decide)
  exact ⟨i, j, q1, q2, q3⟩

end Verif.Diff
