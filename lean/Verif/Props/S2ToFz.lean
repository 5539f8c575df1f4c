import Verif.Props.S2Zone
/-!
Property C88 (continued): `s2_to_fz_laue`, `s2_equiv_laue` and the samplers of laue_fz_s2.py.
-/
open Quaternion
namespace Verif.S2
open Spec Real

theorem filter_single {α : Type} {l : List α} (hn : l.Nodup) {a : α} (ha : a ∈ l) {P : α → Bool}
    (h : ∀ x ∈ l, P x = true ↔ x = a) : l.filter P = [a] := by
  induction l with
  | nil => simp at ha
  | cons b t ih =>
    rw [List.nodup_cons] at hn
    rw [List.filter_cons]
    by_cases hb : b = a
    · subst hb
      rw [if_pos ((h b List.mem_cons_self).mpr rfl)]
      congr 1
      rw [List.filter_eq_nil_iff]
      intro x hx hp
      exact hn.1 ((h x (List.mem_cons_of_mem _ hx)).mp hp ▸ hx)
    · rw [if_neg (fun hp => hb ((h b List.mem_cons_self).mp hp))]
      exact ih hn.2 (by rcases List.mem_cons.mp ha with rfl | h'; exacts [absurd rfl hb, h'])
        (fun x hx => h x (List.mem_cons_of_mem _ hx))

theorem quApply_same {a b : Q} (h : SameUpToSign (toH a) (toH b)) (v : V) : quApply a v = quApply b v := by
  have h1 := (rotates_same h v (quApply a v)).mp (C03_apply a v)
  exact (rotates_iff b v _).mp h1

theorem quApply_vneg (g : Q) (v : V) : quApply g (vneg v) = vneg (quApply g v) := by
  ext <;> simp [quApply, vneg] <;> ring

theorem vneg_vneg (v : V) : vneg (vneg v) = v := by ext <;> simp [vneg]

/-- relation between the images of `p` under two listed elements -/
theorem image_rel {n : ℕ} {G : List Q} (h1 : 1 ≤ n) (h2 : n ≤ 11) (he : laueElements n = some G) {g0 g : Q}
    (hg0 : g0 ∈ G) (hg : g ∈ G) (p : V) :
    ∃ c ∈ G, quApply g p = quApply c (quApply g0 p) ∧ (c = ⟨1, 0, 0, 0⟩ → g = g0) := by
  have hR := rotGroup_laue h1 h2 he
  obtain ⟨i, hi, his⟩ := hR.inv g0 hg0
  obtain ⟨c, hc, hcs⟩ := hR.closed g hg i hi
  have hu := H_star_mul_of_unit (hR.unit g0 hg0)
  have hcs' : SameUpToSign (toH g * star (toH g0)) (toH c) := (his.mul_left (toH g)).trans hcs
  have hg' : SameUpToSign (toH g) (toH c * toH g0) := by
    have := hcs'.mul_right (toH g0)
    rwa [mul_assoc, hu, mul_one] at this
  refine ⟨c, hc, ?_, ?_⟩
  · rw [← quApply_prodRaw]
    apply quApply_same
    rw [toH_prodRaw]; exact hg'
  · rintro rfl
    have : toH ⟨1, 0, 0, 0⟩ = 1 := by ext <;> simp
    rw [this, one_mul] at hg'
    by_contra hne
    have hp := hR.dist
    have hsym : ∀ ⦃a b : Q⦄, ¬ SameUpToSign (toH a) (toH b) → ¬ SameUpToSign (toH b) (toH a) := fun a b h h' => h h'.symm
    haveI : Std.Symm (fun a b : Q => ¬ SameUpToSign (toH a) (toH b)) := ⟨hsym⟩
    exact (List.Pairwise.forall (R := fun a b => ¬ SameUpToSign (toH a) (toH b)) hp hg hg0 hne) hg'

theorem laue_nodup {n : ℕ} {G : List Q} (h1 : 1 ≤ n) (h2 : n ≤ 11) (he : laueElements n = some G) : G.Nodup := by
  have := (rotGroup_laue h1 h2 he).dist
  exact this.imp (fun h e => h (by rw [e]; exact Or.inl rfl))

/-- exactly one image of a generic direction is accepted -/
theorem kept_single {n : ℕ} {G : List Q} (h1 : 1 ≤ n) (h2 : n ≤ 11) (he : laueElements n = some G) (single : Bool)
    {p r : V} (hp : IsUnit3 p) (hr : DirEquiv n p r) (hin : Inside n (2 * s2Eps single) r) :
    ((equivPoints G p).filter fun q => (s2InFz (s2Eps single) n q).getD false) = [r] := by
  obtain ⟨hpos, hle⟩ := eps_facts single
  have hu := dirEquiv_unit h1 h2 hr hp
  have hacc := C88_inside_accepted n h1 h2 single r hu hin
  have hab : ∀ q, DirEquiv n p q → (s2InFz (s2Eps single) n q).getD false = true → Above n (-(2 * s2Eps single)) q := by
    intro q hq h
    refine above_of_acc h1 h2 hpos.le (by linarith) (dirEquiv_unit h1 h2 hq hp) ?_
    cases hx : s2InFz (s2Eps single) n q with
    | none => rw [hx] at h; simp at h
    | some b => rw [hx] at h; simp at h; rw [h]
  have hd : (0:ℝ) ≤ 2 * s2Eps single := by linarith
  have hm : ∀ g ∈ G, DirEquiv n p (quApply g p) := fun g hg => dirEquiv_mem h1 h2 he hg p rfl
  have hm' : ∀ g ∈ G, DirEquiv n p (vneg (quApply g p)) := fun g hg =>
    dirEquiv_trans (hm g hg) (dirEquiv_inv n _)
  have hn := laue_nodup h1 h2 he
  have hmem := hr
  rw [dirEquiv_iff h1 h2 he] at hmem
  simp only [equivPoints, List.mem_append, List.mem_map] at hmem
  unfold equivPoints
  rw [List.filter_append, List.filter_map, List.map_map, List.filter_map]
  rcases hmem with ⟨g0, hg0, hrg⟩ | ⟨r', ⟨g0, hg0, hrg⟩, hrr⟩
  · have k1 : G.filter ((fun q => (s2InFz (s2Eps single) n q).getD false) ∘ fun g => quApply g p) = [g0] := by
      refine filter_single hn hg0 fun g hg => ⟨fun h => ?_, ?_⟩
      · obtain ⟨c, hc, hcq, hc1⟩ := image_rel h1 h2 he hg0 hg p
        have := hab _ (hm g hg) h
        rw [hcq, hrg] at this
        exact hc1 ((uniq h1 h2 he _ hd r hin c hc).1 this)
      · rintro rfl
        simp only [Function.comp]
        rw [hrg, hacc]; rfl
    have k2 : G.filter ((fun q => (s2InFz (s2Eps single) n q).getD false) ∘ (vneg ∘ fun g => quApply g p)) = [] := by
      rw [List.filter_eq_nil_iff]
      intro g hg h
      obtain ⟨c, hc, hcq, hc1⟩ := image_rel h1 h2 he hg0 hg p
      have := hab _ (hm' g hg) h
      rw [hcq, hrg] at this
      exact (uniq h1 h2 he _ hd r hin c hc).2 this
    rw [k1, k2]; simp [hrg]
  · have hr' : r' = vneg r := by rw [← hrr, vneg_vneg]
    have k1 : G.filter ((fun q => (s2InFz (s2Eps single) n q).getD false) ∘ fun g => quApply g p) = [] := by
      rw [List.filter_eq_nil_iff]
      intro g hg h
      obtain ⟨c, hc, hcq, hc1⟩ := image_rel h1 h2 he hg0 hg p
      have := hab _ (hm g hg) h
      rw [hcq, hrg, hr', quApply_vneg] at this
      exact (uniq h1 h2 he _ hd r hin c hc).2 this
    have k2 : G.filter ((fun q => (s2InFz (s2Eps single) n q).getD false) ∘ (vneg ∘ fun g => quApply g p)) = [g0] := by
      refine filter_single hn hg0 fun g hg => ⟨fun h => ?_, ?_⟩
      · obtain ⟨c, hc, hcq, hc1⟩ := image_rel h1 h2 he hg0 hg p
        have := hab _ (hm' g hg) h
        rw [hcq, hrg, hr', quApply_vneg, vneg_vneg] at this
        exact hc1 ((uniq h1 h2 he _ hd r hin c hc).1 this)
      · rintro rfl
        simp only [Function.comp]
        rw [hrg, hrr, hacc]; rfl
    rw [k1, k2]; simp [hrg, hrr]

theorem inFz_isNone {n : ℕ} (h1 : 1 ≤ n) (h2 : n ≤ 11) (e : ℝ) (p : V) : (s2InFz e n p).isNone = false := by
  interval_cases n <;> simp [s2InFz]

/-- C88: `s2_to_fz_laue` on a batch in which every direction has an equivalent more than `2 EPS` inside the
sector returns, row by row, that (unique, by `C88_unique`) equivalent. -/
theorem C88_to_fz_partial (n : ℕ) (h1 : 1 ≤ n) (h2 : n ≤ 11) (single : Bool) (ps rs : List V)
    (h : List.Forall₂ (fun p r => IsUnit3 p ∧ DirEquiv n p r ∧ Inside n (2 * s2Eps single) r) ps rs) :
    s2ToFz (s2Eps single) n ps = some rs := by
  obtain ⟨l, _, _, hG⟩ := laueElements_some n h1 h2
  have key : (ps.flatMap fun p => (equivPoints (l.map XQ.toQ) p).filter fun q => (s2InFz (s2Eps single) n q).getD false) = rs := by
    induction h with
    | nil => rfl
    | cons hd _ ih =>
      rw [List.flatMap_cons, ih, kept_single h1 h2 hG single hd.1 hd.2.1 hd.2.2]; rfl
  unfold s2ToFz
  rw [hG]
  simp only [Option.bind_some, inFz_isNone h1 h2]
  rw [key, if_pos h.length_eq.symm]
  simp

/-- a batch of two meets the hypotheses -/
example (single : Bool) : List.Forall₂ (fun p r => IsUnit3 p ∧ DirEquiv 11 p r ∧ Inside 11 (2 * s2Eps single) r)
    [⟨3/7, 2/7, 6/7⟩, ⟨-3/7, -2/7, -6/7⟩] [⟨3/7, 2/7, 6/7⟩, ⟨3/7, 2/7, 6/7⟩] := by
  have hin : Inside 11 (2 * s2Eps single) ⟨3/7, 2/7, 6/7⟩ := by
    obtain ⟨he, he1⟩ := eps_facts single
    have h2 : √2 < 1.5 := s2_facts.2.2.2.trans_le (by norm_num)
    have hk : √2 * (2 * s2Eps single) ≤ 1.5 * (2 * (1 / 1000000)) := by
      apply mul_le_mul h2.le (by linarith) (by linarith) (by norm_num)
    rw [inside11]; refine ⟨?_, ?_, ?_⟩ <;> norm_num at * <;> linarith
  refine .cons ⟨by norm_num [IsUnit3], dirEquiv_refl _ _, hin⟩ (.cons ⟨by norm_num [IsUnit3], ?_, hin⟩ .nil)
  have := dirEquiv_inv 11 ⟨-3/7, -2/7, -6/7⟩
  norm_num at this
  norm_num
  exact this

/-- C88 fails on the pole: for every class but the triclinic one, `s2_to_fz_laue` raises on the single direction
[001] (the pole has several accepted images, or none for classes 7 and 11). -/
theorem C88_pole_fails (n : ℕ) (h1 : 2 ≤ n) (h2 : n ≤ 11) (single : Bool) :
    s2ToFz (s2Eps single) n [⟨0, 0, 1⟩] = none := by
  obtain ⟨he, he1⟩ := eps_facts single
  have hu : IsUnit3 ⟨0, 0, 1⟩ := by norm_num [IsUnit3]
  obtain ⟨l, _, _, hG⟩ := laueElements_some n (by omega) h2
  unfold s2ToFz
  rw [hG]
  simp only [Option.bind_some, inFz_isNone (by omega : 1 ≤ n) h2, List.flatMap_singleton, List.length_singleton]
  have goal : ((equivPoints (l.map XQ.toQ) ⟨0, 0, 1⟩).filter fun q => (s2InFz (s2Eps single) n q).getD false).length ≠ 1 := by
    by_cases hne : n = 7 ∨ n = 11
    · intro hl
      have : ∃ q, DirEquiv n ⟨0, 0, 1⟩ q ∧ s2InFz (s2Eps single) n q = some true := by
        obtain ⟨q, hq⟩ := List.length_eq_one_iff.mp hl
        have hq' : q ∈ (equivPoints (l.map XQ.toQ) ⟨0, 0, 1⟩).filter fun q => (s2InFz (s2Eps single) n q).getD false := by
          rw [hq]; simp
        rw [List.mem_filter] at hq'
        refine ⟨q, (dirEquiv_iff (by omega) h2 hG _ _).mpr hq'.1, ?_⟩
        cases hx : s2InFz (s2Eps single) n q with
        | none => rw [hx] at hq'; simp at hq'
        | some b => rw [hx] at hq'; simp at hq'; rw [hq'.2]
      rcases hne with rfl | rfl
      · exact C88_trigonal_pole_fails single this
      · exact C88_cubic_edge_fails single 1 0 (by norm_num) this
    · push Not at hne
      have hacc : s2InFz (s2Eps single) n ⟨0, 0, 1⟩ = some true := by
        refine acc_of_above (by omega) (by omega) he.le hu ?_ (fun h => absurd h hne.1)
        interval_cases n <;> simp_all [Above, wallNormals]
      have hsub : ∃ g t, l.map XQ.toQ = ⟨1, 0, 0, 0⟩ :: g :: t ∧ quApply g ⟨0, 0, 1⟩ = ⟨0, 0, 1⟩ := by
        have hz := ap_z2 ⟨0, 0, 1⟩
        have hz3 := ap_z3 ⟨0, 0, 1⟩
        simp at hz hz3
        interval_cases n
        · have := e2.symm.trans hG; rw [← Option.some.inj this]; exact ⟨_, _, rfl, by simpa using hz⟩
        · have := e3.symm.trans hG; rw [← Option.some.inj this]; exact ⟨_, _, rfl, by simpa using hz⟩
        · have := e4.symm.trans hG; rw [← Option.some.inj this]; exact ⟨_, _, rfl, by simpa using hz⟩
        · have := e5.symm.trans hG; rw [← Option.some.inj this]; exact ⟨_, _, rfl, by simpa using hz⟩
        · have := e6.symm.trans hG; rw [← Option.some.inj this]; exact ⟨_, _, rfl, by simpa using hz3⟩
        · exact absurd rfl hne.1
        · have := e8.symm.trans hG; rw [← Option.some.inj this]; exact ⟨_, _, rfl, by simpa using hz3⟩
        · have := e9.symm.trans hG; rw [← Option.some.inj this]; exact ⟨_, _, rfl, by simpa using hz3⟩
        · have := e10.symm.trans hG; rw [← Option.some.inj this]; exact ⟨_, _, rfl, by simpa using hz⟩
        · exact absurd rfl hne.2
      obtain ⟨g, t, hl, hg⟩ := hsub
      rw [hl]
      have h0 : quApply ⟨1, 0, 0, 0⟩ ⟨0, 0, 1⟩ = ⟨0, 0, 1⟩ := by ext <;> simp [quApply]
      simp only [equivPoints, List.map_cons, List.cons_append, h0, hg, List.filter_cons, hacc, Option.getD_some]
      simp
  rw [if_neg goal]
  simp

/-- C88 fails in the triclinic class on the equator: both `p` and `-p` are accepted and the call raises. -/
theorem C88_equator_fails (single : Bool) : s2ToFz (s2Eps single) 1 [⟨1, 0, 0⟩] = none := by
  unfold s2ToFz
  have := e1
  simp only [Nat.cast_one] at this
  rw [this]
  simp [laueC1, equivPoints, quApply, vneg, s2InFz]

set_option maxHeartbeats 1600000 in
/-- the 24 images of a direction under the cubic rotations, in table order -/
theorem imagesO (p : V) : laueO.map (fun g => quApply g p) =
    [⟨p.x, p.y, p.z⟩,
     ⟨-p.x, -p.y, p.z⟩,
     ⟨p.x, -p.y, -p.z⟩,
     ⟨-p.x, p.y, -p.z⟩,
     ⟨-p.y, p.x, p.z⟩,
     ⟨p.y, -p.x, p.z⟩,
     ⟨p.y, p.x, -p.z⟩,
     ⟨-p.y, -p.x, -p.z⟩,
     ⟨-p.y, -p.z, p.x⟩,
     ⟨p.y, -p.z, -p.x⟩,
     ⟨-p.z, -p.x, p.y⟩,
     ⟨p.y, p.z, p.x⟩,
     ⟨-p.y, p.z, -p.x⟩,
     ⟨p.z, -p.x, -p.y⟩,
     ⟨-p.z, p.x, -p.y⟩,
     ⟨p.z, p.x, p.y⟩,
     ⟨p.x, -p.z, p.y⟩,
     ⟨p.x, p.z, -p.y⟩,
     ⟨p.z, p.y, -p.x⟩,
     ⟨-p.z, p.y, p.x⟩,
     ⟨p.z, -p.y, p.x⟩,
     ⟨-p.z, -p.y, -p.x⟩,
     ⟨-p.x, p.z, p.y⟩,
     ⟨-p.x, -p.z, -p.y⟩] := by
  have f1 : R2 * R2 * p.x = 1 / 2 * p.x := by rw [R2sq]
  have f2 : R2 * R2 * p.y = 1 / 2 * p.y := by rw [R2sq]
  have f3 : R2 * R2 * p.z = 1 / 2 * p.z := by rw [R2sq]
  simp only [laueO, List.map_cons, List.map_nil, List.cons.injEq, and_true]
  repeat' apply And.intro
  all_goals (ext <;> simp only [quApply] <;> linarith)

/-- C88 fails silently: in class 11 a direction without accepted image next to one with two accepted images makes
the total count come out right, and the row of [001] is filled with [112]/√6. -/
theorem C88_misassign_fails (single : Bool) :
    ∃ v : V, IsUnit3 v ∧ s2ToFz (s2Eps single) 11 [⟨0, 0, 1⟩, v] = some [v, v] ∧ ¬ DirEquiv 11 ⟨0, 0, 1⟩ v := by
  obtain ⟨he, he1⟩ := eps_facts single
  have hG := e11
  simp only [Nat.cast_ofNat] at hG
  have hu : IsUnit3 ⟨4/9, 4/9, 7/9⟩ := by norm_num [IsUnit3]
  have hv : ((s2InFz (s2Eps single) 11 ⟨4/9, 4/9, 7/9⟩).getD false) = true := by
    rw [acc11 he hu (by norm_num) (by norm_num) (by norm_num)]; rfl
  have hno : ∀ q : V, IsUnit3 q → (q.y ≤ -(1/4) ∨ q.x - q.y ≤ -(1/4) ∨ q.z - q.x ≤ -(1/4)) →
      ¬ ((s2InFz (s2Eps single) 11 q).getD false) = true := by
    intro q hq h hc
    have hacc : s2InFz (s2Eps single) (11 : ℕ) q = some true := by
      simp only [Nat.cast_ofNat]
      cases hx : s2InFz (s2Eps single) 11 q with
      | none => rw [hx] at hc; simp at hc
      | some b => rw [hx] at hc; simp at hc; rw [hc]
    have := above_of_acc (by norm_num) (by norm_num) he.le (by linarith) hq hacc
    rw [above11] at this
    have h2 : √2 < 1.5 := s2_facts.2.2.2.trans_le (by norm_num)
    have hk : √2 * (2 * s2Eps single) ≤ 1.5 * (2 * (1 / 1000000)) := by
      apply mul_le_mul h2.le (by linarith) (by linarith) (by norm_num)
    rcases h with h | h | h <;> norm_num at hk this <;> linarith [this.1, this.2.1, this.2.2]
  refine ⟨⟨4/9, 4/9, 7/9⟩, hu, ?_, ?_⟩
  · have hpole : ((equivPoints laueO ⟨0, 0, 1⟩).filter fun q => (s2InFz (s2Eps single) 11 q).getD false) = [] := by
      rw [List.filter_eq_nil_iff]
      intro q hq hc
      refine C88_cubic_edge_fails single 1 0 (by norm_num) ⟨q, (dirEquiv_iff (by norm_num) (by norm_num) e11 _ _).mpr hq, ?_⟩
      cases hx : s2InFz (s2Eps single) 11 q with
      | none => rw [hx] at hc; simp at hc
      | some b => rw [hx] at hc; simp at hc; rw [hc]
    have hvv : ((equivPoints laueO ⟨4/9, 4/9, 7/9⟩).filter fun q => (s2InFz (s2Eps single) 11 q).getD false) =
        [⟨4/9, 4/9, 7/9⟩, ⟨4/9, 4/9, 7/9⟩] := by
      unfold equivPoints
      rw [imagesO]
      simp only [List.map_cons, List.map_nil, List.cons_append, List.nil_append, vneg, neg_neg]
      obtain ⟨P, hP⟩ : ∃ P : V → Bool, P = fun q => (s2InFz (s2Eps single) 11 q).getD false := ⟨_, rfl⟩
      have hv' : P ⟨4/9, 4/9, 7/9⟩ = true := by rw [hP]; exact hv
      have hno' : ∀ q : V, IsUnit3 q → (q.y ≤ -(1/4) ∨ q.x - q.y ≤ -(1/4) ∨ q.z - q.x ≤ -(1/4)) → ¬ P q = true := by
        rw [hP]; exact hno
      rw [← hP]
      repeat first
        | rw [List.filter_cons_of_pos hv']
        | rw [List.filter_cons_of_neg (hno' _ (by norm_num [IsUnit3]) (by norm_num))]
      rfl
    unfold s2ToFz
    rw [hG]
    have hn := inFz_isNone (n := 11) (by norm_num) (by norm_num) (s2Eps single) ⟨0, 0, 1⟩
    simp only [Nat.cast_ofNat] at hn
    simp only [Option.bind_some, hn, List.flatMap_cons, List.flatMap_nil, hpole, hvv]
    simp
  · intro h
    have := zero_orbit11 (dirEquiv_symm (by norm_num) (by norm_num) h) (by norm_num)
    exact this.1 rfl

/-- C88 fails for `s2_equiv_laue`: it always raises on a non-empty batch, because the images and their antipodes are
twice as many rows as the requested shape holds. -/
theorem C88_equiv_fails (n : ℕ) (h1 : 1 ≤ n) (h2 : n ≤ 11) (G : List Q) (hG : laueElements n = some G) (ps : List V)
    (h : ps ≠ []) : s2Equiv G ps = none := by
  unfold s2Equiv
  have hl : ∀ p, (equivPoints G p).length = 2 * G.length := by intro p; simp [equivPoints]; ring
  have : (ps.map (equivPoints G)).flatten.length = ps.length * (2 * G.length) := by
    rw [List.length_flatten, List.map_map]
    have : (List.length ∘ equivPoints G) = fun _ => 2 * G.length := by funext p; exact hl p
    rw [this]; simp
  simp only [this]
  rw [if_neg]
  obtain ⟨t, rfl⟩ := laue_ne_nil h1 h2 hG
  have : 0 < ps.length := List.length_pos_iff.mpr h
  intro hc
  have h3 := Nat.eq_of_mul_eq_mul_left this hc
  rw [List.length_cons] at h3; omega

example : laueElements (1:ℕ) = some laueC1 ∧ ([⟨0, 0, 1⟩] : List V) ≠ [] := ⟨e1, by simp⟩

/-! ### samplers -/

/-- C88: both samplers return only unit directions that the sector test accepts, in every class. -/
theorem C88_samples (n : ℕ) (h1 : 1 ≤ n) (h2 : n ≤ 11) (single : Bool) (k : ℕ) :
    (∃ l, sampleFibonacci (s2Eps single) n k = some l ∧
      ∀ v ∈ l, IsUnit3 v ∧ s2InFz (s2Eps single) n v = some true ∧ Above n (-(2 * s2Eps single)) v) ∧
    (∃ l, sampleRosca (s2Eps single) n k = some l ∧
      ∀ v ∈ l, s2InFz (s2Eps single) n v = some true) := by
  obtain ⟨he, he1⟩ := eps_facts single
  have hacc : ∀ q : V, ((s2InFz (s2Eps single) n q).getD false) = true → s2InFz (s2Eps single) n q = some true := by
    intro q hc
    cases hx : s2InFz (s2Eps single) n q with
    | none => rw [hx] at hc; simp at hc
    | some b => rw [hx] at hc; simp at hc; rw [hc]
  obtain ⟨l, _, _, hG⟩ := laueElements_some n h1 h2
  obtain ⟨m, hm, _⟩ := laueMult_len h1 h2 hG
  constructor
  · obtain ⟨eps, l, _, hl, _, hu, _⟩ := (Samp.C62_s2_fibonacci (k * m) "avg").1 (Or.inl rfl)
    refine ⟨l.filter fun q => (s2InFz (s2Eps single) n q).getD false, ?_, ?_⟩
    · unfold sampleFibonacci
      rw [hm, Option.bind_some, hl, Option.bind_some, inFz_isNone h1 h2]; simp
    · intro v hv
      rw [List.mem_filter] at hv
      exact ⟨hu v hv.1, hacc v hv.2, above_of_acc h1 h2 he.le (by linarith) (hu v hv.1) (hacc v hv.2)⟩
  · unfold sampleRosca
    rw [hm, Option.bind_some, inFz_isNone h1 h2]
    refine ⟨_, by simp; rfl, ?_⟩
    intro v hv
    rw [List.mem_filter] at hv
    exact hacc v hv.2

end Verif.S2
