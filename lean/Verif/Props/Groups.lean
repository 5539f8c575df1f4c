import Verif.Lemmas.GroupsCheck1
import Verif.Lemmas.GroupsCheck2
import Verif.Lemmas.GroupsCheck3
import Verif.Lemmas.GroupsCheck4
import Mathlib.Data.Real.Basic
import Mathlib.Tactic.FinCases
import Mathlib.Tactic.NormNum
import Mathlib.Algebra.Group.Pi.Basic
import Mathlib.Tactic.FieldSimp
import Mathlib.Tactic.Linarith
/-!
C58, C76: `sg_operators` returns the space group.  The finite domain (the 230 space groups) is covered
completely, by certificates that the kernel evaluates; closure, words and uniqueness are proved by induction.
-/
namespace Verif.SG
open Spec

lemma sound_all {sg : ℕ} (h1 : 1 ≤ sg) (h2 : sg ≤ 230) : ∃ g L n, Sound sg g L n := by
  apply check_sound
  by_cases a : sg ≤ 142
  · exact check_part1 h1 a
  by_cases b : sg ≤ 206
  · exact check_part2 (by omega) b
  by_cases c : sg ≤ 224
  · exact check_part3 (by omega) c
  · exact check_part4 (by omega) h2

lemma finalMod_good {o : Op} (h : o.good = true) : finalMod o = ⟨o.r, o.x, o.y, o.z, 0⟩ := by
  obtain ⟨-, hx, hy, hz, hw⟩ := (good_iff o).1 h
  unfold finalMod
  rw [fmod1_eq (by omega), fmod1_eq (by omega), fmod1_eq (by omega), hw, fmod1_one 100 (by omega)]
  rw [Int.emod_eq_of_lt hx.1 hx.2, Int.emod_eq_of_lt hy.1 hy.2, Int.emod_eq_of_lt hz.1 hz.2]

/-- The result of `sg_operators` is the certified group, reordered, with the corner entries set to zero. -/
lemma sgOperators_eq {sg : ℕ} {g L : List Op} {n : ℕ} (s : Sound sg g L n) :
    ∃ M : List Op, M.Perm L ∧ sgOperators sg 1 = .ok (M.map finalMod) := by
  refine ⟨closeLoop (depth sg) g, s.cert.closeLoop_perm, ?_⟩
  unfold sgOperators
  rw [s.read, s.ord]
  rfl

lemma seitz_congr {a b : Op} (hr : a.r = b.r) (hx : a.x = b.x) (hy : a.y = b.y) (hz : a.z = b.z) :
    seitz a = seitz b := by
  funext p; simp [seitz, hr, hx, hy, hz]

lemma seitz_final {o : Op} (h : o.good = true) : seitz (finalMod o) = seitz o := by
  rw [finalMod_good h]; exact seitz_congr rfl rfl rfl rfl

lemma seitz_one (p : Frac) : seitz Op.one p = p := by
  funext i; fin_cases i <;> simp [seitz, Op.one]

private lemma divz (v : ℤ) : (v : ℝ) / 24 = ((v % 24 : ℤ) : ℝ) / 24 + ((v / 24 : ℤ) : ℝ) := by
  have h : (v : ℝ) = 24 * ((v / 24 : ℤ) : ℝ) + ((v % 24 : ℤ) : ℝ) := by
    exact_mod_cast (Int.mul_ediv_add_emod v 24).symm
  rw [h]; ring

/-- Composition of Seitz operators. -/
lemma seitz_mulE {A B : Op} (hB : B.w = 1) : EqModLattice (fun p => seitz A (seitz B p)) (seitz (mulE A B)) := by
  refine ⟨![(A.mul B).x / 24, (A.mul B).y / 24, (A.mul B).z / 24], fun p i => ?_⟩
  have e0 := divz (A.mul B).x
  have e1 := divz (A.mul B).y
  have e2 := divz (A.mul B).z
  fin_cases i
  · show (A.r.a00 : ℝ) * (B.r.a00 * p 0 + B.r.a01 * p 1 + B.r.a02 * p 2 + B.x / 24)
        + A.r.a01 * (B.r.a10 * p 0 + B.r.a11 * p 1 + B.r.a12 * p 2 + B.y / 24)
        + A.r.a02 * (B.r.a20 * p 0 + B.r.a21 * p 1 + B.r.a22 * p 2 + B.z / 24) + A.x / 24
      = (A.mul B).r.a00 * p 0 + (A.mul B).r.a01 * p 1 + (A.mul B).r.a02 * p 2 + ((A.mul B).x % 24 : ℤ) / 24
        + ((A.mul B).x / 24 : ℤ)
    have : ((A.mul B).x : ℝ) = A.r.a00 * B.x + A.r.a01 * B.y + A.r.a02 * B.z + A.x := by
      simp [Op.mul, hB]
    rw [add_assoc _ (((A.mul B).x % 24 : ℤ) / 24 : ℝ), ← e0, this]
    simp only [Op.mul, Rot.mul]; push_cast; ring
  · show (A.r.a10 : ℝ) * (B.r.a00 * p 0 + B.r.a01 * p 1 + B.r.a02 * p 2 + B.x / 24)
        + A.r.a11 * (B.r.a10 * p 0 + B.r.a11 * p 1 + B.r.a12 * p 2 + B.y / 24)
        + A.r.a12 * (B.r.a20 * p 0 + B.r.a21 * p 1 + B.r.a22 * p 2 + B.z / 24) + A.y / 24
      = (A.mul B).r.a10 * p 0 + (A.mul B).r.a11 * p 1 + (A.mul B).r.a12 * p 2 + ((A.mul B).y % 24 : ℤ) / 24
        + ((A.mul B).y / 24 : ℤ)
    have : ((A.mul B).y : ℝ) = A.r.a10 * B.x + A.r.a11 * B.y + A.r.a12 * B.z + A.y := by
      simp [Op.mul, hB]
    rw [add_assoc _ (((A.mul B).y % 24 : ℤ) / 24 : ℝ), ← e1, this]
    simp only [Op.mul, Rot.mul]; push_cast; ring
  · show (A.r.a20 : ℝ) * (B.r.a00 * p 0 + B.r.a01 * p 1 + B.r.a02 * p 2 + B.x / 24)
        + A.r.a21 * (B.r.a10 * p 0 + B.r.a11 * p 1 + B.r.a12 * p 2 + B.y / 24)
        + A.r.a22 * (B.r.a20 * p 0 + B.r.a21 * p 1 + B.r.a22 * p 2 + B.z / 24) + A.z / 24
      = (A.mul B).r.a20 * p 0 + (A.mul B).r.a21 * p 1 + (A.mul B).r.a22 * p 2 + ((A.mul B).z % 24 : ℤ) / 24
        + ((A.mul B).z / 24 : ℤ)
    have : ((A.mul B).z : ℝ) = A.r.a20 * B.x + A.r.a21 * B.y + A.r.a22 * B.z + A.z := by
      simp [Op.mul, hB]
    rw [add_assoc _ (((A.mul B).z % 24 : ℤ) / 24 : ℝ), ← e2, this]
    simp only [Op.mul, Rot.mul]; push_cast; ring

/-- Reduced operators that agree modulo lattice translations are equal. -/
lemma eq_of_eqModLattice {A B : Op} (hA : A.good = true) (hB : B.good = true)
    (h : EqModLattice (seitz A) (seitz B)) : A = B := by
  obtain ⟨n, hn⟩ := h
  obtain ⟨-, ax, ay, az, aw⟩ := (good_iff A).1 hA
  obtain ⟨-, bx, b_y, bz, bw⟩ := (good_iff B).1 hB
  have key : ∀ {a b m : ℤ}, (0 ≤ a ∧ a < 24) → (0 ≤ b ∧ b < 24) → (a : ℝ) / 24 = b / 24 + m → a = b ∧ m = 0 := by
    intro a b m ha hb e
    have : (a : ℝ) = b + 24 * m := by field_simp at e; linarith
    have : a = b + 24 * m := by exact_mod_cast this
    omega
  have z0 := hn (fun _ => 0) 0
  have z1 := hn (fun _ => 0) 1
  have z2 := hn (fun _ => 0) 2
  simp only [seitz, mul_zero, zero_add, Matrix.cons_val_zero, Matrix.cons_val_one, Matrix.cons_val] at z0 z1 z2
  obtain ⟨x1, n0⟩ := key ax bx z0
  obtain ⟨y1, n1⟩ := key ay b_y z1
  obtain ⟨z1', n2⟩ := key az bz z2
  have u : ∀ i j, seitz A (Pi.single j 1) i = seitz B (Pi.single j 1) i := by
    intro i j
    rw [hn]
    fin_cases i <;> simp [n0, n1, n2]
  refine op_ext ?_ x1 y1 z1' (aw.trans bw.symm)
  have u00 := u 0 0; have u01 := u 0 1; have u02 := u 0 2
  have u10 := u 1 0; have u11 := u 1 1; have u12 := u 1 2
  have u20 := u 2 0; have u21 := u 2 1; have u22 := u 2 2
  simp [seitz, Pi.single, Function.update, x1, y1, z1'] at u00 u01 u02 u10 u11 u12 u20 u21 u22
  obtain ⟨r, _, _, _, _⟩ := A
  obtain ⟨r', _, _, _, _⟩ := B
  obtain ⟨⟩ := r
  obtain ⟨⟩ := r'
  simp_all

/-- **C58** (first settings).  For every space group 1-230 `sg_operators` returns, without error, a list of
Seitz operators of the tabulated length that contains the identity, is closed under composition and inversion
modulo lattice translations, and has no two entries that differ only by a lattice translation. -/
theorem C58_group_partial (sg : ℕ) (h1 : 1 ≤ sg) (h2 : sg ≤ 230) :
    ∃ ops, sgOperators sg 1 = .ok ops ∧ ords[sg - 1]? = some ops.length ∧
      (∃ E ∈ ops, ∀ p, seitz E p = p) ∧
      (∀ A ∈ ops, ∀ B ∈ ops, ∃ C ∈ ops, EqModLattice (fun p => seitz A (seitz B p)) (seitz C)) ∧
      (∀ A ∈ ops, ∃ B ∈ ops, EqModLattice (fun p => seitz A (seitz B p)) id) ∧
      ops.Pairwise (fun A B => ¬ EqModLattice (seitz A) (seitz B)) := by
  obtain ⟨g, L, n, s⟩ := sound_all h1 h2
  obtain ⟨M, hM, e⟩ := sgOperators_eq s
  have good : ∀ x ∈ M, x.good = true := fun x hx => s.cert.good x (hM.mem_iff.1 hx)
  refine ⟨_, e, ?_, ?_, ?_, ?_, ?_⟩
  · rw [s.ord, List.length_map, hM.length_eq, s.length]
  · exact ⟨finalMod Op.one, List.mem_map_of_mem (hM.mem_iff.2 (s.cert.sub _ s.cert.one)), fun p => by
      rw [seitz_final (s.cert.good _ (s.cert.sub _ s.cert.one)), seitz_one]⟩
  · intro A hA B hB
    obtain ⟨A, mA, rfl⟩ := List.mem_map.1 hA; clear hA; rename' mA => hA
    obtain ⟨B, mB, rfl⟩ := List.mem_map.1 hB; clear hB; rename' mB => hB
    have hC := s.cert.mul_closed A (hM.mem_iff.1 hA) B (hM.mem_iff.1 hB)
    refine ⟨finalMod (mulE A B), List.mem_map_of_mem (hM.mem_iff.2 hC), ?_⟩
    rw [seitz_final (good _ hA), seitz_final (good _ hB), seitz_final (s.cert.good _ hC)]
    exact seitz_mulE (s.cert.w (hM.mem_iff.1 hB))
  · intro A hA
    obtain ⟨A, mA, rfl⟩ := List.mem_map.1 hA; clear hA; rename' mA => hA
    have hA' := hM.mem_iff.1 hA
    have inv : ∀ m x, Word g m x → ∃ y ∈ L, mulE x y = Op.one := by
      intro m
      induction m with
      | zero => exact fun x hx => s.inv x hx
      | succ m ih =>
        rintro x (h | ⟨a, ha, y, hy, rfl⟩)
        · exact ih x h
        · obtain ⟨y', hy', e1⟩ := ih y hy
          obtain ⟨a', ha', e2⟩ := s.inv a ha
          have hyL := (s.cert.word_closed _ y hy).1
          refine ⟨mulE y' a', s.cert.mul_closed _ hy' _ ha', ?_⟩
          rw [mulE_assoc _ _ _ (s.cert.w hyL) (s.cert.w (s.cert.mul_closed _ hy' _ ha')),
            ← mulE_assoc y y' a' (s.cert.w hy') (s.cert.w ha'), e1, mulE_one_left (s.cert.good _ ha'), e2]
    obtain ⟨B, hB, eB⟩ := inv _ A (s.cert.word A hA')
    refine ⟨finalMod B, List.mem_map_of_mem (hM.mem_iff.2 hB), ?_⟩
    rw [seitz_final (good _ hA), seitz_final (s.cert.good _ hB)]
    have := @seitz_mulE A B (s.cert.w hB)
    rw [eB] at this
    obtain ⟨k, hk⟩ := this
    exact ⟨k, fun p i => by rw [hk p i, seitz_one]; rfl⟩
  · rw [List.pairwise_map]
    have nd : M.Nodup := hM.nodup_iff.2 s.cert.nodup
    refine nd.pairwise_of_forall_ne ?_
    intro a ha b hb hne h
    rw [seitz_final (good _ ha), seitz_final (good _ hb)] at h
    exact hne (eq_of_eqModLattice (good _ ha) (good _ hb) h)

/-- A non-trivial case: the 192 operators of Fm-3m. -/
example : ∃ ops, sgOperators 225 1 = .ok ops ∧ ords[225 - 1]? = some ops.length ∧ ords[224]? = some 192 :=
  let ⟨ops, h, h', _⟩ := C58_group_partial 225 (by decide) (by decide)
  ⟨ops, h, h', rfl⟩

/-- What is missing in C58, first part: the second setting of *every* space group that has one is unusable:
`sg_operators(sg, 2)` raises `KeyError`, because the slice of the generator string starts at the origin flag. -/
theorem C58_second_setting_fails : ∀ sg ∈ twoSettings, sgOperators sg 2 = .error .keyError := by
  decide +kernel

/-- What is missing in C58, second part: the returned 4×4 matrices have corner entry 0 (for every space group),
because the last reduction is applied to the whole last column. -/
theorem C58_corner_zero (sg : ℕ) (h1 : 1 ≤ sg) (h2 : sg ≤ 230) :
    ∃ ops, sgOperators sg 1 = .ok ops ∧ ∀ A ∈ ops, A.w = 0 := by
  obtain ⟨g, L, n, s⟩ := sound_all h1 h2
  obtain ⟨M, hM, e⟩ := sgOperators_eq s
  refine ⟨_, e, fun A hA => ?_⟩
  obtain ⟨A, mA, rfl⟩ := List.mem_map.1 hA; clear hA; rename' mA => hA
  rw [finalMod_good (s.cert.good A (hM.mem_iff.1 hA))]

/-- Hence the returned matrices, multiplied as 4×4 matrices with the module's own `matmul_trans_mod`, are not
closed: in P2₁ the square of the screw rotation is a translation by half a cell edge instead of a whole one. -/
theorem C58_matrix_product_fails : ∃ ops, sgOperators 4 1 = .ok ops ∧
    ∃ A ∈ ops, ¬ ∃ C ∈ ops, EqModLattice (seitz (mulTransMod A A)) (seitz C) := by
  refine ⟨[⟨⟨1, 0, 0, 0, 1, 0, 0, 0, 1⟩, 0, 0, 0, 0⟩, ⟨⟨-1, 0, 0, 0, 1, 0, 0, 0, -1⟩, 0, 12, 0, 0⟩], ?_,
    ⟨⟨-1, 0, 0, 0, 1, 0, 0, 0, -1⟩, 0, 12, 0, 0⟩, by simp, ?_⟩
  · decide +kernel
  · rintro ⟨C, hC, n, hn⟩
    simp only [List.mem_cons, List.not_mem_nil, or_false] at hC
    have h0 := hn (fun _ => 0) 1
    have h1 := hn (fun i => if i = 0 then 1 else 0) 0
    rcases hC with rfl | rfl
    · simp [seitz, mulTransMod, Op.mul, Rot.mul, fmod1] at h0
      have : (12 : ℤ) = 24 * n 1 := by
        have : (12 : ℝ) = 24 * n 1 := by rw [← h0]; norm_num
        exact_mod_cast this
      omega
    · simp [seitz, mulTransMod, Op.mul, Rot.mul, fmod1] at h1
      have h2 := hn (fun _ => 0) 0
      simp [seitz, mulTransMod, Op.mul, Rot.mul, fmod1] at h2
      linarith

/-- **C76**.  The pure translations among the operators of every space group are exactly the centring vectors of the
lattice letter in its name, and its operators contain each kind of operation as often as the International Tables point
group of that space group does (times the number of centring vectors). -/
theorem C76_lattice_and_point_group (sg : ℕ) (h1 : 1 ≤ sg) (h2 : sg ≤ 230) :
    ∃ ops, sgOperators sg 1 = .ok ops ∧
      (∀ v : ℤ × ℤ × ℤ, v ∈ centring (letter sg) ↔
        ∃ A ∈ ops, IsTranslation A ∧ (A.x, A.y, A.z) = v) ∧
      (∀ q ∈ Kind.list.zip (pgOfSpaceGroup sg).counts,
        ops.countP (fun A => decide ((det3 A.r, trace3 A.r) = q.1.detTrace))
          = (centring (letter sg)).length * q.2) := by
  obtain ⟨g, L, n, s⟩ := sound_all h1 h2
  obtain ⟨M, hM, e⟩ := sgOperators_eq s
  have fg : ∀ x ∈ M, finalMod x = ⟨x.r, x.x, x.y, x.z, 0⟩ := fun x hx =>
    finalMod_good (s.cert.good x (hM.mem_iff.1 hx))
  refine ⟨_, e, fun v => ⟨fun hv => ?_, ?_⟩, fun q hq => ?_⟩
  · have hm := hM.mem_iff.2 (s.centring v hv)
    exact ⟨_, List.mem_map_of_mem hm, by rw [fg _ hm]; rfl, by rw [fg _ hm]⟩
  · rintro ⟨A, hA, hT, rfl⟩
    obtain ⟨A, mA, rfl⟩ := List.mem_map.1 hA; clear hA; rename' mA => hA
    rw [fg A hA] at hT ⊢
    exact s.translations A (hM.mem_iff.1 hA) hT
  · rw [List.countP_map, ← s.kinds q hq, ← hM.countP_eq]
    exact List.countP_congr fun x hx => by
      show decide (_ = _) = true ↔ _
      rw [fg x hx]

/-- The point group of Fm-3m and its four lattice points. -/
example : (pgOfSpaceGroup 225).counts = [1, 9, 8, 6, 0, 1, 9, 8, 6, 0] ∧ letter 225 = 'F' ∧
    (centring 'F').length = 4 := by decide +kernel

end Verif.SG
