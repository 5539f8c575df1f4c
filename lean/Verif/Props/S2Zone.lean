import Verif.Lemmas.S2Unique
import Verif.Props.Sampling
import Verif.Props.Sphere
/-!
Property C88 (s2_and_so3/laue_fz_s2.py): fundamental sectors of the sphere of directions.
-/
open Quaternion
namespace Verif.S2
open Spec Real

theorem eps_facts (single : Bool) : 0 < s2Eps single ∧ s2Eps single ≤ 1 / 1000000 := by
  unfold s2Eps; cases single <;> norm_num

/-! ### coverage -/

theorem pole_orbit7 {q p : V} (h : DirEquiv 7 q p) (hx : q.x = 0) (hy : q.y = 0) : p.x = 0 ∧ p.y = 0 := by
  rw [dirEquiv_iff (by norm_num) (by norm_num) e7] at h
  have key : ∀ g ∈ laueD3, (quApply g q).x = 0 ∧ (quApply g q).y = 0 := by
    intro g hg
    simp only [laueD3, List.mem_cons, List.not_mem_nil, or_false] at hg
    rcases hg with rfl | rfl | rfl | rfl | rfl | rfl <;> simp only [quApply, hx, hy] <;> constructor <;> ring
  simp only [equivPoints, List.mem_append, List.mem_map] at h
  rcases h with ⟨g, hg, rfl⟩ | ⟨r, ⟨g, hg, rfl⟩, rfl⟩
  · exact key g hg
  · have := key g hg
    simpa [vneg] using this

/-- C88: for Laue classes 1-10 every direction has a symmetric equivalent that `s2_in_fz_laue` accepts (class 7:
every direction except the poles). -/
theorem C88_cover_partial (n : ℕ) (h1 : 1 ≤ n) (h2 : n ≤ 10) (single : Bool) (p : V) (hp : IsUnit3 p)
    (h7 : n = 7 → ¬ (p.x = 0 ∧ p.y = 0)) :
    ∃ q, DirEquiv n p q ∧ s2InFz (s2Eps single) n q = some true := by
  obtain ⟨q, hq, ha⟩ := cover h1 (by omega) p
  refine ⟨q, hq, acc_of_above h1 h2 (eps_facts single).1.le (dirEquiv_unit h1 (by omega) hq hp) ha ?_⟩
  rintro rfl ⟨hx, hy⟩
  exact h7 rfl (pole_orbit7 (dirEquiv_symm (by norm_num) (by norm_num) hq) hx hy)

example : IsUnit3 ⟨3/5, 0, 4/5⟩ ∧ (7 = 7 → ¬ ((⟨3/5, 0, 4/5⟩ : V).x = 0 ∧ (⟨3/5, 0, 4/5⟩ : V).y = 0)) := by
  constructor
  · norm_num [IsUnit3]
  · norm_num

set_option maxHeartbeats 1600000 in
/-- orbits of the cubic class keep "some coordinate is zero" -/
theorem zero_orbit11 {q p : V} (h : DirEquiv 11 q p) (hz : q.x ≠ 0 ∧ q.y ≠ 0 ∧ q.z ≠ 0) :
    p.x ≠ 0 ∧ p.y ≠ 0 ∧ p.z ≠ 0 := by
  rw [dirEquiv_iff (by norm_num) (by norm_num) e11] at h
  obtain ⟨hx, hy, hz⟩ := hz
  have key : ∀ g ∈ laueO, (quApply g q).x ≠ 0 ∧ (quApply g q).y ≠ 0 ∧ (quApply g q).z ≠ 0 := by
    intro g hg
    have h := R2sq
    simp only [laueO, List.mem_cons, List.not_mem_nil, or_false] at hg
    have f1 : R2 * R2 * q.x = 1 / 2 * q.x := by rw [R2sq]
    have f2 : R2 * R2 * q.y = 1 / 2 * q.y := by rw [R2sq]
    have f3 : R2 * R2 * q.z = 1 / 2 * q.z := by rw [R2sq]
    rcases hg with rfl | rfl | rfl | rfl | rfl | rfl | rfl | rfl | rfl | rfl | rfl | rfl | rfl | rfl | rfl | rfl |
      rfl | rfl | rfl | rfl | rfl | rfl | rfl | rfl
    all_goals
      simp only [quApply]
      refine ⟨fun c => ?_, fun c => ?_, fun c => ?_⟩ <;>
      first
      | exact hx (by linarith)
      | exact hy (by linarith)
      | exact hz (by linarith)
  simp only [equivPoints, List.mem_append, List.mem_map] at h
  rcases h with ⟨g, hg, rfl⟩ | ⟨r, ⟨g, hg, rfl⟩, rfl⟩
  · exact key g hg
  · have := key g hg
    simpa [vneg] using this

/-- C88: for the cubic class 11 (`m-3m`) a direction has an accepted symmetric equivalent exactly when none of
its three coordinates is zero: the edge of the triangle from [001] to [101] is excluded by the strict test
`eta > 0`, although no other image of those directions is accepted. -/
theorem C88_cover_cubic (single : Bool) (p : V) (hp : IsUnit3 p) :
    (∃ q, DirEquiv 11 p q ∧ s2InFz (s2Eps single) 11 q = some true) ↔ p.x ≠ 0 ∧ p.y ≠ 0 ∧ p.z ≠ 0 := by
  obtain ⟨he, he1⟩ := eps_facts single
  have hpi := pi_gt_three
  constructor
  · rintro ⟨q, hq, ha⟩
    have hu := dirEquiv_unit (by norm_num) (by norm_num) hq hp
    refine zero_orbit11 (dirEquiv_symm (by norm_num) (by norm_num) hq) ?_
    simp [s2InFz] at ha
    obtain ⟨hc, h0, h3, h4⟩ := ha
    obtain ⟨r, hr, hr1, hx, hy, hrz, hr0⟩ := polar q hu
    have hrp : 0 < r := by
      rcases lt_or_eq_of_le hr with h | h
      · exact h
      · have := hr0.mp h.symm
        rw [eta_zero this.1 this.2] at h0; exact absurd h0 (lt_irrefl _)
    have hyp : 0 < q.y := by rw [hy]; exact mul_pos hrp (sin_pos_of_pos_of_lt_pi h0 (by linarith))
    have hxp : 0 < q.x := by rw [hx]; exact mul_pos hrp (cos_pos_of_mem_Ioo ⟨by linarith, by linarith⟩)
    refine ⟨hxp.ne', hyp.ne', ?_⟩
    -- if z = 0 the polar angle is pi/2, far beyond the bound
    intro hz0
    have hchi : chiOf q = π / 2 := by unfold chiOf; rw [hz0, arccos_zero]
    have hr2 : r = 1 := by
      rw [hz0] at hrz
      have : r ^ 2 = 1 := by linarith
      nlinarith
    have key : ∀ t, 1 / 2 ≤ cos t → chiOf q ≤ cubBound t + s2Eps single → False := by
      intro t ht hcc
      have := cub_lower (p := q) he.le hr hrz (by linarith) hcc
      rw [hz0, hr2] at this
      linarith
    have hc6 : cos (π / 3) = 1 / 2 := cos_pi_div_three
    split_ifs at hc with hq4
    · refine key _ ?_ hc.le
      rw [← hc6]
      rw [← cos_abs (π / 2 - etaOf q)]
      refine cos_le_cos_of_nonneg_of_le_pi (abs_nonneg _) (by linarith) ?_
      rw [abs_of_nonneg (by linarith)]; linarith
    · push Not at hq4
      refine key _ ?_ hc
      rw [← hc6]
      exact cos_le_cos_of_nonneg_of_le_pi h0.le (by linarith) (by linarith)
  · intro h
    obtain ⟨q, hq, a, b, c⟩ := cover11' p
    have hz := zero_orbit11 hq h
    refine ⟨q, hq, acc11 he (dirEquiv_unit (by norm_num) (by norm_num) hq hp) ?_ b c⟩
    exact lt_of_le_of_ne a (Ne.symm hz.2.1)

example : IsUnit3 ⟨2/3, 1/3, 2/3⟩ := by norm_num [IsUnit3]

/-- C88 fails for class 11 on a whole great-circle arc, e.g. [001] and [101]: no equivalent is accepted. -/
theorem C88_cubic_edge_fails (single : Bool) (c s : ℝ) (h : c ^ 2 + s ^ 2 = 1) :
    ¬ ∃ q, DirEquiv 11 ⟨s, 0, c⟩ q ∧ s2InFz (s2Eps single) 11 q = some true := by
  rw [C88_cover_cubic single _ (by unfold IsUnit3; simp only; linarith)]
  simp

example : (0:ℝ) ^ 2 + 1 ^ 2 = 1 := by norm_num

/-- C88 fails for class 7 at the poles: `atan2(0, 0) = 0` lies outside `[-π/2, -π/6]`. -/
theorem C88_trigonal_pole_fails (single : Bool) :
    ¬ ∃ q, DirEquiv 7 ⟨0, 0, 1⟩ q ∧ s2InFz (s2Eps single) 7 q = some true := by
  rintro ⟨q, hq, ha⟩
  obtain ⟨he, he1⟩ := eps_facts single
  have hpi := pi_gt_three
  obtain ⟨hx, hy⟩ := pole_orbit7 hq rfl rfl
  simp [s2InFz] at ha
  have := ha.2.1
  rw [eta_zero hx hy] at this
  linarith

/-! ### uniqueness -/

/-- the tables -/
theorem uniq {n : ℕ} {G : List Q} (h1 : 1 ≤ n) (h2 : n ≤ 11) (he : laueElements n = some G) (d : ℝ) (hd : 0 ≤ d) (q : V)
    (h : Inside n d q) (g : Q) (hg : g ∈ G) :
    (Above n (-d) (quApply g q) → g = ⟨1, 0, 0, 0⟩) ∧ ¬ Above n (-d) (vneg (quApply g q)) := by
  interval_cases n
  · rw [e1] at he; cases he; exact uniq1 d hd q h g hg
  · rw [e2] at he; cases he; exact uniq2 d hd q h g hg
  · rw [e3] at he; cases he; exact uniq3 d hd q h g hg
  · rw [e4] at he; cases he; exact uniq4 d hd q h g hg
  · rw [e5] at he; cases he; exact uniq5 d hd q h g hg
  · rw [e6] at he; cases he; exact uniq6 d hd q h g hg
  · rw [e7] at he; cases he; exact uniq7 d hd q h g hg
  · rw [e8] at he; cases he; exact uniq8 d hd q h g hg
  · rw [e9] at he; cases he; exact uniq9 d hd q h g hg
  · rw [e10] at he; cases he; exact uniq10 d hd q h g hg
  · rw [e11] at he; cases he; exact uniq11 d hd q h g hg

theorem inside_above {n : ℕ} {d : ℝ} (hd : 0 ≤ d) {p : V} (h : Inside n d p) : Above n 0 p :=
  fun m hm => le_trans hd (h m hm).le

/-- a direction inside the sector by the margin is accepted -/
theorem C88_inside_accepted (n : ℕ) (h1 : 1 ≤ n) (h2 : n ≤ 11) (single : Bool) (p : V) (hp : IsUnit3 p)
    (h : Inside n (2 * s2Eps single) p) : s2InFz (s2Eps single) n p = some true := by
  obtain ⟨he, he1⟩ := eps_facts single
  rcases Nat.lt_or_eq_of_le h2 with h' | rfl
  · refine acc_of_above h1 (by omega) he.le hp (inside_above (by linarith) h) ?_
    rintro rfl ⟨hx, hy⟩
    rw [inside7] at h
    rw [hx] at h
    linarith [h.1]
  · rw [inside11] at h
    have := mul_nonneg (sqrt_nonneg 2) (by linarith : 0 ≤ 2 * s2Eps single)
    exact acc11 he hp (by linarith) (by linarith) (by linarith)

/-- C88: the accepted representative is unique away from the sector boundary: if a direction lies more than
`2 EPS` inside the sector, every symmetric equivalent accepted by `s2_in_fz_laue` is that same direction. -/
theorem C88_unique (n : ℕ) (h1 : 1 ≤ n) (h2 : n ≤ 11) (single : Bool) (p q : V) (hp : IsUnit3 p)
    (h : Inside n (2 * s2Eps single) p) (hq : DirEquiv n p q) (ha : s2InFz (s2Eps single) n q = some true) : q = p := by
  obtain ⟨he, he1⟩ := eps_facts single
  obtain ⟨l, _, _, hG⟩ := laueElements_some n h1 h2
  have hb := above_of_acc h1 h2 he.le (by linarith) (dirEquiv_unit h1 h2 hq hp) ha
  rw [dirEquiv_iff h1 h2 hG] at hq
  simp only [equivPoints, List.mem_append] at hq
  rcases hq with hq | hq
  · obtain ⟨g, hg, rfl⟩ := List.mem_map.mp hq
    rw [(uniq h1 h2 hG _ (by linarith) p h g hg).1 hb]
    ext <;> simp [quApply]
  · obtain ⟨r, hr, rfl⟩ := List.mem_map.mp hq
    obtain ⟨g, hg, rfl⟩ := List.mem_map.mp hr
    exact absurd hb (uniq h1 h2 hG _ (by linarith) p h g hg).2

example (single : Bool) : IsUnit3 ⟨2/7, 3/7, 6/7⟩ ∧ Inside 10 (2 * s2Eps single) ⟨2/7, 3/7, 6/7⟩ ∧
    Inside 11 (2 * s2Eps single) ⟨3/7, 2/7, 6/7⟩ := by
  obtain ⟨he, he1⟩ := eps_facts single
  have h2 : √2 < 1.5 := s2_facts.2.2.2.trans_le (by norm_num)
  have hk : √2 * (2 * s2Eps single) ≤ 1.5 * (2 * (1 / 1000000)) := by
    apply mul_le_mul h2.le (by linarith) (by linarith) (by norm_num)
  refine ⟨by norm_num [IsUnit3], ?_, ?_⟩
  · rw [inside10]; refine ⟨?_, ?_, ?_, ?_⟩ <;> norm_num at * <;> linarith
  · rw [inside11]; refine ⟨?_, ?_, ?_⟩ <;> norm_num at * <;> linarith

end Verif.S2
