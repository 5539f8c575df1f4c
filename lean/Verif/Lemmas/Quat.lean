import Verif.Spec.Rotation
import Mathlib.Tactic.Linarith
import Mathlib.Tactic.Ring
import Mathlib.Tactic.LinearCombination
import Mathlib.Tactic.FieldSimp
import Mathlib.Tactic.Positivity
/-! Helper lemmas on the quaternion model. -/
open Quaternion
namespace Verif
open Spec

@[simp] theorem toH_re (q : Q) : (toH q).re = q.w := rfl
@[simp] theorem toH_imI (q : Q) : (toH q).imI = q.x := rfl
@[simp] theorem toH_imJ (q : Q) : (toH q).imJ = q.y := rfl
@[simp] theorem toH_imK (q : Q) : (toH q).imK = q.z := rfl
@[simp] theorem vecH_re (q : V) : (vecH q).re = 0 := rfl
@[simp] theorem vecH_imI (q : V) : (vecH q).imI = q.x := rfl
@[simp] theorem vecH_imJ (q : V) : (vecH q).imJ = q.y := rfl
@[simp] theorem vecH_imK (q : V) : (vecH q).imK = q.z := rfl

theorem toH_neg (q : Q) : toH q.neg = - toH q := by
  ext <;> simp [Q.neg]

theorem toH_inj {a b : Q} (h : toH a = toH b) : a = b := by
  have h1 := congrArg (fun h => h.re) h
  have h2 := congrArg (fun h => h.imI) h
  have h3 := congrArg (fun h => h.imJ) h
  have h4 := congrArg (fun h => h.imK) h
  ext <;> assumption

theorem toH_prodRaw (a b : Q) : toH (quProdRaw a b) = toH a * toH b := by
  ext <;> simp [quProdRaw]

theorem toH_conj (a : Q) : toH (quConj a) = star (toH a) := by
  ext <;> simp [quConj]

theorem quStd_cases (q : Q) : quStd q = q ∨ quStd q = q.neg := by
  unfold quStd; split <;> simp

theorem quStd_nonneg (q : Q) : 0 ≤ (quStd q).w := by
  unfold quStd; split
  · assumption
  · simp [Q.neg]; linarith

theorem quStd_of_nonneg {q : Q} (h : 0 ≤ q.w) : quStd q = q := by simp [quStd, h]

theorem toH_std (q : Q) : SameUpToSign (toH (quStd q)) (toH q) := by
  rcases quStd_cases q with h | h
  · left; rw [h]
  · right; rw [h, toH_neg]

theorem abs_std_w (q : Q) : (quStd q).w = |q.w| := by
  unfold quStd; split
  · rw [abs_of_nonneg]; assumption
  · simp [Q.neg]; rw [abs_of_neg]; linarith

theorem unit_neg {q : Q} : IsUnit4 q.neg ↔ IsUnit4 q := by
  simp [IsUnit4, Q.neg]

theorem unit_std {q : Q} : IsUnit4 (quStd q) ↔ IsUnit4 q := by
  rcases quStd_cases q with h | h <;> rw [h]
  exact unit_neg

theorem unit_prodRaw {a b : Q} (ha : IsUnit4 a) (hb : IsUnit4 b) : IsUnit4 (quProdRaw a b) := by
  unfold IsUnit4 at *
  have : (quProdRaw a b).w ^ 2 + (quProdRaw a b).x ^ 2 + (quProdRaw a b).y ^ 2
      + (quProdRaw a b).z ^ 2 = (a.w ^ 2 + a.x ^ 2 + a.y ^ 2 + a.z ^ 2)
      * (b.w ^ 2 + b.x ^ 2 + b.y ^ 2 + b.z ^ 2) := by
    simp only [quProdRaw]; ring
  rw [this, ha, hb, one_mul]

theorem unit_conj {a : Q} : IsUnit4 (quConj a) ↔ IsUnit4 a := by
  simp [IsUnit4, quConj]

theorem rotates_apply_scaled (q : Q) (v : V) :
    toH q * vecH v * star (toH q) = vecH (quApply q v) := by
  ext <;> simp [quApply] <;> ring

theorem rotates_neg (h : ℍ[ℝ]) (v r : V) : Rotates (-h) v r ↔ Rotates h v r := by
  unfold Rotates
  have hs : -h * vecH v * star (-h) = h * vecH v * star h := by ext <;> simp <;> ring
  rw [hs]

theorem quApply_neg (q : Q) (v : V) : quApply q.neg v = quApply q v := by
  ext <;> simp [quApply, Q.neg] <;> ring

theorem quApply_std (q : Q) (v : V) : quApply (quStd q) v = quApply q v := by
  rcases quStd_cases q with h | h <;> rw [h]
  exact quApply_neg q v

theorem quApply_prodRaw (a b : Q) (v : V) :
    quApply (quProdRaw a b) v = quApply a (quApply b v) := by
  ext <;> simp [quApply, quProdRaw] <;> ring

theorem Q.norm_pos_of_ne {q : Q} (h : q ≠ ⟨0, 0, 0, 0⟩) : 0 < q.norm := by
  unfold Q.norm
  apply Real.sqrt_pos.mpr
  by_contra hc
  apply h
  have h1 := sq_nonneg q.w
  have h2 := sq_nonneg q.x
  have h3 := sq_nonneg q.y
  have h4 := sq_nonneg q.z
  ext
  · exact pow_eq_zero_iff (two_ne_zero) |>.mp (by linarith)
  · exact pow_eq_zero_iff (two_ne_zero) |>.mp (by linarith)
  · exact pow_eq_zero_iff (two_ne_zero) |>.mp (by linarith)
  · exact pow_eq_zero_iff (two_ne_zero) |>.mp (by linarith)

theorem Q.norm_sq (q : Q) : q.norm ^ 2 = q.w ^ 2 + q.x ^ 2 + q.y ^ 2 + q.z ^ 2 :=
  Real.sq_sqrt (by positivity)

theorem V.norm_sq (v : V) : v.norm ^ 2 = v.x ^ 2 + v.y ^ 2 + v.z ^ 2 :=
  Real.sq_sqrt (by positivity)

theorem V.norm_nonneg (v : V) : 0 ≤ v.norm := Real.sqrt_nonneg _

theorem unit_norm {q : Q} (h : q ≠ ⟨0, 0, 0, 0⟩) : IsUnit4 (quNorm q) := by
  have hp := Q.norm_pos_of_ne h
  have hs := Q.norm_sq q
  simp only [IsUnit4, quNorm, Q.sdiv, div_pow]
  rw [← add_div, ← add_div, ← add_div, ← hs, div_self (by positivity)]

theorem norm_of_unit {q : Q} (h : IsUnit4 q) : q.norm = 1 := by
  unfold Q.norm; rw [h]; simp

theorem quNorm_of_unit {q : Q} (h : IsUnit4 q) : quNorm q = q := by
  unfold quNorm; rw [norm_of_unit h]; simp [Q.sdiv]

end Verif
