import Verif.Lemmas.PolyCert
import Mathlib.Analysis.Calculus.Deriv.Mul
import Mathlib.Analysis.Calculus.Deriv.Add
/-!
Nonnegativity on an interval of an expression built from integer polynomials by sums and products, by the certificate of
`PolyCert` after homogenisation; and the formal derivative of a coefficient list.
-/
namespace Verif.PolyCert

/-- polynomial expressions in one real variable -/
inductive RE where
  | lit (p : List ℤ)
  | add (a b : RE)
  | smul (c : ℤ) (a : RE)
  | mul (a b : RE)

namespace RE

noncomputable def eval : RE → ℝ → ℝ
  | lit p, x => ev p x
  | add a b, x => a.eval x + b.eval x
  | smul c a, x => c * a.eval x
  | mul a b, x => a.eval x * b.eval x

/-- the power of the denominator used for homogenisation -/
def len : RE → ℕ
  | lit p => p.length
  | add a b => max a.len b.len
  | smul _ a => a.len
  | mul a b => a.len + b.len

/-- `(m (1 + t)) ^ len * e ((a + b t) / (m (1 + t)))` -/
def toPE (a b m : ℤ) : RE → PE
  | lit p => .comp (.lit [a, b]) (.lit [m, m]) p
  | add e f => .add (.mul (e.toPE a b m) (.pow (.lit [m, m]) (max e.len f.len - e.len)))
      (.mul (f.toPE a b m) (.pow (.lit [m, m]) (max e.len f.len - f.len)))
  | smul c e => .smul c (e.toPE a b m)
  | mul e f => .mul (e.toPE a b m) (f.toPE a b m)

lemma ev_toPE (a b m : ℤ) (e : RE) {t x : ℝ} (hd : ev [m, m] t ≠ 0) (hx : ev [a, b] t / ev [m, m] t = x) :
    ev (e.toPE a b m).toList t = ev [m, m] t ^ e.len * e.eval x := by
  induction e with
  | lit p =>
    simp only [toPE, PE.toList, len, eval]
    rw [ev_hom _ _ _ _ hd, ev_hom_den, hx]
  | add e f he hf =>
    simp only [toPE, PE.toList, len, eval, ev_add, ev_mul, ev_powL, he, hf]
    have h1 : ev [m, m] t ^ max e.len f.len = ev [m, m] t ^ e.len * ev [m, m] t ^ (max e.len f.len - e.len) := by
      rw [← pow_add]; congr 1; omega
    have h2 : ev [m, m] t ^ max e.len f.len = ev [m, m] t ^ f.len * ev [m, m] t ^ (max e.len f.len - f.len) := by
      rw [← pow_add]; congr 1; omega
    linear_combination -(e.eval x) * h1 - f.eval x * h2
  | smul c e he => simp only [toPE, PE.toList, len, eval, ev_smul, he]; ring
  | mul e f he hf => simp only [toPE, PE.toList, len, eval, ev_mul, he, hf]; ring

theorem nonneg {e : RE} {k n : ℕ} {a b m : ℤ} (h : (e.toPE a b m).ok k n = true) (hm : 0 < m) {x : ℝ}
    (h1 : (a : ℝ) / m ≤ x) (h2 : x < (b : ℝ) / m) : 0 ≤ e.eval x := by
  have hm' : (0 : ℝ) < m := by exact_mod_cast hm
  obtain ⟨t, ht, hp, hx⟩ := mobius hm' h1 h2
  have e1 : ev [a, b] t = a + b * t := by simp only [ev]; ring
  have e2 : ev [m, m] t = m * (1 + t) := by simp only [ev]; ring
  have hd : 0 < ev [m, m] t := by rw [e2]; exact hp
  have h3 := PE.ok_sound h ht
  rw [ev_toPE (x := x) a b m e hd.ne' (by rw [e1, e2]; exact hx)] at h3
  exact nonneg_of_mul_nonneg_right h3 (pow_pos hd _)

end RE

/-- coefficients of the derivative -/
def dv : List ℤ → List ℤ
  | [] => []
  | _ :: cs => add cs (0 :: dv cs)

theorem hasDerivAt_ev (p : List ℤ) (x : ℝ) : HasDerivAt (ev p) (ev (dv p) x) x := by
  induction p with
  | nil => exact hasDerivAt_const x 0
  | cons c cs ih =>
    have h := ((hasDerivAt_id x).mul ih).const_add (c : ℝ)
    have e : 1 * ev cs x + id x * ev (dv cs) x = ev (dv (c :: cs)) x := by
      simp only [dv, ev_add, ev, id]; push_cast; ring
    rw [e] at h
    exact h

end Verif.PolyCert
