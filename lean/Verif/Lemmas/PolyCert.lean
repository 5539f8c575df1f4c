import Mathlib.Data.Real.Basic
import Mathlib.Tactic.Ring
import Mathlib.Tactic.Linarith
import Mathlib.Tactic.Positivity
import Mathlib.Tactic.LinearCombination
import Mathlib.Tactic.FieldSimp
/-!
A reflective certificate for polynomial inequalities on an interval: integer polynomials as coefficient lists,
composition with a quotient of polynomials, and nonnegativity on `[a/m, b/m)` from the signs of the coefficients after
the substitution `x = (a + b t) / (m (1 + t))`.
-/
namespace Verif.PolyCert

/-- value at `x` of the polynomial with coefficients `p` (lowest first) -/
def ev : List ℤ → ℝ → ℝ
  | [], _ => 0
  | c :: cs, x => c + x * ev cs x

def add : List ℤ → List ℤ → List ℤ
  | [], q => q
  | p, [] => p
  | a :: p, b :: q => (a + b) :: add p q

def smul (c : ℤ) (p : List ℤ) : List ℤ := p.map fun a => c * a

def mul : List ℤ → List ℤ → List ℤ
  | [], _ => []
  | a :: p, q => add (smul a q) (0 :: mul p q)

/-- numerator and denominator of the polynomial composed with `num / den` -/
def hom (num den : List ℤ) : List ℤ → List ℤ × List ℤ
  | [] => ([], [1])
  | c :: cs =>
    let r := hom num den cs
    let d := mul den r.2
    (add (smul c d) (mul num r.1), d)

theorem ev_add (p q : List ℤ) (x : ℝ) : ev (add p q) x = ev p x + ev q x := by
  induction p generalizing q with
  | nil => simp [add, ev]
  | cons a p ih =>
    cases q with
    | nil => simp [add, ev]
    | cons b q => simp only [add, ev, ih]; push_cast; ring

theorem ev_smul (c : ℤ) (p : List ℤ) (x : ℝ) : ev (smul c p) x = c * ev p x := by
  induction p with
  | nil => simp [smul, ev]
  | cons a p ih => simp only [smul, List.map_cons, ev] at *; rw [ih]; push_cast; ring

theorem ev_mul (p q : List ℤ) (x : ℝ) : ev (mul p q) x = ev p x * ev q x := by
  induction p with
  | nil => simp [mul, ev]
  | cons a p ih => simp only [mul, ev, ev_add, ev_smul, ih]; push_cast; ring

theorem ev_hom (num den p : List ℤ) (x : ℝ) (h : ev den x ≠ 0) :
    ev (hom num den p).1 x = ev (hom num den p).2 x * ev p (ev num x / ev den x) := by
  induction p with
  | nil => simp [hom, ev]
  | cons c cs ih =>
    simp only [hom, ev, ev_add, ev_smul, ev_mul, ih]
    field_simp

theorem ev_hom_den (num den p : List ℤ) (x : ℝ) : ev (hom num den p).2 x = ev den x ^ p.length := by
  induction p with
  | nil => simp [hom, ev]
  | cons c cs ih => simp only [hom, ev_mul, ih, List.length_cons]; ring

theorem ev_nonneg (p : List ℤ) (h : ∀ c ∈ p, 0 ≤ c) {t : ℝ} (ht : 0 ≤ t) : 0 ≤ ev p t := by
  induction p with
  | nil => simp [ev]
  | cons c cs ih =>
    have h1 : (0 : ℝ) ≤ c := by exact_mod_cast h c (by simp)
    have h2 := ih fun d hd => h d (by simp [hd])
    simp only [ev]; positivity

/-- all coefficients are nonnegative after the substitution that sends `[0, ∞)` to `[a/m, b/m)` -/
def posOn (a b m : ℤ) (p : List ℤ) : Bool := (hom [a, b] [m, m] p).1.all fun c => decide (0 ≤ c)

theorem posOn_sound {a b m : ℤ} {p : List ℤ} (h : posOn a b m p = true) (hm : 0 < m) {x : ℝ}
    (h1 : (a : ℝ) / m ≤ x) (h2 : x < (b : ℝ) / m) : 0 ≤ ev p x := by
  have hm' : (0 : ℝ) < m := by exact_mod_cast hm
  rw [div_le_iff₀ hm'] at h1
  rw [lt_div_iff₀ hm'] at h2
  have hd : 0 < (b : ℝ) - x * m := by linarith
  obtain ⟨t, rfl⟩ : ∃ t, t = (x * m - a) / (b - x * m) := ⟨_, rfl⟩
  have ht : 0 ≤ (x * m - a) / ((b : ℝ) - x * m) := div_nonneg (by linarith) hd.le
  generalize hT : (x * m - a) / ((b : ℝ) - x * m) = t at ht
  have hx : x * m - a = t * (b - x * m) := by rw [← hT]; field_simp
  have hden : ev [m, m] t = m * (1 + t) := by simp [ev]; ring
  have hne : ev [m, m] t ≠ 0 := by rw [hden]; positivity
  have hq : ev [a, b] t / ev [m, m] t = x := by
    rw [div_eq_iff hne, hden]; simp only [ev]; linear_combination -hx
  have key := ev_hom [a, b] [m, m] p t hne
  rw [hq, ev_hom_den] at key
  have h3 : 0 ≤ ev (hom [a, b] [m, m] p).1 t := ev_nonneg _ (by simpa [posOn] using h) ht
  rw [key] at h3
  have h4 : 0 < ev [m, m] t ^ p.length := by rw [hden]; positivity
  exact nonneg_of_mul_nonneg_right (by simpa [mul_comm] using h3) h4

/-- bound for the absolute value on `[-2, 2]` -/
def bd : List ℤ → ℤ
  | [] => 0
  | c :: cs => |c| + 2 * bd cs

/-- Lipschitz constant on `[-2, 2]` -/
def lip : List ℤ → ℤ
  | [] => 0
  | _ :: cs => 2 * lip cs + bd cs

theorem ev_bd (p : List ℤ) {x : ℝ} (hx : |x| ≤ 2) : |ev p x| ≤ bd p := by
  induction p with
  | nil => simp [ev, bd]
  | cons c cs ih =>
    simp only [ev, bd]; push_cast
    refine (abs_add_le _ _).trans ?_
    rw [abs_mul]
    have := mul_le_mul hx ih (abs_nonneg _) (by norm_num)
    linarith

theorem ev_lip (p : List ℤ) {x y : ℝ} (hx : |x| ≤ 2) (hy : |y| ≤ 2) : |ev p x - ev p y| ≤ lip p * |x - y| := by
  induction p with
  | nil => simp [ev, lip]
  | cons c cs ih =>
    simp only [ev, lip]; push_cast
    have e : (c : ℝ) + x * ev cs x - (c + y * ev cs y) = x * (ev cs x - ev cs y) + (x - y) * ev cs y := by ring
    rw [e]
    refine (abs_add_le _ _).trans ?_
    rw [abs_mul, abs_mul]
    have h1 := mul_le_mul hx ih (abs_nonneg _) (by norm_num)
    have h2 := mul_le_mul_of_nonneg_left (ev_bd cs hy) (abs_nonneg (x - y))
    linarith

/-! The same certificate without lists: evaluate the transformed polynomial at a large power of two and read off the signs
of its coefficients from the digits. -/

/-- polynomial expressions; `comp n d p` is `d ^ p.length * p (n / d)` -/
inductive PE where
  | lit (p : List ℤ)
  | add (a b : PE)
  | smul (c : ℤ) (a : PE)
  | mul (a b : PE)
  | pow (a : PE) (k : ℕ)
  | comp (num den : PE) (p : List ℤ)

def powL (p : List ℤ) : ℕ → List ℤ
  | 0 => [1]
  | k + 1 => PolyCert.mul p (powL p k)

def powZ (p : ℤ) : ℕ → ℤ
  | 0 => 1
  | k + 1 => p * powZ p k

def homZ (num den : ℤ) : List ℤ → ℤ × ℤ
  | [] => (0, 1)
  | c :: cs =>
    let r := homZ num den cs
    let d := den * r.2
    (c * d + num * r.1, d)

def evZ : List ℤ → ℤ → ℤ
  | [], _ => 0
  | c :: cs, t => c + t * evZ cs t

/-- sum of the absolute values of the coefficients -/
def nrm1 : List ℤ → ℤ
  | [] => 0
  | c :: cs => |c| + nrm1 cs

namespace PE
def toList : PE → List ℤ
  | lit p => p
  | add a b => PolyCert.add a.toList b.toList
  | smul c a => PolyCert.smul c a.toList
  | mul a b => PolyCert.mul a.toList b.toList
  | pow a k => powL a.toList k
  | comp n d p => (hom n.toList d.toList p).1

/-- value at an integer -/
def val (t : ℤ) : PE → ℤ
  | lit p => evZ p t
  | add a b => a.val t + b.val t
  | smul c a => c * a.val t
  | mul a b => a.val t * b.val t
  | pow a k => powZ (a.val t) k
  | comp n d p => (homZ (n.val t) (d.val t) p).1

/-- bound for the sum of the absolute values of the coefficients -/
def nrm : PE → ℤ
  | lit p => nrm1 p
  | add a b => a.nrm + b.nrm
  | smul c a => |c| * a.nrm
  | mul a b => a.nrm * b.nrm
  | pow a k => powZ a.nrm k
  | comp n d p => (homZ n.nrm d.nrm (p.map fun c => |c|)).1
end PE

theorem ev_powL (p : List ℤ) (k : ℕ) (x : ℝ) : ev (powL p k) x = ev p x ^ k := by
  induction k with
  | zero => simp [powL, ev]
  | succ k ih => rw [powL, ev_mul, ih]; ring

theorem evZ_add (p q : List ℤ) (x : ℤ) : evZ (add p q) x = evZ p x + evZ q x := by
  induction p generalizing q with
  | nil => simp [add, evZ]
  | cons a p ih =>
    cases q with
    | nil => simp [add, evZ]
    | cons b q => simp only [add, evZ, ih]; ring

theorem evZ_smul (c : ℤ) (p : List ℤ) (x : ℤ) : evZ (smul c p) x = c * evZ p x := by
  induction p with
  | nil => simp [smul, evZ]
  | cons a p ih => simp only [smul, List.map_cons, evZ] at *; rw [ih]; ring

theorem evZ_mul (p q : List ℤ) (x : ℤ) : evZ (mul p q) x = evZ p x * evZ q x := by
  induction p with
  | nil => simp [mul, evZ]
  | cons a p ih => simp only [mul, evZ, evZ_add, evZ_smul, ih]; ring

theorem evZ_powL (p : List ℤ) (k : ℕ) (x : ℤ) : evZ (powL p k) x = powZ (evZ p x) k := by
  induction k with
  | zero => simp [powL, powZ, evZ]
  | succ k ih => rw [powL, powZ, evZ_mul, ih]

theorem evZ_hom (num den p : List ℤ) (x : ℤ) :
    evZ (hom num den p).1 x = (homZ (evZ num x) (evZ den x) p).1 ∧
    evZ (hom num den p).2 x = (homZ (evZ num x) (evZ den x) p).2 := by
  induction p with
  | nil => simp [hom, homZ, evZ]
  | cons c cs ih => simp only [hom, homZ, evZ_add, evZ_smul, evZ_mul, ih.1, ih.2]; trivial

theorem PE.val_eq (e : PE) (t : ℤ) : e.val t = evZ e.toList t := by
  induction e with
  | lit p => rfl
  | add a b ha hb => simp only [val, toList, evZ_add, ha, hb]
  | smul c a ha => simp only [val, toList, evZ_smul, ha]
  | mul a b ha hb => simp only [val, toList, evZ_mul, ha, hb]
  | pow a k ha => simp only [val, toList, evZ_powL, ha]
  | comp n d p hn hd => simp only [val, toList, (evZ_hom _ _ _ _).1, hn, hd]

theorem nrm1_nonneg (p : List ℤ) : 0 ≤ nrm1 p := by
  induction p with
  | nil => simp [nrm1]
  | cons a p ih => simp only [nrm1]; positivity

theorem nrm1_add (p q : List ℤ) : nrm1 (add p q) ≤ nrm1 p + nrm1 q := by
  induction p generalizing q with
  | nil => simp [add, nrm1]
  | cons a p ih =>
    cases q with
    | nil => simp [add, nrm1]
    | cons b q => simp only [add, nrm1]; linarith [ih q, abs_add_le a b]

theorem nrm1_smul (c : ℤ) (p : List ℤ) : nrm1 (smul c p) = |c| * nrm1 p := by
  induction p with
  | nil => simp [smul, nrm1]
  | cons a p ih => simp only [smul, List.map_cons, nrm1] at *; rw [ih, abs_mul]; ring

theorem nrm1_mul (p q : List ℤ) : nrm1 (mul p q) ≤ nrm1 p * nrm1 q := by
  induction p with
  | nil => simp [mul, nrm1]
  | cons a p ih =>
    simp only [mul, nrm1]
    refine (nrm1_add _ _).trans ?_
    rw [nrm1_smul]; simp only [nrm1, abs_zero]; nlinarith

theorem nrm1_powL {p : List ℤ} {b : ℤ} (h : nrm1 p ≤ b) (k : ℕ) : nrm1 (powL p k) ≤ powZ b k := by
  induction k with
  | zero => simp [powL, powZ, nrm1]
  | succ k ih =>
    rw [powL, powZ]
    exact (nrm1_mul _ _).trans (mul_le_mul h ih (nrm1_nonneg _) ((nrm1_nonneg _).trans h))

theorem nrm1_hom {num den : List ℤ} {bn bd : ℤ} (hn : nrm1 num ≤ bn) (hd : nrm1 den ≤ bd) (p : List ℤ) :
    nrm1 (hom num den p).1 ≤ (homZ bn bd (p.map fun c => |c|)).1 ∧
    nrm1 (hom num den p).2 ≤ (homZ bn bd (p.map fun c => |c|)).2 := by
  have hn0 := (nrm1_nonneg _).trans hn
  have hd0 := (nrm1_nonneg _).trans hd
  induction p with
  | nil => simp [hom, homZ, nrm1]
  | cons c cs ih =>
    simp only [hom, homZ, List.map_cons]
    have h2 : nrm1 (mul den (hom num den cs).2) ≤ bd * (homZ bn bd (cs.map fun c => |c|)).2 :=
      (nrm1_mul _ _).trans (mul_le_mul hd ih.2 (nrm1_nonneg _) hd0)
    refine ⟨(nrm1_add _ _).trans ?_, h2⟩
    rw [nrm1_smul]
    have h3 : nrm1 (mul num (hom num den cs).1) ≤ bn * (homZ bn bd (cs.map fun c => |c|)).1 :=
      (nrm1_mul _ _).trans (mul_le_mul hn ih.1 (nrm1_nonneg _) hn0)
    have h4 := mul_le_mul_of_nonneg_left h2 (abs_nonneg c)
    linarith

theorem PE.nrm_le (e : PE) : nrm1 e.toList ≤ e.nrm := by
  induction e with
  | lit p => exact le_rfl
  | add a b ha hb => simp only [nrm, toList]; exact (nrm1_add _ _).trans (add_le_add ha hb)
  | smul c a ha => simp only [nrm, toList, nrm1_smul]; exact mul_le_mul_of_nonneg_left ha (abs_nonneg _)
  | mul a b ha hb =>
    simp only [nrm, toList]
    exact (nrm1_mul _ _).trans (mul_le_mul ha hb (nrm1_nonneg _) ((nrm1_nonneg _).trans ha))
  | pow a k ha => simp only [nrm, toList]; exact nrm1_powL ha k
  | comp n d p hn hd => simp only [nrm, toList]; exact (nrm1_hom hn hd p).1

/-- the digits in base `T` are smaller than `T / 2`, and there are at most `n` of them -/
def digitsOk (T : ℤ) : ℕ → ℤ → Bool
  | 0, v => decide (v = 0)
  | n + 1, v => decide (2 * (v % T) < T) && digitsOk T n (v / T)

theorem digits_zero {T : ℤ} (q : List ℤ) (hq : 2 * nrm1 q < T) (h : evZ q T = 0) : ∀ c ∈ q, 0 ≤ c := by
  induction q with
  | nil => simp
  | cons c cs ih =>
    rw [evZ] at h
    simp only [nrm1] at hq
    have hn := nrm1_nonneg cs
    have hT : 0 < T := by linarith [abs_nonneg c]
    have hc : c = 0 := by
      apply Int.eq_zero_of_abs_lt_dvd (m := T)
      · exact ⟨-evZ cs T, by linarith⟩
      · linarith [abs_nonneg c]
    subst hc
    intro d hd
    rcases List.mem_cons.mp hd with rfl | hd
    · exact le_rfl
    · refine ih (by simpa using hq) ?_ d hd
      rcases mul_eq_zero.mp (show T * evZ cs T = 0 by linarith) with h' | h'
      · exact absurd h' hT.ne'
      · exact h'

theorem digits_sound {T : ℤ} (n : ℕ) (q : List ℤ) (hq : 2 * nrm1 q < T)
    (h : digitsOk T n (evZ q T) = true) : ∀ c ∈ q, 0 ≤ c := by
  induction q generalizing n with
  | nil => simp
  | cons c cs ih =>
    cases n with
    | zero => exact digits_zero _ hq (of_decide_eq_true h)
    | succ n =>
      simp only [digitsOk, Bool.and_eq_true] at h
      obtain ⟨h1, h2⟩ := h
      have h1 := of_decide_eq_true h1
      rw [evZ] at h1 h2
      simp only [nrm1] at hq
      have hn := nrm1_nonneg cs
      have hT : 0 < T := by linarith [abs_nonneg c]
      rw [Int.add_mul_emod_self_left] at h1
      rw [Int.add_mul_ediv_left _ _ hT.ne'] at h2
      have hc : 0 ≤ c := by
        by_contra hneg
        push Not at hneg
        rw [abs_of_neg hneg] at hq
        have : c % T = c + T := by
          rw [← Int.add_emod_right, Int.emod_eq_of_lt (by linarith) (by linarith)]
        rw [this] at h1
        linarith
      rw [abs_of_nonneg hc] at hq
      rw [Int.ediv_eq_zero_of_lt hc (by linarith), zero_add] at h2
      intro d hd
      rcases List.mem_cons.mp hd with rfl | hd
      · exact hc
      · exact ih n (by linarith) h2 d hd

/-- certificate: no coefficient of `e` is negative -/
def PE.ok (k n : ℕ) (e : PE) : Bool := decide (2 * e.nrm < ((2 ^ k : ℕ) : ℤ)) && digitsOk ((2 ^ k : ℕ) : ℤ) n (e.val ((2 ^ k : ℕ) : ℤ))

theorem PE.ok_sound {k n : ℕ} {e : PE} (h : e.ok k n = true) {t : ℝ} (ht : 0 ≤ t) :
    0 ≤ ev e.toList t := by
  simp only [ok, Bool.and_eq_true, decide_eq_true_eq] at h
  refine ev_nonneg _ (digits_sound n _ (lt_of_le_of_lt ?_ h.1) (by rw [← PE.val_eq]; exact h.2)) ht
  have := e.nrm_le
  linarith

theorem mobius {a b m x : ℝ} (hm : 0 < m) (h1 : a / m ≤ x) (h2 : x < b / m) :
    ∃ t, 0 ≤ t ∧ 0 < m * (1 + t) ∧ (a + b * t) / (m * (1 + t)) = x := by
  rw [div_le_iff₀ hm] at h1
  rw [lt_div_iff₀ hm] at h2
  have hd : 0 < b - x * m := by linarith
  have ht : 0 ≤ (x * m - a) / (b - x * m) := div_nonneg (by linarith) hd.le
  refine ⟨(x * m - a) / (b - x * m), ht, by positivity, ?_⟩
  rw [div_eq_iff (by positivity)]
  field_simp
  ring

end Verif.PolyCert
