import Verif.Model.Laue
import Verif.Lemmas.Quat
import Mathlib.Tactic.NormNum
/-!
Exact arithmetic for the Laue tables: numbers `a + b√2 + c√3 + d√6` with integer coefficients.
The kernel evaluates the (finite, complete) multiplication tables on these integer quadruples; the
ring-homomorphism lemma `XQ.toQ_mul` transports the result to ℝ.
-/
namespace Verif
open Spec

/-- `a + b√2 + c√3 + d√6` -/
structure E4 where
  a : ℤ
  b : ℤ
  c : ℤ
  d : ℤ
deriving DecidableEq

namespace E4
noncomputable def ev (e : E4) : ℝ :=
  e.a + e.b * Real.sqrt 2 + e.c * Real.sqrt 3 + e.d * (Real.sqrt 2 * Real.sqrt 3)
def mul (p q : E4) : E4 :=
  ⟨p.a * q.a + 2 * p.b * q.b + 3 * p.c * q.c + 6 * p.d * q.d,
   p.a * q.b + p.b * q.a + 3 * p.c * q.d + 3 * p.d * q.c,
   p.a * q.c + p.c * q.a + 2 * p.b * q.d + 2 * p.d * q.b,
   p.a * q.d + p.d * q.a + p.b * q.c + p.c * q.b⟩
def add (p q : E4) : E4 := ⟨p.a + q.a, p.b + q.b, p.c + q.c, p.d + q.d⟩
def neg (p : E4) : E4 := ⟨-p.a, -p.b, -p.c, -p.d⟩
def dbl (p : E4) : E4 := ⟨2 * p.a, 2 * p.b, 2 * p.c, 2 * p.d⟩
def sub (p q : E4) : E4 := p.add q.neg

theorem ev_mul (p q : E4) : (p.mul q).ev = p.ev * q.ev := by
  have h2 : Real.sqrt 2 ^ 2 = 2 := Real.sq_sqrt (by norm_num)
  have h3 : Real.sqrt 3 ^ 2 = 3 := Real.sq_sqrt (by norm_num)
  simp only [ev, mul]
  push_cast
  generalize Real.sqrt 2 = r at *
  generalize Real.sqrt 3 = s at *
  have h23 : r ^ 2 * s ^ 2 = 6 := by rw [h2, h3]; norm_num
  linear_combination (-(p.b * q.b : ℝ) - (p.b * q.d + p.d * q.b) * s) * h2
    + (-(p.c * q.c : ℝ) - (p.c * q.d + p.d * q.c) * r) * h3 - (p.d * q.d : ℝ) * h23
theorem ev_add (p q : E4) : (p.add q).ev = p.ev + q.ev := by
  simp only [ev, add]; push_cast; ring
theorem ev_neg (p : E4) : (p.neg).ev = -p.ev := by
  simp only [ev, neg]; push_cast; ring
theorem ev_dbl (p : E4) : (p.dbl).ev = 2 * p.ev := by
  simp only [ev, dbl]; push_cast; ring
theorem ev_sub (p q : E4) : (p.sub q).ev = p.ev - q.ev := by
  rw [sub, ev_add, ev_neg]; ring
end E4

/-- A quaternion whose components are `E4` numbers divided by two. -/
structure XQ where
  w : E4
  x : E4
  y : E4
  z : E4
deriving DecidableEq

namespace XQ
noncomputable def toQ (p : XQ) : Q := ⟨p.w.ev / 2, p.x.ev / 2, p.y.ev / 2, p.z.ev / 2⟩
/-- four times the product -/
def mul (a b : XQ) : XQ :=
  ⟨(((a.w.mul b.w).sub (a.x.mul b.x)).sub (a.y.mul b.y)).sub (a.z.mul b.z),
   (((a.w.mul b.x).add (a.x.mul b.w)).add (a.y.mul b.z)).sub (a.z.mul b.y),
   (((a.w.mul b.y).sub (a.x.mul b.z)).add (a.y.mul b.w)).add (a.z.mul b.x),
   (((a.w.mul b.z).add (a.x.mul b.y)).sub (a.y.mul b.x)).add (a.z.mul b.w)⟩
def neg (a : XQ) : XQ := ⟨a.w.neg, a.x.neg, a.y.neg, a.z.neg⟩
def dbl (a : XQ) : XQ := ⟨a.w.dbl, a.x.dbl, a.y.dbl, a.z.dbl⟩
def conj (a : XQ) : XQ := ⟨a.w, a.x.neg, a.y.neg, a.z.neg⟩
def dot (a b : XQ) : E4 :=
  (((a.w.mul b.w).add (a.x.mul b.x)).add (a.y.mul b.y)).add (a.z.mul b.z)

theorem toQ_mul_dbl {a b c : XQ} (h : a.mul b = c.dbl) : quProdRaw a.toQ b.toQ = c.toQ := by
  have hw := congrArg (fun t => t.w.ev) h
  have hx := congrArg (fun t => t.x.ev) h
  have hy := congrArg (fun t => t.y.ev) h
  have hz := congrArg (fun t => t.z.ev) h
  simp only [mul, dbl, E4.ev_add, E4.ev_sub, E4.ev_mul, E4.ev_dbl] at hw hx hy hz
  ext <;> simp only [quProdRaw, toQ]
  · linear_combination hw / 4
  · linear_combination hx / 4
  · linear_combination hy / 4
  · linear_combination hz / 4

theorem toQ_neg (a : XQ) : a.neg.toQ = a.toQ.neg := by
  ext <;> simp only [toQ, neg, E4.ev_neg, Q.neg] <;> ring

theorem toQ_conj (a : XQ) : a.conj.toQ = quConj a.toQ := by
  ext <;> simp only [toQ, conj, E4.ev_neg, quConj] <;> ring

theorem toQ_dot (a b : XQ) : Q.dot a.toQ b.toQ = (a.dot b).ev / 4 := by
  simp only [Q.dot, dot, toQ, E4.ev_add, E4.ev_mul]; ring
end XQ

def laueOX : List XQ :=
  [⟨⟨2, 0, 0, 0⟩, ⟨0, 0, 0, 0⟩, ⟨0, 0, 0, 0⟩, ⟨0, 0, 0, 0⟩⟩,
   ⟨⟨0, 0, 0, 0⟩, ⟨0, 0, 0, 0⟩, ⟨0, 0, 0, 0⟩, ⟨2, 0, 0, 0⟩⟩,
   ⟨⟨0, 0, 0, 0⟩, ⟨2, 0, 0, 0⟩, ⟨0, 0, 0, 0⟩, ⟨0, 0, 0, 0⟩⟩,
   ⟨⟨0, 0, 0, 0⟩, ⟨0, 0, 0, 0⟩, ⟨2, 0, 0, 0⟩, ⟨0, 0, 0, 0⟩⟩,
   ⟨⟨0, 1, 0, 0⟩, ⟨0, 0, 0, 0⟩, ⟨0, 0, 0, 0⟩, ⟨0, 1, 0, 0⟩⟩,
   ⟨⟨0, 1, 0, 0⟩, ⟨0, 0, 0, 0⟩, ⟨0, 0, 0, 0⟩, ⟨0, -1, 0, 0⟩⟩,
   ⟨⟨0, 0, 0, 0⟩, ⟨0, 1, 0, 0⟩, ⟨0, 1, 0, 0⟩, ⟨0, 0, 0, 0⟩⟩,
   ⟨⟨0, 0, 0, 0⟩, ⟨0, -1, 0, 0⟩, ⟨0, 1, 0, 0⟩, ⟨0, 0, 0, 0⟩⟩,
   ⟨⟨1, 0, 0, 0⟩, ⟨1, 0, 0, 0⟩, ⟨-1, 0, 0, 0⟩, ⟨1, 0, 0, 0⟩⟩,
   ⟨⟨1, 0, 0, 0⟩, ⟨1, 0, 0, 0⟩, ⟨1, 0, 0, 0⟩, ⟨-1, 0, 0, 0⟩⟩,
   ⟨⟨1, 0, 0, 0⟩, ⟨1, 0, 0, 0⟩, ⟨-1, 0, 0, 0⟩, ⟨-1, 0, 0, 0⟩⟩,
   ⟨⟨1, 0, 0, 0⟩, ⟨-1, 0, 0, 0⟩, ⟨-1, 0, 0, 0⟩, ⟨-1, 0, 0, 0⟩⟩,
   ⟨⟨1, 0, 0, 0⟩, ⟨-1, 0, 0, 0⟩, ⟨1, 0, 0, 0⟩, ⟨1, 0, 0, 0⟩⟩,
   ⟨⟨1, 0, 0, 0⟩, ⟨-1, 0, 0, 0⟩, ⟨1, 0, 0, 0⟩, ⟨-1, 0, 0, 0⟩⟩,
   ⟨⟨1, 0, 0, 0⟩, ⟨-1, 0, 0, 0⟩, ⟨-1, 0, 0, 0⟩, ⟨1, 0, 0, 0⟩⟩,
   ⟨⟨1, 0, 0, 0⟩, ⟨1, 0, 0, 0⟩, ⟨1, 0, 0, 0⟩, ⟨1, 0, 0, 0⟩⟩,
   ⟨⟨0, 1, 0, 0⟩, ⟨0, 1, 0, 0⟩, ⟨0, 0, 0, 0⟩, ⟨0, 0, 0, 0⟩⟩,
   ⟨⟨0, 1, 0, 0⟩, ⟨0, -1, 0, 0⟩, ⟨0, 0, 0, 0⟩, ⟨0, 0, 0, 0⟩⟩,
   ⟨⟨0, 1, 0, 0⟩, ⟨0, 0, 0, 0⟩, ⟨0, 1, 0, 0⟩, ⟨0, 0, 0, 0⟩⟩,
   ⟨⟨0, 1, 0, 0⟩, ⟨0, 0, 0, 0⟩, ⟨0, -1, 0, 0⟩, ⟨0, 0, 0, 0⟩⟩,
   ⟨⟨0, 0, 0, 0⟩, ⟨0, 1, 0, 0⟩, ⟨0, 0, 0, 0⟩, ⟨0, 1, 0, 0⟩⟩,
   ⟨⟨0, 0, 0, 0⟩, ⟨0, -1, 0, 0⟩, ⟨0, 0, 0, 0⟩, ⟨0, 1, 0, 0⟩⟩,
   ⟨⟨0, 0, 0, 0⟩, ⟨0, 0, 0, 0⟩, ⟨0, 1, 0, 0⟩, ⟨0, 1, 0, 0⟩⟩,
   ⟨⟨0, 0, 0, 0⟩, ⟨0, 0, 0, 0⟩, ⟨0, -1, 0, 0⟩, ⟨0, 1, 0, 0⟩⟩]

def laueTX : List XQ :=
  [⟨⟨2, 0, 0, 0⟩, ⟨0, 0, 0, 0⟩, ⟨0, 0, 0, 0⟩, ⟨0, 0, 0, 0⟩⟩,
   ⟨⟨0, 0, 0, 0⟩, ⟨0, 0, 0, 0⟩, ⟨0, 0, 0, 0⟩, ⟨2, 0, 0, 0⟩⟩,
   ⟨⟨0, 0, 0, 0⟩, ⟨2, 0, 0, 0⟩, ⟨0, 0, 0, 0⟩, ⟨0, 0, 0, 0⟩⟩,
   ⟨⟨0, 0, 0, 0⟩, ⟨0, 0, 0, 0⟩, ⟨2, 0, 0, 0⟩, ⟨0, 0, 0, 0⟩⟩,
   ⟨⟨1, 0, 0, 0⟩, ⟨1, 0, 0, 0⟩, ⟨-1, 0, 0, 0⟩, ⟨1, 0, 0, 0⟩⟩,
   ⟨⟨1, 0, 0, 0⟩, ⟨1, 0, 0, 0⟩, ⟨1, 0, 0, 0⟩, ⟨-1, 0, 0, 0⟩⟩,
   ⟨⟨1, 0, 0, 0⟩, ⟨1, 0, 0, 0⟩, ⟨-1, 0, 0, 0⟩, ⟨-1, 0, 0, 0⟩⟩,
   ⟨⟨1, 0, 0, 0⟩, ⟨-1, 0, 0, 0⟩, ⟨-1, 0, 0, 0⟩, ⟨-1, 0, 0, 0⟩⟩,
   ⟨⟨1, 0, 0, 0⟩, ⟨-1, 0, 0, 0⟩, ⟨1, 0, 0, 0⟩, ⟨1, 0, 0, 0⟩⟩,
   ⟨⟨1, 0, 0, 0⟩, ⟨-1, 0, 0, 0⟩, ⟨1, 0, 0, 0⟩, ⟨-1, 0, 0, 0⟩⟩,
   ⟨⟨1, 0, 0, 0⟩, ⟨-1, 0, 0, 0⟩, ⟨-1, 0, 0, 0⟩, ⟨1, 0, 0, 0⟩⟩,
   ⟨⟨1, 0, 0, 0⟩, ⟨1, 0, 0, 0⟩, ⟨1, 0, 0, 0⟩, ⟨1, 0, 0, 0⟩⟩]

def laueD6X : List XQ :=
  [⟨⟨2, 0, 0, 0⟩, ⟨0, 0, 0, 0⟩, ⟨0, 0, 0, 0⟩, ⟨0, 0, 0, 0⟩⟩,
   ⟨⟨1, 0, 0, 0⟩, ⟨0, 0, 0, 0⟩, ⟨0, 0, 0, 0⟩, ⟨0, 0, 1, 0⟩⟩,
   ⟨⟨1, 0, 0, 0⟩, ⟨0, 0, 0, 0⟩, ⟨0, 0, 0, 0⟩, ⟨0, 0, -1, 0⟩⟩,
   ⟨⟨0, 0, 0, 0⟩, ⟨0, 0, 0, 0⟩, ⟨0, 0, 0, 0⟩, ⟨2, 0, 0, 0⟩⟩,
   ⟨⟨0, 0, 1, 0⟩, ⟨0, 0, 0, 0⟩, ⟨0, 0, 0, 0⟩, ⟨1, 0, 0, 0⟩⟩,
   ⟨⟨0, 0, 1, 0⟩, ⟨0, 0, 0, 0⟩, ⟨0, 0, 0, 0⟩, ⟨-1, 0, 0, 0⟩⟩,
   ⟨⟨0, 0, 0, 0⟩, ⟨2, 0, 0, 0⟩, ⟨0, 0, 0, 0⟩, ⟨0, 0, 0, 0⟩⟩,
   ⟨⟨0, 0, 0, 0⟩, ⟨-1, 0, 0, 0⟩, ⟨0, 0, 1, 0⟩, ⟨0, 0, 0, 0⟩⟩,
   ⟨⟨0, 0, 0, 0⟩, ⟨1, 0, 0, 0⟩, ⟨0, 0, 1, 0⟩, ⟨0, 0, 0, 0⟩⟩,
   ⟨⟨0, 0, 0, 0⟩, ⟨0, 0, 1, 0⟩, ⟨1, 0, 0, 0⟩, ⟨0, 0, 0, 0⟩⟩,
   ⟨⟨0, 0, 0, 0⟩, ⟨0, 0, -1, 0⟩, ⟨1, 0, 0, 0⟩, ⟨0, 0, 0, 0⟩⟩,
   ⟨⟨0, 0, 0, 0⟩, ⟨0, 0, 0, 0⟩, ⟨2, 0, 0, 0⟩, ⟨0, 0, 0, 0⟩⟩]

def laueC6X : List XQ :=
  [⟨⟨2, 0, 0, 0⟩, ⟨0, 0, 0, 0⟩, ⟨0, 0, 0, 0⟩, ⟨0, 0, 0, 0⟩⟩,
   ⟨⟨1, 0, 0, 0⟩, ⟨0, 0, 0, 0⟩, ⟨0, 0, 0, 0⟩, ⟨0, 0, 1, 0⟩⟩,
   ⟨⟨1, 0, 0, 0⟩, ⟨0, 0, 0, 0⟩, ⟨0, 0, 0, 0⟩, ⟨0, 0, -1, 0⟩⟩,
   ⟨⟨0, 0, 0, 0⟩, ⟨0, 0, 0, 0⟩, ⟨0, 0, 0, 0⟩, ⟨2, 0, 0, 0⟩⟩,
   ⟨⟨0, 0, 1, 0⟩, ⟨0, 0, 0, 0⟩, ⟨0, 0, 0, 0⟩, ⟨1, 0, 0, 0⟩⟩,
   ⟨⟨0, 0, 1, 0⟩, ⟨0, 0, 0, 0⟩, ⟨0, 0, 0, 0⟩, ⟨-1, 0, 0, 0⟩⟩]

def laueD3X : List XQ :=
  [⟨⟨2, 0, 0, 0⟩, ⟨0, 0, 0, 0⟩, ⟨0, 0, 0, 0⟩, ⟨0, 0, 0, 0⟩⟩,
   ⟨⟨1, 0, 0, 0⟩, ⟨0, 0, 0, 0⟩, ⟨0, 0, 0, 0⟩, ⟨0, 0, 1, 0⟩⟩,
   ⟨⟨1, 0, 0, 0⟩, ⟨0, 0, 0, 0⟩, ⟨0, 0, 0, 0⟩, ⟨0, 0, -1, 0⟩⟩,
   ⟨⟨0, 0, 0, 0⟩, ⟨2, 0, 0, 0⟩, ⟨0, 0, 0, 0⟩, ⟨0, 0, 0, 0⟩⟩,
   ⟨⟨0, 0, 0, 0⟩, ⟨-1, 0, 0, 0⟩, ⟨0, 0, 1, 0⟩, ⟨0, 0, 0, 0⟩⟩,
   ⟨⟨0, 0, 0, 0⟩, ⟨1, 0, 0, 0⟩, ⟨0, 0, 1, 0⟩, ⟨0, 0, 0, 0⟩⟩]

def laueC3X : List XQ :=
  [⟨⟨2, 0, 0, 0⟩, ⟨0, 0, 0, 0⟩, ⟨0, 0, 0, 0⟩, ⟨0, 0, 0, 0⟩⟩,
   ⟨⟨1, 0, 0, 0⟩, ⟨0, 0, 0, 0⟩, ⟨0, 0, 0, 0⟩, ⟨0, 0, 1, 0⟩⟩,
   ⟨⟨1, 0, 0, 0⟩, ⟨0, 0, 0, 0⟩, ⟨0, 0, 0, 0⟩, ⟨0, 0, -1, 0⟩⟩]

def laueD4X : List XQ :=
  [⟨⟨2, 0, 0, 0⟩, ⟨0, 0, 0, 0⟩, ⟨0, 0, 0, 0⟩, ⟨0, 0, 0, 0⟩⟩,
   ⟨⟨0, 0, 0, 0⟩, ⟨0, 0, 0, 0⟩, ⟨0, 0, 0, 0⟩, ⟨2, 0, 0, 0⟩⟩,
   ⟨⟨0, 0, 0, 0⟩, ⟨2, 0, 0, 0⟩, ⟨0, 0, 0, 0⟩, ⟨0, 0, 0, 0⟩⟩,
   ⟨⟨0, 0, 0, 0⟩, ⟨0, 0, 0, 0⟩, ⟨2, 0, 0, 0⟩, ⟨0, 0, 0, 0⟩⟩,
   ⟨⟨0, 1, 0, 0⟩, ⟨0, 0, 0, 0⟩, ⟨0, 0, 0, 0⟩, ⟨0, 1, 0, 0⟩⟩,
   ⟨⟨0, 1, 0, 0⟩, ⟨0, 0, 0, 0⟩, ⟨0, 0, 0, 0⟩, ⟨0, -1, 0, 0⟩⟩,
   ⟨⟨0, 0, 0, 0⟩, ⟨0, 1, 0, 0⟩, ⟨0, 1, 0, 0⟩, ⟨0, 0, 0, 0⟩⟩,
   ⟨⟨0, 0, 0, 0⟩, ⟨0, -1, 0, 0⟩, ⟨0, 1, 0, 0⟩, ⟨0, 0, 0, 0⟩⟩]

def laueC4X : List XQ :=
  [⟨⟨2, 0, 0, 0⟩, ⟨0, 0, 0, 0⟩, ⟨0, 0, 0, 0⟩, ⟨0, 0, 0, 0⟩⟩,
   ⟨⟨0, 0, 0, 0⟩, ⟨0, 0, 0, 0⟩, ⟨0, 0, 0, 0⟩, ⟨2, 0, 0, 0⟩⟩,
   ⟨⟨0, 1, 0, 0⟩, ⟨0, 0, 0, 0⟩, ⟨0, 0, 0, 0⟩, ⟨0, 1, 0, 0⟩⟩,
   ⟨⟨0, 1, 0, 0⟩, ⟨0, 0, 0, 0⟩, ⟨0, 0, 0, 0⟩, ⟨0, -1, 0, 0⟩⟩]

def laueD2X : List XQ :=
  [⟨⟨2, 0, 0, 0⟩, ⟨0, 0, 0, 0⟩, ⟨0, 0, 0, 0⟩, ⟨0, 0, 0, 0⟩⟩,
   ⟨⟨0, 0, 0, 0⟩, ⟨0, 0, 0, 0⟩, ⟨0, 0, 0, 0⟩, ⟨2, 0, 0, 0⟩⟩,
   ⟨⟨0, 0, 0, 0⟩, ⟨2, 0, 0, 0⟩, ⟨0, 0, 0, 0⟩, ⟨0, 0, 0, 0⟩⟩,
   ⟨⟨0, 0, 0, 0⟩, ⟨0, 0, 0, 0⟩, ⟨2, 0, 0, 0⟩, ⟨0, 0, 0, 0⟩⟩]

def laueC2X : List XQ :=
  [⟨⟨2, 0, 0, 0⟩, ⟨0, 0, 0, 0⟩, ⟨0, 0, 0, 0⟩, ⟨0, 0, 0, 0⟩⟩,
   ⟨⟨0, 0, 0, 0⟩, ⟨0, 0, 0, 0⟩, ⟨0, 0, 0, 0⟩, ⟨2, 0, 0, 0⟩⟩]

def laueC1X : List XQ :=
  [⟨⟨2, 0, 0, 0⟩, ⟨0, 0, 0, 0⟩, ⟨0, 0, 0, 0⟩, ⟨0, 0, 0, 0⟩⟩]

def laueGroupsX : List (List XQ) :=
  [laueC1X, laueC2X, laueD2X, laueC4X, laueD4X, laueC3X, laueD3X, laueC6X, laueD6X, laueTX, laueOX]

theorem E4_ev_0 : (⟨0,0,0,0⟩ : E4).ev / 2 = 0 := by simp [E4.ev]
theorem E4_ev_2 : (⟨2,0,0,0⟩ : E4).ev / 2 = 1 := by simp [E4.ev]
theorem E4_ev_1 : (⟨1,0,0,0⟩ : E4).ev / 2 = 1/2 := by simp [E4.ev]
theorem E4_ev_m1 : (⟨-1,0,0,0⟩ : E4).ev / 2 = -(1/2) := by simp [E4.ev]; norm_num
theorem E4_ev_r2 : (⟨0,1,0,0⟩ : E4).ev / 2 = R2 := by
  have h2 : Real.sqrt 2 * Real.sqrt 2 = 2 := Real.mul_self_sqrt (by norm_num)
  have h0 : Real.sqrt 2 ≠ 0 := by positivity
  simp [E4.ev, R2]; field_simp; linarith
theorem E4_ev_mr2 : (⟨0,-1,0,0⟩ : E4).ev / 2 = -R2 := by
  rw [← E4_ev_r2]; simp [E4.ev]; ring
theorem E4_ev_r3 : (⟨0,0,1,0⟩ : E4).ev / 2 = R3 := by simp [E4.ev, R3]
theorem E4_ev_mr3 : (⟨0,0,-1,0⟩ : E4).ev / 2 = -R3 := by simp [E4.ev, R3]; ring

theorem laueGroups_exact : laueGroups = laueGroupsX.map (fun l => l.map XQ.toQ) := by
  simp only [laueGroups, laueGroupsX, List.map, laueC1, laueC2, laueD2, laueC4, laueD4, laueC3,
    laueD3, laueC6, laueD6, laueT, laueO, laueC1X, laueC2X, laueD2X, laueC4X, laueD4X, laueC3X,
    laueD3X, laueC6X, laueD6X, laueTX, laueOX, XQ.toQ, E4_ev_0, E4_ev_1, E4_ev_2, E4_ev_m1,
    E4_ev_r2, E4_ev_mr2, E4_ev_r3, E4_ev_mr3]

end Verif
