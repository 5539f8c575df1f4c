import Verif.Props.Rounded
import Verif.Props.Orient
import Verif.Model.RoundedOrient
/-! C149: conversion of quaternions to matrices and back in floating-point arithmetic. -/
open Quaternion
namespace Verif
open Spec

lemma flb {u : ℝ} {fl : ℝ → ℝ} (hu : 0 ≤ u) (h : Err u fl) {x B : ℝ} (hB : |x| ≤ B) : |fl x - x| ≤ u * B :=
  (h x).trans (mul_le_mul_of_nonneg_left hB hu)

section
variable {u : ℝ} {fl : ℝ → ℝ} (hu : 0 ≤ u) (hs : u ≤ 1 / 2048) (h : Err u fl)
include hu hs h

lemma off_err {s a b c d N : ℝ} (hss : s = 1 ∨ s = -1) (hN : a ^ 2 + b ^ 2 + c ^ 2 + d ^ 2 = N) (hN1 : N ≤ 1.01) :
    |rOff fl s a b c d - 2 * (a * b + s * (c * d))| ≤ 3.2 * u := by
  have h1 : |a * b| ≤ (a ^ 2 + b ^ 2) / 2 := by rw [abs_le]; constructor <;> nlinarith [sq_nonneg (a + b), sq_nonneg (a - b)]
  have h2 : |c * d| ≤ (c ^ 2 + d ^ 2) / 2 := by rw [abs_le]; constructor <;> nlinarith [sq_nonneg (c + d), sq_nonneg (c - d)]
  have h3 : |a * b| + |c * d| ≤ 0.505 := by norm_num at *; linarith
  have e1 := h (a * b)
  have e2 := h (c * d)
  unfold rOff
  have m12 : u * |a * b| + u * |c * d| ≤ u * 0.505 := by rw [← mul_add]; exact mul_le_mul_of_nonneg_left h3 hu
  generalize a * b = P at *
  generalize c * d = R at *
  generalize fl P = P' at *
  generalize fl R = R' at *
  have e3 : |s * R' - s * R| ≤ u * |R| := by
    rw [← mul_sub, abs_mul]; rcases hss with rfl | rfl <;> simpa using e2
  have hsR : |s * R| = |R| := by rw [abs_mul]; rcases hss with rfl | rfl <;> simp
  have h4 : |P' + s * R' - (P + s * R)| ≤ u * 0.505 := by
    have : P' + s * R' - (P + s * R) = (P' - P) + (s * R' - s * R) := by ring
    rw [this]; exact (abs_add_le _ _).trans (by linarith)
  have h5 : |P + s * R| ≤ 0.505 := (abs_add_le _ _).trans (by linarith)
  generalize P' + s * R' = I' at *
  generalize P + s * R = I at *
  have h6 : |I'| ≤ 0.506 := by
    have := abs_sub_abs_le_abs_sub I' I
    norm_num at *; linarith
  have h7 := flb hu h h6
  have h8 : |fl I'| ≤ 0.507 := by
    have := abs_sub_abs_le_abs_sub (fl I') I'
    norm_num at *; linarith
  have h9 := flb hu h (x := 2 * fl I') (B := 1.014) (by rw [abs_mul, abs_two]; norm_num at *; linarith)
  rw [abs_le] at h4 h7 h9 ⊢
  norm_num at *
  constructor <;> linarith

lemma sum3_err (x y z N : ℝ) (hN : x ^ 2 + y ^ 2 + z ^ 2 ≤ N) (hN1 : N ≤ 1.01) :
    |fl (fl (fl (x * x) + fl (y * y)) + fl (z * z)) - (x ^ 2 + y ^ 2 + z ^ 2)| ≤ 3.1 * u := by
  have px := sq_nonneg x
  have py := sq_nonneg y
  have pz := sq_nonneg z
  have e1 := h (x * x)
  have e2 := h (y * y)
  have e3 := h (z * z)
  rw [← pow_two, abs_of_nonneg px] at e1
  rw [← pow_two, abs_of_nonneg py] at e2
  rw [← pow_two, abs_of_nonneg pz] at e3
  rw [← pow_two, ← pow_two, ← pow_two]
  have m : u * x ^ 2 + u * y ^ 2 + u * z ^ 2 ≤ u * 1.01 := by
    rw [← mul_add, ← mul_add]; exact mul_le_mul_of_nonneg_left (by linarith) hu
  have mx : 0 ≤ u * x ^ 2 := by positivity
  have my : 0 ≤ u * y ^ 2 := by positivity
  have mz : 0 ≤ u * z ^ 2 := by positivity
  generalize x ^ 2 = X at *
  generalize y ^ 2 = Y at *
  generalize z ^ 2 = Z at *
  generalize fl X = X' at *
  generalize fl Y = Y' at *
  generalize fl Z = Z' at *
  rw [abs_le] at e1 e2 e3
  have h1 : |X' + Y'| ≤ 1.012 := by rw [abs_le]; norm_num at *; constructor <;> linarith
  have h2 := flb hu h h1
  rw [abs_le] at h2
  generalize fl (X' + Y') = S at *
  have h3 : |S + Z'| ≤ 1.014 := by rw [abs_le]; norm_num at *; constructor <;> linarith
  have h4 := flb hu h h3
  rw [abs_le] at h4 ⊢
  norm_num at *
  constructor <;> linarith

lemma diag_err (q : Q) {N : ℝ} (hN : q.w ^ 2 + q.x ^ 2 + q.y ^ 2 + q.z ^ 2 = N) (hN1 : N ≤ 1.01) (c : ℝ) (hc : c ^ 2 ≤ N - q.w ^ 2) :
    |rDiag fl q c - (q.w ^ 2 - (q.x ^ 2 + q.y ^ 2 + q.z ^ 2) + 2 * c ^ 2)| ≤ 10 * u := by
  have hS := sum3_err hu hs h q.x q.y q.z N (by nlinarith [sq_nonneg q.w]) hN1
  have hw := h (q.w * q.w)
  have hcc := h (c * c)
  rw [← pow_two, abs_of_nonneg (sq_nonneg q.w)] at hw
  rw [← pow_two, abs_of_nonneg (sq_nonneg c)] at hcc
  unfold rDiag rQbar
  rw [← pow_two q.w, ← pow_two c]
  have pw := sq_nonneg q.w
  have pc := sq_nonneg c
  have ps : 0 ≤ q.x ^ 2 + q.y ^ 2 + q.z ^ 2 := by positivity
  have mw : u * q.w ^ 2 ≤ u * (1.01 - (q.x ^ 2 + q.y ^ 2 + q.z ^ 2)) := mul_le_mul_of_nonneg_left (by linarith) hu
  have mc : u * c ^ 2 ≤ u * 1.01 := mul_le_mul_of_nonneg_left (by linarith) hu
  have ms : 0 ≤ u * (q.x ^ 2 + q.y ^ 2 + q.z ^ 2) := by positivity
  have hcs : c ^ 2 ≤ q.x ^ 2 + q.y ^ 2 + q.z ^ 2 := by linarith
  have mcs : u * c ^ 2 ≤ u * (q.x ^ 2 + q.y ^ 2 + q.z ^ 2) := mul_le_mul_of_nonneg_left hcs hu
  have hNs : q.w ^ 2 + (q.x ^ 2 + q.y ^ 2 + q.z ^ 2) ≤ 1.01 := by linarith
  generalize fl (fl (fl (q.x * q.x) + fl (q.y * q.y)) + fl (q.z * q.z)) = S at *
  generalize q.x ^ 2 + q.y ^ 2 + q.z ^ 2 = s at *
  generalize q.w ^ 2 = W at *
  generalize c ^ 2 = C at *
  generalize fl W = W' at *
  generalize fl C = C' at *
  rw [abs_le] at hS hw hcc
  have h1 : |W' - S| ≤ 1.015 := by rw [abs_le]; norm_num at *; constructor <;> linarith
  have h2 := flb hu h h1
  rw [abs_le] at h2
  generalize fl (W' - S) = D at *
  have h3 : |2 * C'| ≤ 2.03 := by rw [abs_le]; norm_num at *; constructor <;> linarith
  have h4 := flb hu h h3
  rw [abs_le] at h4
  generalize fl (2 * C') = E at *
  have h5 : |D + E| ≤ 1.03 := by rw [abs_le]; norm_num at *; constructor <;> linarith
  have h6 := flb hu h h5
  rw [abs_le] at h6 ⊢
  norm_num at *
  constructor <;> linarith

/-- the chosen pivot `c`: its half reciprocal root -/
lemma pivot_err {T c : ℝ} (hT : |T - 4 * c ^ 2| ≤ 51 * u) (hc : 1 - 41 * u ≤ 4 * c ^ 2) (hc1 : c ^ 2 ≤ 1.01) :
    0.45 ≤ |c| ∧ |c| ≤ 1.005 ∧ |rHrsqrt fl T - 1 / (4 * |c|)| ≤ 18 * u ∧ |rHrsqrt fl T| ≤ 0.58 := by
  have hc0 : 0 ≤ |c| := abs_nonneg c
  rw [← sq_abs] at hT hc hc1
  generalize |c| = a at *
  have a1 : 0.49 ≤ a := by
    by_contra hn
    have : a ^ 2 < 0.49 ^ 2 := by push Not at hn; gcongr
    norm_num at *; linarith
  have a2 : a ≤ 1.005 := by
    by_contra hn
    have : (1.005 : ℝ) ^ 2 < a ^ 2 := by push Not at hn; gcongr
    norm_num at *; linarith
  have hT0 : 0.9 ≤ T := by rw [abs_le] at hT; norm_num at *; linarith
  have hT1 : T ≤ 4.1 := by rw [abs_le] at hT; norm_num at *; linarith
  unfold rHrsqrt
  have hsq : √T ^ 2 = T := Real.sq_sqrt (by norm_num at *; linarith)
  have hs0 := Real.sqrt_nonneg T
  generalize √T = r at *
  have r1 : 0.94 ≤ r := by
    by_contra hn
    have : r ^ 2 < 0.94 ^ 2 := by push Not at hn; gcongr
    norm_num at *; linarith
  have r2 : r ≤ 2.03 := by
    by_contra hn
    have : (2.03 : ℝ) ^ 2 < r ^ 2 := by push Not at hn; gcongr
    norm_num at *; linarith
  have h1 : |r - 2 * a| ≤ 27 * u := by
    have e : T - 4 * a ^ 2 = (r - 2 * a) * (r + 2 * a) := by rw [← hsq]; ring
    rw [e, abs_mul, abs_of_pos (show 0 < r + 2 * a by norm_num at *; linarith)] at hT
    have : |r - 2 * a| * 1.9 ≤ |r - 2 * a| * (r + 2 * a) := by gcongr; norm_num at *; linarith
    norm_num at *; linarith
  have h2 := flb hu h (x := r) (B := 2.03) (by rw [abs_of_nonneg hs0]; exact r2)
  rw [abs_le] at h1 h2
  generalize fl r = S at *
  have s1 : 0.93 ≤ S := by norm_num at *; linarith
  have hS0 : 0 < S := by norm_num at *; linarith
  have ha0 : 0 < a := by norm_num at *; linarith
  have h3 : |1 / S - 1 / (2 * a)| ≤ 33 * u := by
    have e : 1 / S - 1 / (2 * a) = (2 * a - S) / (S * (2 * a)) := by field_simp
    rw [e, abs_div, abs_of_pos (by positivity : 0 < S * (2 * a)), div_le_iff₀ (by positivity)]
    have h5 : 0.9 ≤ S * (2 * a) := by
      have : (0.93 : ℝ) * (2 * 0.49) ≤ S * (2 * a) := by gcongr
      norm_num at *; linarith
    have h6 : 33 * u * 0.9 ≤ 33 * u * (S * (2 * a)) := by gcongr
    have h7 : |2 * a - S| ≤ 29.1 * u := by rw [abs_le]; norm_num at *; constructor <;> linarith
    norm_num at *; linarith
  have h4 : 1 / (2 * a) ≤ 1.03 := by rw [div_le_iff₀ (by positivity)]; norm_num at *; linarith
  have h4' : 0 < 1 / (2 * a) := by positivity
  have e4 : 1 / (4 * a) = 1 / (2 * a) / 2 := by field_simp; norm_num
  rw [e4]
  generalize 1 / (2 * a) = K at *
  generalize 1 / S = R at *
  rw [abs_le] at h3
  have h5 : |R| ≤ 1.05 := by rw [abs_le]; norm_num at *; constructor <;> linarith
  have h6 := flb hu h h5
  rw [abs_le] at h6
  generalize fl R = R' at *
  have h7 : |0.5 * R'| ≤ 0.53 := by rw [abs_le]; norm_num at *; constructor <;> linarith
  have h8 := flb hu h h7
  rw [abs_le] at h8
  generalize fl (0.5 * R') = Z at *
  refine ⟨by norm_num at *; linarith, a2, ?_, ?_⟩ <;> rw [abs_le] <;> norm_num at * <;> constructor <;> linarith

/-- the pivot component -/
lemma main_comp {T c : ℝ} (hT : |T - 4 * c ^ 2| ≤ 51 * u) (hc : 1 - 41 * u ≤ 4 * c ^ 2) (hc1 : c ^ 2 ≤ 1.01) :
    abs (fl (T * rHrsqrt fl T) - |c|) ≤ 110 * u := by
  obtain ⟨a1, a2, h1, h2⟩ := pivot_err hu hs h hT hc hc1
  generalize rHrsqrt fl T = R at *
  rw [← sq_abs] at hT
  generalize |c| = a at *
  have ha0 : 0 < a := by norm_num at *; linarith
  have e : T * R - a = (T - 4 * a ^ 2) * R + 4 * a ^ 2 * (R - 1 / (4 * a)) := by field_simp; ring
  have h3 : |T * R - a| ≤ 106 * u := by
    rw [e]
    refine (abs_add_le _ _).trans ?_
    rw [abs_mul, abs_mul]
    have b1 : |T - 4 * a ^ 2| * |R| ≤ (51 * u) * 0.58 := by gcongr
    have b2 : |4 * a ^ 2| * |R - 1 / (4 * a)| ≤ 4.05 * (18 * u) := by
      have : |4 * a ^ 2| ≤ 4.05 := by
        rw [abs_of_nonneg (by positivity)]
        have : a ^ 2 ≤ 1.005 ^ 2 := by gcongr
        norm_num at *; linarith
      gcongr
    norm_num at *; linarith
  have h4 : |T * R| ≤ 1.1 := by
    rw [abs_le] at h3 ⊢
    norm_num at *; constructor <;> linarith
  have h5 := flb hu h h4
  rw [abs_le] at h3 h5 ⊢
  norm_num at *; constructor <;> linarith

/-- the other components -/
lemma other_comp {T c E d : ℝ} (hT : |T - 4 * c ^ 2| ≤ 51 * u) (hc : 1 - 41 * u ≤ 4 * c ^ 2) (hc1 : c ^ 2 ≤ 1.01) (hd : d ^ 2 ≤ 1.01)
    (hE : |E - 4 * c * d| ≤ 9 * u) : abs (|fl (E * rHrsqrt fl T)| - |d|) ≤ 110 * u := by
  obtain ⟨a1, a2, h1, h2⟩ := pivot_err hu hs h hT hc hc1
  generalize rHrsqrt fl T = R at *
  have hd1 : |d| ≤ 1.005 := by
    by_contra hn
    have : (1.005 : ℝ) ^ 2 < |d| ^ 2 := by push Not at hn; gcongr
    rw [sq_abs] at this
    norm_num at *; linarith
  have ha0 : 0 < |c| := lt_of_lt_of_le (by norm_num) a1
  -- compare with d * (c / |c|)
  have e : E * R - d * (c / |c|) = (E - 4 * c * d) * R + 4 * c * d * (R - 1 / (4 * |c|)) := by field_simp; ring
  have h3 : |E * R - d * (c / |c|)| ≤ 80 * u := by
    rw [e]
    refine (abs_add_le _ _).trans ?_
    rw [abs_mul, abs_mul (4 * c * d)]
    have b1 : |E - 4 * c * d| * |R| ≤ (9 * u) * 0.58 := by gcongr
    have b2 : |4 * c * d| * |R - 1 / (4 * |c|)| ≤ 4.05 * (18 * u) := by
      have : |4 * c * d| ≤ 4.05 := by
        rw [abs_mul, abs_mul, abs_of_pos (by norm_num : (0 : ℝ) < 4)]
        have : 4 * |c| * |d| ≤ 4 * 1.005 * 1.005 := by gcongr
        norm_num at *; linarith
      gcongr
    norm_num at *; linarith
  have hdc : |d * (c / |c|)| = |d| := by
    rw [abs_mul, abs_div, abs_abs, div_self ha0.ne', mul_one]
  have h4 : |E * R| ≤ 1.1 := by
    have := abs_sub_abs_le_abs_sub (E * R) (d * (c / |c|))
    norm_num at *; linarith
  have h5 := flb hu h h4
  have h6 : |fl (E * R) - d * (c / |c|)| ≤ 110 * u := by
    rw [abs_le] at h3 h5 ⊢
    norm_num at *; constructor <;> linarith
  have h7 := abs_abs_sub_abs_le (fl (E * R)) (d * (c / |c|))
  rw [hdc] at h7
  exact h7.trans h6

lemma trace_err {a b c A B C : ℝ} (ha : |a - A| ≤ 10 * u) (hb : |b - B| ≤ 10 * u) (hc : |c - C| ≤ 10 * u) (hA : |A| ≤ 1.01) (hB : |B| ≤ 1.01)
    (hC : |C| ≤ 1.01) : |rTrace fl a b c - (1 + A + B + C)| ≤ 40 * u := by
  unfold rTrace
  rw [abs_le] at ha hb hc hA hB hC
  have h1 : |1 + a| ≤ 2.02 := by rw [abs_le]; norm_num at *; constructor <;> linarith
  have h2 := flb hu h h1
  rw [abs_le] at h2
  generalize fl (1 + a) = X at *
  have h3 : |X + b| ≤ 3.04 := by rw [abs_le]; norm_num at *; constructor <;> linarith
  have h4 := flb hu h h3
  rw [abs_le] at h4
  generalize fl (X + b) = Y at *
  have h5 : |Y + c| ≤ 4.06 := by rw [abs_le]; norm_num at *; constructor <;> linarith
  have h6 := flb hu h h5
  rw [abs_le] at h6 ⊢
  norm_num at *; constructor <;> linarith

/-- a sum or difference of two off-diagonal entries -/
lemma pair_err {s a b A B D : ℝ} (hss : s = 1 ∨ s = -1) (ha : |a - A| ≤ 3.2 * u) (hb : |b - B| ≤ 3.2 * u) (hD : A + s * B = D) (hD1 : |D| ≤ 2.02) :
    |fl (a + s * b) - D| ≤ 9 * u ∧ |a + s * b - D| ≤ 6.4 * u := by
  have h0 : |a + s * b - D| ≤ 6.4 * u := by
    rw [← hD]
    rw [abs_le] at ha hb ⊢
    rcases hss with rfl | rfl <;> norm_num at * <;> constructor <;> linarith
  have h1 : |a + s * b| ≤ 2.05 := by
    have := abs_sub_abs_le_abs_sub (a + s * b) D
    norm_num at *; linarith
  have h2 := flb hu h h1
  refine ⟨?_, h0⟩
  rw [abs_le] at h0 h2 ⊢
  norm_num at *; constructor <;> linarith

omit hu in
lemma sign_err {m c k w : ℝ} (hm : |m - 4 * w * k| ≤ 6.4 * u) (hw : 0 < w) (hc : abs (|c| - |k|) ≤ 110 * u) :
    |copysign c (fl m) - k| ≤ 110 * u + 3.2 * u / w := by
  have hneg : fl m < 0 ↔ m < 0 := by
    have h1 := h m
    rw [abs_le] at h1
    constructor
    · intro hf
      by_contra hn
      push Not at hn
      rw [abs_of_nonneg hn] at h1
      nlinarith
    · intro hf
      rw [abs_of_neg hf] at h1
      nlinarith
  have h32 : 3.2 * u / w * w = 3.2 * u := by field_simp
  have h320 : 0 ≤ 3.2 * u / w := by
    have : 0 ≤ 6.4 * u := (abs_nonneg _).trans hm
    apply div_nonneg _ hw.le
    norm_num at *; linarith
  unfold copysign
  rw [abs_le] at hm hc ⊢
  -- the case of the wrong sign bounds |k|
  have wrong : |4 * w * k| ≤ 6.4 * u → 2 * |k| ≤ 3.2 * u / w := by
    intro hh
    rw [le_div_iff₀ hw]
    rw [abs_mul, abs_of_pos (by positivity : 0 < 4 * w)] at hh
    norm_num at *; linarith
  split_ifs with hf
  · rw [hneg] at hf
    by_cases hk : 0 ≤ k
    · have : |4 * w * k| ≤ 6.4 * u := by rw [abs_of_nonneg (by positivity)]; linarith
      have := wrong this
      rw [abs_of_nonneg hk] at this hc
      constructor <;> linarith
    · push Not at hk
      rw [abs_of_neg hk] at hc
      constructor <;> linarith
  · rw [hneg] at hf
    push Not at hf
    by_cases hk : 0 ≤ k
    · rw [abs_of_nonneg hk] at hc
      constructor <;> linarith
    · push Not at hk
      have h4 : 4 * w * k < 0 := by nlinarith
      have : |4 * w * k| ≤ 6.4 * u := by rw [abs_of_neg h4]; linarith
      have := wrong this
      rw [abs_of_neg hk] at this hc
      constructor <;> linarith

end

lemma near_unit {u : ℝ} (hu : 0 ≤ u) (hs : u ≤ 1 / 2048) (q : Q) (hq : |‖toH q‖ - 1| ≤ 5 * u) :
    |q.w ^ 2 + q.x ^ 2 + q.y ^ 2 + q.z ^ 2 - 1| ≤ 11 * u := by
  rw [← sq_norm_toH]
  have e : ‖toH q‖ ^ 2 - 1 = (‖toH q‖ - 1) * (‖toH q‖ + 1) := by ring
  have h0 := norm_nonneg (toH q)
  rw [e, abs_mul, abs_of_pos (show 0 < ‖toH q‖ + 1 by linarith)]
  have h1 := (abs_le.mp hq).2
  have : |‖toH q‖ - 1| * (‖toH q‖ + 1) ≤ (5 * u) * 2.1 := by gcongr; norm_num; linarith
  norm_num at *; linarith

lemma small11 {p : ℕ} (hp : 11 ≤ p) : ((2 : ℝ) ^ p)⁻¹ ≤ 1 / 2048 := by
  rw [inv_le_comm₀ (by positivity) (by norm_num)]
  calc ((1 : ℝ) / 2048)⁻¹ = 2 ^ 11 := by norm_num
    _ ≤ 2 ^ p := pow_le_pow_right₀ (by norm_num) hp

lemma om_err {u : ℝ} {fl : ℝ → ℝ} (hu : 0 ≤ u) (hs : u ≤ 1 / 2048) (h : Err u fl) (q : Q)
    (hN1 : q.w ^ 2 + q.x ^ 2 + q.y ^ 2 + q.z ^ 2 ≤ 1.01) :
    (∀ i, |rQu2om fl q i i - qu2om q i i| ≤ 10 * u) ∧ ∀ i j, i ≠ j → |rQu2om fl q i j - qu2om q i j| ≤ 3.2 * u := by
  obtain ⟨w, x, y, z⟩ := q
  dsimp only at hN1
  have o1 := off_err hu hs h (s := -1) (a := x) (b := y) (c := w) (d := z) (Or.inr rfl) rfl (by linarith)
  have o2 := off_err hu hs h (s := 1) (a := x) (b := z) (c := w) (d := y) (Or.inl rfl) rfl (by linarith)
  have o3 := off_err hu hs h (s := 1) (a := y) (b := x) (c := w) (d := z) (Or.inl rfl) rfl (by linarith)
  have o4 := off_err hu hs h (s := -1) (a := y) (b := z) (c := w) (d := x) (Or.inr rfl) rfl (by linarith)
  have o5 := off_err hu hs h (s := -1) (a := z) (b := x) (c := w) (d := y) (Or.inr rfl) rfl (by linarith)
  have o6 := off_err hu hs h (s := 1) (a := z) (b := y) (c := w) (d := x) (Or.inl rfl) rfl (by linarith)
  have d1 := diag_err hu hs h ⟨w, x, y, z⟩ rfl hN1 x (by dsimp only; nlinarith [sq_nonneg y, sq_nonneg z])
  have d2 := diag_err hu hs h ⟨w, x, y, z⟩ rfl hN1 y (by dsimp only; nlinarith [sq_nonneg x, sq_nonneg z])
  have d3 := diag_err hu hs h ⟨w, x, y, z⟩ rfl hN1 z (by dsimp only; nlinarith [sq_nonneg y, sq_nonneg x])
  simp only [neg_one_mul, one_mul, ← sub_eq_add_neg] at o1 o2 o3 o4 o5 o6
  refine ⟨?_, ?_⟩
  · intro i
    fin_cases i
    exacts [d1, d2, d3]
  · intro i j hij
    fin_cases i <;> fin_cases j <;> first | exact absurd rfl hij | skip
    exacts [o1, o2, o3, o4, o5, o6]

/-- C149: in binary floating-point arithmetic with `p ≥ 11` bits, the matrix `qu2om(q)` of a unit quaternion `q` (up to 5 units of rounding) takes every
vector to its image under the rotation `v ↦ q v q*`, up to 10 units of rounding times the sum of the moduli of the components of the vector. -/
theorem C149_matrix {p : ℕ} (hp : 11 ≤ p) {fl : ℝ → ℝ} (hfl : Nearest p fl) (q : Q) (hq : |‖toH q‖ - 1| ≤ 5 * (2 ^ p)⁻¹) (v r : V)
    (hr : Rotates (toH q) v r) (i : Fin 3) :
    |(rQu2om fl q).mulVec (col v) i - col r i| ≤ 10 * (2 ^ p)⁻¹ * (|v.x| + |v.y| + |v.z|) := by
  have hE : Err (2 ^ p)⁻¹ fl := hfl.err (by omega)
  have hu : (0 : ℝ) ≤ (2 ^ p)⁻¹ := by positivity
  have hs := small11 hp
  generalize ((2 : ℝ) ^ p)⁻¹ = u at *
  have hN := near_unit hu hs q hq
  obtain ⟨h1, h2⟩ := om_err hu hs hE q (by have := (abs_le.mp hN).2; norm_num at *; linarith)
  have h3 : ∀ j, |rQu2om fl q i j - qu2om q i j| ≤ 10 * u := by
    intro j
    by_cases hij : i = j
    · subst hij; exact h1 i
    · refine (h2 i j hij).trans ?_
      norm_num at *; linarith
  rw [(C13_action q v r).mp hr |>.symm]
  have e : (rQu2om fl q).mulVec (col v) i - (qu2om q).mulVec (col v) i =
      (rQu2om fl q i 0 - qu2om q i 0) * v.x + (rQu2om fl q i 1 - qu2om q i 1) * v.y + (rQu2om fl q i 2 - qu2om q i 2) * v.z := by
    simp only [Matrix.mulVec, dotProduct, Fin.sum_univ_three, col, Matrix.cons_val_zero, Matrix.cons_val_one, Matrix.cons_val]
    ring
  rw [e]
  have b : ∀ j (t : ℝ), |(rQu2om fl q i j - qu2om q i j) * t| ≤ 10 * u * |t| := by
    intro j t
    rw [abs_mul]; exact mul_le_mul_of_nonneg_right (h3 j) (abs_nonneg t)
  refine (abs_add_le _ _).trans ((add_le_add (abs_add_le _ _) le_rfl).trans ?_)
  have := b 0 v.x
  have := b 1 v.y
  have := b 2 v.z
  linarith

/-- C149: the round trip quaternion → matrix → quaternion in floating-point arithmetic with `p ≥ 11` bits returns every component of a unit quaternion
with positive scalar part `w` up to `(110 + 3.2 / w)` units of rounding.  Missing: a bound independent of `w`, which is false, see `C149_halfturn_fails`. -/
theorem C149_roundtrip_partial {p : ℕ} (hp : 11 ≤ p) {fl : ℝ → ℝ} (hfl : Nearest p fl) (q : Q) (hq : |‖toH q‖ - 1| ≤ 5 * (2 ^ p)⁻¹) (hw : 0 < q.w) :
    let r := rOm2qu fl (rQu2om fl q)
    let B := (110 + 3.2 / q.w) * (2 ^ p)⁻¹
    |r.w - q.w| ≤ B ∧ |r.x - q.x| ≤ B ∧ |r.y - q.y| ≤ B ∧ |r.z - q.z| ≤ B := by
  intro r B
  have hE : Err (2 ^ p)⁻¹ fl := hfl.err (by omega)
  have hu : (0 : ℝ) ≤ (2 ^ p)⁻¹ := by positivity
  have hs := small11 hp
  have hB : B = 110 * (2 ^ p)⁻¹ + 3.2 * (2 ^ p)⁻¹ / q.w := by simp only [B]; ring
  rw [hB]
  clear_value B
  generalize ((2 : ℝ) ^ p)⁻¹ = u at *
  have hN := abs_le.mp (near_unit hu hs q hq)
  have hN1 : q.w ^ 2 + q.x ^ 2 + q.y ^ 2 + q.z ^ 2 ≤ 1.01 := by norm_num at *; linarith
  obtain ⟨h1, h2⟩ := om_err hu hs hE q hN1
  have d0 := h1 0
  have d1 := h1 1
  have d2 := h1 2
  have o01 := h2 0 1 (by decide)
  have o02 := h2 0 2 (by decide)
  have o10 := h2 1 0 (by decide)
  have o12 := h2 1 2 (by decide)
  have o20 := h2 2 0 (by decide)
  have o21 := h2 2 1 (by decide)
  simp only [r, rOm2qu]
  clear h1 h2
  clear_value r
  generalize rQu2om fl q = M at *
  obtain ⟨w, x, y, z⟩ := q
  simp only [qu2om, Matrix.of_apply, Matrix.cons_val', Matrix.cons_val_zero, Matrix.cons_val_one, Matrix.cons_val] at *
  have pw := sq_nonneg w
  have px := sq_nonneg x
  have py := sq_nonneg y
  have pz := sq_nonneg z
  have prod : ∀ a b : ℝ, a ^ 2 + b ^ 2 ≤ 1.01 → |4 * a * b| ≤ 2.02 := by
    intro a b hab
    rw [abs_le]
    constructor <;> nlinarith [sq_nonneg (a + b), sq_nonneg (a - b)]
  have bw : w ^ 2 ≤ 1.01 := by linarith
  have bx : x ^ 2 ≤ 1.01 := by linarith
  have by' : y ^ 2 ≤ 1.01 := by linarith
  have bz : z ^ 2 ≤ 1.01 := by linarith
  -- bounds for the diagonal
  have n0 : |w ^ 2 - (x ^ 2 + y ^ 2 + z ^ 2) + 2 * x ^ 2| ≤ 1.01 := by rw [abs_le]; constructor <;> linarith
  have n1 : |w ^ 2 - (x ^ 2 + y ^ 2 + z ^ 2) + 2 * y ^ 2| ≤ 1.01 := by rw [abs_le]; constructor <;> linarith
  have n2 : |w ^ 2 - (x ^ 2 + y ^ 2 + z ^ 2) + 2 * z ^ 2| ≤ 1.01 := by rw [abs_le]; constructor <;> linarith
  have neg : ∀ {a A : ℝ}, |a - A| ≤ 10 * u → |-a - -A| ≤ 10 * u := by
    intro a A hh; rw [show -a - -A = -(a - A) by ring, abs_neg]; exact hh
  have nneg : ∀ {A : ℝ}, |A| ≤ 1.01 → |-A| ≤ 1.01 := fun hh => by rwa [abs_neg]
  -- sums and differences of the off-diagonal entries
  have pp : ∀ {a b A B D : ℝ}, |a - A| ≤ 3.2 * u → |b - B| ≤ 3.2 * u → A + B = D → |D| ≤ 2.02 → |fl (a + b) - D| ≤ 9 * u := by
    intro a b A B D ha hb hD hD1
    have := (pair_err hu hs hE (Or.inl rfl) ha hb (by rw [one_mul]; exact hD) hD1).1
    rwa [one_mul] at this
  have pm : ∀ {a b A B D : ℝ}, |a - A| ≤ 3.2 * u → |b - B| ≤ 3.2 * u → A - B = D → |D| ≤ 2.02 →
      |fl (a - b) - D| ≤ 9 * u ∧ |a - b - D| ≤ 6.4 * u := by
    intro a b A B D ha hb hD hD1
    have := pair_err hu hs hE (Or.inr rfl) ha hb (by rw [neg_one_mul, ← sub_eq_add_neg]; exact hD) hD1
    rwa [neg_one_mul, ← sub_eq_add_neg] at this
  have s1 := (pm o21 o12 (D := 4 * w * x) (by ring) (prod w x (by linarith))).2
  have s2 := (pm o02 o20 (D := 4 * w * y) (by ring) (prod w y (by linarith))).2
  have s3 := (pm o10 o01 (D := 4 * w * z) (by ring) (prod w z (by linarith))).2
  have hB0 : 0 ≤ 3.2 * u / w := by positivity
  have fin : ∀ c : Q, abs (|c.w| - |w|) ≤ 110 * u → abs (|c.x| - |x|) ≤ 110 * u → abs (|c.y| - |y|) ≤ 110 * u → abs (|c.z| - |z|) ≤ 110 * u →
      abs (|c.w| - w) ≤ 110 * u + 3.2 * u / w ∧ |copysign c.x (fl (M 2 1 - M 1 2)) - x| ≤ 110 * u + 3.2 * u / w ∧
      |copysign c.y (fl (M 0 2 - M 2 0)) - y| ≤ 110 * u + 3.2 * u / w ∧ |copysign c.z (fl (M 1 0 - M 0 1)) - z| ≤ 110 * u + 3.2 * u / w := by
    intro c cw cx cy cz
    rw [abs_of_pos hw] at cw
    exact ⟨cw.trans (by linarith), sign_err hs hE s1 hw cx, sign_err hs hE s2 hw cy, sign_err hs hE s3 hw cz⟩
  have self : ∀ {T c : ℝ}, |T - 4 * c ^ 2| ≤ 51 * u → 1 - 41 * u ≤ 4 * c ^ 2 → c ^ 2 ≤ 1.01 →
      abs (|fl (T * rHrsqrt fl T)| - |c|) ≤ 110 * u := by
    intro T c h1 h2 h3
    have := main_comp hu hs hE h1 h2 h3
    have e := abs_abs_sub_abs_le (fl (T * rHrsqrt fl T)) |c|
    rw [abs_abs] at e
    exact e.trans this
  rw [abs_le] at d0 d1 d2
  split_ifs with c1 c2 c3
  · have t := trace_err hu hs hE (abs_le.mpr d0) (neg (abs_le.mpr d1)) (neg (abs_le.mpr d2)) n0 (nneg n1) (nneg n2)
    have hT : |rTrace fl (M 0 0) (-M 1 1) (-M 2 2) - 4 * x ^ 2| ≤ 51 * u := by
      rw [abs_le] at t ⊢; constructor <;> linarith
    have hc : 1 - 41 * u ≤ 4 * x ^ 2 := by linarith
    refine fin _ ?_ (self hT hc bx) ?_ ?_
    · rw [← abs_neg w]
      exact other_comp hu hs hE hT hc bx (by rw [neg_sq]; exact bw) (pm o12 o21 (by ring) (prod x (-w) (by rw [neg_sq]; linarith))).1
    · exact other_comp hu hs hE hT hc bx by' (pp o01 o10 (by ring) (prod x y (by linarith)))
    · exact other_comp hu hs hE hT hc bx bz (pp o20 o02 (by ring) (prod x z (by linarith)))
  · have t := trace_err hu hs hE (neg (abs_le.mpr d0)) (abs_le.mpr d1) (neg (abs_le.mpr d2)) (nneg n0) n1 (nneg n2)
    have hT : |rTrace fl (-M 0 0) (M 1 1) (-M 2 2) - 4 * y ^ 2| ≤ 51 * u := by
      rw [abs_le] at t ⊢; constructor <;> linarith
    have hc : 1 - 41 * u ≤ 4 * y ^ 2 := by linarith
    refine fin _ ?_ ?_ (self hT hc by') ?_
    · rw [← abs_neg w]
      exact other_comp hu hs hE hT hc by' (by rw [neg_sq]; exact bw) (pm o20 o02 (by ring) (prod y (-w) (by rw [neg_sq]; linarith))).1
    · exact other_comp hu hs hE hT hc by' bx (pp o01 o10 (by ring) (prod y x (by linarith)))
    · exact other_comp hu hs hE hT hc by' bz (pp o12 o21 (by ring) (prod y z (by linarith)))
  · have t := trace_err hu hs hE (neg (abs_le.mpr d0)) (neg (abs_le.mpr d1)) (abs_le.mpr d2) (nneg n0) (nneg n1) n2
    have hT : |rTrace fl (-M 0 0) (-M 1 1) (M 2 2) - 4 * z ^ 2| ≤ 51 * u := by
      rw [abs_le] at t ⊢; constructor <;> linarith
    have hc : 1 - 41 * u ≤ 4 * z ^ 2 := by linarith
    refine fin _ ?_ ?_ ?_ (self hT hc bz)
    · rw [← abs_neg w]
      exact other_comp hu hs hE hT hc bz (by rw [neg_sq]; exact bw) (pm o01 o10 (by ring) (prod z (-w) (by rw [neg_sq]; linarith))).1
    · exact other_comp hu hs hE hT hc bz bx (pp o20 o02 (by ring) (prod z x (by linarith)))
    · exact other_comp hu hs hE hT hc bz by' (pp o12 o21 (by ring) (prod z y (by linarith)))
  · have t := trace_err hu hs hE (abs_le.mpr d0) (abs_le.mpr d1) (abs_le.mpr d2) n0 n1 n2
    have hT : |rTrace fl (M 0 0) (M 1 1) (M 2 2) - 4 * w ^ 2| ≤ 51 * u := by
      rw [abs_le] at t ⊢; constructor <;> linarith
    have hc : 1 - 41 * u ≤ 4 * w ^ 2 := by linarith
    refine fin _ (self hT hc bw) ?_ ?_ ?_
    · rw [← abs_neg x]
      exact other_comp hu hs hE hT hc bw (by rw [neg_sq]; exact bx) (pm o12 o21 (by ring) (prod w (-x) (by rw [neg_sq]; linarith))).1
    · rw [← abs_neg y]
      exact other_comp hu hs hE hT hc bw (by rw [neg_sq]; exact by') (pm o20 o02 (by ring) (prod w (-y) (by rw [neg_sq]; linarith))).1
    · rw [← abs_neg z]
      exact other_comp hu hs hE hT hc bw (by rw [neg_sq]; exact bz) (pm o01 o10 (by ring) (prod w (-z) (by rw [neg_sq]; linarith))).1

/-- a term below a quarter of the spacing is absorbed -/
lemma absorb_rep {p : ℕ} {fl : ℝ → ℝ} (hfl : Nearest p fl) {c t : ℝ} (hc : Rep p c) (hc1 : 1 / 4 ≤ |c|) (ht : |t| < (2 : ℝ) ^ (-(p : ℤ) - 3)) (hp : 1 ≤ p) :
    fl (c + t) = c := by
  have hn := hfl.near (c + t) _ hc
  rw [show c - (c + t) = -t by ring, abs_neg] at hn
  have h2 : (2 : ℝ) ^ (-(p : ℤ) - 2) = 2 * 2 ^ (-(p : ℤ) - 3) := by
    rw [show (-(p : ℤ) - 2) = 1 + (-(p : ℤ) - 3) by ring, zpow_add₀ (by norm_num), zpow_one]
  have hd : |fl (c + t) - c| < (2 : ℝ) ^ (-(p : ℤ) - 2) := by
    have h1 := abs_sub_le (fl (c + t)) (c + t) c
    rw [show c + t - c = t by ring] at h1
    linarith
  have hp0 : (0 : ℝ) < 2 ^ (-(p : ℤ) - 2) := zpow_pos (by norm_num) _
  have hsm : (2 : ℝ) ^ (-(p : ℤ) - 2) ≤ 1 / 8 := by
    calc (2 : ℝ) ^ (-(p : ℤ) - 2) ≤ 2 ^ (-3 : ℤ) := zpow_le_zpow_right₀ (by norm_num) (by omega)
      _ = 1 / 8 := by norm_num
  have e8 : (2 : ℝ) ^ (-(p : ℤ) - 2 - 1) * 2 ^ p = 1 / 8 := by
    rw [← zpow_natCast, ← zpow_add₀ (by norm_num), show (-(p : ℤ) - 2 - 1 + p) = -3 by ring]; norm_num
  obtain ⟨m, hm⟩ := multiple_of_large (k := -(p : ℤ) - 2) hc (by rw [e8]; linarith)
  obtain ⟨n, hn'⟩ := multiple_of_large (k := -(p : ℤ) - 2) (hfl.rep (c + t)) (by
    rw [e8]
    have := abs_sub_abs_le_abs_sub c (fl (c + t))
    rw [abs_sub_comm] at this
    linarith)
  rw [hn', hm, ← sub_mul, abs_mul, abs_of_pos hp0] at hd
  have h6 : |(n : ℝ) - m| < 1 := by
    by_contra hcc
    push Not at hcc
    nlinarith
  have h7 : |n - m| < 1 := by exact_mod_cast h6
  have : n = m := by rw [Int.abs_lt_one_iff] at h7; omega
  rw [hn', this, ← hm]

lemma sqrt_near {N u : ℝ} (hu : 0 ≤ u) (hs : u ≤ 1 / 2048) (h : |N - 1| ≤ 4 * u) : |√N - 1| ≤ 5 * u := by
  rw [abs_le] at h
  have hN0 : 0 ≤ N := by linarith
  have hq := Real.sq_sqrt hN0
  have hq0 := Real.sqrt_nonneg N
  have e : √N - 1 = (N - 1) / (√N + 1) := by
    rw [eq_div_iff (by positivity)]; linear_combination hq
  rw [e, abs_div, abs_of_pos (show 0 < √N + 1 by positivity), div_le_iff₀ (by positivity)]
  have h1 : |N - 1| ≤ 4 * u := abs_le.mpr h
  have : 0 ≤ 5 * u * √N := by positivity
  linarith

set_option maxHeartbeats 1600000 in
/-- **C149 fails** close to half turns: for every precision `p ≥ 11` and every rounding to nearest there is a unit quaternion (up to 5 units of rounding) of
floating-point numbers with positive scalar part that the round trip through the matrix changes by at least 1/2 in a component, whichever of the two signs
is taken: the rotation returned is a different one. -/
theorem C149_halfturn_fails {p : ℕ} (hp : 11 ≤ p) {fl : ℝ → ℝ} (hfl : Nearest p fl) : ∃ q : Q,
    (Rep p q.w ∧ Rep p q.x ∧ Rep p q.y ∧ Rep p q.z) ∧ 0 < q.w ∧ |‖toH q‖ - 1| ≤ 5 * (2 ^ p)⁻¹ ∧
    1 / 2 ≤ |(rOm2qu fl (rQu2om fl q)).z - q.z| ∧ 1 / 2 ≤ |(rOm2qu fl (rQu2om fl q)).x - -q.x| := by
  have hE : Err (2 ^ p)⁻¹ fl := hfl.err (by omega)
  have hu : (0 : ℝ) ≤ (2 ^ p)⁻¹ := by positivity
  have hs := small11 hp
  obtain ⟨u, hue⟩ : ∃ u : ℝ, u = (2 ^ p)⁻¹ := ⟨_, rfl⟩
  rw [← hue] at hE hu hs ⊢
  set w : ℝ := (2 : ℝ) ^ (-(p : ℤ) - 4) with hw
  set a : ℝ := fl (√(1 / 3)) with ha
  have hw0 : 0 < w := zpow_pos (by norm_num) _
  have hww : w ≤ u * (1 / 16) := by
    rw [hw, hue, zpow_sub₀ (by norm_num), zpow_neg, zpow_natCast]
    apply le_of_eq; norm_num [div_eq_mul_inv]
  have hrw : Rep p w := ⟨1, -(p : ℤ) - 4, by
    have : (2 : ℤ) ^ 1 ≤ 2 ^ p := pow_le_pow_right₀ (by norm_num) (by omega)
    rw [abs_one]; linarith, by simp [hw]⟩
  have hra : Rep p a := hfl.rep _
  have h3 : √(1 / 3 : ℝ) ^ 2 = 1 / 3 := Real.sq_sqrt (by norm_num)
  have h30 : 0 ≤ √(1 / 3 : ℝ) := Real.sqrt_nonneg _
  have ea := hE √(1 / 3)
  rw [← ha, abs_of_nonneg h30] at ea
  generalize √(1 / 3 : ℝ) = s at *
  have s1 : 0.57 ≤ s := by
    by_contra hn
    have : s ^ 2 < 0.57 ^ 2 := by push Not at hn; gcongr
    norm_num at *; linarith
  have s2 : s ≤ 0.58 := by
    by_contra hn
    have : (0.58 : ℝ) ^ 2 < s ^ 2 := by push Not at hn; gcongr
    norm_num at *; linarith
  have hus : u * s ≤ u * 0.58 := mul_le_mul_of_nonneg_left s2 hu
  rw [abs_le] at ea
  have a1 : 0.56 ≤ a := by norm_num at *; linarith
  have a2 : a ≤ 0.59 := by norm_num at *; linarith
  have ha0 : 0 ≤ a := by norm_num at *; linarith
  -- the products of the vector part
  have hcc := hE (a * a)
  have haa : a * a ≤ 0.59 * 0.59 := by gcongr
  have haa' : 0.56 * 0.56 ≤ a * a := by gcongr
  have hc1 : 1 / 4 ≤ |fl (a * a)| := by
    rw [abs_of_nonneg (by positivity : 0 ≤ a * a), abs_le] at hcc
    have : u * (a * a) ≤ u * 0.35 := mul_le_mul_of_nonneg_left (by norm_num at *; linarith) hu
    have : 1 / 4 ≤ fl (a * a) := by norm_num at *; linarith
    exact this.trans (le_abs_self _)
  have hwa : |fl (w * a)| < (2 : ℝ) ^ (-(p : ℤ) - 3) := by
    have e : (2 : ℝ) ^ (-(p : ℤ) - 3) = 2 * w := by
      rw [hw, show (-(p : ℤ) - 3) = 1 + (-(p : ℤ) - 4) by ring, zpow_add₀ (by norm_num), zpow_one]
    have h1 := hE.grow (w * a)
    rw [abs_of_nonneg (by positivity : 0 ≤ w * a)] at h1
    have h2 : w * a ≤ w * 0.59 := by gcongr
    have h4 : (1 + u) * (w * a) ≤ (1 + 1 / 2048) * (w * 0.59) := by gcongr
    rw [e]
    norm_num at *; linarith
  have hwn : |fl (w * -a)| < (2 : ℝ) ^ (-(p : ℤ) - 3) := by
    have e : (2 : ℝ) ^ (-(p : ℤ) - 3) = 2 * w := by
      rw [hw, show (-(p : ℤ) - 3) = 1 + (-(p : ℤ) - 4) by ring, zpow_add₀ (by norm_num), zpow_one]
    have h1 := hE.grow (w * -a)
    rw [mul_neg, abs_neg, abs_of_nonneg (by positivity : 0 ≤ w * a)] at h1
    have h2 : w * a ≤ w * 0.59 := by gcongr
    have h4 : (1 + u) * (w * a) ≤ (1 + 1 / 2048) * (w * 0.59) := by gcongr
    rw [e, mul_neg]
    norm_num at *; linarith
  have hcn : 1 / 4 ≤ |fl (a * -a)| := by
    have h1 := hE (a * -a)
    rw [mul_neg, abs_neg, abs_of_nonneg (by positivity : 0 ≤ a * a), abs_le] at h1
    have : u * (a * a) ≤ u * 0.35 := mul_le_mul_of_nonneg_left (by norm_num at *; linarith) hu
    have : fl (-(a * a)) ≤ -(1 / 4) := by norm_num at *; linarith
    rw [mul_neg, abs_of_neg (by linarith)]
    linarith
  have hp1 : 1 ≤ p := by omega
  have abp : ∀ {c t : ℝ}, Rep p c → 1 / 4 ≤ |c| → |t| < (2 : ℝ) ^ (-(p : ℤ) - 3) → fl (c + 1 * t) = c := by
    intro c t h1 h2 h3; rw [one_mul]; exact absorb_rep hfl h1 h2 h3 hp1
  have abm : ∀ {c t : ℝ}, Rep p c → 1 / 4 ≤ |c| → |t| < (2 : ℝ) ^ (-(p : ℤ) - 3) → fl (c + -1 * t) = c := by
    intro c t h1 h2 h3; rw [neg_one_mul]; exact absorb_rep hfl h1 h2 (by rwa [abs_neg]) hp1
  refine ⟨⟨w, a, a, -a⟩, ⟨hrw, hra, hra, hra.neg⟩, hw0, ?_, ?_, ?_⟩
  · rw [norm_toH]
    apply sqrt_near hu hs
    have hw2 : w ^ 2 ≤ u * (1 / 16) := by
      have : w ≤ 1 := by linarith
      calc w ^ 2 = w * w := pow_two w
        _ ≤ w * 1 := mul_le_mul_of_nonneg_left this hw0.le
        _ ≤ u * (1 / 16) := by linarith
    have hw3 : 0 ≤ w ^ 2 := by positivity
    have e : a ^ 2 - 1 / 3 = (a - s) * (a + s) := by rw [← h3]; ring
    have hb : |a ^ 2 - 1 / 3| ≤ 0.7 * u := by
      rw [e, abs_mul, abs_of_nonneg (by linarith : 0 ≤ a + s)]
      have h6 : |a - s| ≤ 0.58 * u := by rw [abs_le]; constructor <;> linarith
      have h7 : a + s ≤ 1.17 := by norm_num at *; linarith
      have h5 : |a - s| * (a + s) ≤ (0.58 * u) * 1.17 := mul_le_mul h6 h7 (by linarith) ((abs_nonneg _).trans h6)
      norm_num at *; linarith
    clear e
    change |w ^ 2 + a ^ 2 + a ^ 2 + (-a) ^ 2 - 1| ≤ 4 * u
    rw [neg_sq]
    generalize w ^ 2 = W at *
    generalize a ^ 2 = A at *
    rw [abs_le] at hb ⊢
    norm_num at hb
    constructor <;> linarith
  · have hz : 0 ≤ (rOm2qu fl (rQu2om fl ⟨w, a, a, -a⟩)).z := by
      have e : fl (rQu2om fl ⟨w, a, a, -a⟩ 1 0 - rQu2om fl ⟨w, a, a, -a⟩ 0 1) = 0 := by
        change fl (rOff fl 1 a a w (-a) - rOff fl (-1) a a w (-a)) = 0
        unfold rOff
        rw [abp (hfl.rep _) hc1 hwn, abm (hfl.rep _) hc1 hwn, sub_self, hfl.zero]
      unfold rOm2qu
      simp only [e, copysign, lt_irrefl, if_false]
      exact abs_nonneg _
    have ea1 : 1 / 2 ≤ a := by norm_num at a1; linarith
    rw [abs_of_nonneg (by linarith)]
    linarith
  · have hx : 0 ≤ (rOm2qu fl (rQu2om fl ⟨w, a, a, -a⟩)).x := by
      have e : fl (rQu2om fl ⟨w, a, a, -a⟩ 2 1 - rQu2om fl ⟨w, a, a, -a⟩ 1 2) = 0 := by
        change fl (rOff fl 1 (-a) a w a - rOff fl (-1) a (-a) w a) = 0
        unfold rOff
        rw [mul_comm (-a) a, abp (hfl.rep _) hcn hwa, abm (hfl.rep _) hcn hwa, sub_self, hfl.zero]
      unfold rOm2qu
      simp only [e, copysign, lt_irrefl, if_false]
      exact abs_nonneg _
    have ea1 : 1 / 2 ≤ a := by norm_num at a1; linarith
    rw [abs_of_nonneg (by linarith)]
    linarith

/-- non-vacuity: single precision, a rotation by 120 degrees -/
example : ∃ fl, Nearest 24 fl ∧ |‖toH ⟨1 / 2, 1 / 2, 1 / 2, 1 / 2⟩‖ - 1| ≤ 5 * (2 ^ 24)⁻¹ ∧ (0 : ℝ) < (⟨1 / 2, 1 / 2, 1 / 2, 1 / 2⟩ : Q).w := by
  refine ⟨rnd 24, rnd_nearest (by norm_num), ?_, by norm_num⟩
  rw [norm_toH]
  norm_num

end Verif
