import Verif.Lemmas.PolyCert
import Mathlib.Analysis.SpecialFunctions.Trigonometric.Inverse
import Mathlib.Analysis.SpecialFunctions.Complex.Analytic
import Mathlib.Analysis.Complex.Exponential
import Mathlib.Analysis.Real.Pi.Bounds
import Mathlib.Tactic.NormNum
/-!
Error of a polynomial in the squared homochoric radius as an approximation of the cosine of the half angle.
-/
namespace Verif.HoFit
open Verif.PolyCert Finset

theorem exp_sum (N : ℕ) (u : ℝ) :
    ∑ m ∈ range (2 * N), ((u : ℂ) * Complex.I) ^ m / (m.factorial : ℂ) =
      ((∑ k ∈ range N, (-(u ^ 2)) ^ k / ((2 * k).factorial : ℝ) : ℝ) : ℂ) +
      ((u * ∑ k ∈ range N, (-(u ^ 2)) ^ k / ((2 * k + 1).factorial : ℝ) : ℝ) : ℂ) * Complex.I := by
  induction N with
  | zero => simp
  | succ N ih =>
    rw [show 2 * (N + 1) = 2 * N + 1 + 1 by ring, sum_range_succ, sum_range_succ, ih, sum_range_succ, sum_range_succ]
    have h : ((u : ℂ) * Complex.I) ^ (2 * N) = (-((u : ℂ) ^ 2)) ^ N := by
      rw [pow_mul, mul_pow, Complex.I_sq]; ring_nf
    have h2 : ((u : ℂ) * Complex.I) ^ (2 * N + 1) = (-((u : ℂ) ^ 2)) ^ N * (u * Complex.I) := by rw [pow_succ, h]
    rw [h2, h]
    push_cast
    ring

theorem exp_err (N : ℕ) (u : ℝ) (hu : |u| / (2 * N + 1) ≤ 1 / 2) :
    |Real.cos u - ∑ k ∈ range N, (-(u ^ 2)) ^ k / ((2 * k).factorial : ℝ)| ≤ |u| ^ (2 * N) / (2 * N).factorial * 2 ∧
    |Real.sin u - u * ∑ k ∈ range N, (-(u ^ 2)) ^ k / ((2 * k + 1).factorial : ℝ)|
      ≤ |u| ^ (2 * N) / (2 * N).factorial * 2 := by
  have h := Complex.exp_bound' (x := (u : ℂ) * Complex.I) (n := 2 * N) (by
    simp only [norm_mul, Complex.norm_real, Complex.norm_I, mul_one, Real.norm_eq_abs]
    push_cast; exact hu)
  simp only [norm_mul, Complex.norm_real, Complex.norm_I, mul_one, Real.norm_eq_abs] at h
  rw [exp_sum, Complex.exp_mul_I] at h
  constructor
  · refine le_trans ?_ ((Complex.abs_re_le_norm _).trans h)
    apply le_of_eq
    congr 1
    rw [← Complex.ofReal_cos, ← Complex.ofReal_sin]
    simp only [Complex.sub_re, Complex.add_re, Complex.mul_re, Complex.ofReal_re, Complex.ofReal_im, Complex.I_re, Complex.I_im]
    ring
  · refine le_trans ?_ ((Complex.abs_im_le_norm _).trans h)
    apply le_of_eq
    congr 1
    rw [← Complex.ofReal_cos, ← Complex.ofReal_sin]
    simp only [Complex.sub_im, Complex.add_im, Complex.mul_im, Complex.ofReal_re, Complex.ofReal_im, Complex.I_re, Complex.I_im]
    ring

/-- `22! * Σ_{k<12} (-x)^k / (2k)!` -/
def CN : List ℤ := [
  1124000727777607680000, -562000363888803840000, 46833363657400320000, -1561112121913344000,
  27877002177024000, -309744468633600, 2346549004800, -12893126400, 53721360, -175560, 462, -1]

/-- `23! * Σ_{k<12} (-x)^k / (2k+1)!` -/
def SN : List ℤ := [
  25852016738884976640000, -4308669456480829440000, 215433472824041472000, -5129368400572416000,
  71241227785728000, -647647525324800, 4151586700800, -19769460480, 72681840, -212520, 506, -1]

/-- `31! * Σ_{k<15} (-1)^k 6 * 4^k x^k / (2k+3)!` -/
def TN : List ℤ := [
  8222838654177922817725562880000000, -1644567730835584563545112576000000, 156625498174817577480486912000000,
  -8701416565267643193360384000000, 316415147827914297940377600000, -8113208918664469177958400000,
  154537312736466079580160000, -2272607540242148229120000, 26580205149030973440000, -253144810943152128000,
  2001144750538752000, -13340965003591680, 76016894607360, -374467461120, 1610612736]

/-- `10^18 *` an approximation of the power `2/3` of the last series -/
def R : List ℤ := [
  1000000000000018716, -133333333334328465, 8253968262695760, -253968283342141, 5094073198047, -76347483809,
  66596385, -42788542]

theorem ev_CN (x : ℝ) : ev CN x = 1124000727777607680000 * ∑ k ∈ range 12, (-x) ^ k / ((2 * k).factorial : ℝ) := by
  simp only [sum_range_succ, sum_range_zero, CN, ev, Nat.factorial]
  push_cast
  ring

theorem ev_SN (x : ℝ) : ev SN x = 25852016738884976640000 * ∑ k ∈ range 12, (-x) ^ k / ((2 * k + 1).factorial : ℝ) := by
  simp only [sum_range_succ, sum_range_zero, SN, ev, Nat.factorial]
  push_cast
  ring

theorem ev_TN (x : ℝ) : x * ev TN x = 8222838654177922817725562880000000 * (3 / 2) *
    (1 - ∑ k ∈ range 16, (-(4 * x)) ^ k / ((2 * k + 1).factorial : ℝ)) := by
  simp only [sum_range_succ, sum_range_zero, TN, ev, Nat.factorial]
  push_cast
  ring

theorem cos_err {u : ℝ} (h0 : 0 < u) (h1 : u ≤ Real.pi / 2) :
    |Real.cos u - ev CN (u ^ 2) / 1124000727777607680000| ≤ 1e-18 := by
  have hu : u ≤ 1.6 := by linarith [Real.pi_lt_d2]
  have h := (exp_err 12 u (by rw [abs_of_pos h0, div_le_iff₀ (by norm_num)]; norm_num; linarith)).1
  rw [ev_CN, mul_div_cancel_left₀ _ (by norm_num)]
  refine h.trans ?_
  rw [abs_of_pos h0]
  have : u ^ (2 * 12) ≤ 1.6 ^ (2 * 12) := by gcongr
  calc u ^ (2 * 12) / ((2 * 12).factorial : ℝ) * 2 ≤ 1.6 ^ (2 * 12) / ((2 * 12).factorial : ℝ) * 2 := by gcongr
    _ ≤ 1e-18 := by norm_num [Nat.factorial]

theorem sin_err {u : ℝ} (h0 : 0 < u) (h1 : u ≤ Real.pi / 2) :
    |Real.sin u - u * (ev SN (u ^ 2) / 25852016738884976640000)| ≤ 1e-18 := by
  have hu : u ≤ 1.6 := by linarith [Real.pi_lt_d2]
  have h := (exp_err 12 u (by rw [abs_of_pos h0, div_le_iff₀ (by norm_num)]; norm_num; linarith)).2
  rw [ev_SN, mul_div_cancel_left₀ _ (by norm_num)]
  refine h.trans ?_
  rw [abs_of_pos h0]
  have : u ^ (2 * 12) ≤ 1.6 ^ (2 * 12) := by gcongr
  calc u ^ (2 * 12) / ((2 * 12).factorial : ℝ) * 2 ≤ 1.6 ^ (2 * 12) / ((2 * 12).factorial : ℝ) * 2 := by gcongr
    _ ≤ 1e-18 := by norm_num [Nat.factorial]

/-- `31!` -/
def F31 : ℤ := 8222838654177922817725562880000000

theorem T_err {u : ℝ} (h0 : 0 < u) (h1 : u ≤ Real.pi / 2) :
    |0.75 * (2 * u - Real.sin (2 * u)) / u ^ 3 - ev TN (u ^ 2) / F31| ≤ 1e-18 := by
  have hu : u ≤ 1.5708 := by linarith [Real.pi_lt_d4]
  have h := (exp_err 16 (2 * u) (by rw [abs_of_pos (by linarith), div_le_iff₀ (by norm_num)]; norm_num; linarith)).2
  have e := ev_TN (u ^ 2)
  rw [show -((2 * u) ^ 2) = -(4 * u ^ 2) by ring] at h
  generalize (∑ k ∈ range 16, (-(4 * u ^ 2)) ^ k / ((2 * k + 1).factorial : ℝ)) = S at h e
  have e2 : ev TN (u ^ 2) / F31 = (3 / 2) * (1 - S) / u ^ 2 := by
    rw [div_eq_div_iff (by norm_num [F31]) (by positivity)]
    unfold F31; push_cast; linear_combination e
  have e3 : 0.75 * (2 * u - Real.sin (2 * u)) / u ^ 3 - ev TN (u ^ 2) / F31
      = -(0.75 * (Real.sin (2 * u) - 2 * u * S)) / u ^ 3 := by
    rw [e2]; field_simp; ring
  rw [e3, abs_div, abs_neg, abs_mul, abs_of_pos (by positivity : 0 < u ^ 3), div_le_iff₀ (by positivity)]
  rw [abs_of_pos (by linarith : 0 < 2 * u)] at h
  have : u ^ 29 ≤ 1.5708 ^ 29 := by gcongr
  have e4 : (2 * u) ^ (2 * 16) = 2 ^ 32 * u ^ 29 * u ^ 3 := by ring
  rw [e4] at h
  calc |(0.75 : ℝ)| * |Real.sin (2 * u) - 2 * u * S|
      ≤ |(0.75 : ℝ)| * (2 ^ 32 * u ^ 29 * u ^ 3 / ((2 * 16).factorial : ℝ) * 2) := by gcongr
    _ ≤ |(0.75 : ℝ)| * (2 ^ 32 * 1.5708 ^ 29 * u ^ 3 / ((2 * 16).factorial : ℝ) * 2) := by gcongr
    _ = (|(0.75 : ℝ)| * (2 ^ 32 * 1.5708 ^ 29 / ((2 * 16).factorial : ℝ) * 2)) * u ^ 3 := by ring
    _ ≤ 1e-18 * u ^ 3 := by
      gcongr
      rw [abs_of_pos (by norm_num)]
      norm_num [Nat.factorial]

/-- `(r - ε)³ ≤ (T - τ)²`, multiplied out -/
def loCheck : List ℤ :=
  let Tm := add (smul (10 ^ 18) TN) [-F31]
  let rm := add R [-(10 ^ 5)]
  add (smul (10 ^ 54) (mul Tm Tm)) (smul (-((F31 * 10 ^ 18) ^ 2)) (mul rm (mul rm rm)))

/-- `(T + τ)² ≤ (r + ε)³`, multiplied out -/
def hiCheck : List ℤ :=
  let Tp := add (smul (10 ^ 18) TN) [F31]
  let rp := add R [10 ^ 5]
  add (smul ((F31 * 10 ^ 18) ^ 2) (mul rp (mul rp rp))) (smul (-(10 ^ 54)) (mul Tp Tp))

theorem lo_ok : posOn 0 2468 1000 loCheck = true := by decide +kernel
theorem hi_ok : posOn 0 2468 1000 hiCheck = true := by decide +kernel
theorem T_ok : posOn 0 2468 1000 (add (smul (10 ^ 18) TN) [-F31]) = true := by decide +kernel
theorem R_ok : posOn 0 2468 1000 (add R [-(10 ^ 5)]) = true := by decide +kernel
theorem R_ok2 : posOn 0 2468 1000 (add (smul (-1) (0 :: R)) [19 * 10 ^ 17]) = true := by decide +kernel

theorem sq_range {u : ℝ} (h0 : 0 < u) (h1 : u ≤ Real.pi / 2) : (0 : ℝ) ≤ u ^ 2 ∧ u ^ 2 < 2.468 := by
  have hu : u ≤ 1.5708 := by linarith [Real.pi_lt_d4]
  exact ⟨by positivity, by nlinarith⟩

/-- the squared homochoric radius against the approximating polynomial -/
theorem radius {u n : ℝ} (h0 : 0 < u) (h1 : u ≤ Real.pi / 2) (hn : 0 ≤ n)
    (h : n ^ 3 = (0.75 * (2 * u - Real.sin (2 * u))) ^ 2) :
    |n - u ^ 2 * (ev R (u ^ 2) / 10 ^ 18)| ≤ 1e-13 * u ^ 2 ∧ |n| ≤ 2 ∧ |u ^ 2 * (ev R (u ^ 2) / 10 ^ 18)| ≤ 2 := by
  obtain ⟨hx0, hx1⟩ := sq_range h0 h1
  have hT := T_err h0 h1
  have ha : ((0 : ℤ) : ℝ) / (1000 : ℤ) ≤ u ^ 2 := by push_cast; simpa using hx0
  have hb : u ^ 2 < ((2468 : ℤ) : ℝ) / (1000 : ℤ) := by push_cast; norm_num at hx1 ⊢; linarith
  have k1 := posOn_sound lo_ok (by norm_num) ha hb
  have k2 := posOn_sound hi_ok (by norm_num) ha hb
  have k3 := posOn_sound T_ok (by norm_num) ha hb
  have k4 := posOn_sound R_ok (by norm_num) ha hb
  have k5 := posOn_sound R_ok2 (by norm_num) ha hb
  simp only [loCheck, hiCheck, ev_add, ev_smul, ev_mul] at k1 k2 k3
  rw [ev_add] at k4
  rw [ev_add, ev_smul] at k5
  simp only [ev] at k1 k2 k3 k4 k5
  push_cast at k1 k2 k3 k4 k5
  generalize 0.75 * (2 * u - Real.sin (2 * u)) = g at h hT
  generalize ev TN (u ^ 2) = tn at *
  generalize ev R (u ^ 2) = rr at *
  have hF : (0 : ℝ) < (F31 : ℝ) := by norm_num [F31]
  generalize (F31 : ℝ) = f at *
  obtain ⟨t, ht⟩ : ∃ t, t = tn / f := ⟨_, rfl⟩
  have htn : tn = t * f := by rw [ht]; field_simp
  obtain ⟨r, hr⟩ : ∃ r, r = rr / 10 ^ 18 := ⟨_, rfl⟩
  have hrr : rr = r * 10 ^ 18 := by rw [hr]; field_simp
  obtain ⟨G, hG⟩ : ∃ G, G = g / u ^ 3 := ⟨_, rfl⟩
  have hg : g = G * u ^ 3 := by rw [hG]; field_simp
  obtain ⟨ρ, hρ⟩ : ∃ ρ, ρ = n / u ^ 2 := ⟨_, rfl⟩
  have hnn : n = ρ * u ^ 2 := by rw [hρ]; field_simp
  have hρ0 : 0 ≤ ρ := by rw [hρ]; positivity
  rw [← hG, ← ht] at hT
  rw [← hr]
  subst hnn hg htn hrr
  have hpos : (0 : ℝ) < f * 10 ^ 18 := by positivity
  have k3' : 0 ≤ t - 1e-18 := by
    have : (0 : ℝ) ≤ (f * 10 ^ 18) * (t - 1e-18) := by linear_combination k3
    exact (mul_nonneg_iff_of_pos_left hpos).mp this
  have k4' : 0 ≤ r - 1e-13 := by linarith
  have k5' : u ^ 2 * r ≤ 1.9 := by linarith
  have hfac : (0 : ℝ) < (f * 10 ^ 18) ^ 2 * 10 ^ 54 := by positivity
  have k1' : (r - 1e-13) ^ 3 ≤ (t - 1e-18) ^ 2 := by
    have : (0 : ℝ) ≤ ((f * 10 ^ 18) ^ 2 * 10 ^ 54) * ((t - 1e-18) ^ 2 - (r - 1e-13) ^ 3) := by linear_combination k1
    linarith [(mul_nonneg_iff_of_pos_left hfac).mp this]
  have k2' : (t + 1e-18) ^ 2 ≤ (r + 1e-13) ^ 3 := by
    have : (0 : ℝ) ≤ ((f * 10 ^ 18) ^ 2 * 10 ^ 54) * ((r + 1e-13) ^ 3 - (t + 1e-18) ^ 2) := by linear_combination k2
    linarith [(mul_nonneg_iff_of_pos_left hfac).mp this]
  rw [abs_le] at hT
  have h' : ρ ^ 3 = G ^ 2 := by
    have h6 : (0 : ℝ) < u ^ 6 := by positivity
    apply mul_right_cancel₀ h6.ne'
    linear_combination h
  have hG0 : 0 ≤ G := by linarith
  have l1 : r - 1e-13 ≤ ρ := by
    refine le_of_pow_le_pow_left₀ (n := 3) (by norm_num) hρ0 ?_
    rw [h']; exact k1'.trans (by gcongr; linarith)
  have l2 : ρ ≤ r + 1e-13 := by
    refine le_of_pow_le_pow_left₀ (n := 3) (by norm_num) (by linarith) ?_
    rw [h']; exact le_trans (by gcongr; linarith) k2'
  have hx : 0 ≤ u ^ 2 := by positivity
  have b1 : abs (ρ * u ^ 2 - u ^ 2 * r) ≤ 1e-13 * u ^ 2 := by
    have : ρ * u ^ 2 - u ^ 2 * r = (ρ - r) * u ^ 2 := by ring
    rw [this, abs_mul, abs_of_nonneg hx]
    gcongr; rw [abs_le]; constructor <;> linarith
  have hr0 : 0 ≤ u ^ 2 * r := by apply mul_nonneg hx; linarith
  refine ⟨b1, ?_, ?_⟩
  · rw [abs_of_nonneg (by positivity)]; rw [abs_le] at b1; linarith [b1.2]
  · rw [abs_of_nonneg hr0]; linarith

/-- `bound ± (fit(x r) - cos)` at `x = (a + b t) / (1000 (1 + t))`, multiplied out; `fit` over `10^25`, `B` over `10^45` -/
def errPE (sg a b : ℤ) (fit B : List ℤ) : PE :=
  let num := PE.lit [a, b]
  let den := PE.lit [1000, 1000]
  let L := fit.length
  let dL : ℤ := powZ (10 ^ 18) L
  PE.add (PE.smul (1124000727777607680000 * dL) (PE.mul (PE.pow den (9 * L - B.length)) (PE.comp num den B)))
    (PE.add (PE.smul (sg * 10 ^ 20 * 1124000727777607680000)
        (PE.comp (PE.comp num den (0 :: R)) (PE.smul (10 ^ 18) (PE.pow den 9)) fit))
      (PE.smul (-sg * 10 ^ 20 * (dL * 10 ^ 25)) (PE.mul (PE.pow den (9 * L - 12)) (PE.comp num den CN))))

/-- `k`: bits per coefficient -/
def pieceOk (k : ℕ) (fit : List ℤ) (p : ℤ × ℤ × List ℤ) : Bool :=
  decide (p.2.2.length ≤ 9 * fit.length) && decide (12 ≤ 9 * fit.length) &&
  (PE.ok k (9 * fit.length + 2) (errPE 1 p.1 p.2.1 fit p.2.2) && PE.ok k (9 * fit.length + 2) (errPE (-1) p.1 p.2.1 fit p.2.2))

theorem powZ_eq (a : ℤ) (k : ℕ) : powZ a k = a ^ k := by
  induction k with
  | zero => simp [powZ]
  | succ k ih => rw [powZ, ih]; ring

theorem errPE_sound {sg a b : ℤ} {fit B : List ℤ} (h1 : B.length ≤ 9 * fit.length) (h2 : 12 ≤ 9 * fit.length) {k n : ℕ}
    (h : (errPE sg a b fit B).ok k n = true) {x : ℝ} (ha : (a : ℝ) / 1000 ≤ x) (hb : x < (b : ℝ) / 1000) :
    0 ≤ ev B x + sg * 10 ^ 20 * (ev fit (x * (ev R x / 10 ^ 18)) - 10 ^ 25 * (ev CN x / 1124000727777607680000)) := by
  obtain ⟨t, ht, hd, hx⟩ := mobius (by norm_num) ha hb
  have k := PE.ok_sound h ht
  have en : ev [a, b] t = a + b * t := by simp [ev]; ring
  have ed : ev [1000, 1000] t = 1000 * (1 + t) := by simp [ev]; ring
  have hcomp : ∀ p, ev (hom [a, b] [1000, 1000] p).1 t = (1000 * (1 + t)) ^ p.length * ev p x := by
    intro p
    rw [ev_hom _ _ _ _ (by rw [ed]; exact hd.ne'), ev_hom_den, ed, en, hx]
  simp only [errPE, PE.toList, ev_add, ev_smul, ev_mul, ev_powL, hcomp, ed] at k
  have hden2 : ev (smul (10 ^ 18) (powL [1000, 1000] 9)) t = 10 ^ 18 * (1000 * (1 + t)) ^ 9 := by
    rw [ev_smul, ev_powL, ed]; push_cast; norm_num
  rw [ev_hom _ _ _ _ (by rw [hden2]; positivity), ev_hom_den, hden2, hcomp] at k
  have hR : (0 :: R).length = 9 := by decide
  have hC : CN.length = 12 := by decide
  have earg : (1000 * (1 + t)) ^ (0 :: R).length * ev (0 :: R) x / (10 ^ 18 * (1000 * (1 + t)) ^ 9) = x * (ev R x / 10 ^ 18) := by
    rw [hR, show ev (0 :: R) x = x * ev R x by simp [ev]]
    field_simp
  rw [earg, hC, powZ_eq] at k
  push_cast at k
  rw [show (1000000000000000000 : ℝ) = 10 ^ 18 by norm_num] at k
  generalize ev fit (x * (ev R x / 10 ^ 18)) = v at *
  generalize ev B x = bb at *
  generalize hc : ev CN x = C at *
  obtain ⟨p1, q1⟩ := Nat.exists_eq_add_of_le h1
  obtain ⟨p2, q2⟩ := Nat.exists_eq_add_of_le h2
  generalize 1000 * (1 + t) = d at *
  have e1 : d ^ (9 * fit.length - B.length) * d ^ B.length = (d ^ 9) ^ fit.length := by
    rw [← pow_add, ← pow_mul]; congr 1; omega
  have e2 : d ^ (9 * fit.length - 12) * d ^ 12 = (d ^ 9) ^ fit.length := by
    rw [← pow_add, ← pow_mul]; congr 1; omega
  have hP : (0 : ℝ) < 1124000727777607680000 * (10 ^ 18) ^ fit.length * (d ^ 9) ^ fit.length := by positivity
  refine (mul_nonneg_iff_of_pos_left hP).mp ?_
  rw [mul_pow] at k
  refine le_of_le_of_eq k ?_
  generalize ((10 : ℝ) ^ 18) ^ fit.length = w at *
  generalize (d ^ 9) ^ fit.length = z at *
  linear_combination (1124000727777607680000 * w * bb) * e1 + (-(sg : ℝ) * 10 ^ 20 * (w * 10 ^ 25) * C) * e2

theorem fit_bound {k : ℕ} {fit : List ℤ} {p : ℤ × ℤ × List ℤ} (hp : pieceOk k fit p = true) {u n : ℝ} (h0 : 0 < u)
    (h1 : u ≤ Real.pi / 2) (ha : (p.1 : ℝ) / 1000 ≤ u ^ 2) (hb : u ^ 2 < (p.2.1 : ℝ) / 1000)
    (hn : 0 ≤ n) (h : n ^ 3 = (0.75 * (2 * u - Real.sin (2 * u))) ^ 2) :
    |ev fit n / 10 ^ 25 - Real.cos u|
      ≤ ev p.2.2 (u ^ 2) / 10 ^ 45 + lip fit / 10 ^ 25 * (1e-13 * u ^ 2) + 1e-18 := by
  obtain ⟨a, b, B⟩ := p
  simp only [pieceOk, Bool.and_eq_true, decide_eq_true_eq] at hp
  obtain ⟨⟨l1, l2⟩, c1, c2⟩ := hp
  have k1 := errPE_sound l1 l2 c1 ha hb
  have k2 := errPE_sound l1 l2 c2 ha hb
  obtain ⟨r1, r2, r3⟩ := radius h0 h1 hn h
  have hl := ev_lip fit r2 r3
  have hc := cos_err h0 h1
  push_cast at k1 k2
  have hlp : (0 : ℝ) ≤ lip fit := by
    have := (abs_nonneg _).trans (ev_lip fit (x := 1) (y := 0) (by norm_num) (by norm_num))
    simpa using this
  have hl2 := hl.trans (mul_le_mul_of_nonneg_left r1 hlp)
  dsimp only at *
  generalize ev fit n = v at *
  generalize ev fit (u ^ 2 * (ev R (u ^ 2) / 10 ^ 18)) = v' at *
  generalize ev CN (u ^ 2) / 1124000727777607680000 = C' at *
  generalize ev B (u ^ 2) = bb at *
  rw [abs_le] at hl2 hc ⊢
  constructor <;> linarith [hl2.1, hl2.2, hc.1, hc.2]

/-- from the error of the cosine to the error of the angle -/
theorem angle_of_cos {u η s : ℝ} (h0 : 0 < u) (h1 : u ≤ Real.pi / 2) (hη : 0 ≤ η) (hη1 : η ≤ 1)
    (h : |s - Real.cos u| ≤ Real.sin u * Real.sin η - η ^ 2 / 2) :
    |2 * Real.arccos (max (-1) (min s 1)) - 2 * u| ≤ 2 * η := by
  have hc := Real.one_sub_sq_div_two_le_cos (x := η)
  have hc1 := Real.cos_le_one η
  have hcu : 0 ≤ Real.cos u := Real.cos_nonneg_of_neg_pi_div_two_le_of_le (by linarith) h1
  have hcu1 := Real.cos_le_one u
  rw [abs_le] at h
  have hpi := Real.pi_gt_three
  have l1 : Real.cos (u + η) ≤ s := by
    rw [Real.cos_add]
    nlinarith [mul_nonneg hcu (sub_nonneg.mpr hc1), sq_nonneg η]
  have l2 : s ≤ Real.cos (u - η) := by
    rw [Real.cos_sub]
    nlinarith [mul_nonneg (sub_nonneg.mpr hcu1) (sub_nonneg.mpr hc1)]
  have m1 : Real.cos (u + η) ≤ max (-1) (min s 1) := le_max_of_le_right (le_min l1 (Real.cos_le_one _))
  have m2 : max (-1) (min s 1) ≤ Real.cos (u - η) := max_le (Real.neg_one_le_cos _) ((min_le_left _ _).trans l2)
  have a1 : Real.arccos (max (-1) (min s 1)) ≤ u + η := by
    have := Real.arccos_le_arccos m1
    rwa [Real.arccos_cos (by linarith) (by linarith)] at this
  have a2 : u - η ≤ Real.arccos (max (-1) (min s 1)) := by
    by_cases hh : 0 ≤ u - η
    · have := Real.arccos_le_arccos m2
      rwa [Real.arccos_cos hh (by linarith)] at this
    · exact le_trans (by linarith) (Real.arccos_nonneg _)
  rw [abs_le]; constructor <;> linarith

theorem SN_ok : posOn 0 2468 1000 (add SN [-16286770545497535283200]) = true := by decide +kernel

theorem sinc_lo {u : ℝ} (h0 : 0 < u) (h1 : u ≤ Real.pi / 2) : 0.63 ≤ ev SN (u ^ 2) / 25852016738884976640000 := by
  obtain ⟨hx0, hx1⟩ := sq_range h0 h1
  have k := posOn_sound SN_ok (by norm_num) (x := u ^ 2) (by push_cast; simpa using hx0)
    (by push_cast; norm_num at hx1 ⊢; linarith)
  rw [ev_add] at k
  simp only [ev] at k
  push_cast at k
  rw [le_div_iff₀ (by norm_num)]
  linarith

theorem sin_small {η : ℝ} (h0 : 0 < η) (h1 : η ≤ 1e-5) : η * (1 - 1e-10) ≤ Real.sin η := by
  have := Real.sin_gt_sub_cube h0
  nlinarith [mul_nonneg h0.le (sub_nonneg.mpr h1), mul_nonneg (mul_nonneg h0.le h0.le) (sub_nonneg.mpr h1)]

/-- away from zero: bound `c * sin u / u` -/
theorem piece_far {k : ℕ} {fit : List ℤ} {A B c : ℤ} (hp : pieceOk k fit (A, B, smul c SN) = true) {u n η a Λ : ℝ} (h0 : 0 < u)
    (h1 : u ≤ Real.pi / 2) (hA : (A : ℝ) / 1000 ≤ u ^ 2) (hB : u ^ 2 < (B : ℝ) / 1000)
    (hn : 0 ≤ n) (h : n ^ 3 = (0.75 * (2 * u - Real.sin (2 * u))) ^ 2) (hη : 0 < η) (hη1 : η ≤ 1e-5)
    (ha0 : 0 ≤ a) (ha : a ^ 2 ≤ (A : ℝ) / 1000) (hΛ : (lip fit : ℝ) / 10 ^ 25 ≤ Λ)
    (hκ : (c : ℝ) * 25852016738884976640000 / 10 ^ 45 ≤ a * η * (1 - 1e-10))
    (side : Λ * 2.468e-13 + 3e-18 + η ^ 2 / 2
      ≤ 0.63 * (a * η * (1 - 1e-10) - (c : ℝ) * 25852016738884976640000 / 10 ^ 45)) :
    |2 * Real.arccos (max (-1) (min (ev fit n / 10 ^ 25) 1)) - 2 * u| ≤ 2 * η := by
  have hb := fit_bound hp h0 h1 hA hB hn h
  rw [ev_smul] at hb
  apply angle_of_cos h0 h1 hη.le (by linarith)
  refine hb.trans ?_
  have hS := sinc_lo h0 h1
  have hs := sin_err h0 h1
  have he := sin_small hη hη1
  have hx := (sq_range h0 h1).2
  have hua : a ≤ u := by
    refine le_of_pow_le_pow_left₀ (n := 2) (by norm_num) h0.le (ha.trans hA)
  have hΛx : (lip fit : ℝ) / 10 ^ 25 * (1e-13 * u ^ 2) ≤ Λ * 2.468e-13 := by
    have hu2 : 0 ≤ u ^ 2 := by positivity
    have hΛ0 : 0 ≤ Λ := le_trans (by
      have := (abs_nonneg _).trans (ev_lip fit (x := 1) (y := 0) (by norm_num) (by norm_num))
      have h3 : (0 : ℝ) ≤ lip fit := by simpa using this
      positivity) hΛ
    calc (lip fit : ℝ) / 10 ^ 25 * (1e-13 * u ^ 2) ≤ Λ * (1e-13 * 2.468) := by gcongr
      _ = Λ * 2.468e-13 := by norm_num
  obtain ⟨S, hSdef⟩ : ∃ S, S = ev SN (u ^ 2) / 25852016738884976640000 := ⟨_, rfl⟩
  rw [← hSdef] at hS hs
  have hev : (c : ℝ) * ev SN (u ^ 2) / 10 ^ 45 = (c : ℝ) * 25852016738884976640000 / 10 ^ 45 * S := by
    rw [hSdef]; ring
  rw [hev]
  generalize (c : ℝ) * 25852016738884976640000 / 10 ^ 45 = κ at *
  rw [abs_le] at hs
  have e1 : a * S - 1e-18 ≤ Real.sin u := by nlinarith [hs.1]
  have hsu : 0 ≤ Real.sin u := Real.sin_nonneg_of_nonneg_of_le_pi h0.le (by linarith [Real.pi_pos])
  have e2 : (a * S - 1e-18) * (η * (1 - 1e-10)) ≤ Real.sin u * Real.sin η := by
    have hp2 : 0 ≤ η * (1 - 1e-10) := by apply mul_nonneg hη.le; norm_num
    calc (a * S - 1e-18) * (η * (1 - 1e-10)) ≤ Real.sin u * (η * (1 - 1e-10)) := by gcongr
      _ ≤ Real.sin u * Real.sin η := by gcongr
  have e3 := mul_le_mul_of_nonneg_right hS (sub_nonneg.mpr hκ)
  nlinarith [e2, e3]

/-- near zero: bound `K0 + K x` -/
theorem piece_near {bits : ℕ} {fit : List ℤ} {B K0 K : ℤ} (hp : pieceOk bits fit (0, B, [K0, K]) = true) {u n η u0 Λ : ℝ} (h00 : 0 < u0) (h0 : u0 ≤ u)
    (h1 : u ≤ 0.174) (hB : u ^ 2 < (B : ℝ) / 1000)
    (hn : 0 ≤ n) (h : n ^ 3 = (0.75 * (2 * u - Real.sin (2 * u))) ^ 2) (hη : 0 < η) (hη1 : η ≤ 1e-5)
    (hΛ : (lip fit : ℝ) / 10 ^ 25 ≤ Λ) (hK : 0 ≤ K) (hΛ0 : 0 ≤ Λ)
    (side0 : K0 / 10 ^ 45 + (K / 10 ^ 45 + Λ * 1e-13) * u0 ^ 2 + 2e-18 + η ^ 2 / 2 ≤ 0.98 * u0 * η)
    (side1 : K0 / 10 ^ 45 + (K / 10 ^ 45 + Λ * 1e-13) * 0.174 ^ 2 + 2e-18 + η ^ 2 / 2 ≤ 0.98 * 0.174 * η) :
    |2 * Real.arccos (max (-1) (min (ev fit n / 10 ^ 25) 1)) - 2 * u| ≤ 2 * η := by
  have hu : 0 < u := by linarith
  have hpi : u ≤ Real.pi / 2 := by linarith [Real.pi_gt_three]
  have hb := fit_bound hp hu hpi (by push_cast; simp; positivity) hB hn h
  apply angle_of_cos hu hpi hη.le (by linarith)
  refine hb.trans ?_
  simp only [ev]
  have he := sin_small hη hη1
  have hsin : 0.985 * u ≤ Real.sin u := by
    have := Real.sin_gt_sub_cube hu
    nlinarith [mul_nonneg hu.le (sub_nonneg.mpr h1), mul_nonneg (mul_nonneg hu.le hu.le) (sub_nonneg.mpr h1)]
  have e2 : 0.985 * u * (η * (1 - 1e-10)) ≤ Real.sin u * Real.sin η := by
    have hp2 : 0 ≤ η * (1 - 1e-10) := by apply mul_nonneg hη.le; norm_num
    have hsu : 0 ≤ Real.sin u := le_trans (by positivity) hsin
    calc 0.985 * u * (η * (1 - 1e-10)) ≤ Real.sin u * (η * (1 - 1e-10)) := by gcongr
      _ ≤ Real.sin u * Real.sin η := by gcongr
  have e3 : 0.98 * u * η ≤ 0.985 * u * (η * (1 - 1e-10)) := by
    nlinarith [mul_pos hu hη]
  have hΛx : (lip fit : ℝ) / 10 ^ 25 * (1e-13 * u ^ 2) ≤ Λ * (1e-13 * u ^ 2) := by gcongr
  have hK' : (0 : ℝ) ≤ K := by exact_mod_cast hK
  obtain ⟨k, hk⟩ : ∃ k : ℝ, k = K / 10 ^ 45 + Λ * 1e-13 := ⟨_, rfl⟩
  have hk0 : 0 ≤ k := by rw [hk]; positivity
  rw [← hk] at side0 side1
  have hsum : ((K0 : ℝ) + u ^ 2 * (K + u ^ 2 * 0)) / 10 ^ 45 + Λ * (1e-13 * u ^ 2) = K0 / 10 ^ 45 + k * u ^ 2 := by
    rw [hk]; ring
  have hq : k * u ^ 2 ≤ k * ((u0 + 0.174) * u - u0 * 0.174) := by
    apply mul_le_mul_of_nonneg_left _ hk0
    nlinarith [mul_nonneg (sub_nonneg.mpr h0) (sub_nonneg.mpr h1)]
  have hlin : K0 / 10 ^ 45 + k * ((u0 + 0.174) * u - u0 * 0.174) + 2e-18 + η ^ 2 / 2 ≤ 0.98 * u * η := by
    by_cases hd : u0 = 0.174
    · have : u = 0.174 := by linarith
      subst this; rw [hd]; linarith [side1]
    · have hdpos : 0 < 0.174 - u0 := by
        rcases lt_or_eq_of_le (h0.trans h1) with hh | hh
        · linarith
        · exact absurd hh hd
      have w0 : 0 ≤ 0.174 - u := by linarith
      have w1 : 0 ≤ u - u0 := by linarith
      have s0 := mul_le_mul_of_nonneg_left side0 w0
      have s1 := mul_le_mul_of_nonneg_left side1 w1
      have : (0.174 - u0) * (K0 / 10 ^ 45 + k * ((u0 + 0.174) * u - u0 * 0.174) + 2e-18 + η ^ 2 / 2)
          ≤ (0.174 - u0) * (0.98 * u * η) := by nlinarith [s0, s1]
      exact le_of_mul_le_mul_left this hdpos
  linarith

end Verif.HoFit
