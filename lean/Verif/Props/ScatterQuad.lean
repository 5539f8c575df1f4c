import Verif.Model.LvdTable
import Verif.Props.ScatterGrid
import Verif.Props.ScatterNuclear
import Mathlib.MeasureTheory.Integral.IntervalIntegral.Basic
import Mathlib.MeasureTheory.Integral.DominatedConvergence
import Mathlib.Topology.UniformSpace.HeineCantor
/-!
C159: the absorption integral of `scatter_factor_LVD`, which is computed on a quarter of the plane by Simpson's rule in both directions, tends to
the integral over the whole square as the number of intervals grows.
-/
namespace Verif.Scat
open Real Filter MeasureTheory
open scoped Topology

/-! ### Simpson's rule on an equidistant grid -/

/-- the equidistant points -/
noncomputable def eqPts (a h : ℝ) (n : ℕ) : List ℝ := (List.range n).map fun (i : ℕ) => a + i * h

/-- the panel sum -/
noncomputable def panels (g : ℝ → ℝ) (a h : ℝ) (m : ℕ) : ℝ :=
  ∑ j ∈ Finset.range m, h / 3 * (g (a + (2 * j : ℕ) * h) + 4 * g (a + (2 * j + 1 : ℕ) * h) + g (a + (2 * j + 2 : ℕ) * h))

theorem simpson_eq (g : ℝ → ℝ) (a : ℝ) {h : ℝ} (hh : 0 < h) (m : ℕ) :
    Numerics.simpson ((eqPts a h (2 * m + 1)).map g) (eqPts a h (2 * m + 1)) = .ok (panels g a h m) := by
  have hlen : (eqPts a h (2 * m + 1)).length = 2 * m + 1 := by simp [eqPts]
  have hx : ∀ i, i < 2 * m + 1 → Numerics.at' (eqPts a h (2 * m + 1)) i = a + i * h := by
    intro i hi
    unfold Numerics.at' eqPts
    rw [List.getD_eq_getElem?_getD, List.getElem?_map, List.getElem?_range hi]
    rfl
  have hy : ∀ i, i < 2 * m + 1 → Numerics.at' ((eqPts a h (2 * m + 1)).map g) i = g (a + i * h) := by
    intro i hi
    unfold Numerics.at' eqPts
    rw [List.getD_eq_getElem?_getD, List.getElem?_map, List.getElem?_map, List.getElem?_range hi]
    rfl
  unfold Numerics.simpson
  rw [if_neg (by simp)]
  simp only [hlen, Nat.add_sub_cancel]
  rw [if_neg (by omega), show 2 * m / 2 = m by omega]
  congr 1
  unfold panels
  refine Finset.sum_congr rfl fun j hj => ?_
  have hj := Finset.mem_range.mp hj
  have g1 : Numerics.gap (eqPts a h (2 * m + 1)) (2 * j) = h := by
    unfold Numerics.gap
    rw [hx _ (by omega), hx _ (by omega)]
    push_cast
    ring
  have g2 : Numerics.gap (eqPts a h (2 * m + 1)) (2 * j + 1) = h := by
    unfold Numerics.gap
    rw [hx _ (by omega), hx _ (by omega)]
    push_cast
    ring
  unfold Numerics.simpsonPair
  simp only [g1, g2]
  rw [hy _ (by omega), hy _ (by omega), hy _ (by omega)]
  push_cast
  field_simp
  ring

theorem panels_sub (g k : ℝ → ℝ) {a b h ε : ℝ} (hh : 0 < h) (m : ℕ) (hb : a + (2 * m : ℕ) * h = b)
    (hd : ∀ x, a ≤ x → x ≤ b → |g x - k x| ≤ ε) : |panels g a h m - panels k a h m| ≤ (b - a) * ε := by
  unfold panels
  rw [← Finset.sum_sub_distrib]
  have hp : ∀ j ∈ Finset.range m, |h / 3 * (g (a + (2 * j : ℕ) * h) + 4 * g (a + (2 * j + 1 : ℕ) * h) + g (a + (2 * j + 2 : ℕ) * h)) -
      h / 3 * (k (a + (2 * j : ℕ) * h) + 4 * k (a + (2 * j + 1 : ℕ) * h) + k (a + (2 * j + 2 : ℕ) * h))| ≤ 2 * h * ε := by
    intro j hj
    have hj := Finset.mem_range.mp hj
    have hin : ∀ i : ℕ, i ≤ 2 * m → |g (a + i * h) - k (a + i * h)| ≤ ε := by
      intro i hi
      refine hd _ ?_ ?_
      · have : 0 ≤ (i : ℝ) * h := by positivity
        linarith
      · rw [← hb]
        have : (i : ℝ) ≤ (2 * m : ℕ) := by exact_mod_cast hi
        have := mul_le_mul_of_nonneg_right this hh.le
        linarith
    have h0 := hin (2 * j) (by omega)
    have h1 := hin (2 * j + 1) (by omega)
    have h2 := hin (2 * j + 2) (by omega)
    rw [abs_le] at *
    constructor <;> nlinarith [h0.1, h0.2, h1.1, h1.2, h2.1, h2.2]
  refine (Finset.abs_sum_le_sum_abs _ _).trans ((Finset.sum_le_sum hp).trans (le_of_eq ?_))
  rw [Finset.sum_const, Finset.card_range, nsmul_eq_mul, ← hb]
  push_cast
  ring

theorem panels_integral (g : ℝ → ℝ) (hc : Continuous g) {a b h ε : ℝ} (hh : 0 < h) (m : ℕ) (hb : a + (2 * m : ℕ) * h = b)
    (hd : ∀ x y, a ≤ x → x ≤ b → a ≤ y → y ≤ b → |x - y| ≤ 2 * h → |g x - g y| ≤ ε) :
    |panels g a h m - ∫ x in a..b, g x| ≤ (b - a) * ε := by
  have hs : ∫ x in a..b, g x = ∑ j ∈ Finset.range m, ∫ x in (a + (2 * j : ℕ) * h)..(a + (2 * (j + 1) : ℕ) * h), g x := by
    have := intervalIntegral.sum_integral_adjacent_intervals (f := g) (μ := volume) (a := fun j : ℕ => a + (2 * j : ℕ) * h) (n := m)
      (fun k _ => hc.intervalIntegrable _ _)
    rw [this, hb]
    simp
  rw [hs]
  unfold panels
  rw [← Finset.sum_sub_distrib]
  have hp : ∀ j ∈ Finset.range m, |h / 3 * (g (a + (2 * j : ℕ) * h) + 4 * g (a + (2 * j + 1 : ℕ) * h) + g (a + (2 * j + 2 : ℕ) * h)) -
      ∫ x in (a + (2 * j : ℕ) * h)..(a + (2 * (j + 1) : ℕ) * h), g x| ≤ 2 * h * ε := by
    intro j hj
    have hj := Finset.mem_range.mp hj
    have hw : (a + (2 * (j + 1) : ℕ) * h) - (a + (2 * j : ℕ) * h) = 2 * h := by push_cast; ring
    have hlo : a ≤ a + (2 * j : ℕ) * h := by
      have : 0 ≤ ((2 * j : ℕ) : ℝ) * h := by positivity
      linarith
    have hhi : a + (2 * (j + 1) : ℕ) * h ≤ b := by
      rw [← hb]
      have : ((2 * (j + 1) : ℕ) : ℝ) ≤ (2 * m : ℕ) := by exact_mod_cast (by omega : 2 * (j + 1) ≤ 2 * m)
      have := mul_le_mul_of_nonneg_right this hh.le
      linarith
    have hm1 : a + (2 * j + 1 : ℕ) * h = (a + (2 * j : ℕ) * h) + h := by push_cast; ring
    have hm2 : a + (2 * j + 2 : ℕ) * h = (a + (2 * j : ℕ) * h) + 2 * h := by push_cast; ring
    rw [hm1, hm2]
    generalize a + (2 * (j + 1) : ℕ) * h = r at *
    generalize a + (2 * j : ℕ) * h = l at *
    set av := (g l + 4 * g (l + h) + g (l + 2 * h)) / 6 with hav
    have e : h / 3 * (g l + 4 * g (l + h) + g (l + 2 * h)) = ∫ _ in l..r, av := by
      rw [intervalIntegral.integral_const, hw, hav, smul_eq_mul]
      ring
    rw [e, ← intervalIntegral.integral_sub (continuous_const.intervalIntegrable _ _) (hc.intervalIntegrable _ _)]
    have := intervalIntegral.norm_integral_le_of_norm_le_const (a := l) (b := r) (C := ε) (f := fun x => av - g x) (fun x hx => by
      rw [Set.uIoc_of_le (by linarith)] at hx
      have d0 := hd l x (by linarith) (by linarith) (by linarith [hx.1]) (by linarith [hx.2]) (by rw [abs_le]; constructor <;> linarith [hx.1, hx.2])
      have d1 := hd (l + h) x (by linarith) (by linarith) (by linarith [hx.1]) (by linarith [hx.2])
        (by rw [abs_le]; constructor <;> linarith [hx.1, hx.2])
      have d2 := hd (l + 2 * h) x (by linarith) (by linarith) (by linarith [hx.1]) (by linarith [hx.2])
        (by rw [abs_le]; constructor <;> linarith [hx.1, hx.2])
      rw [Real.norm_eq_abs, hav]
      rw [abs_le] at *
      constructor <;> linarith [d0.1, d0.2, d1.1, d1.2, d2.1, d2.2])
    rw [Real.norm_eq_abs, hw, abs_of_pos (by linarith : 0 < 2 * h)] at this
    linarith
  refine (Finset.abs_sum_le_sum_abs _ _).trans ((Finset.sum_le_sum hp).trans (le_of_eq ?_))
  rw [Finset.sum_const, Finset.card_range, nsmul_eq_mul, ← hb]
  push_cast
  ring

/-- Simpson's rule in both directions on an ever finer grid tends to the double integral. -/
theorem simpson2_tendsto (G : ℝ → ℝ → ℝ) (hG : Continuous fun p : ℝ × ℝ => G p.1 p.2) {a b : ℝ} (hab : a < b) {ε : ℝ} (hε : 0 < ε) :
    ∃ M : ℕ, ∀ m, M ≤ m → 1 ≤ m → ∀ h, h = (b - a) / (2 * m : ℕ) →
      |panels (fun x => panels (G x) a h m) a h m - ∫ x in a..b, ∫ y in a..b, G x y| ≤ ε := by
  have hb0 : 0 < b - a := by linarith
  set η := ε / (2 * (b - a) ^ 2) with hη
  have hηp : 0 < η := by positivity
  have huc : UniformContinuousOn (fun p : ℝ × ℝ => G p.1 p.2) (Set.Icc (a, a) (b, b)) :=
    isCompact_Icc.uniformContinuousOn_of_continuous hG.continuousOn
  obtain ⟨δ, hδ, hu⟩ := Metric.uniformContinuousOn_iff.mp huc η hηp
  have hIc : Continuous fun x => ∫ y in a..b, G x y :=
    intervalIntegral.continuous_parametric_intervalIntegral_of_continuous' (f := G) hG a b
  have hmod : ∀ x x' y y', a ≤ x → x ≤ b → a ≤ x' → x' ≤ b → a ≤ y → y ≤ b → a ≤ y' → y' ≤ b → |x - x'| < δ → |y - y'| < δ →
      |G x y - G x' y'| ≤ η := by
    intro x x' y y' h1 h2 h3 h4 h5 h6 h7 h8 d1 d2
    have := hu (x, y) ⟨⟨h1, h5⟩, ⟨h2, h6⟩⟩ (x', y') ⟨⟨h3, h7⟩, ⟨h4, h8⟩⟩ (by
      rw [Prod.dist_eq, max_lt_iff, Real.dist_eq, Real.dist_eq]; exact ⟨d1, d2⟩)
    rw [Real.dist_eq] at this
    exact this.le
  obtain ⟨M, hM⟩ := exists_nat_gt ((b - a) / δ)
  refine ⟨M, fun m hMm hm h hh => ?_⟩
  have hmp : (0 : ℝ) < m := by exact_mod_cast hm
  have hhp : 0 < h := by rw [hh]; push_cast; positivity
  have h2 : 2 * h < δ := by
    have h3 : (b - a) / δ < m := lt_of_lt_of_le hM (by exact_mod_cast hMm)
    rw [div_lt_iff₀ hδ] at h3
    rw [hh]
    push_cast
    have e : 2 * ((b - a) / (2 * (m : ℝ))) = (b - a) / m := by field_simp
    rw [e, div_lt_iff₀ hmp]
    linarith
  have hend : a + (2 * m : ℕ) * h = b := by
    rw [hh]
    push_cast
    field_simp
    ring
  have inner : ∀ x, a ≤ x → x ≤ b → |panels (G x) a h m - ∫ y in a..b, G x y| ≤ (b - a) * η := by
    intro x h1 h3
    refine panels_integral (G x) (hG.comp (Continuous.prodMk_right x)) hhp m hend fun y y' h4 h5 h6 h7 h8 => ?_
    exact hmod x x y y' h1 h3 h1 h3 h4 h5 h6 h7 (by rw [sub_self, abs_zero]; exact hδ) (by linarith)
  have s1 := panels_sub (fun x => panels (G x) a h m) (fun x => ∫ y in a..b, G x y) hhp m hend inner
  have s2 := panels_integral (fun x => ∫ y in a..b, G x y) hIc (ε := (b - a) * η) hhp m hend (fun x x' h1 h3 h4 h5 h6 => by
    have hx : IntervalIntegrable (fun y => G x y) volume a b := (hG.comp (Continuous.prodMk_right x)).intervalIntegrable _ _
    have hx' : IntervalIntegrable (fun y => G x' y) volume a b := (hG.comp (Continuous.prodMk_right x')).intervalIntegrable _ _
    rw [← intervalIntegral.integral_sub hx hx']
    have := intervalIntegral.norm_integral_le_of_norm_le_const (a := a) (b := b) (C := η) (f := fun y => G x y - G x' y) (fun y hy => by
      rw [Set.uIoc_of_le hab.le] at hy
      exact hmod x x' y y h1 h3 h4 h5 hy.1.le hy.2 hy.1.le hy.2 (by linarith) (by rw [sub_self, abs_zero]; exact hδ))
    rw [Real.norm_eq_abs, abs_of_pos hb0] at this
    linarith)
  have e : (b - a) * ((b - a) * η) = ε / 2 := by rw [hη]; field_simp
  rw [e] at s1 s2
  have := abs_sub_le (panels (fun x => panels (G x) a h m) a h m) (panels (fun x => ∫ y in a..b, G x y) a h m) (∫ x in a..b, ∫ y in a..b, G x y)
  linarith

/-! ### The quarter plane -/

theorem even_integral {g : ℝ → ℝ} (hc : Continuous g) (he : ∀ x, g (-x) = g x) (R : ℝ) : ∫ x in (-R)..R, g x = 2 * ∫ x in (0 : ℝ)..R, g x := by
  rw [← intervalIntegral.integral_add_adjacent_intervals (hc.intervalIntegrable (-R) 0) (hc.intervalIntegrable 0 R)]
  have := intervalIntegral.integral_comp_neg (a := 0) (b := R) g
  rw [neg_zero] at this
  rw [← this]
  simp only [he]
  ring

theorem integrand_continuous (f : Lob) (hb : ∀ k, 0 ≤ f.b k) (s M : ℝ) : Continuous fun p : ℝ × ℝ => integrand f p.1 p.2 s M := by
  have hc : ∀ q : ℝ × ℝ → ℝ, Continuous q → Continuous fun p => evalLVD f (q p) := by
    intro q hq
    unfold evalLVD
    refine continuous_finsetSum _ fun k _ => ?_
    have hb := hb k
    refine Continuous.div (by fun_prop) (by fun_prop) fun p => ?_
    have : 0 ≤ f.b k * (2 * q p) ^ 2 := by positivity
    positivity
  unfold integrand
  exact ((hc _ (by fun_prop)).mul (hc _ (by fun_prop))).mul (by fun_prop)

/-- the integrand does not change under reflection in either axis -/
theorem integrand_even (f : Lob) (x y s M : ℝ) : integrand f (-x) y s M = integrand f x y s M ∧ integrand f x (-y) s M = integrand f x y s M := by
  unfold integrand
  constructor
  · rw [neg_sq, show s / 2 + -x = s / 2 - x by ring, show s / 2 - -x = s / 2 + x by ring]
    ring
  · rw [neg_sq]

theorem quarter (G : ℝ → ℝ → ℝ) (hG : Continuous fun p : ℝ × ℝ => G p.1 p.2) (h1 : ∀ x y, G (-x) y = G x y) (h2 : ∀ x y, G x (-y) = G x y)
    (R : ℝ) : ∫ x in (-R)..R, ∫ y in (-R)..R, G x y = 4 * ∫ x in (0 : ℝ)..R, ∫ y in (0 : ℝ)..R, G x y := by
  have hi : ∀ x, ∫ y in (-R)..R, G x y = 2 * ∫ y in (0 : ℝ)..R, G x y := fun x => by
    have hx : Continuous fun y => G x y := hG.comp (Continuous.prodMk_right x)
    exact even_integral hx (h2 x) R
  simp only [hi]
  have hc : Continuous fun x => ∫ y in (0 : ℝ)..R, G x y :=
    intervalIntegral.continuous_parametric_intervalIntegral_of_continuous' (f := G) hG 0 R
  have he : ∀ x, (∫ y in (0 : ℝ)..R, G (-x) y) = ∫ y in (0 : ℝ)..R, G x y := fun x => by simp only [h1]
  rw [intervalIntegral.integral_const_mul, even_integral hc he]
  ring

/-- C159: the integral over a square around the origin is four times the one over its quarter. -/
theorem C159_quarter (f : Lob) (hb : ∀ k, 0 ≤ f.b k) (s M R : ℝ) :
    ∫ x in (-R)..R, ∫ y in (-R)..R, integrand f x y s M = 4 * ∫ x in (0 : ℝ)..R, ∫ y in (0 : ℝ)..R, integrand f x y s M :=
  quarter (fun x y => integrand f x y s M) (integrand_continuous f hb s M) (fun x y => (integrand_even f x y s M).1)
    (fun x y => (integrand_even f x y s M).2) R

end Verif.Scat

namespace Verif.Spec.Scatter
open Real

/-- The thermal diffuse absorption of Bird and King on the square of half width `R`, for an atom with elastic scattering factor `f` and Debye-Waller
exponent `M` (damping `exp(-M s²)`), at reflection `s`. -/
noncomputable def absorption (f : ℝ → ℝ) (s M R : ℝ) : ℝ :=
  ∫ x in (-R)..R, ∫ y in (-R)..R, f (sqrt ((s / 2 + x) ^ 2 + y ^ 2)) * f (sqrt ((s / 2 - x) ^ 2 + y ^ 2)) *
    (1 - exp (-2 * M * (x ^ 2 + y ^ 2 - s ^ 2 / 4)))

end Verif.Spec.Scatter

namespace Verif.Scat
open Real Filter MeasureTheory Verif.Spec.Scatter
open scoped Topology

theorem ewald_tendsto (f : Lob) (hb : ∀ k, 0 ≤ f.b k) (s M base eps : ℝ) {R : ℝ} (hR : 0 < R) :
    ∃ v : ℕ → ℝ, (∀ n, 1 ≤ n → ∃ xs, ewaldRange n (0, R) "linspace" base eps = some xs ∧ ewaldIntegral f xs s M = some (v n)) ∧
      Tendsto (fun n => 4 * v n) atTop (𝓝 (∫ x in (-R)..R, ∫ y in (-R)..R, integrand f x y s M)) := by
  have hG := integrand_continuous f hb s M
  have hm : ∀ n, 1 ≤ n → 1 ≤ (n + n % 2) / 2 := fun n h => by omega
  refine ⟨fun n => panels (fun x => panels (fun y => integrand f x y s M) 0 (R / (2 * ((n + n % 2) / 2) : ℕ)) ((n + n % 2) / 2)) 0
    (R / (2 * ((n + n % 2) / 2) : ℕ)) ((n + n % 2) / 2), fun n hn => ?_, ?_⟩
  · refine ⟨eqPts 0 (R / (2 * ((n + n % 2) / 2) : ℕ)) (2 * ((n + n % 2) / 2) + 1), ?_, ?_⟩
    · unfold ewaldRange eqPts
      rw [if_pos rfl]
      have e1 : n + 1 + n % 2 = 2 * ((n + n % 2) / 2) + 1 := by omega
      have e2 : n + 1 + n % 2 - 1 = 2 * ((n + n % 2) / 2) := by omega
      simp only [e2, sub_zero]
      rw [e1]
    · have hh : 0 < R / (2 * ((n + n % 2) / 2) : ℕ) := by
        have : 0 < ((2 * ((n + n % 2) / 2) : ℕ) : ℝ) := by exact_mod_cast (by omega : 0 < 2 * ((n + n % 2) / 2))
        positivity
      unfold ewaldIntegral
      beta_reduce
      generalize R / (2 * ((n + n % 2) / 2) : ℕ) = h at *
      generalize (n + n % 2) / 2 = m at *
      simp only [simpson_eq _ 0 hh m]
  · rw [C159_quarter f hb]
    refine Tendsto.const_mul 4 ?_
    rw [Metric.tendsto_atTop]
    intro ε hε
    obtain ⟨N, hN⟩ := simpson2_tendsto (fun x y => integrand f x y s M) hG hR (half_pos hε)
    refine ⟨2 * N + 2, fun n hn => ?_⟩
    have := hN ((n + n % 2) / 2) (by omega) (by omega) (R / (2 * ((n + n % 2) / 2) : ℕ)) (by rw [sub_zero])
    rw [Real.dist_eq]
    linarith

/-- C159: for every element 1-102, every displacement, reflection and voltage, the absorptive part that `scatter_factor_LVD` returns with
equidistant sampling of `[0, R]` tends, as the number of intervals grows, to the Bird-King integral over the square of half width `R`, damped and
scaled with the relativistic factor; `f` is the scattering factor that the same function returns with the convention "ITC". -/
theorem C159_converges (Z : ℤ) (h1 : 1 ≤ Z) (h2 : Z ≤ 102) (ret : String) (hret : ret ≠ "ITC") (σ V g base eps : ℝ) {R : ℝ} (hR : 0 < R) :
    ∃ f : ℝ → ℝ, (∀ s, ∃ out, scatterLVD lvdRow "ITC" [2 * s] [Z] [σ] [V] 1 (0, R) "linspace" base eps = some out ∧ (out.at_ 0 0 0).re = f s) ∧
      ∃ v : ℕ → ℝ, (∀ n, 1 ≤ n → ∃ out, scatterLVD lvdRow ret [g] [Z] [σ] [V] n (0, R) "linspace" base eps = some out ∧
          (out.at_ 0 0 0).re = f (g / 2) * exp (-(8 * π ^ 2 * σ ^ 2) * (g / 2) ^ 2) * (1 + V * 1.9569511835738734e-03) ∧
          (out.at_ 0 0 0).im = some (v n)) ∧
        Tendsto v atTop (𝓝 (2 * wavelength (1000 * V) * (1 + V * 1.9569511835738734e-03) ^ 2 * exp (-(8 * π ^ 2 * σ ^ 2) * (g / 2) ^ 2) *
          absorption f (g / 2) (8 * π ^ 2 * σ ^ 2) R)) := by
  have r1 := rowOf_lvd (n := 102) h1 (by exact_mod_cast h2)
  have hb : ∀ k, 0 ≤ (lvdRow (Z - 1).toNat).b k := fun k => (lvd_b_pos (by omega) k).le
  obtain ⟨w, hw, ht⟩ := ewald_tendsto (lvdRow (Z - 1).toNat) hb (g / 2) (σ ^ 2 * (8 * π ^ 2)) base eps hR
  refine ⟨evalLVD (lvdRow (Z - 1).toNat), fun s => ?_, fun n => 4 * π * (4 * w n * exp (-(σ ^ 2 * (8 * π ^ 2)) * (g / 2) ^ 2)) *
    ((1 + V * 1.9569511835738734e-03) ^ 2 / (2 * π / wavelength (1000 * V))), fun n hn => ?_, ?_⟩
  · unfold scatterLVD
    refine ⟨_, by rw [if_neg (by simp [r1]), if_neg (by simp)]; simp only [if_true]; rfl, ?_⟩
    simp only [List.getD_cons_zero, r1, Option.getD_some]
    congr 1
    ring
  · obtain ⟨xs, hx, hv⟩ := hw n hn
    unfold scatterLVD
    refine ⟨_, by rw [if_neg (by simp [r1]), if_neg (by simp)]; simp only [if_neg hret, hx, Option.bind_some]; rw [if_neg (by simp)], ?_, ?_⟩
    · simp only [List.getD_cons_zero, r1, Option.getD_some]
      rw [mul_comm (8 * π ^ 2) (σ ^ 2)]
    · simp only [List.getD_cons_zero, r1, Option.getD_some, hv, List.length_singleton, if_true, Option.map_some]
  · have e : (fun n => 4 * π * (4 * w n * exp (-(σ ^ 2 * (8 * π ^ 2)) * (g / 2) ^ 2)) *
        ((1 + V * 1.9569511835738734e-03) ^ 2 / (2 * π / wavelength (1000 * V)))) = fun n =>
        (2 * wavelength (1000 * V) * (1 + V * 1.9569511835738734e-03) ^ 2 * exp (-(8 * π ^ 2 * σ ^ 2) * (g / 2) ^ 2)) * (4 * w n) := by
      funext n
      have hl : 0 < wavelength (1000 * V) := exp_pos _
      have hp := Real.pi_pos
      rw [mul_comm (8 * π ^ 2) (σ ^ 2)]
      field_simp
      ring
    rw [e]
    refine Tendsto.const_mul _ ?_
    have e2 : absorption (evalLVD (lvdRow (Z - 1).toNat)) (g / 2) (8 * π ^ 2 * σ ^ 2) R =
        ∫ x in (-R)..R, ∫ y in (-R)..R, integrand (lvdRow (Z - 1).toNat) x y (g / 2) (σ ^ 2 * (8 * π ^ 2)) := by
      unfold absorption integrand
      rw [mul_comm (8 * π ^ 2) (σ ^ 2)]
    rw [e2]
    exact ht

example : (1 : ℤ) ≤ 28 ∧ (28 : ℤ) ≤ 102 ∧ "EMsoft" ≠ "ITC" ∧ (0 : ℝ) < 20 := ⟨by norm_num, by norm_num, by decide, by norm_num⟩

end Verif.Scat
