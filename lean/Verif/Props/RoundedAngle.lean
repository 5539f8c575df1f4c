import Verif.Props.RoundedApply
import Verif.Props.Fz
/-! C140: angles between orientations in floating-point arithmetic. -/
open Quaternion
namespace Verif
open Spec

/-- the components of `q` are floating-point numbers -/
def RepQ (p : ℕ) (q : Q) : Prop := Rep p q.w ∧ Rep p q.x ∧ Rep p q.y ∧ Rep p q.z

/-! ### the square root of a rounded square -/

theorem sqrt_sq {p : ℕ} (hp : 2 ≤ p) {fl : ℝ → ℝ} (hfl : Nearest p fl) {w : ℝ} (hw : Rep p w) (h0 : 0 < w) : fl (√(fl (w * w))) = w := by
  obtain ⟨b1, b2⟩ := binade h0.ne'
  rw [abs_of_pos h0] at b1 b2
  generalize Int.log 2 w = k at b1 b2
  obtain ⟨M, hM⟩ := multiple_of_large (k := k - p + 1) hw (by
    rw [abs_of_pos h0, show (2 : ℝ) ^ (k - p + 1 - 1) * 2 ^ p = 2 ^ k by
      rw [← zpow_natCast, ← zpow_add₀ (by norm_num)]; congr 1; ring]
    exact b1)
  have hd0 : (0 : ℝ) < 2 ^ (k - p + 1) := zpow_pos (by norm_num) _
  have hk0 : (0 : ℝ) < 2 ^ k := zpow_pos (by norm_num) _
  have eK : (2 : ℝ) ^ k = 2 ^ (k - p + 1) * 2 ^ p / 2 := by
    rw [← zpow_natCast, ← zpow_add₀ (by norm_num), show k - p + 1 + p = k + 1 by ring, zpow_add₀ (by norm_num), zpow_one]
    ring
  have hMpos : (0 : ℝ) < M := by
    rw [hM] at h0
    exact (pos_iff_pos_of_mul_pos h0).mpr hd0
  have hMp : 0 < M := by exact_mod_cast hMpos
  have hMlt : M < 2 ^ p := by
    rw [zpow_add₀ (by norm_num), zpow_one, hM, eK] at b2
    have : (M : ℝ) < 2 ^ p := by
      by_contra hc
      push Not at hc
      nlinarith
    exact_mod_cast this
  have hMge : 2 ^ p ≤ 2 * M := by
    rw [hM, eK] at b1
    have : (2 : ℝ) ^ p ≤ 2 * M := by
      by_contra hc
      push Not at hc
      nlinarith
    exact_mod_cast this
  rcases hMge.eq_or_lt with he | hlt
  · -- a power of two
    have ew : w = 2 ^ k := by
      rw [hM, eK]
      have : (2 : ℝ) ^ p = 2 * M := by exact_mod_cast he
      rw [this]; ring
    have hr : Rep p (w * w) := ⟨1, 2 * k, by
      have : (2 : ℤ) ^ 1 ≤ 2 ^ p := pow_le_pow_right₀ (by norm_num) (by omega)
      rw [abs_one]; linarith, by
      rw [ew, two_mul, zpow_add₀ (by norm_num)]; norm_num⟩
    rw [hfl.of_rep hr, Real.sqrt_mul_self h0.le, hfl.of_rep hw]
  · have hu0 : (0 : ℝ) < (2 ^ p)⁻¹ := by positivity
    have herr : |fl (w * w) - w * w| ≤ (2 ^ p)⁻¹ * |w * w| := hfl.err (by omega) _
    rw [abs_of_pos (mul_pos h0 h0)] at herr
    have hhalf : (2 : ℝ) ^ (k - p + 1) / 2 = 2 ^ k * (2 ^ p)⁻¹ := by rw [eK]; field_simp
    have hup : w ≤ 2 ^ k * (2 - 2 * (2 ^ p)⁻¹) := by
      have h1 : (M : ℝ) ≤ 2 ^ p - 1 := by
        have : M ≤ 2 ^ p - 1 := by omega
        exact_mod_cast this
      rw [hM, eK]
      have e : (2 : ℝ) ^ (k - p + 1) * 2 ^ p / 2 * (2 - 2 * (2 ^ p)⁻¹) = (2 ^ p - 1) * 2 ^ (k - p + 1) := by
        field_simp
      rw [e]
      exact mul_le_mul_of_nonneg_right h1 hd0.le
    have hsm : ((2 : ℝ) ^ p)⁻¹ ≤ 1 / 4 := by
      rw [one_div]
      apply inv_anti₀ (by norm_num)
      calc (4 : ℝ) = 2 ^ 2 := by norm_num
        _ ≤ 2 ^ p := pow_le_pow_right₀ (by norm_num) hp
    rw [abs_le] at herr
    have hF : 0 ≤ fl (w * w) := by
      have := mul_pos h0 h0
      nlinarith
    have := hfl.eval (x := √(fl (w * w))) (m := M) (e := k - p + 1) (by rwa [abs_of_pos hMp]) (by rwa [abs_of_pos hMp]) (by
      rw [← hM, hhalf]
      generalize ((2 : ℝ) ^ p)⁻¹ = u at *
      generalize (2 : ℝ) ^ k = K at *
      rw [abs_lt]
      constructor
      · -- below
        have : w - K * u < √(fl (w * w)) := by
          apply Real.lt_sqrt_of_sq_lt
          have hb : (w - K) * (w - K) ≤ (K * (1 - 2 * u)) * (K * (1 - 2 * u)) :=
            mul_self_le_mul_self (by linarith) (by linarith)
          have hK2 : 0 < K * K * u := by positivity
          have hfin : u * (w * w) < 2 * w * (K * u) - (K * u) ^ 2 := by
            have h1 : w * w < 2 * w * K - K * K * u := by nlinarith
            nlinarith
          nlinarith [herr.1]
        linarith
      · have : √(fl (w * w)) < w + K * u := by
          rw [Real.sqrt_lt' (by positivity)]
          have : u * (w * w) < 2 * w * (K * u) := by
            have h1 : w < 2 * K := by nlinarith
            have h2 : 0 < u * w := by positivity
            nlinarith
          nlinarith [herr.2, sq_nonneg (K * u)]
        linarith)
    rw [this, ← hM]

theorem Spec.Rep.abs {p : ℕ} {x : ℝ} (h : Rep p x) : Rep p |x| := by
  rcases abs_choice x with e | e <;> rw [e]
  · exact h
  · exact h.neg

theorem Spec.Nearest.nonneg {p : ℕ} {fl : ℝ → ℝ} (hfl : Nearest p fl) {x : ℝ} (h : 0 ≤ x) : 0 ≤ fl x := by
  have := hfl.mono h
  rwa [hfl.zero] at this

/-- the norm computed by `qu_norm` is at least the absolute value of the scalar part -/
theorem norm_ge {p : ℕ} (hp : 2 ≤ p) {fl : ℝ → ℝ} (hfl : Nearest p fl) (q : Q) (hw : Rep p q.w) :
    |q.w| ≤ rNormVal fl q := by
  unfold rNormVal
  have grow : ∀ a b : ℝ, 0 ≤ b → Rep p a → a ≤ fl (a + b) := by
    intro a b hb ha
    have := hfl.mono (show a ≤ a + b by linarith)
    rwa [hfl.of_rep ha] at this
  have n : ∀ x : ℝ, 0 ≤ fl (x * x) := fun x => hfl.nonneg (mul_self_nonneg x)
  have hS : fl (q.w * q.w) ≤ rSum4 fl (fl (q.w * q.w)) (fl (q.x * q.x)) (fl (q.y * q.y)) (fl (q.z * q.z)) := by
    unfold rSum4
    refine (grow _ _ (n q.x) (hfl.rep _)).trans ((grow _ _ (n q.y) (hfl.rep _)).trans (grow _ _ (n q.z) (hfl.rep _)))
  by_cases h0 : q.w = 0
  · rw [h0, abs_zero]; exact hfl.nonneg (Real.sqrt_nonneg _)
  · have h1 := sqrt_sq hp hfl (hw.abs) (abs_pos.mpr h0)
    rw [abs_mul_abs_self] at h1
    rw [← h1]
    exact hfl.mono (Real.sqrt_le_sqrt hS)

theorem std_w (q : Q) : (quStd q).w = |q.w| := by
  unfold quStd
  split_ifs with h
  · rw [abs_of_nonneg h]
  · rw [abs_of_neg (not_le.mp h)]; rfl

/-- The scalar part after `qu_norm_std` lies between 0 and 1. -/
theorem normStd_w {p : ℕ} (hp : 2 ≤ p) {fl : ℝ → ℝ} (hfl : Nearest p fl) (q : Q) (hw : Rep p q.w) :
    0 ≤ (rNormStd fl q).w ∧ (rNormStd fl q).w ≤ 1 := by
  unfold rNormStd
  rw [std_w]
  refine ⟨abs_nonneg _, ?_⟩
  unfold rNorm
  dsimp only
  have h := norm_ge hp hfl q hw
  generalize rNormVal fl q = n at h ⊢
  have hn : 0 ≤ n := (abs_nonneg _).trans h
  have hq : |q.w / n| ≤ 1 := by
    rw [abs_div, abs_of_nonneg hn]
    exact div_le_one_of_le₀ h hn
  rw [abs_le] at hq ⊢
  have h1 := hfl.one (by omega)
  have h2 : fl (-1) = -1 := hfl.of_rep (Rep.one (by omega)).neg
  constructor
  · rw [← h2]; exact hfl.mono hq.1
  · rw [← h1]; exact hfl.mono hq.2

theorem Rep.std {p : ℕ} {fl : ℝ → ℝ} (hfl : Nearest p fl) (a b : Q) : Rep p (rProd fl a b).w := by
  unfold rProd
  rw [std_w]
  exact (hfl.rep _).abs

/-- the table of `laue_elements` evaluated in double precision: every entry is right to four roundings, 0 and 1 are exact -/
structure TableOk (tab : ℝ → ℝ) : Prop where
  err : ∀ x, |tab x - x| ≤ (2 ^ 51)⁻¹ * |x|
  one : tab 1 = 1

theorem TableOk.zero {tab : ℝ → ℝ} (h : TableOk tab) : tab 0 = 0 := by
  have := h.err 0
  simpa using this

/-- the entry of the converted table -/
def tabQ (fl tab : ℝ → ℝ) (g : Q) : Q := ⟨fl (tab g.w), fl (tab g.x), fl (tab g.y), fl (tab g.z)⟩

theorem rLaue_eq (fl tab : ℝ → ℝ) {id : ℤ} {G : List Q} (h : laueElements id = some G) :
    rLaueElements fl tab id = some (G.map (tabQ fl tab)) := by
  unfold rLaueElements; rw [h]; rfl

theorem small53 {p : ℕ} (h : p ≤ 53) : ((2 : ℝ) ^ 51)⁻¹ ≤ 4 * (2 ^ p)⁻¹ := by
  have h1 : (2 : ℝ) ^ p ≤ 2 ^ 53 := pow_le_pow_right₀ (by norm_num) h
  have h2 : ((2 : ℝ) ^ 53)⁻¹ ≤ (2 ^ p)⁻¹ := inv_anti₀ (by positivity) h1
  have : ((2 : ℝ) ^ 51)⁻¹ = 4 * (2 ^ 53)⁻¹ := by norm_num
  linarith

/-- the converted table of a unit quaternion is right to `5.02 u` -/
theorem tab_err {p : ℕ} (hp : 8 ≤ p) (hp' : p ≤ 53) {fl tab : ℝ → ℝ} (hfl : Nearest p fl) (ht : TableOk tab) {g : Q} (hg : IsUnit4 g) :
    ‖toH (tabQ fl tab g) - toH g‖ ≤ 5.02 * (2 ^ p)⁻¹ := by
  have hE : Err (2 ^ p)⁻¹ fl := hfl.err (by omega)
  have hu : (0 : ℝ) ≤ (2 ^ p)⁻¹ := by positivity
  have hs := small_u hp
  have h4 := small53 hp'
  have ht := ht.err
  generalize ((2 : ℝ) ^ 51)⁻¹ = v at *
  generalize ((2 : ℝ) ^ p)⁻¹ = u at *
  have hc : ∀ c : ℝ, |fl (tab c) - c| ≤ 5.02 * u * |c| := by
    intro c
    have h1 := hE (tab c)
    have h2 := ht c
    have hc := abs_nonneg c
    have h3 : v * |c| ≤ 4 * u * |c| := mul_le_mul_of_nonneg_right h4 hc
    have h5 : |tab c| ≤ (1 + 4 * u) * |c| := by
      have := abs_sub_abs_le_abs_sub (tab c) c
      linarith
    have h6 : u * |tab c| ≤ u * ((1 + 4 * u) * |c|) := mul_le_mul_of_nonneg_left h5 hu
    have h7 := abs_sub_le (fl (tab c)) (tab c) c
    have h8 : u * u * |c| ≤ u * |c| * (1 / 256) := by
      have := mul_le_mul_of_nonneg_left hs (mul_nonneg hu hc)
      linarith
    have : 0 ≤ u * |c| := by positivity
    norm_num at h1 h2 h3 h6 h7 h8 ⊢
    linarith
  have e : ‖toH (tabQ fl tab g) - toH g‖ ^ 2 ≤ (5.02 * u) ^ 2 := by
    rw [pow_two, ← Quaternion.normSq_eq_norm_mul_self, Quaternion.normSq_def']
    simp only [Quaternion.re_sub, Quaternion.imI_sub, Quaternion.imJ_sub, Quaternion.imK_sub]
    have sq : ∀ c : ℝ, (fl (tab c) - c) ^ 2 ≤ (5.02 * u) ^ 2 * c ^ 2 := by
      intro c
      have := pow_le_pow_left₀ (abs_nonneg _) (hc c) 2
      rwa [sq_abs, mul_pow, sq_abs] at this
    have hw := sq g.w
    have hx := sq g.x
    have hy := sq g.y
    have hz := sq g.z
    unfold IsUnit4 at hg
    have : (5.02 * u) ^ 2 = (5.02 * u) ^ 2 * (g.w ^ 2 + g.x ^ 2 + g.y ^ 2 + g.z ^ 2) := by rw [hg, mul_one]
    rw [this]
    simp only [toH, tabQ] at hw hx hy hz ⊢
    linarith
  exact (abs_le_of_sq_le_sq' e (by positivity)).2

theorem unitH_norm {g : Q} (hg : IsUnit4 g) : ‖toH g‖ = 1 := by
  rw [norm_toH, hg, Real.sqrt_one]

theorem tab_norm {u : ℝ} (hs : u ≤ 1 / 256) {fl tab : ℝ → ℝ} {g : Q} (hg : IsUnit4 g) (h : ‖toH (tabQ fl tab g) - toH g‖ ≤ 5.02 * u) :
    ‖toH (tabQ fl tab g)‖ ≤ 1.02 := by
  have h1 := norm_le_norm_add_norm_sub (toH g) (toH (tabQ fl tab g))
  rw [unitH_norm hg, norm_sub_rev] at h1
  norm_num at h h1 ⊢; linarith

/-- the rounded product of a quaternion and an entry of the converted table -/
theorem prod_tab {p : ℕ} (hp : 8 ≤ p) (hp' : p ≤ 53) {fl tab : ℝ → ℝ} (hfl : Nearest p fl) (ht : TableOk tab) (q : Q) {g : Q}
    (hg : IsUnit4 g) :
    ‖toH (rProdRaw fl q (tabQ fl tab g)) - toH q * toH g‖ ≤ 14 * (2 ^ p)⁻¹ * ‖toH q‖ ∧
    abs (rProdPosReal fl q (tabQ fl tab g) - |(toH q * toH g).re|) ≤ 10 * (2 ^ p)⁻¹ * ‖toH q‖ := by
  have hE : Err (2 ^ p)⁻¹ fl := hfl.err (by omega)
  have hu : (0 : ℝ) ≤ (2 ^ p)⁻¹ := by positivity
  have hs := small_u hp
  have htab := tab_err hp hp' hfl ht hg
  generalize ((2 : ℝ) ^ p)⁻¹ = u at *
  have hn := tab_norm hs hg htab
  have hgam := gamma_le hu hs
  have hgam0 : 0 ≤ (1 + u) ^ 4 - 1 := by
    have : 1 ≤ (1 + u) ^ 4 := one_le_pow₀ (by linarith)
    linarith
  have hq := norm_nonneg (toH q)
  have h1 := prod_err hu hE q (tabQ fl tab g)
  have h2 := prod_w_err hu hE q (tabQ fl tab g)
  have hb : ((1 + u) ^ 4 - 1) * (‖toH q‖ * ‖toH (tabQ fl tab g)‖) ≤ 4.03 * u * (‖toH q‖ * 1.02) :=
    mul_le_mul hgam (mul_le_mul_of_nonneg_left hn hq) (by positivity) (by positivity)
  have h3 : ‖toH q * toH (tabQ fl tab g) - toH q * toH g‖ ≤ ‖toH q‖ * (5.02 * u) := by
    rw [← mul_sub, norm_mul]
    exact mul_le_mul_of_nonneg_left htab hq
  have huq : 0 ≤ u * ‖toH q‖ := by positivity
  constructor
  · have h4 := norm_sub_le_norm_sub_add_norm_sub (toH (rProdRaw fl q (tabQ fl tab g))) (toH q * toH (tabQ fl tab g)) (toH q * toH g)
    norm_num at hb h3 h1 h4 ⊢
    linarith
  · have h5 := (comp_le_norm (toH q * toH (tabQ fl tab g) - toH q * toH g)).2.2.2
    rw [Quaternion.re_sub] at h5
    have h6 := abs_sub_le (rProdRaw fl q (tabQ fl tab g)).w (toH q * toH (tabQ fl tab g)).re (toH q * toH g).re
    have h7 : rProdPosReal fl q (tabQ fl tab g) = |(rProdRaw fl q (tabQ fl tab g)).w| := rfl
    have h8 := abs_abs_sub_abs_le (rProdRaw fl q (tabQ fl tab g)).w (toH q * toH g).re
    rw [h7]
    norm_num at hb h3 h2 h5 h6 h8 ⊢
    linarith

theorem neg_mem_rot {n : ℕ} (h1 : 1 ≤ n) (h2 : n ≤ 11) {g : ℍ[ℝ]} (hg : g ∈ laueRotations n) : -g ∈ laueRotations n :=
  mem_of_same h1 h2 (Or.inr rfl) hg

/-- C141: `ori_to_fz_laue` in floating-point arithmetic (half to double precision, any nearest rounding): the call succeeds, the result
is a symmetric equivalent of the input up to `14 * 2^-p` of its length, its scalar part is not negative, and no symmetric equivalent
exceeds its scalar part by more than `10 * 2^-p` of that length (it is the one nearest to the identity up to rounding). -/
theorem C141_reduce {p : ℕ} (hp : 8 ≤ p) (hp' : p ≤ 53) {fl tab : ℝ → ℝ} (hfl : Nearest p fl) (ht : TableOk tab) (q : Q) (n : ℕ)
    (h1 : 1 ≤ n) (h2 : n ≤ 11) :
    ∃ r, rOriToFz fl tab q n = some r ∧ RepQ p r ∧ 0 ≤ r.w ∧
      (∃ g ∈ laueRotations n, ‖toH r - toH q * g‖ ≤ 14 * (2 ^ p)⁻¹ * ‖toH q‖) ∧
      (∀ h ∈ laueRotations n, |(toH q * h).re| ≤ r.w + 10 * (2 ^ p)⁻¹ * ‖toH q‖) := by
  obtain ⟨l, _, _, he⟩ := laueElements_some n h1 h2
  obtain ⟨m, hm, hlen⟩ := laueMult_len h1 h2 he
  obtain ⟨t, htl⟩ := laue_ne_nil h1 h2 he
  have hunit := (rotGroup_laue h1 h2 he).unit
  set G := l.map XQ.toQ with hG
  set G' := G.map (tabQ fl tab) with hG'
  have hne : G'.map (rProdPosReal fl q) ≠ [] := by rw [hG', htl]; simp
  have hlt := argmaxFirst_lt hne
  have hmax := argmaxFirst_max hlt
  have hlt' : argmaxFirst (G'.map (rProdPosReal fl q)) < G'.length := by simpa using hlt
  have hr : rOriToFz fl tab q n = some (rProd fl q G'[argmaxFirst (G'.map (rProdPosReal fl q))]) := by
    unfold rOriToFz
    rw [hm, rLaue_eq fl tab he]
    have hlen' : G'.length = m / 2 := by rw [hG', List.length_map]; exact hlen
    simp only [Option.bind_eq_bind, Option.bind_some]
    rw [if_pos hlen', List.getElem?_eq_getElem hlt']
    rfl
  rw [List.getElem_map] at hmax
  obtain ⟨g, hg, hgk⟩ := List.mem_map.mp (List.getElem_mem hlt')
  rw [← hgk] at hr hmax
  refine ⟨_, hr, ?_, ?_, ?_, ?_⟩
  · unfold rProd quStd
    split_ifs
    · exact ⟨hfl.rep _, hfl.rep _, hfl.rep _, hfl.rep _⟩
    · exact ⟨(hfl.rep _).neg, (hfl.rep _).neg, (hfl.rep _).neg, (hfl.rep _).neg⟩
  · unfold rProd; rw [std_w]; exact abs_nonneg _
  · obtain ⟨s, hs, e⟩ := std_sign (rProdRaw fl q (tabQ fl tab g))
    have hp1 := (prod_tab hp hp' hfl ht q (hunit g hg)).1
    have hgm := mem_rot h1 h2 he hg
    refine ⟨s • toH g, ?_, ?_⟩
    · rcases hs with rfl | rfl
      · rwa [one_smul]
      · rw [neg_smul, one_smul]; exact neg_mem_rot h1 h2 hgm
    · unfold rProd
      rw [e, mul_smul_comm, ← smul_sub, norm_smul, sign_norm hs, one_mul]
      exact hp1
  · intro h hh
    rw [gen_laue h1 h2 he] at hh
    obtain ⟨g', hg', hs'⟩ := hh
    have e1 : |(toH q * h).re| = |(toH q * toH g').re| := (SameUpToSign.mul_left _ hs').abs_re
    have hp2 := (abs_le.mp (prod_tab hp hp' hfl ht q (hunit g' hg')).2).1
    have hm2 := hmax _ (List.mem_map_of_mem (List.mem_map_of_mem hg'))
    have e2 : (rProd fl q (tabQ fl tab g)).w = rProdPosReal fl q (tabQ fl tab g) := by
      unfold rProd; rw [std_w]; rfl
    rw [e1, e2]
    linarith

end Verif
