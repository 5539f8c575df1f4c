import Verif.Props.S2ToFz
import Verif.Model.Color
import Verif.Spec.Color
/-!
C107: the colours of orientations.
-/
open Quaternion
namespace Verif.Color
open Spec Real Verif.S2

theorem trunc_fract {x : ℝ} (hx : 0 ≤ x) : x - MI.trunc x = Int.fract x := by
  unfold MI.trunc
  rw [if_pos hx]; rfl

theorem hue_range {th : ℝ} (h : 0 ≤ th) : 0 ≤ hueOf th ∧ hueOf th < 1 := by
  unfold hueOf
  have hpi := pi_pos
  dsimp only
  rw [trunc_fract (by positivity)]
  exact ⟨Int.fract_nonneg _, Int.fract_lt_one _⟩

theorem toByte_small {x : ℝ} (h0 : 0 ≤ x) (h1 : x ≤ 1) : ∃ n, toByte (x * 255) = some n ∧ n ≤ 255 ∧ (n : ℝ) ≤ x * 255 ∧
    x * 255 < n + 1 := by
  refine ⟨⌊x * 255⌋₊, ?_, ?_, Nat.floor_le (by positivity), Nat.lt_floor_add_one _⟩
  · unfold toByte
    rw [if_pos ⟨by linarith, by linarith⟩]
  · have : (⌊x * 255⌋₊ : ℝ) ≤ x * 255 := Nat.floor_le (by positivity)
    have : (⌊x * 255⌋₊ : ℝ) ≤ 255 := by linarith
    exact_mod_cast this

/-- the six sextants of the hue circle -/
theorem channels_cases {h : ℝ} (s l : ℝ) (h0 : 0 ≤ h) (h1 : h < 1) :
    ∃ f : ℝ, 0 ≤ f ∧ f < 1 ∧
      ∀ s2 v, s2 = s * (if l * 2 ≤ 1 then l * 2 else 2 - l * 2) → v = (l * 2 + s2) / 2 →
        (h * 6 = f ∧ channels h s l = (v, v * (1 - s2 * (1 - f)), v * (1 - s2))) ∨
        (h * 6 = 1 + f ∧ channels h s l = (v * (1 - s2 * f), v, v * (1 - s2))) ∨
        (h * 6 = 2 + f ∧ channels h s l = (v * (1 - s2), v, v * (1 - s2 * (1 - f)))) ∨
        (h * 6 = 3 + f ∧ channels h s l = (v * (1 - s2), v * (1 - s2 * f), v)) ∨
        (h * 6 = 4 + f ∧ channels h s l = (v * (1 - s2 * (1 - f)), v * (1 - s2), v)) ∨
        (h * 6 = 5 + f ∧ channels h s l = (v, v * (1 - s2), v * (1 - s2 * f))) := by
  have hf0 : 0 ≤ ⌊h * 6⌋ := Int.floor_nonneg.mpr (by linarith)
  have hf6 : ⌊h * 6⌋ < 6 := by
    rw [Int.floor_lt]; push_cast; linarith
  obtain ⟨i, hi⟩ := Int.eq_ofNat_of_zero_le hf0
  have hi6 : i < 6 := by omega
  refine ⟨h * 6 - i, ?_, ?_, ?_⟩
  · have := Int.floor_le (h * 6)
    rw [hi] at this; push_cast at this; linarith
  · have := Int.lt_floor_add_one (h * 6)
    rw [hi] at this; push_cast at this; linarith
  · rintro s2 v rfl rfl
    have hb : toByte ((⌊h * 6⌋ : ℤ) : ℝ) = some i := by
      rw [hi]
      unfold toByte
      have : (i : ℝ) < 6 := by exact_mod_cast hi6
      have h0 : (0 : ℝ) ≤ i := Nat.cast_nonneg _
      rw [if_pos ⟨by push_cast; linarith, by push_cast; linarith⟩]
      simp
    unfold channels
    simp only [hb]
    rw [hi]
    interval_cases i
    · left; exact ⟨by simp, by simp⟩
    · right; left; exact ⟨by push_cast; ring, by simp⟩
    · right; right; left; exact ⟨by push_cast; ring, by simp⟩
    · right; right; right; left; exact ⟨by push_cast; ring, by simp⟩
    · right; right; right; right; left; exact ⟨by push_cast; ring, by simp⟩
    · right; right; right; right; right; exact ⟨by push_cast; ring, by simp⟩

/-- C107: with lightness in [0, 1] no channel leaves the range of a byte, and the brightest channel of the colour is
`min(2 l, 1)` times 255. -/
theorem C107_bytes (d : V) (h0 : 0 ≤ atan2 d.y d.x) (h1 : atan2 d.y d.x ≤ 1) :
    ∃ r g b : ℕ, colorOf d = (some r, some g, some b) ∧ r ≤ 255 ∧ g ≤ 255 ∧ b ≤ 255 ∧
      max r (max g b) = ⌊min (2 * atan2 d.y d.x) 1 * 255⌋₊ := by
  set l := atan2 d.y d.x with hl
  have hth : 0 ≤ atan2 (Real.sqrt (d.x ^ 2 + d.y ^ 2)) d.z := atan2_nonneg (Real.sqrt_nonneg _)
  obtain ⟨hh0, hh1⟩ := hue_range hth
  obtain ⟨f, f0, f1, hc⟩ := channels_cases 1 l hh0 hh1
  set s2 : ℝ := 1 * (if l * 2 ≤ 1 then l * 2 else 2 - l * 2) with hs2
  have hs : 0 ≤ s2 ∧ s2 ≤ 1 ∧ (l * 2 + s2) / 2 = min (2 * l) 1 := by
    by_cases h : l * 2 ≤ 1
    · rw [hs2, if_pos h, min_eq_left (by linarith)]
      exact ⟨by linarith, by linarith, by ring⟩
    · rw [hs2, if_neg h, min_eq_right (by linarith)]
      exact ⟨by linarith, by linarith, by ring⟩
  obtain ⟨s0, s1, hv⟩ := hs
  have hc := hc s2 (min (2 * l) 1) rfl hv.symm
  set v := min (2 * l) 1 with hvd
  have v0 : 0 ≤ v := by rw [hvd]; exact le_min (by linarith) (by norm_num)
  have v1 : v ≤ 1 := min_le_right _ _
  have u : ∀ w : ℝ, 0 ≤ w → w ≤ 1 → 0 ≤ v * (1 - s2 * w) ∧ v * (1 - s2 * w) ≤ v := by
    intro w w0 w1
    have k0 : 0 ≤ s2 * w := mul_nonneg s0 w0
    have k1 : s2 * w ≤ 1 := mul_le_one₀ s1 w0 w1
    exact ⟨mul_nonneg v0 (by linarith), mul_le_of_le_one_right v0 (by linarith)⟩
  obtain ⟨p0, p1⟩ := u 1 (by norm_num) le_rfl
  rw [mul_one] at p0 p1
  obtain ⟨q0, q1⟩ := u f f0 f1.le
  obtain ⟨t0, t1⟩ := u (1 - f) (by linarith) (by linarith)
  have by_ : ∀ x : ℝ, 0 ≤ x → x ≤ v → toByte (x * 255) = some ⌊x * 255⌋₊ ∧ ⌊x * 255⌋₊ ≤ 255 ∧ ⌊x * 255⌋₊ ≤ ⌊v * 255⌋₊ := by
    intro x x0 x1
    refine ⟨?_, ?_, Nat.floor_le_floor (by linarith)⟩
    · unfold toByte; rw [if_pos ⟨by linarith, by linarith⟩]
    · have : (⌊x * 255⌋₊ : ℝ) ≤ x * 255 := Nat.floor_le (by positivity)
      have : (⌊x * 255⌋₊ : ℝ) ≤ 255 := by linarith
      exact_mod_cast this
  obtain ⟨v2, v3, v4⟩ := by_ v v0 le_rfl
  obtain ⟨p2, p3, p4⟩ := by_ _ p0 p1
  obtain ⟨q2, q3, q4⟩ := by_ _ q0 q1
  obtain ⟨t2, t3, t4⟩ := by_ _ t0 t1
  unfold colorOf xyzToThetaPhi
  simp only [← hl]
  rcases hc with ⟨-, e⟩ | ⟨-, e⟩ | ⟨-, e⟩ | ⟨-, e⟩ | ⟨-, e⟩ | ⟨-, e⟩ <;> rw [e] <;> dsimp only <;> rw [v2, p2] <;> first
    | (rw [t2]; exact ⟨_, _, _, rfl, by omega, by omega, by omega, by omega⟩)
    | (rw [q2]; exact ⟨_, _, _, rfl, by omega, by omega, by omega, by omega⟩)

/-- C107: in the upper half of the lightness range the stored channels are those of the HSL colour with hue
`(2 θ + 1/2) / 2π`, saturation 1 and lightness `φ`. -/
theorem C107_hsl_partial (h l : ℝ) (h0 : 0 ≤ h) (h1 : h < 1) (l0 : 1 / 2 ≤ l) (l1 : l ≤ 1) :
    channels h 1 l = hslToRgb h 1 l := by
  obtain ⟨f, f0, f1, hc⟩ := channels_cases 1 l h0 h1
  have hs : (1 : ℝ) * (if l * 2 ≤ 1 then l * 2 else 2 - l * 2) = 2 - l * 2 := by
    by_cases h : l * 2 ≤ 1
    · rw [if_pos h]; linarith
    · rw [if_neg h]; ring
  have hc := hc (2 - l * 2) 1 hs.symm (by ring)
  have hm : min l (1 - l) = 1 - l := min_eq_right (by linarith)
  have fr : ∀ (n : ℝ) (j : ℤ) (r : ℝ), (n + 12 * h) / 12 = j + r → 0 ≤ r → r < 1 →
      hslChannel n h 1 l = l - (1 - l) * max (-1) (min (12 * r - 3) (min (9 - 12 * r) 1)) := by
    intro n j r e r0 r1
    unfold hslChannel
    dsimp only
    rw [e, Int.fract_intCast_add, Int.fract_eq_self.mpr ⟨r0, r1⟩, hm, one_mul]
  have hi1 : max (-1 : ℝ) 1 = 1 := by norm_num
  have up : ∀ k : ℝ, k ≤ 2 → max (-1) (min (k - 3) (min (9 - k) 1)) = -1 := by
    intro k hk
    rw [min_eq_left (le_min (by linarith) (by linarith)), max_eq_left (by linarith)]
  have up2 : ∀ k : ℝ, 10 ≤ k → max (-1) (min (k - 3) (min (9 - k) 1)) = -1 := by
    intro k hk
    rw [min_eq_left (show 9 - k ≤ 1 by linarith), min_eq_right (by linarith), max_eq_left (by linarith)]
  have mid : ∀ k : ℝ, 4 ≤ k → k ≤ 8 → max (-1) (min (k - 3) (min (9 - k) 1)) = 1 := by
    intro k hk hk2
    rw [min_eq_right (show (1:ℝ) ≤ 9 - k by linarith), min_eq_right (by linarith), hi1]
  have inc : ∀ k : ℝ, 2 ≤ k → k ≤ 4 → max (-1) (min (k - 3) (min (9 - k) 1)) = k - 3 := by
    intro k hk hk2
    rw [min_eq_left (le_min (by linarith) (by linarith)), max_eq_right (by linarith)]
  have dec : ∀ k : ℝ, 8 ≤ k → k ≤ 10 → max (-1) (min (k - 3) (min (9 - k) 1)) = 9 - k := by
    intro k hk hk2
    rw [min_eq_left (show 9 - k ≤ 1 by linarith), min_eq_right (by linarith), max_eq_right (by linarith)]
  unfold hslToRgb
  rcases hc with ⟨h6, e⟩ | ⟨h6, e⟩ | ⟨h6, e⟩ | ⟨h6, e⟩ | ⟨h6, e⟩ | ⟨h6, e⟩ <;> rw [e] <;>
    have h12 : 12 * h = 2 * (h * 6) := by ring
  all_goals rw [h6] at h12
  · rw [fr 0 0 (2 * f / 12) (by rw [h12]; push_cast; ring) (by linarith) (by linarith),
      fr 8 0 ((8 + 2 * f) / 12) (by rw [h12]; push_cast; ring) (by linarith) (by linarith),
      fr 4 0 ((4 + 2 * f) / 12) (by rw [h12]; push_cast; ring) (by linarith) (by linarith),
      up _ (by linarith), dec _ (by linarith) (by linarith), mid _ (by linarith) (by linarith)]
    ext <;> dsimp only <;> ring
  · rw [fr 0 0 ((2 + 2 * f) / 12) (by rw [h12]; push_cast; ring) (by linarith) (by linarith),
      fr 8 0 ((10 + 2 * f) / 12) (by rw [h12]; push_cast; ring) (by linarith) (by linarith),
      fr 4 0 ((6 + 2 * f) / 12) (by rw [h12]; push_cast; ring) (by linarith) (by linarith),
      inc _ (by linarith) (by linarith), up2 _ (by linarith), mid _ (by linarith) (by linarith)]
    ext <;> dsimp only <;> ring
  · rw [fr 0 0 ((4 + 2 * f) / 12) (by rw [h12]; push_cast; ring) (by linarith) (by linarith),
      fr 8 1 ((2 * f) / 12) (by rw [h12]; push_cast; ring) (by linarith) (by linarith),
      fr 4 0 ((8 + 2 * f) / 12) (by rw [h12]; push_cast; ring) (by linarith) (by linarith),
      mid _ (by linarith) (by linarith), up _ (by linarith), dec _ (by linarith) (by linarith)]
    ext <;> dsimp only <;> ring
  · rw [fr 0 0 ((6 + 2 * f) / 12) (by rw [h12]; push_cast; ring) (by linarith) (by linarith),
      fr 8 1 ((2 + 2 * f) / 12) (by rw [h12]; push_cast; ring) (by linarith) (by linarith),
      fr 4 0 ((10 + 2 * f) / 12) (by rw [h12]; push_cast; ring) (by linarith) (by linarith),
      mid _ (by linarith) (by linarith), inc _ (by linarith) (by linarith), up2 _ (by linarith)]
    ext <;> dsimp only <;> ring
  · rw [fr 0 0 ((8 + 2 * f) / 12) (by rw [h12]; push_cast; ring) (by linarith) (by linarith),
      fr 8 1 ((4 + 2 * f) / 12) (by rw [h12]; push_cast; ring) (by linarith) (by linarith),
      fr 4 1 ((2 * f) / 12) (by rw [h12]; push_cast; ring) (by linarith) (by linarith),
      dec _ (by linarith) (by linarith), mid _ (by linarith) (by linarith), up _ (by linarith)]
    ext <;> dsimp only <;> ring
  · rw [fr 0 0 ((10 + 2 * f) / 12) (by rw [h12]; push_cast; ring) (by linarith) (by linarith),
      fr 8 1 ((6 + 2 * f) / 12) (by rw [h12]; push_cast; ring) (by linarith) (by linarith),
      fr 4 1 ((2 + 2 * f) / 12) (by rw [h12]; push_cast; ring) (by linarith) (by linarith),
      up2 _ (by linarith), mid _ (by linarith) (by linarith), inc _ (by linarith) (by linarith)]
    ext <;> dsimp only <;> ring

example : (0 : ℝ) ≤ 1 / 3 ∧ (1 / 3 : ℝ) < 1 ∧ (1 / 2 : ℝ) ≤ 3 / 4 ∧ (3 / 4 : ℝ) ≤ 1 := by norm_num

/-- C107 fails below lightness ½: red (hue 0) at lightness ¼ is stored with green and blue at ¼ instead of 0, because the
chroma is used where the HSV saturation belongs. -/
theorem C107_hsl_fails : hslToRgb 0 1 (1 / 4) = (1 / 2, 0, 0) ∧ channels 0 1 (1 / 4) = (1 / 2, 1 / 4, 1 / 4) := by
  constructor
  · unfold hslToRgb hslChannel
    have f8 : Int.fract ((8 : ℝ) / 12) = 8 / 12 := Int.fract_eq_self.mpr (by norm_num)
    have f4 : Int.fract ((4 : ℝ) / 12) = 4 / 12 := Int.fract_eq_self.mpr (by norm_num)
    have f0 : Int.fract ((0 : ℝ) / 12) = 0 := by simp
    have m : min (1 / 4 : ℝ) (1 - 1 / 4) = 1 / 4 := by norm_num
    simp only [mul_zero, add_zero, f8, f4, f0, m]
    norm_num
  · unfold channels toByte
    norm_num

/-! ### symmetry -/

/-- C107, what holds: orientations that turn the reference direction into directions equivalent under the Laue class get the
same colours, row by row.  Assumed: every such direction has an equivalent more than `2 EPS` inside the sector. -/
theorem C107_direction_partial (n : ℕ) (h1 : 1 ≤ n) (h2 : n ≤ 11) (single : Bool) (ref : V) (qs qs' : List Q)
    (h : List.Forall₂ (fun q q' => ∃ d d' r : V, Rotates (toH q) ref d ∧ Rotates (toH q') ref d' ∧ IsUnit3 d ∧
      DirEquiv n d d' ∧ DirEquiv n d r ∧ Inside n (2 * s2Eps single) r) qs qs') :
    ∃ cs, oriColor (s2Eps single) qs ref n = some cs ∧ oriColor (s2Eps single) qs' ref n = some cs ∧
      cs.length = qs.length := by
  have key : ∃ rs : List V, List.Forall₂ (fun p r => IsUnit3 p ∧ DirEquiv n p r ∧ Inside n (2 * s2Eps single) r)
      (qs.map fun q => quApply q ref) rs ∧
      List.Forall₂ (fun p r => IsUnit3 p ∧ DirEquiv n p r ∧ Inside n (2 * s2Eps single) r)
      (qs'.map fun q => quApply q ref) rs := by
    induction h with
    | nil => exact ⟨[], List.Forall₂.nil, List.Forall₂.nil⟩
    | cons hd _ ih =>
      obtain ⟨rs, k1, k2⟩ := ih
      obtain ⟨d, d', r, e1, e2, hu, e3, e4, e5⟩ := hd
      rw [rotates_iff] at e1 e2
      subst e1 e2
      exact ⟨r :: rs, List.Forall₂.cons ⟨hu, e4, e5⟩ k1, List.Forall₂.cons
        ⟨dirEquiv_unit h1 h2 e3 hu, dirEquiv_trans (dirEquiv_symm h1 h2 e3) e4, e5⟩ k2⟩
  obtain ⟨rs, k1, k2⟩ := key
  refine ⟨rs.map colorOf, ?_, ?_, ?_⟩
  · unfold oriColor; rw [C88_to_fz_partial n h1 h2 single _ rs k1]; rfl
  · unfold oriColor; rw [C88_to_fz_partial n h1 h2 single _ rs k2]; rfl
  · have := k1.length_eq
    rw [List.length_map] at this ⊢
    exact this.symm

/-- C107, what holds: multiplying orientations from the left by rotations of the class does not change the colours. -/
theorem C107_left_partial (n : ℕ) (h1 : 1 ≤ n) (h2 : n ≤ 11) (single : Bool) (ref : V) (hr : IsUnit3 ref) (qs qs' : List Q)
    (h : List.Forall₂ (fun q q' => IsUnit4 q ∧ (∃ g ∈ laueRotations n, toH q' = g * toH q) ∧
      ∃ d r, Rotates (toH q) ref d ∧ DirEquiv n d r ∧ Inside n (2 * s2Eps single) r) qs qs') :
    ∃ cs, oriColor (s2Eps single) qs ref n = some cs ∧ oriColor (s2Eps single) qs' ref n = some cs ∧
      cs.length = qs.length := by
  refine C107_direction_partial n h1 h2 single ref qs qs' (h.imp ?_)
  rintro q q' ⟨hq, ⟨g, hg, e⟩, d, r, hd, hdr, hi⟩
  have hdd := (rotates_iff q ref d).mp hd
  have hd' := (rotates_iff q' ref (quApply q' ref)).mpr rfl
  have hu : IsUnit3 d := by
    rw [hdd]
    have := hq
    unfold IsUnit3 IsUnit4 at *
    simp only [quApply]
    generalize q.w = w, q.x = x, q.y = y, q.z = z at *
    generalize ref.x = a, ref.y = b, ref.z = c at *
    have e : ∀ s : ℝ, w ^ 2 + x ^ 2 + y ^ 2 + z ^ 2 = s → a ^ 2 + b ^ 2 + c ^ 2 = 1 → s = 1 → s ^ 2 * (a ^ 2 + b ^ 2 + c ^ 2) = 1 := by
      intro s _ h1 h2; rw [h1, h2]; norm_num
    have := e _ rfl hr this
    linear_combination this
  refine ⟨d, quApply q' ref, r, hd, hd', hu, ⟨g, hg, quApply q' ref, ?_, Or.inl rfl⟩, hdr, hi⟩
  unfold Rotates at *
  rw [← hd', e, ← hd, star_mul]
  simp only [mul_assoc]

/-- the orientation used below: it turns x, y into (4, 7, 4)/9 and (1, 4, -8)/9 -/
noncomputable def qEx : Q := ⟨Real.sqrt 2 / 2, -(Real.sqrt 2 / 3), -(Real.sqrt 2 / 3), Real.sqrt 2 / 6⟩

theorem qEx_x : quApply qEx ⟨1, 0, 0⟩ = ⟨4 / 9, 7 / 9, 4 / 9⟩ := by
  have h := Real.mul_self_sqrt (show (0 : ℝ) ≤ 2 by norm_num)
  ext <;> simp only [quApply, qEx] <;> linarith

theorem qEx_y : quApply qEx ⟨0, 1, 0⟩ = ⟨1 / 9, 4 / 9, -8 / 9⟩ := by
  have h := Real.mul_self_sqrt (show (0 : ℝ) ≤ 2 by norm_num)
  ext <;> simp only [quApply, qEx] <;> linarith

theorem inside5 (single : Bool) (p : V) (hx : p.y + 1 / 10 ≤ p.x) (hy : 1 / 10 ≤ p.y) (hz : 1 / 10 ≤ p.z) :
    Inside 5 (2 * s2Eps single) p := by
  obtain ⟨he, he1⟩ := eps_facts single
  intro n hn
  simp only [wallNormals, List.mem_cons, List.not_mem_nil, or_false] at hn
  rcases hn with rfl | rfl | rfl
  · dsimp only; linarith
  · dsimp only
    have hs : Real.sqrt 2 ≤ 3 / 2 := by rw [Real.sqrt_le_left (by norm_num)]; norm_num
    have hs0 : 0 < Real.sqrt 2 := by positivity
    have : 2 / 3 ≤ 1 / Real.sqrt 2 := by rw [le_div_iff₀ hs0]; linarith
    have : 2 / 3 * (1 / 10) ≤ 1 / Real.sqrt 2 * (p.x - p.y) := mul_le_mul this (by linarith) (by norm_num) (by positivity)
    linarith
  · dsimp only; linarith

theorem e5mem {g : Q} (hg : g ∈ laueD4) : toH g ∈ laueRotations 5 :=
  mem_rot (n := 5) (by norm_num) (by norm_num) (G := laueD4) rfl hg

theorem phi_hi : 1 / 2 ≤ atan2 (4 / 9) (7 / 9) ∧ atan2 (4 / 9) (7 / 9) ≤ 1 := by
  have hr : (0 : ℝ) < Real.sqrt 65 / 9 := by positivity
  have hc := atan2_cos (y := 4 / 9) (x := 7 / 9) hr (by rw [div_pow (Real.sqrt _), Real.sq_sqrt (by norm_num)]; norm_num)
  have h0 : 0 ≤ atan2 (4 / 9) (7 / 9) := atan2_nonneg (by norm_num)
  set t := atan2 (4 / 9) (7 / 9)
  have hc' : Real.cos t = 7 / Real.sqrt 65 := by rw [hc]; field_simp
  have s1 : 8 < Real.sqrt 65 := by rw [Real.lt_sqrt (by norm_num)]; norm_num
  have s2 : Real.sqrt 65 < 9 := by rw [Real.sqrt_lt' (by norm_num)]; norm_num
  have c1 : Real.cos t < 7 / 8 := by rw [hc', div_lt_div_iff₀ (by linarith) (by norm_num)]; linarith
  have c2 : 7 / 9 < Real.cos t := by rw [hc', div_lt_div_iff₀ (by norm_num) (by linarith)]; linarith
  constructor
  · by_contra hlt
    push Not at hlt
    have := Real.one_sub_sq_div_two_le_cos (x := t)
    nlinarith
  · by_contra hgt
    push Not at hgt
    have := Real.cos_le_cos_of_nonneg_of_le_pi (by norm_num : (0:ℝ) ≤ 1) (atan2_range _ _).2 hgt.le
    have := Real.cos_one_le
    linarith

theorem phi_lo : 0 ≤ atan2 (1 / 9) (4 / 9) ∧ atan2 (1 / 9) (4 / 9) < 1 / 2 := by
  have hr : (0 : ℝ) < Real.sqrt 17 / 9 := by positivity
  have hc := atan2_cos (y := 1 / 9) (x := 4 / 9) hr (by rw [div_pow (Real.sqrt _), Real.sq_sqrt (by norm_num)]; norm_num)
  have h0 : 0 ≤ atan2 (1 / 9) (4 / 9) := atan2_nonneg (by norm_num)
  refine ⟨h0, ?_⟩
  set t := atan2 (1 / 9) (4 / 9)
  have hc' : Real.cos t = 4 / Real.sqrt 17 := by rw [hc]; field_simp
  have s2 : Real.sqrt 17 < 4.2 := by rw [Real.sqrt_lt' (by norm_num)]; norm_num
  have s1 : 0 < Real.sqrt 17 := by positivity
  have c2 : 4 / 4.2 < Real.cos t := by rw [hc', div_lt_div_iff₀ (by norm_num) s1]; linarith
  by_contra hgt
  push Not at hgt
  have h1 := Real.cos_le_cos_of_nonneg_of_le_pi (by norm_num : (0:ℝ) ≤ 1 / 2) (atan2_range _ _).2 hgt
  have h2 := Real.cos_bound (x := 1 / 2) (by rw [abs_of_pos] <;> norm_num)
  rw [abs_le] at h2
  have h3 := h2.2
  rw [abs_of_pos (by norm_num : (0 : ℝ) < 1 / 2)] at h3
  norm_num at h3 c2
  linarith

set_option maxHeartbeats 1600000 in
/-- C107 fails for the symmetry of the rest of the package (`ori_to_fz_laue` multiplies by the class from the right): in
class 5 (`4/mmm`) two orientations that differ by the four-fold rotation get different colours; the reference direction is
turned by the orientation instead of its inverse. -/
theorem C107_symmetry_fails (single : Bool) :
    ∃ q r : Q, IsUnit4 q ∧ SymEquiv 5 q r ∧ ∃ c c', oriColor (s2Eps single) [q] ⟨1, 0, 0⟩ 5 = some [c] ∧
      oriColor (s2Eps single) [r] ⟨1, 0, 0⟩ 5 = some [c'] ∧ c ≠ c' := by
  have h2 := Real.mul_self_sqrt (show (0 : ℝ) ≤ 2 by norm_num)
  have hz : quApply ⟨Real.sqrt 2 / 2, 0, 0, Real.sqrt 2 / 2⟩ ⟨1, 0, 0⟩ = ⟨0, 1, 0⟩ := by
    ext <;> simp only [quApply] <;> linarith
  have hzr : toH ⟨Real.sqrt 2 / 2, 0, 0, Real.sqrt 2 / 2⟩ = zRot 4 := by
    ext <;> simp [toH, zRot, Real.cos_pi_div_four, Real.sin_pi_div_four]
  have hzm : zRot 4 ∈ laueRotations 5 := Submonoid.subset_closure (by simp [laueGens])
  have hxm : xTwo ∈ laueRotations 5 := Submonoid.subset_closure (by simp [laueGens])
  have rx : ∀ p : V, Rotates xTwo p ⟨p.x, -p.y, -p.z⟩ := by
    intro p
    have hx : toH ⟨0, 1, 0, 0⟩ = xTwo := rfl
    rw [← hx, rotates_iff]
    ext <;> simp only [quApply] <;> ring
  have rz : ∀ p : V, Rotates (zRot 4) p ⟨-p.y, p.x, p.z⟩ := by
    intro p
    rw [← hzr, rotates_iff]
    ext <;> simp only [quApply] <;> linear_combination (norm := ring_nf) 0
    all_goals (try rw [show Real.sqrt 2 ^ 2 = 2 by rw [sq]; exact h2]) ; ring
  have dx : ∀ p : V, DirEquiv 5 p ⟨p.x, -p.y, -p.z⟩ := fun p => ⟨_, hxm, _, rx p, Or.inl rfl⟩
  have dz : ∀ p : V, DirEquiv 5 p ⟨-p.y, p.x, p.z⟩ := fun p => ⟨_, hzm, _, rz p, Or.inl rfl⟩
  have fz : ∀ a b c : ℝ, DirEquiv 5 ⟨a, b, c⟩ ⟨a, b, -c⟩ := by
    intro a b c
    have k1 := dirEquiv_trans (dirEquiv_inv 5 ⟨a, b, c⟩) (dirEquiv_trans (dz _) (dz _))
    simpa using k1
  have sw : ∀ a b c : ℝ, DirEquiv 5 ⟨a, b, c⟩ ⟨b, a, c⟩ := by
    intro a b c
    have k1 := dirEquiv_trans (dx ⟨a, b, c⟩) (dz _)
    have k2 := dirEquiv_trans k1 (fz _ _ _)
    simpa using k2
  refine ⟨qEx, quProdRaw qEx ⟨Real.sqrt 2 / 2, 0, 0, Real.sqrt 2 / 2⟩, ?_, ⟨zRot 4, hzm, by rw [toH_prodRaw, hzr]⟩,
    colorOf ⟨7 / 9, 4 / 9, 4 / 9⟩, colorOf ⟨4 / 9, 1 / 9, 8 / 9⟩, ?_, ?_, ?_⟩
  · unfold IsUnit4 qEx; dsimp only; linarith
  · unfold oriColor
    have := C88_to_fz_partial 5 (by norm_num) (by norm_num) single [⟨4 / 9, 7 / 9, 4 / 9⟩] [⟨7 / 9, 4 / 9, 4 / 9⟩]
      (List.Forall₂.cons ⟨by norm_num [IsUnit3], sw _ _ _, inside5 _ _ (by norm_num) (by norm_num) (by norm_num)⟩
        List.Forall₂.nil)
    simp only [Nat.cast_ofNat] at this
    simp only [List.map_cons, List.map_nil, qEx_x, this, Option.map_some]
  · unfold oriColor
    have := C88_to_fz_partial 5 (by norm_num) (by norm_num) single [⟨1 / 9, 4 / 9, -8 / 9⟩] [⟨4 / 9, 1 / 9, 8 / 9⟩]
      (List.Forall₂.cons ⟨by norm_num [IsUnit3], ?_, inside5 _ _ (by norm_num) (by norm_num) (by norm_num)⟩
        List.Forall₂.nil)
    · simp only [Nat.cast_ofNat] at this
      simp only [List.map_cons, List.map_nil, quApply_prodRaw, hz, qEx_y, this, Option.map_some]
    · have := dirEquiv_trans (sw (1 / 9) (4 / 9) (-8 / 9)) (fz _ _ _)
      rwa [show -(-8 / 9 : ℝ) = 8 / 9 by norm_num] at this
  · intro he
    obtain ⟨a1, a2⟩ := phi_hi
    obtain ⟨b1, b2⟩ := phi_lo
    obtain ⟨r, g, b, e, -, -, -, hm⟩ := C107_bytes ⟨7 / 9, 4 / 9, 4 / 9⟩ (by dsimp only; linarith) (by dsimp only; linarith)
    obtain ⟨r', g', b', e', -, -, -, hm'⟩ := C107_bytes ⟨4 / 9, 1 / 9, 8 / 9⟩ (by dsimp only; linarith) (by dsimp only; linarith)
    dsimp only at hm hm'
    rw [min_eq_right (by linarith)] at hm
    rw [min_eq_left (by linarith)] at hm'
    rw [e, e'] at he
    simp only [Prod.mk.injEq, Option.some.injEq] at he
    obtain ⟨rfl, rfl, rfl⟩ := he
    have h255 : ⌊(1 : ℝ) * 255⌋₊ = 255 := by
      rw [one_mul]
      exact Nat.floor_natCast (R := ℝ) 255
    rw [hm', h255] at hm
    have : (255 : ℕ) ≤ ⌊2 * atan2 (1 / 9) (4 / 9) * 255⌋₊ := by omega
    rw [Nat.le_floor_iff (by positivity)] at this
    push_cast at this
    linarith

/-! ### directions without a defined colour -/

/-- C107 fails where the azimuth is larger than 1 rad or negative: some channel lies outside the range of a byte. -/
theorem C107_overflow_fails (d : V) (h : 511 / 510 ≤ atan2 d.y d.x ∨ atan2 d.y d.x ≤ -(1 / 510)) :
    (colorOf d).1 = none ∨ (colorOf d).2.1 = none ∨ (colorOf d).2.2 = none := by
  set l := atan2 d.y d.x with hl
  have hth : 0 ≤ atan2 (Real.sqrt (d.x ^ 2 + d.y ^ 2)) d.z := atan2_nonneg (Real.sqrt_nonneg _)
  obtain ⟨hh0, hh1⟩ := hue_range hth
  obtain ⟨f, f0, f1, hc⟩ := channels_cases 1 l hh0 hh1
  unfold colorOf xyzToThetaPhi
  simp only [← hl]
  rcases h with h | h
  · have hc := hc (2 - l * 2) 1 (by rw [if_neg (by linarith)]; ring) (by ring)
    have hp : toByte (1 * (1 - (2 - l * 2)) * 255) = none := by
      unfold toByte; rw [if_neg]; rintro ⟨-, h2⟩; linarith
    rcases hc with ⟨-, e⟩ | ⟨-, e⟩ | ⟨-, e⟩ | ⟨-, e⟩ | ⟨-, e⟩ | ⟨-, e⟩ <;> rw [e] <;> dsimp only <;> rw [hp] <;> simp
  · have hc := hc (l * 2) (l * 2) (by rw [if_pos (by linarith)]; ring) (by ring)
    have hp : toByte (l * 2 * 255) = none := by
      unfold toByte; rw [if_neg]; rintro ⟨h2, -⟩; linarith
    rcases hc with ⟨-, e⟩ | ⟨-, e⟩ | ⟨-, e⟩ | ⟨-, e⟩ | ⟨-, e⟩ | ⟨-, e⟩ <;> rw [e] <;> dsimp only <;> rw [hp] <;> simp

/-- C107 fails for every orientation of class 7 (`-3m`) in general position: its colour is undefined. -/
theorem C107_trigonal_fails (single : Bool) (q : Q) (ref d r : V) (hq : Rotates (toH q) ref d) (hu : IsUnit3 d)
    (hd : DirEquiv 7 d r) (hi : Inside 7 (2 * s2Eps single) r) :
    ∃ c, oriColor (s2Eps single) [q] ref 7 = some [c] ∧ (c.1 = none ∨ c.2.1 = none ∨ c.2.2 = none) := by
  rw [rotates_iff] at hq
  subst hq
  refine ⟨colorOf r, ?_, C107_overflow_fails r (Or.inr ?_)⟩
  · unfold oriColor
    have := C88_to_fz_partial 7 (by norm_num) (by norm_num) single [quApply q ref] [r]
      (List.Forall₂.cons ⟨hu, hd, hi⟩ List.Forall₂.nil)
    simp only [Nat.cast_ofNat] at this
    simp only [List.map_cons, List.map_nil, this, Option.map_some]
  · obtain ⟨he, -⟩ := eps_facts single
    have w1 := hi ⟨1, 0, 0⟩ (by simp [wallNormals])
    have w2 := hi ⟨-(1 / 2), -(Real.sqrt 3 / 2), 0⟩ (by simp [wallNormals])
    dsimp only at w1 w2
    have hx : 0 < r.x := by linarith
    have h3 := Real.mul_self_sqrt (show (0 : ℝ) ≤ 3 by norm_num)
    have hs3 : 0 < Real.sqrt 3 := by positivity
    have hy : r.x < Real.sqrt 3 * (-r.y) := by linarith
    have hy0 : 0 < -r.y := by
      by_contra hc
      push Not at hc
      have := mul_nonpos_of_nonneg_of_nonpos hs3.le hc
      linarith
    have hyy : r.x ^ 2 < 3 * r.y ^ 2 := by
      have : r.x ^ 2 < (Real.sqrt 3 * (-r.y)) ^ 2 := pow_lt_pow_left₀ hy hx.le (by norm_num)
      rw [mul_pow, Real.sq_sqrt (by norm_num)] at this
      linarith [neg_sq r.y]
    have hR : 0 < Real.sqrt (r.x ^ 2 + r.y ^ 2) := by positivity
    have hsin := atan2_sin (y := r.y) (x := r.x) hR (by rw [Real.sq_sqrt (by positivity)])
    have hneg : atan2 r.y r.x < 0 := by
      unfold atan2; rw [Complex.arg_neg_iff]; dsimp only; linarith
    have hlt := Real.lt_sin hneg
    have : r.y / Real.sqrt (r.x ^ 2 + r.y ^ 2) ≤ -(1 / 2) := by
      rw [div_le_iff₀ hR]
      have : Real.sqrt (r.x ^ 2 + r.y ^ 2) ≤ 2 * (-r.y) := by
        rw [Real.sqrt_le_left (by linarith)]
        linarith [neg_sq r.y, mul_pow 2 (-r.y) 2]
      linarith
    linarith

/-- hypotheses of `C107_direction_partial` and `C107_left_partial`: the identity and the two-fold rotation about x, class 5 -/
example (single : Bool) : IsUnit3 ⟨7 / 9, 4 / 9, 4 / 9⟩ ∧
    List.Forall₂ (fun q q' : Q => IsUnit4 q ∧ (∃ g ∈ laueRotations 5, toH q' = g * toH q) ∧
      ∃ d r, Rotates (toH q) ⟨7 / 9, 4 / 9, 4 / 9⟩ d ∧ DirEquiv 5 d r ∧ Inside 5 (2 * s2Eps single) r)
      [⟨1, 0, 0, 0⟩] [⟨0, 1, 0, 0⟩] := by
  refine ⟨by norm_num [IsUnit3], List.Forall₂.cons ⟨by norm_num [IsUnit4], ⟨xTwo, Submonoid.subset_closure (by simp [laueGens]), ?_⟩,
    ⟨7 / 9, 4 / 9, 4 / 9⟩, ⟨7 / 9, 4 / 9, 4 / 9⟩, ?_, dirEquiv_refl 5 _, inside5 _ _ (by norm_num) (by norm_num) (by norm_num)⟩
    List.Forall₂.nil⟩
  · have : toH ⟨1, 0, 0, 0⟩ = 1 := by ext <;> simp
    rw [this, mul_one]; rfl
  · rw [rotates_iff]; ext <;> simp [quApply]

/-- hypotheses of `C107_trigonal_fails` -/
example (single : Bool) : Rotates (toH ⟨1, 0, 0, 0⟩) ⟨1 / 3, -(2 / 3), 2 / 3⟩ ⟨1 / 3, -(2 / 3), 2 / 3⟩ ∧
    IsUnit3 ⟨1 / 3, -(2 / 3), 2 / 3⟩ ∧ DirEquiv 7 ⟨1 / 3, -(2 / 3), 2 / 3⟩ ⟨1 / 3, -(2 / 3), 2 / 3⟩ ∧
    Inside 7 (2 * s2Eps single) ⟨1 / 3, -(2 / 3), 2 / 3⟩ := by
  obtain ⟨he, he1⟩ := eps_facts single
  refine ⟨by rw [rotates_iff]; ext <;> simp [quApply], by norm_num [IsUnit3], dirEquiv_refl 7 _, ?_⟩
  intro n hn
  simp only [wallNormals, List.mem_cons, List.not_mem_nil, or_false] at hn
  have hs : 1 ≤ Real.sqrt 3 := by rw [Real.le_sqrt (by norm_num)] <;> norm_num
  rcases hn with rfl | rfl | rfl <;> dsimp only <;> linarith

end Verif.Color
