import Verif.Model.Clahe
import Verif.Props.MutualInfo
/-!
C38: CLAHE (preprocessing/clahe.py): tiling, histogram clipping, look-up tables and output.
-/
namespace Verif.Clahe
open Finset Verif.Blur Verif.MI

theorem tile_times (img grid : ℕ) (hg : 0 < grid) : img + padSize img grid = grid * tileSize img grid := by
  unfold padSize tileSize
  have hd := Nat.div_add_mod img grid
  have hm := Nat.mod_lt img hg
  by_cases h : img % grid = 0
  · rw [if_neg (by simpa using h)]
    have : (img + grid - 1) / grid = img / grid := by
      rw [show img + grid - 1 = grid * (img / grid) + (grid - 1) by omega, Nat.mul_add_div hg,
        Nat.div_eq_of_lt (show grid - 1 < grid by omega), Nat.add_zero]
    rw [this]; omega
  · rw [if_pos h]
    have : (img + grid - 1) / grid = img / grid + 1 := by
      rw [show img + grid - 1 = grid * (img / grid) + (img % grid + grid - 1) by omega, Nat.mul_add_div hg]
      congr 1
      rw [Nat.div_eq_iff hg]; omega
    rw [this, Nat.mul_add, Nat.mul_one]; omega

/-- C38 (tiling): the padded image is cut exactly into `grid` tiles along each axis, and each padded row (column) lies in
exactly one tile at exactly one offset. -/
theorem C38_tiles (img grid : ℕ) (hg : 0 < grid) (hi : 0 < img) :
    img + padSize img grid = grid * tileSize img grid ∧ padSize img grid < grid ∧
    ∀ r < img + padSize img grid, ∃! q : ℕ × ℕ, q.1 < grid ∧ q.2 < tileSize img grid ∧ q.1 * tileSize img grid + q.2 = r := by
  have e := tile_times img grid hg
  have ht : 0 < tileSize img grid := by
    unfold tileSize; exact Nat.div_pos (by omega) hg
  refine ⟨e, ?_, fun r hr => ⟨(r / tileSize img grid, r % tileSize img grid), ⟨?_, Nat.mod_lt _ ht, ?_⟩, ?_⟩⟩
  · unfold padSize; split <;> omega
  · rw [Nat.div_lt_iff_lt_mul ht]; omega
  · simp only
    rw [Nat.mul_comm]; exact Nat.div_add_mod r _
  · rintro ⟨a, b⟩ ⟨_, hb, h⟩
    simp only at hb h
    rw [Prod.mk.injEq, ← h]
    constructor
    · rw [Nat.mul_comm, Nat.mul_add_div ht, Nat.div_eq_of_lt hb]; omega
    · rw [Nat.mul_comm, Nat.mul_add_mod, Nat.mod_eq_of_lt hb]

example : ∃! q : ℕ × ℕ, q.1 < 4 ∧ q.2 < tileSize 10 4 ∧ q.1 * tileSize 10 4 + q.2 = 11 :=
  (C38_tiles 10 4 (by norm_num) (by norm_num)).2.2 11 (by decide)

theorem sum_lt_ind (n : ℕ) (r : ℤ) (h0 : 0 ≤ r) (hr : r < n) :
    ∑ k ∈ range n, (if (k : ℤ) < r then (1 : ℤ) else 0) = r := by
  rw [← sum_filter, sum_const]
  have : ((range n).filter fun k : ℕ => (k : ℤ) < r) = range r.toNat := by
    ext k; simp only [mem_filter, mem_range]; omega
  rw [this, card_range]; simp; omega

/-- C38 (clipping): for every histogram of a tile (non-negative counts summing to the number of pixels), every clip limit and
every number of bins, the clipped and redistributed histogram has the same total, has no negative entry, and no entry
exceeds the limit by more than the evenly shared excess plus one. -/
theorem C38_mass (clip : ℝ) (vpt n : ℕ) (hn : 0 < n) (counts : ℕ → ℤ) (h0 : ∀ k, 0 ≤ counts k)
    (ht : ∑ k ∈ range n, counts k = vpt) :
    ∑ k ∈ range n, clipHist clip vpt n counts k = vpt ∧ (∀ k, 0 ≤ clipHist clip vpt n counts k) ∧
    (0 < clip → ∀ k, (n : ℤ) * (clipHist clip vpt n counts k - max ⌊clip * vpt / n⌋ 1 - 1) ≤
      ∑ l ∈ range n, max (counts l - max ⌊clip * vpt / n⌋ 1) 0) := by
  by_cases hc : 0 < clip
  swap
  · unfold clipHist
    rw [if_neg hc]
    exact ⟨ht, h0, fun h => absurd h hc⟩
  unfold clipHist
  rw [if_pos hc]
  simp only
  set L := limitOf clip vpt n with hL
  have hL1 : (1 : ℤ) ≤ L := le_max_right _ _
  set s := ∑ k ∈ range n, min (counts k) L with hs
  have hle : s ≤ vpt := by
    rw [← ht]; exact sum_le_sum fun k _ => min_le_left _ _
  set c := (vpt : ℤ) - s with hcd
  have c0 : 0 ≤ c := by omega
  have nn : (0 : ℤ) < n := by exact_mod_cast hn
  have r0 : 0 ≤ c % (n : ℤ) := Int.emod_nonneg _ nn.ne'
  have r1 : c % (n : ℤ) < n := Int.emod_lt_of_pos _ nn
  have hdiv : (c - c % (n : ℤ)) / (n : ℤ) = c / n := by
    have := Int.mul_ediv_add_emod c n
    rw [show c - c % (n : ℤ) = n * (c / n) by omega, Int.mul_ediv_cancel_left _ nn.ne']
  have hdm := Int.mul_ediv_add_emod c n
  have q0 : 0 ≤ c / (n : ℤ) := Int.ediv_nonneg c0 nn.le
  rw [hdiv]
  refine ⟨?_, fun k => ?_, fun _ k => ?_⟩
  · rw [sum_add_distrib, sum_add_distrib, sum_const, card_range, sum_lt_ind n _ r0 r1, ← hs, nsmul_eq_mul]
    omega
  · have : 0 ≤ min (counts k) L := le_min (h0 k) (by omega)
    split <;> omega
  · change (n : ℤ) * (_ - L - 1) ≤ ∑ l ∈ range n, max (counts l - L) 0
    have e : ∑ l ∈ range n, max (counts l - L) 0 = c := by
      rw [hcd, hs, ← ht, ← sum_sub_distrib]
      refine sum_congr rfl fun l _ => ?_
      omega
    rw [e]
    have hk : min (counts k) L ≤ L := min_le_right _ _
    have : min (counts k) L + c / ↑n + (if (k : ℤ) < c % ↑n then 1 else 0) - L - 1 ≤ c / n := by split <;> omega
    calc _ ≤ (n : ℤ) * (c / n) := Int.mul_le_mul_of_nonneg_left this nn.le
      _ ≤ c := by omega

/-- C38 (look-up table): under the same hypotheses the table is non-decreasing, within `[0, 1]`, and its last entry is one. -/
theorem C38_lut (clip : ℝ) (vpt n : ℕ) (hn : 0 < n) (hv : 0 < vpt) (counts : ℕ → ℤ) (h0 : ∀ k, 0 ≤ counts k)
    (ht : ∑ k ∈ range n, counts k = vpt) :
    Monotone (cdf vpt (clipHist clip vpt n counts)) ∧
    (∀ k, 0 ≤ cdf vpt (clipHist clip vpt n counts) k ∧ cdf vpt (clipHist clip vpt n counts) k ≤ 1) ∧
    cdf vpt (clipHist clip vpt n counts) (n - 1) = 1 := by
  obtain ⟨m1, m2, -⟩ := C38_mass clip vpt n hn counts h0 ht
  have hv' : (0 : ℝ) < vpt := by exact_mod_cast hv
  refine ⟨?_, fun k => ⟨le_min (le_max_right _ _) zero_le_one, min_le_right _ _⟩, ?_⟩
  · refine monotone_nat_of_le_succ fun k => ?_
    unfold cdf
    refine min_le_min_right _ (max_le_max_right _ ?_)
    refine div_le_div_of_nonneg_right ?_ hv'.le
    have : ∑ l ∈ range (k + 1), clipHist clip vpt n counts l ≤ ∑ l ∈ range (k + 1 + 1), clipHist clip vpt n counts l := by
      rw [sum_range_succ _ (k + 1)]
      linarith [m2 (k + 1)]
    exact_mod_cast this
  · unfold cdf
    rw [Nat.sub_add_cancel hn, m1, Int.cast_natCast, div_self hv'.ne']
    simp

/-- non-vacuity: 3 bins, 10 pixels, all in one bin, clipped. -/
example : ∑ k ∈ range 3, clipHist 1 10 3 (fun k => if k = 1 then 10 else 0) k = 10 :=
  (C38_mass 1 10 3 (by norm_num) _ (by intro k; split <;> norm_num) (by decide)).1

theorem tilePixels_length (p : Img) (ht wt ti tj : ℕ) : (tilePixels p ht wt ti tj).length = ht * wt := by
  unfold tilePixels
  rw [List.length_flatMap]
  simp

theorem luts_spec {p : Img} {clip : ℝ} {n hg wg ht wt : ℕ} (hn : 0 < n) (hv : 0 < ht * wt) {lut : ℕ → ℕ → ℕ → ℝ}
    (h : luts p clip n hg wg ht wt = some lut) : ∀ ti < hg, ∀ tj < wg,
      Monotone (lut ti tj) ∧ (∀ k, 0 ≤ lut ti tj k ∧ lut ti tj k ≤ 1) ∧ lut ti tj (n - 1) = 1 := by
  unfold luts at h
  simp only at h
  split at h
  · rename_i hr
    simp only [Option.some.injEq] at h
    intro ti hti tj htj
    subst h
    refine C38_lut clip (ht * wt) n hn hv _ (fun k => Int.natCast_nonneg _) ?_
    have := count_sum n _ (hr ti hti tj htj)
    rw [discrete, List.length_map, tilePixels_length] at this
    rw [← this]
    push_cast; rfl
  · simp at h

/-! ### interpolation -/

theorem unnorm_range (size : ℕ) (hs : 0 < size) (c : ℝ) : 0 ≤ unnorm size c ∧ unnorm size c ≤ (size : ℝ) - 1 := by
  have : (1 : ℝ) ≤ size := by exact_mod_cast hs
  exact ⟨le_min (le_max_right _ _) (by linarith), min_le_right _ _⟩

theorem unnorm_mono (size : ℕ) : Monotone (unnorm size) := by
  intro a b hab
  unfold unnorm
  refine min_le_min_right _ (max_le_max_right _ ?_)
  have : (a + 1) * size ≤ (b + 1) * size := mul_le_mul_of_nonneg_right (by linarith) (Nat.cast_nonneg _)
  linarith

theorem lerp_form {size : ℕ} (hs : 0 < size) (f : ℕ → ℝ) {t : ℝ} (h0 : 0 ≤ t) (h1 : t ≤ (size : ℝ) - 1) :
    ∃ (i : ℕ) (w : ℝ), i < size ∧ t = i + w ∧ 0 ≤ w ∧ w < 1 ∧ ∃ j, j < size ∧ i ≤ j ∧ j ≤ i + 1 ∧
      (0 < w → j = i + 1) ∧ lerp size f t = (1 - w) * f i + w * f j := by
  have hf := Int.floor_le t
  have hl := Int.lt_floor_add_one t
  have f0 : 0 ≤ ⌊t⌋ := Int.floor_nonneg.mpr h0
  have hc : ((⌊t⌋.toNat : ℕ) : ℝ) = (⌊t⌋ : ℝ) := by
    have : ((⌊t⌋.toNat : ℕ) : ℤ) = ⌊t⌋ := by omega
    exact_mod_cast this
  have hi : ⌊t⌋.toNat < size := by
    have : ((⌊t⌋.toNat : ℕ) : ℝ) < size := by rw [hc]; linarith
    exact_mod_cast this
  refine ⟨⌊t⌋.toNat, t - ⌊t⌋, hi, by rw [hc]; ring, by linarith, by linarith, ?_⟩
  by_cases hb : ⌊t⌋.toNat + 1 < size
  · exact ⟨⌊t⌋.toNat + 1, hb, by omega, le_refl _, fun _ => rfl, by unfold lerp; simp only; rw [if_pos hb]⟩
  · refine ⟨⌊t⌋.toNat, hi, le_refl _, by omega, fun hw => ?_, ?_⟩
    · exfalso
      have e : (size : ℝ) = ((⌊t⌋.toNat : ℕ) : ℝ) + 1 := by
        have : size = ⌊t⌋.toNat + 1 := by omega
        exact_mod_cast this
      rw [e, hc] at h1
      linarith
    · have e : (size : ℝ) = ((⌊t⌋.toNat : ℕ) : ℝ) + 1 := by
        have : size = ⌊t⌋.toNat + 1 := by omega
        exact_mod_cast this
      rw [e, hc] at h1
      have w0 : t - ⌊t⌋ = 0 := by linarith
      unfold lerp
      simp only
      rw [w0]; ring

theorem lerp_range {size : ℕ} (hs : 0 < size) {f : ℕ → ℝ} {lo hi t : ℝ} (h0 : 0 ≤ t) (h1 : t ≤ (size : ℝ) - 1)
    (hf : ∀ k < size, lo ≤ f k ∧ f k ≤ hi) : lo ≤ lerp size f t ∧ lerp size f t ≤ hi := by
  obtain ⟨i, w, hi', -, w0, w1, j, hj, -, -, -, e⟩ := lerp_form hs f h0 h1
  rw [e]
  obtain ⟨a1, a2⟩ := hf i hi'
  obtain ⟨b1, b2⟩ := hf j hj
  have c1 := mul_le_mul_of_nonneg_left a1 (by linarith : 0 ≤ 1 - w)
  have c2 := mul_le_mul_of_nonneg_left a2 (by linarith : 0 ≤ 1 - w)
  have d1 := mul_le_mul_of_nonneg_left b1 w0
  have d2 := mul_le_mul_of_nonneg_left b2 w0
  constructor <;> linarith

theorem lerp_le {size : ℕ} (hs : 0 < size) {f g : ℕ → ℝ} {t : ℝ} (h0 : 0 ≤ t) (h1 : t ≤ (size : ℝ) - 1)
    (hfg : ∀ k < size, f k ≤ g k) : lerp size f t ≤ lerp size g t := by
  have hf := Int.floor_le t
  have hl := Int.lt_floor_add_one t
  obtain ⟨i, w, hi, et, w0, w1, -⟩ := lerp_form hs f h0 h1
  have fl : ⌊t⌋ = (i : ℤ) := by rw [Int.floor_eq_iff]; push_cast; constructor <;> linarith
  unfold lerp
  simp only [fl, Int.toNat_natCast]
  have e : t - ((i : ℤ) : ℝ) = w := by push_cast; linarith
  rw [e]
  refine add_le_add (mul_le_mul_of_nonneg_left (hfg i hi) (by linarith)) (mul_le_mul_of_nonneg_left ?_ w0)
  split
  · rename_i h; exact hfg _ h
  · exact le_refl _

theorem lerp_mono {size : ℕ} (hs : 0 < size) {f : ℕ → ℝ} (hf : Monotone f) {s t : ℝ} (h0 : 0 ≤ s) (hst : s ≤ t)
    (h1 : t ≤ (size : ℝ) - 1) : lerp size f s ≤ lerp size f t := by
  obtain ⟨i, w, hi, es, w0, w1, j, hj, ij, ij', hw, e⟩ := lerp_form hs f h0 (hst.trans h1)
  obtain ⟨i', w', hi', et, w0', w1', j', hj', ij1, ij1', hw', e'⟩ := lerp_form hs f (h0.trans hst) h1
  rw [e, e']
  have m := hf ij
  have m' := hf ij1
  rcases lt_trichotomy i i' with h | h | h
  · have a : f j ≤ f i' := hf (by omega)
    have b := mul_le_mul_of_nonneg_left m (by linarith : 0 ≤ 1 - w)
    have c := mul_le_mul_of_nonneg_left m' w0'
    linarith
  · subst h
    have hww : w ≤ w' := by linarith
    rcases w0.eq_or_lt with hz | hp
    · rw [← hz]
      have c := mul_le_mul_of_nonneg_left m' w0'
      linarith
    · have : j = j' := by rw [hw hp, hw' (by linarith)]
      subst this
      have := mul_nonneg (sub_nonneg.mpr hww) (sub_nonneg.mpr m)
      have e3 : (1 - w') * f i + w' * f j - ((1 - w) * f i + w * f j) = (w' - w) * (f j - f i) := by ring
      linarith
  · exfalso
    have : (i : ℝ) ≥ i' + 1 := by exact_mod_cast h
    linarith

/-- the tile size of a non-empty image is positive -/
theorem tile_pos {img grid : ℕ} (hg : 0 < grid) (hi : 0 < img) : 0 < tileSize img grid := by
  unfold tileSize; exact Nat.div_pos (by omega) hg

/-- C38 (whole function): on a non-empty image the result, when there is one, has the shape of the input and grey levels in
`[0, 1]`; and at any fixed pixel the look-up it applies is non-decreasing in the grey level. -/
theorem C38_output (x y : Img) (clip : ℝ) (n hg wg : ℕ) (hh : 0 < x.h) (hw : 0 < x.w)
    (h : clahe x clip n hg wg = some y) :
    y.h = x.h ∧ y.w = x.w ∧ (∀ i j, 0 ≤ y.px i j ∧ y.px i j ≤ 1) ∧
    ∃ T : ℕ → ℕ → ℝ → ℝ, (∀ i j, Monotone (T i j)) ∧ ∀ i j, y.px i j = T i j (x.px i j) := by
  unfold clahe at h
  split at h
  swap
  · simp at h
  rename_i hc
  obtain ⟨g1, g2, g3⟩ := hc
  rcases hp : pad true (0, padSize x.w wg, 0, padSize x.h hg) x with _ | p
  · rw [hp] at h; simp at h
  rw [hp] at h
  simp only [Option.bind_some] at h
  rcases hl : luts p clip n hg wg (tileSize x.h hg) (tileSize x.w wg) with _ | lut
  · rw [hl] at h; simp at h
  rw [hl] at h
  simp only [Option.map_some, Option.some.injEq] at h
  have hv : 0 < tileSize x.h hg * tileSize x.w wg := Nat.mul_pos (tile_pos g1 hh) (tile_pos g2 hw)
  have hs := luts_spec g3 hv hl
  subst h
  refine ⟨rfl, rfl, fun i j => ?_, fun i j v => lookup lut n hg wg x.h x.w i j v, fun i j => ?_, fun _ _ => rfl⟩
  · simp only [lookup]
    refine lerp_range g1 (unnorm_range _ g1 _).1 (unnorm_range _ g1 _).2 fun ti hti => ?_
    refine lerp_range g2 (unnorm_range _ g2 _).1 (unnorm_range _ g2 _).2 fun tj htj => ?_
    exact lerp_range g3 (unnorm_range _ g3 _).1 (unnorm_range _ g3 _).2 fun k _ => (hs ti hti tj htj).2.1 k
  · intro u v huv
    simp only [lookup]
    refine lerp_le g1 (unnorm_range _ g1 _).1 (unnorm_range _ g1 _).2 fun ti hti => ?_
    refine lerp_le g2 (unnorm_range _ g2 _).1 (unnorm_range _ g2 _).2 fun tj htj => ?_
    exact lerp_mono g3 (hs ti hti tj htj).1 (unnorm_range _ g3 _).1 (unnorm_mono n (by linarith)) (unnorm_range _ g3 _).2

/-- C38: the function succeeds for every image with grey levels in `[0, 1]` that is larger than the padding it needs. -/
theorem C38_succeeds (x : Img) (clip : ℝ) (n hg wg : ℕ) (g1 : 0 < hg) (g2 : 0 < wg) (g3 : 0 < n)
    (hh : padSize x.h hg < x.h) (hw : padSize x.w wg < x.w)
    (hx : ∀ i < x.h, ∀ j < x.w, 0 ≤ x.px i j ∧ x.px i j ≤ 1) : (clahe x clip n hg wg).isSome := by
  unfold clahe
  rw [if_pos ⟨g1, g2, g3⟩]
  unfold pad
  simp only [if_true]
  rw [if_pos ⟨by omega, hw, by omega, hh⟩]
  simp only [Option.bind_some, Option.isSome_map]
  unfold luts
  simp only
  rw [if_pos]
  · rfl
  · intro ti hti tj htj k hk
    unfold discrete at hk
    obtain ⟨v, hv, rfl⟩ := List.mem_map.mp hk
    unfold tilePixels at hv
    rw [List.mem_flatMap] at hv
    obtain ⟨a, ha, hv⟩ := hv
    obtain ⟨b, hb, rfl⟩ := List.mem_map.mp hv
    rw [List.mem_range] at ha hb
    simp only
    have e1 := tile_times x.h hg g1
    have e2 := tile_times x.w wg g2
    have l1 : ti * tileSize x.h hg + a < hg * tileSize x.h hg := by
      calc _ < ti * tileSize x.h hg + tileSize x.h hg := by omega
        _ = (ti + 1) * tileSize x.h hg := by ring
        _ ≤ _ := Nat.mul_le_mul_right _ hti
    have l2 : tj * tileSize x.w wg + b < wg * tileSize x.w wg := by
      calc _ < tj * tileSize x.w wg + tileSize x.w wg := by omega
        _ = (tj + 1) * tileSize x.w wg := by ring
        _ ≤ _ := Nat.mul_le_mul_right _ htj
    have hr : ∀ m n' p : ℕ, p < n' → n' - m < m → reflectIdx m 0 p < m := by
      intro m n' p hp hm
      unfold reflectIdx; split_ifs <;> omega
    have b1 := hr x.h _ _ l1 (by omega)
    have b2 := hr x.w _ _ l2 (by omega)
    obtain ⟨v0, v1⟩ := hx _ b1 _ b2
    have n1 : (1 : ℝ) ≤ n := by exact_mod_cast g3
    have p0 : 0 ≤ x.px (reflectIdx x.h 0 (ti * tileSize x.h hg + a)) (reflectIdx x.w 0 (tj * tileSize x.w wg + b)) *
        ((n : ℝ) - 1) := mul_nonneg v0 (by linarith)
    unfold trunc
    rw [if_pos p0]
    refine ⟨Int.floor_nonneg.mpr p0, ?_⟩
    rw [Int.floor_lt]
    have := mul_le_mul_of_nonneg_right v1 (by linarith : 0 ≤ (n : ℝ) - 1)
    push_cast
    linarith

/-- non-vacuity of `C38_output` and `C38_succeeds`: a 10 by 7 ramp on a 4 by 4 grid. -/
example : ∃ y, clahe ⟨10, 7, fun i j => ((i % 10 : ℕ) : ℝ) / 10⟩ 40 64 4 4 = some y ∧ y.h = 10 := by
  obtain ⟨y, hy⟩ := Option.isSome_iff_exists.mp (C38_succeeds ⟨10, 7, fun i j => ((i % 10 : ℕ) : ℝ) / 10⟩ 40 64 4 4
    (by norm_num) (by norm_num) (by norm_num) (by decide) (by decide) (by
      intro i _ j _
      have : (i % 10) < 10 := Nat.mod_lt _ (by norm_num)
      have h : ((i % 10 : ℕ) : ℝ) ≤ 10 := by exact_mod_cast this.le
      simp only
      constructor
      · positivity
      · rw [div_le_one (by norm_num)]; exact h))
  exact ⟨y, hy, (C38_output _ _ _ _ _ _ (by norm_num) (by norm_num) hy).1⟩

end Verif.Clahe
