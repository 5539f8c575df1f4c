import Verif.Model.Cmif
import Verif.Lemmas.Fft
import Verif.Lemmas.Entropy
import Verif.Props.MiBounds
import Verif.Spec.CrossInfo
import Verif.Spec.PatternCentre
/-! Counting lemmas for `cmif`. -/
namespace Verif.Cmif
open Finset Verif.Blur Verif.Fft Verif.MI Verif.Spec
open Verif.Spec.Cross hiding entropy

theorem byteOf_iff {n : ℕ} (hn : 0 < n) (hn' : n ≤ 256) {v : ℝ} (h0 : 0 ≤ v) (h1 : v < 1) (i : ℕ) :
    byteOf (n * v) = (i : ℤ) ↔ InBin n i v := by
  obtain ⟨k, hk, hf⟩ := floor_range hn h0 h1
  have ht : byteOf (n * v) = (k : ℤ) := by
    unfold byteOf trunc
    rw [if_pos (by positivity), mul_comm, hf]
    omega
  unfold InBin
  rw [← floor_bin hn i, hf, ht]

theorem inBin_unique {n i i' : ℕ} (hn : 0 < n) {v : ℝ} (h : InBin n i v) (h' : InBin n i' v) : i = i' := by
  have a := (floor_bin hn i).mpr h
  have b := (floor_bin hn i').mpr h'
  rw [a] at b; exact_mod_cast b

theorem inBin_exists {n : ℕ} (hn : 0 < n) {v : ℝ} (h0 : 0 ≤ v) (h1 : v < 1) : ∃ i < n, InBin n i v := by
  obtain ⟨k, hk, hf⟩ := floor_range hn h0 h1
  exact ⟨k, hk, (floor_bin hn k).mp hf⟩

/-- one entry of a correlation, images of even width -/
theorem corrAt_eq (a b : Img) (h1 : b.h = a.h) (h2 : b.w = a.w) (hh : 0 < a.h) (hw : 0 < a.w) (he : a.w % 2 = 0)
    (y x : ℕ) : corrAt a b y x = ∑ k ∈ range a.h, ∑ l ∈ range a.w,
      b.px k l * displaced a.h a.w a.px (displacementAt a.h y) (displacementAt a.w x) k l := by
  obtain ⟨c, hc, -, -, hpx⟩ := xcorr_eq a b h1 h2 hh hw he
  unfold corrAt
  rw [hc]
  exact hpx y x

/-- sums of products of indicators are counts -/
theorem sum_ind (h w : ℕ) (P Q : ℕ → ℕ → Prop) :
    open Classical in
    ∑ k ∈ range h, ∑ l ∈ range w, (if Q k l then (1 : ℝ) else 0) * (if P k l then 1 else 0) =
      (((range h ×ˢ range w).filter fun p => P p.1 p.2 ∧ Q p.1 p.2).card : ℝ) := by
  classical
  rw [Finset.card_filter, Finset.sum_product]
  push_cast
  refine sum_congr rfl fun k _ => sum_congr rfl fun l _ => ?_
  by_cases hp : P k l <;> by_cases hq : Q k l <;> simp [hp, hq]

theorem displaced_unit {h w : ℕ} {d : ℕ → ℕ → ℝ} (hd : Unit01 h w d) (hh : 0 < h) (hw : 0 < w) (dy dx : ℕ) :
    Unit01 h w (displaced h w d dy dx) := fun _ _ _ _ => hd _ (Nat.mod_lt _ hh) _ (Nat.mod_lt _ hw)

section counts
variable {nd ns : ℕ} (d s : Img) (h1 : s.h = d.h) (h2 : s.w = d.w) (hh : 0 < d.h) (hw : 0 < d.w) (he : d.w % 2 = 0)
  (hd : Unit01 d.h d.w d.px) (hs : Unit01 d.h d.w s.px) (hnd : 0 < nd) (hnd' : nd ≤ 256) (hns : 0 < ns) (hns' : ns ≤ 256)
include h1 h2 hh hw he hd hs

include hnd hnd' hns hns' in
/-- joint histogram entries -/
theorem corr_joint (i j y x : ℕ) : corrAt (level nd d i) (level ns s j) y x =
    (pixelPairs d.h d.w nd ns (displaced d.h d.w d.px (displacementAt d.h y) (displacementAt d.w x)) s.px i j : ℝ) := by
  classical
  have := corrAt_eq (level nd d i) (level ns s j) h1 h2 hh hw he y x
  rw [this]
  unfold pixelPairs
  have e := sum_ind d.h d.w (fun k l => InBin nd i (displaced d.h d.w d.px (displacementAt d.h y) (displacementAt d.w x) k l))
    (fun k l => InBin ns j (s.px k l))
  rw [← e]
  refine sum_congr rfl fun k hk => sum_congr rfl fun l hl => ?_
  have hk' := mem_range.mp hk
  have hl' := mem_range.mp hl
  have hs' := hs k hk' l hl'
  have hd' := displaced_unit hd hh hw (displacementAt d.h y) (displacementAt d.w x) k hk' l hl'
  congr 1
  · show (if byteOf (ns * s.px k l) = (j : ℤ) then (1 : ℝ) else 0) = _
    exact if_congr (byteOf_iff hns hns' hs'.1 hs'.2 j) rfl rfl
  · show (if byteOf (nd * displaced d.h d.w d.px (displacementAt d.h y) (displacementAt d.w x) k l) = (i : ℤ) then (1 : ℝ) else 0) = _
    exact if_congr (byteOf_iff hnd hnd' hd'.1 hd'.2 i) rfl rfl

include hnd hnd' in
/-- marginal of the destination -/
theorem corr_dst (i y x : ℕ) : corrAt (level nd d i) (ones s) y x =
    (pixels d.h d.w nd (displaced d.h d.w d.px (displacementAt d.h y) (displacementAt d.w x)) i : ℝ) := by
  classical
  have := corrAt_eq (level nd d i) (ones s) h1 h2 hh hw he y x
  rw [this]
  unfold pixels
  have e := sum_ind d.h d.w (fun k l => InBin nd i (displaced d.h d.w d.px (displacementAt d.h y) (displacementAt d.w x) k l))
    (fun _ _ => True)
  simp only [and_true, if_true] at e
  rw [← e]
  refine sum_congr rfl fun k hk => sum_congr rfl fun l hl => ?_
  have hd' := displaced_unit hd hh hw (displacementAt d.h y) (displacementAt d.w x) k (mem_range.mp hk) l (mem_range.mp hl)
  congr 1
  show (if byteOf (nd * displaced d.h d.w d.px (displacementAt d.h y) (displacementAt d.w x) k l) = (i : ℤ) then (1 : ℝ) else 0) = _
  exact if_congr (byteOf_iff hnd hnd' hd'.1 hd'.2 i) rfl rfl

include hns hns' in
/-- marginal of the source -/
theorem corr_src (j y x : ℕ) : corrAt (ones d) (level ns s j) y x = (pixels d.h d.w ns s.px j : ℝ) := by
  classical
  have := corrAt_eq (ones d) (level ns s j) h1 h2 hh hw he y x
  rw [this]
  unfold pixels
  have e := sum_ind d.h d.w (fun _ _ => True) (fun k l => InBin ns j (s.px k l))
  simp only [true_and, if_true] at e
  rw [← e]
  refine sum_congr rfl fun k hk => sum_congr rfl fun l hl => ?_
  have hs' := hs k (mem_range.mp hk) l (mem_range.mp hl)
  congr 1
  show (if byteOf (ns * s.px k l) = (j : ℤ) then (1 : ℝ) else 0) = _
  exact if_congr (byteOf_iff hns hns' hs'.1 hs'.2 j) rfl rfl

end counts

theorem thresh_nat (n : ℕ) : thresh (n : ℝ) = n := by
  unfold thresh
  split_ifs with h
  · have : n = 0 := by
      have : n < 1 := by exact_mod_cast h
      omega
    rw [this]; simp
  · rfl

/-! ### Margins of the pair counts -/

theorem card_split {α : Type} [DecidableEq α] (S : Finset α) (n : ℕ) (P : α → Prop) (R : ℕ → α → Prop)
    (hex : ∀ a ∈ S, ∃ j < n, R j a) (hun : ∀ a ∈ S, ∀ j j', R j a → R j' a → j = j') :
    open Classical in
    ∑ j ∈ range n, (S.filter fun a => P a ∧ R j a).card = (S.filter P).card := by
  classical
  rw [← card_biUnion]
  · congr 1
    ext a
    simp only [mem_biUnion, mem_range, mem_filter]
    constructor
    · rintro ⟨j, -, ha, hp, -⟩; exact ⟨ha, hp⟩
    · rintro ⟨ha, hp⟩
      obtain ⟨j, hj, hr⟩ := hex a ha
      exact ⟨j, hj, ha, hp, hr⟩
  · intro j _ j' _ hne
    rw [Function.onFun, disjoint_left]
    intro a ha ha'
    simp only [mem_filter] at ha ha'
    exact hne (hun a ha.1 j j' ha.2.2 ha'.2.2)

theorem pairs_row {h w na nb : ℕ} {a b : ℕ → ℕ → ℝ} (hb : Unit01 h w b) (hnb : 0 < nb) (i : ℕ) :
    ∑ j ∈ range nb, pixelPairs h w na nb a b i j = pixels h w na a i := by
  classical
  unfold pixelPairs pixels
  have := card_split (range h ×ˢ range w) nb (fun p => InBin na i (a p.1 p.2)) (fun j p => InBin nb j (b p.1 p.2))
    (fun p hp => by
      have := mem_product.mp hp
      have hv := hb p.1 (mem_range.mp this.1) p.2 (mem_range.mp this.2)
      exact inBin_exists hnb hv.1 hv.2) (fun p _ j j' h h' => inBin_unique hnb h h')
  convert this

theorem pairs_swap (h w na nb : ℕ) (a b : ℕ → ℕ → ℝ) (i j : ℕ) :
    pixelPairs h w na nb a b i j = pixelPairs h w nb na b a j i := by
  classical
  unfold pixelPairs
  congr 1
  refine filter_congr fun p _ => ?_
  exact and_comm

theorem pairs_col {h w na nb : ℕ} {a b : ℕ → ℕ → ℝ} (ha : Unit01 h w a) (hna : 0 < na) (j : ℕ) :
    ∑ i ∈ range na, pixelPairs h w na nb a b i j = pixels h w nb b j := by
  rw [← pairs_row (na := nb) (nb := na) (a := b) ha hna j]
  exact sum_congr rfl fun i _ => pairs_swap ..

theorem pixels_total {h w na : ℕ} {a : ℕ → ℕ → ℝ} (ha : Unit01 h w a) (hna : 0 < na) :
    ∑ i ∈ range na, pixels h w na a i = h * w := by
  classical
  unfold pixels
  have := card_split (range h ×ˢ range w) na (fun _ => True) (fun j p => InBin na j (a p.1 p.2))
    (fun p hp => by
      have := mem_product.mp hp
      have hv := ha p.1 (mem_range.mp this.1) p.2 (mem_range.mp this.2)
      exact inBin_exists hna hv.1 hv.2) (fun p _ j j' h h' => inBin_unique hna h h')
  simp only [true_and, filter_true, card_product, card_range] at this
  rw [← this]

/-- Entropies against the mutual information, for a table with given margins. -/
theorem mi_identity {nx ny : ℕ} {p : ℕ → ℕ → ℝ} (hp : ∀ i j, 0 ≤ p i j) :
    ∑ i ∈ range nx, ∑ j ∈ range ny, p i j * Real.log (p i j / ((∑ j ∈ range ny, p i j) * (∑ i ∈ range nx, p i j))) =
      ∑ i ∈ range nx, ∑ j ∈ range ny, p i j * Real.log (p i j)
      - ∑ i ∈ range nx, (∑ j ∈ range ny, p i j) * Real.log (∑ j ∈ range ny, p i j)
      - ∑ j ∈ range ny, (∑ i ∈ range nx, p i j) * Real.log (∑ i ∈ range nx, p i j) := by
  rw [← row_log, ← col_log, ← sum_sub_distrib, ← sum_sub_distrib]
  refine sum_congr rfl fun i hi => ?_
  rw [← sum_sub_distrib, ← sum_sub_distrib]
  refine sum_congr rfl fun j hj => ?_
  rcases (hp i j).eq_or_lt with h | h
  · rw [← h]; simp
  · have r : 0 < ∑ j ∈ range ny, p i j := lt_of_lt_of_le h (le_row hp hj)
    have c : 0 < ∑ i ∈ range nx, p i j := lt_of_lt_of_le h (le_col hp hi)
    rw [Real.log_div h.ne' (mul_pos r c).ne', Real.log_mul r.ne' c.ne']; ring

theorem pl_eq {p : ℝ} (hp : 0 ≤ p) : pl p = p * Real.log p := plogp_false p hp

theorem entOf_pixels {h w na : ℕ} {a : ℕ → ℕ → ℝ} (ha : Unit01 h w a) (hna : 0 < na) :
    entOf na (fun i => (pixels h w na a i : ℝ)) = Cross.entropy h w na a := by
  unfold entOf Cross.entropy
  have : ∑ k ∈ range na, (pixels h w na a k : ℝ) = (h : ℝ) * w := by exact_mod_cast pixels_total ha hna
  rw [this]
  congr 1
  exact sum_congr rfl fun i _ => pl_eq (by positivity)

/-- Mutual information is the sum of the entropies minus the joint entropy. -/
theorem mutualInfo_eq {h w na nb : ℕ} {a b : ℕ → ℕ → ℝ} (ha : Unit01 h w a) (hb : Unit01 h w b) (hna : 0 < na) (hnb : 0 < nb) :
    mutualInfo h w na nb a b = Cross.entropy h w na a + Cross.entropy h w nb b +
      ∑ i ∈ range na, ∑ j ∈ range nb, pl ((pixelPairs h w na nb a b i j : ℝ) / (h * w)) := by
  have hrow : ∀ i, ∑ j ∈ range nb, (pixelPairs h w na nb a b i j : ℝ) / (h * w) = (pixels h w na a i : ℝ) / (h * w) := fun i => by
    rw [← sum_div]; congr 1; exact_mod_cast pairs_row hb hnb i
  have hcol : ∀ j, ∑ i ∈ range na, (pixelPairs h w na nb a b i j : ℝ) / (h * w) = (pixels h w nb b j : ℝ) / (h * w) := fun j => by
    rw [← sum_div]; congr 1; exact_mod_cast pairs_col ha hna j
  have key := mi_identity (nx := na) (ny := nb) (p := fun i j => (pixelPairs h w na nb a b i j : ℝ) / (h * w))
    (fun i j => by positivity)
  simp only [hrow, hcol] at key
  unfold mutualInfo Cross.entropy
  rw [key]
  have e : ∑ i ∈ range na, ∑ j ∈ range nb, pl ((pixelPairs h w na nb a b i j : ℝ) / (h * w)) =
      ∑ i ∈ range na, ∑ j ∈ range nb, (pixelPairs h w na nb a b i j : ℝ) / (h * w) * Real.log ((pixelPairs h w na nb a b i j : ℝ) / (h * w)) :=
    sum_congr rfl fun i _ => sum_congr rfl fun j _ => pl_eq (by positivity)
  rw [e]; ring

/-- Bounds on the mutual information. -/
theorem mutualInfo_bounds {h w na nb : ℕ} {a b : ℕ → ℕ → ℝ} (ha : Unit01 h w a) (hb : Unit01 h w b) (hna : 0 < na) (hnb : 0 < nb)
    (hh : 0 < h) (hw : 0 < w) :
    0 ≤ mutualInfo h w na nb a b ∧ mutualInfo h w na nb a b ≤ Cross.entropy h w na a ∧ mutualInfo h w na nb a b ≤ Cross.entropy h w nb b := by
  have hrow : ∀ i, ∑ j ∈ range nb, (pixelPairs h w na nb a b i j : ℝ) / (h * w) = (pixels h w na a i : ℝ) / (h * w) := fun i => by
    rw [← sum_div]; congr 1; exact_mod_cast pairs_row hb hnb i
  have hcol : ∀ j, ∑ i ∈ range na, (pixelPairs h w na nb a b i j : ℝ) / (h * w) = (pixels h w nb b j : ℝ) / (h * w) := fun j => by
    rw [← sum_div]; congr 1; exact_mod_cast pairs_col ha hna j
  have hpos : (0 : ℝ) < h * w := by positivity
  have tot : ∑ i ∈ range na, ∑ j ∈ range nb, (pixelPairs h w na nb a b i j : ℝ) / (h * w) = 1 := by
    simp only [hrow]
    rw [← sum_div, div_eq_one_iff_eq hpos.ne']
    exact_mod_cast pixels_total ha hna
  have p0 : ∀ i j, 0 ≤ (pixelPairs h w na nb a b i j : ℝ) / (h * w) := fun i j => by positivity
  have e : ∑ i ∈ range na, ∑ j ∈ range nb, pl ((pixelPairs h w na nb a b i j : ℝ) / (h * w)) =
      ∑ i ∈ range na, ∑ j ∈ range nb, (pixelPairs h w na nb a b i j : ℝ) / (h * w) * Real.log ((pixelPairs h w na nb a b i j : ℝ) / (h * w)) :=
    sum_congr rfl fun i _ => sum_congr rfl fun j _ => pl_eq (by positivity)
  have g := joint_ge p0 tot
  have r := joint_le_row (nx := na) (ny := nb) p0
  have c := joint_le_col (nx := na) (ny := nb) p0
  simp only [hrow, hcol] at g r c
  rw [mutualInfo_eq ha hb hna hnb, e]
  unfold Cross.entropy
  refine ⟨by linarith, by linarith, by linarith⟩

end Verif.Cmif
