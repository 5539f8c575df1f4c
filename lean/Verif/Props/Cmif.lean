import Verif.Lemmas.Cmif
/-!
C96: the cross mutual information map (`cmif`) shows at each place the mutual information of the source with the displaced
destination image.
-/
namespace Verif.Cmif
open Finset Verif.Blur Verif.Fft Verif.MI Verif.Spec
open Verif.Spec.Cross hiding entropy

/-- Stacks of `h` by `w` images with values in `[0, 1)`. -/
def Images (h w : ℕ) (l : List Img) : Prop := l ≠ [] ∧ ∀ i ∈ l, i.h = h ∧ i.w = w ∧ Unit01 h w i.px

/-- The destination image as it lies on the source at entry `(y, x)` of the map (zero displacement at the centre). -/
def laidOn (h w : ℕ) (d : Img) (y x : ℕ) : ℕ → ℕ → ℝ := displaced h w d.px (displacementAt h y) (displacementAt w x)

theorem stacks_none {bins : ℕ} {l : List Img} {b : ℕ} {d : Img} (h : l[b]? = some d) :
    slices bins l none b = stack (ones d) bins d := by
  have : l.getD b ⟨0, 0, fun _ _ => 0⟩ = d := by rw [List.getD_eq_getElem?_getD, h]; rfl
  unfold slices
  simp only [this]; rfl

section pair
variable {h w nd ns : ℕ} {d s : Img} (hh : 0 < h) (hw : 0 < w) (he : w % 2 = 0)
  (hd : d.h = h ∧ d.w = w ∧ Unit01 h w d.px) (hs : s.h = h ∧ s.w = w ∧ Unit01 h w s.px)
  (hnd : 0 < nd) (hnd' : nd ≤ 256) (hns : 0 < ns) (hns' : ns ≤ 256)
include hh hw he hd hs hnd hnd' hns hns'

/-- the joint entropy -/
theorem total_pairs (y x : ℕ) : ∑ i ∈ range nd, ∑ j ∈ range ns, (pixelPairs h w nd ns (laidOn h w d y x) s.px i j : ℝ) = h * w := by
  have hu : Unit01 h w (laidOn h w d y x) := displaced_unit hd.2.2 hh hw _ _
  have : ∀ i ∈ range nd, ∑ j ∈ range ns, (pixelPairs h w nd ns (laidOn h w d y x) s.px i j : ℝ) = (pixels h w nd (laidOn h w d y x) i : ℝ) :=
    fun i _ => by exact_mod_cast pairs_row hs.2.2 hns i
  rw [sum_congr rfl this]
  exact_mod_cast pixels_total hu hnd

theorem corr_facts (y x : ℕ) :
    (∀ i j, corrAt (stack (ones d) nd d (i + 1)) (stack (ones s) ns s (j + 1)) y x =
      (pixelPairs h w nd ns (laidOn h w d y x) s.px i j : ℝ)) ∧
    (∀ i, corrAt (stack (ones d) nd d (i + 1)) (stack (ones s) ns s 0) y x = (pixels h w nd (laidOn h w d y x) i : ℝ)) ∧
    (∀ j, corrAt (stack (ones d) nd d 0) (stack (ones s) ns s (j + 1)) y x = (pixels h w ns s.px j : ℝ)) := by
  obtain ⟨rfl, rfl, hd3⟩ := hd
  obtain ⟨hs1, hs2, hs3⟩ := hs
  exact ⟨fun i j => corr_joint d s hs1 hs2 hh hw he hd3 hs3 hnd hnd' hns hns' i j y x,
    fun i => corr_dst d s hs1 hs2 hh hw he hd3 hs3 hnd hnd' i y x,
    fun j => corr_src d s hs1 hs2 hh hw he hd3 hs3 hns hns' j y x⟩

theorem entSmall_eq (y x : ℕ) : entSmall nd ns (stack (ones d) nd d) (stack (ones s) ns s) y x =
    (Cross.entropy h w nd (laidOn h w d y x), Cross.entropy h w ns s.px,
      -∑ i ∈ range nd, ∑ j ∈ range ns, pl ((pixelPairs h w nd ns (laidOn h w d y x) s.px i j : ℝ) / (h * w))) := by
  obtain ⟨c1, c2, c3⟩ := corr_facts hh hw he hd hs hnd hnd' hns hns' y x
  have hu : Unit01 h w (laidOn h w d y x) := displaced_unit hd.2.2 hh hw _ _
  unfold entSmall
  simp only [c1, c2, c3, thresh_nat]
  rw [entOf_pixels hu hnd, entOf_pixels hs.2.2 hns, total_pairs hh hw he hd hs hnd hnd' hns hns' y x]

theorem finish_mi (y x : ℕ) : finish .none (Cross.entropy h w nd (laidOn h w d y x)) (Cross.entropy h w ns s.px)
      (-∑ i ∈ range nd, ∑ j ∈ range ns, pl ((pixelPairs h w nd ns (laidOn h w d y x) s.px i j : ℝ) / (h * w))) =
    some (mutualInfo h w nd ns (laidOn h w d y x) s.px) := by
  have hu : Unit01 h w (laidOn h w d y x) := displaced_unit hd.2.2 hh hw _ _
  have e := mutualInfo_eq hu hs.2.2 hnd hns
  have b := (mutualInfo_bounds hu hs.2.2 hnd hns hh hw).1
  have e' : Cross.entropy h w ns s.px + Cross.entropy h w nd (laidOn h w d y x) -
      -∑ i ∈ range nd, ∑ j ∈ range ns, pl ((pixelPairs h w nd ns (laidOn h w d y x) s.px i j : ℝ) / (h * w)) =
      mutualInfo h w nd ns (laidOn h w d y x) s.px := by rw [e]; ring
  unfold finish
  simp only [e']
  rw [if_neg (not_lt.mpr b)]

end pair

theorem shapes_ok {a : Args} {h w : ℕ} {dst src : List Img} (hd : Images h w dst) (hs : Images h w src) (hh : 0 < h) (hw : 2 ≤ w)
    (hnd : 0 < a.binsDst) (hnd' : a.binsDst ≤ 256) (hns : 0 < a.binsSrc) (hns' : a.binsSrc ≤ 256) :
    (src.getD 0 ⟨0, 0, fun _ _ => 0⟩).h = h ∧ (src.getD 0 ⟨0, 0, fun _ _ => 0⟩).w = w ∧ shapesOk a h w dst src none none := by
  obtain ⟨hs0, hs⟩ := hs
  obtain ⟨s, l, rfl⟩ := List.exists_cons_of_ne_nil hs0
  have h0 := hs s List.mem_cons_self
  refine ⟨h0.1, h0.2.1, ?_, by simp, by simp, hh, hw, hd.1, hs0, hnd, hnd', hns, hns'⟩
  intro i hi
  simp only [Option.getD_none, List.append_nil] at hi
  rcases List.mem_append.mp hi with hi | hi
  · exact ⟨(hd.2 i hi).1, (hd.2 i hi).2.1⟩
  · exact ⟨(hs i hi).1, (hs i hi).2.1⟩

/-- Entry `[b][c]` of a nested list. -/
def entry (m : List (List OMap)) (b c : ℕ) : Option OMap := m[b]?.bind fun r => r[c]?

theorem entry_range (nb nc : ℕ) (f : ℕ → ℕ → OMap) {b c : ℕ} (hb : b < nb) (hc : c < nc) :
    entry ((List.range nb).map fun b => (List.range nc).map fun c => f b c) b c = some (f b c) := by
  unfold entry
  simp [hb, hc]

/-- **C96.**  For stacks of images of one (even-width) size with values in `[0, 1)`, up to 8 bins, no masks: `cmif` returns
one map per pair of images, of the size of the images, whose entry at `(y, x)` is the mutual information of the source and
the destination displaced cyclically by `(y - h/2, x - w/2)`. -/
theorem C96_value (a : Args) (h w : ℕ) (dst src : List Img) (hd : Images h w dst) (hs : Images h w src)
    (hh : 0 < h) (hw : 0 < w) (he : w % 2 = 0) (hnd : 0 < a.binsDst) (hnd' : a.binsDst ≤ 8)
    (hns : 0 < a.binsSrc) (hns' : a.binsSrc ≤ 8) (hc : a.constantMarginal = false) (hn : a.norm = .none) :
    ∃ m, cmif a dst src none none = some m ∧ m.length = dst.length ∧ (∀ r ∈ m, r.length = src.length) ∧
      ∀ b c d s, dst[b]? = some d → src[c]? = some s → ∃ o, entry m b c = some o ∧ o.h = h ∧ o.w = w ∧
        ∀ y < h, ∀ x < w, o.at_ y x = some (mutualInfo h w a.binsDst a.binsSrc (laidOn h w d y x) s.px) := by
  obtain ⟨k1, k2, k3⟩ := shapes_ok (a := a) hd hs hh (by omega : 2 ≤ w) hnd (by omega) hns (by omega)
  refine ⟨(List.range dst.length).map fun b => (List.range src.length).map fun c =>
    smallEntry a h w (slices a.binsDst dst none b) (slices a.binsSrc src none c), ?_, by simp, by simp, ?_⟩
  · unfold cmif
    rw [k1, k2, if_pos k3, if_neg (by omega), hc]
    rfl
  · intro b c d s hb hc'
    have hb' : b < dst.length := (List.getElem?_eq_some_iff.mp hb).1
    have hc'' : c < src.length := (List.getElem?_eq_some_iff.mp hc').1
    refine ⟨_, entry_range _ _ _ hb' hc'', rfl, by show 2 * (w / 2) = w; omega, ?_⟩
    intro y hy x hx
    have hd' := hd.2 d (List.mem_of_getElem? hb)
    have hs' := hs.2 s (List.mem_of_getElem? hc')
    unfold smallEntry
    simp only [stacks_none hb, stacks_none hc', entSmall_eq hh hw he hd' hs' hnd (by omega : a.binsDst ≤ 256) hns (by omega : a.binsSrc ≤ 256) y x, hn]
    exact finish_mi hh hw he hd' hs' hnd (by omega) hns (by omega) y x

/-- The zero displacement is shown at the centre of the map. -/
theorem C96_centre (h w : ℕ) (d : Img) (hh : 0 < h) (hw : 0 < w) :
    ∀ k < h, ∀ l < w, laidOn h w d (h / 2) (w / 2) k l = d.px k l := by
  intro k hk l hl
  unfold laidOn displaced displacementAt
  have a : h / 2 + (h - h / 2) = h := by omega
  have b : w / 2 + (w - w / 2) = w := by omega
  rw [a, b, Nat.mod_self, Nat.mod_self, Nat.add_zero, Nat.add_zero, Nat.mod_eq_of_lt hk, Nat.mod_eq_of_lt hl]

/-! ### Registration -/

theorem mutualInfo_self {h w n : ℕ} {a : ℕ → ℕ → ℝ} (ha : Unit01 h w a) (hn : 0 < n) :
    mutualInfo h w n n a a = Cross.entropy h w n a := by
  classical
  rw [mutualInfo_eq ha ha hn hn]
  have hz : ∀ i j, i ≠ j → pixelPairs h w n n a a i j = 0 := by
    intro i j hij
    unfold pixelPairs
    rw [card_eq_zero, filter_eq_empty_iff]
    rintro p - ⟨h1, h2⟩
    exact hij (inBin_unique hn h1 h2)
  have hdg : ∀ i, pixelPairs h w n n a a i i = pixels h w n a i := by
    intro i
    unfold pixelPairs pixels
    congr 1
    exact filter_congr fun p _ => and_self_iff
  have : ∀ i ∈ range n, ∑ j ∈ range n, pl ((pixelPairs h w n n a a i j : ℝ) / (h * w)) = pl ((pixels h w n a i : ℝ) / (h * w)) := by
    intro i hi
    rw [sum_eq_single i]
    · rw [hdg]
    · intro j _ hj
      rw [hz i j (Ne.symm hj)]; simp [pl, plogp]
    · intro h'; exact absurd hi h'
  rw [sum_congr rfl this]
  unfold Cross.entropy
  rw [sum_congr rfl fun i _ => pl_eq (p := (pixels h w n a i : ℝ) / (h * w)) (by positivity)]
  ring

theorem mutualInfo_congr {h w na nb : ℕ} {a a' b : ℕ → ℕ → ℝ} (e : ∀ k < h, ∀ l < w, a k l = a' k l) :
    mutualInfo h w na nb a b = mutualInfo h w na nb a' b := by
  classical
  have h1 : pixelPairs h w na nb a b = pixelPairs h w na nb a' b := by
    funext i j
    unfold pixelPairs
    congr 1
    refine filter_congr fun p hp => ?_
    have := mem_product.mp hp
    rw [e p.1 (mem_range.mp this.1) p.2 (mem_range.mp this.2)]
  have h2 : pixels h w na a = pixels h w na a' := by
    funext i
    unfold pixels
    congr 1
    refine filter_congr fun p hp => ?_
    have := mem_product.mp hp
    rw [e p.1 (mem_range.mp this.1) p.2 (mem_range.mp this.2)]
  unfold mutualInfo
  rw [h1, h2]

/-- **C96, bounds and registration.**  Every entry of the map lies between 0 and the entropy of the source image; if the
destination is a cyclically displaced copy of the source, the entry at that displacement reaches this maximum. -/
theorem C96_registration (h w n nd : ℕ) (d s : Img) (hh : 0 < h) (hw : 0 < w) (hn : 0 < n) (hnd : 0 < nd)
    (hd : Unit01 h w d.px) (hs : Unit01 h w s.px) :
    (∀ y x, 0 ≤ mutualInfo h w nd n (laidOn h w d y x) s.px ∧
      mutualInfo h w nd n (laidOn h w d y x) s.px ≤ Cross.entropy h w n s.px) ∧
    ∀ y x, (∀ k < h, ∀ l < w, laidOn h w d y x k l = s.px k l) →
      mutualInfo h w n n (laidOn h w d y x) s.px = Cross.entropy h w n s.px := by
  refine ⟨fun y x => ?_, fun y x e => ?_⟩
  · have hu : Unit01 h w (laidOn h w d y x) := displaced_unit hd hh hw _ _
    have := mutualInfo_bounds hu hs hnd hn hh hw
    exact ⟨this.1, this.2.2⟩
  · rw [mutualInfo_congr e, mutualInfo_self hs hn]

/-! ### Agreement with `binned_nmi` -/

/-- An image in row-major order. -/
def flat (h w : ℕ) (a : ℕ → ℕ → ℝ) : List ℝ := (List.range h).flatMap fun r => (List.range w).map fun c => a r c

theorem flat_zip (h w : ℕ) (a b : ℕ → ℕ → ℝ) : List.zip (flat h w a) (flat h w b) =
    ((List.range h).flatMap fun r => (List.range w).map fun c => (r, c)).map fun p => (a p.1 p.2, b p.1 p.2) := by
  unfold flat
  induction List.range h with
  | nil => rfl
  | cons r l ih =>
    simp only [List.flatMap_cons, List.map_append, List.map_map]
    rw [List.zip_append (by simp), ih, List.zip_map']
    simp [Function.comp_def]

theorem flat_length (h w : ℕ) (a : ℕ → ℕ → ℝ) : (flat h w a).length = h * w := by
  unfold flat; simp [List.length_flatMap]

theorem flat_mem {h w : ℕ} {a : ℕ → ℕ → ℝ} (ha : Unit01 h w a) : ∀ v ∈ flat h w a, 0 ≤ v ∧ v < 1 := by
  intro v hv
  unfold flat at hv
  simp only [List.mem_flatMap, List.mem_map, List.mem_range] at hv
  obtain ⟨r, hr, c, hc, rfl⟩ := hv
  exact ha r hr c hc

theorem pairCount_flat (h w na nb : ℕ) (a b : ℕ → ℕ → ℝ) (i j : ℕ) :
    pairCount (flat h w a) (flat h w b) na nb i j = pixelPairs h w na nb a b i j := by
  classical
  unfold pairCount pixelPairs
  rw [flat_zip, List.filter_map, List.length_map]
  have nd : ((List.range h).flatMap fun r => (List.range w).map fun c => (r, c)).Nodup := by
    have : ((List.range h).flatMap fun r => (List.range w).map fun c => (r, c)) = List.range h ×ˢ List.range w := rfl
    rw [this]
    exact List.Nodup.product List.nodup_range List.nodup_range
  rw [← List.toFinset_card_of_nodup (nd.filter _)]
  congr 1
  ext p
  simp only [List.mem_toFinset, List.mem_filter, List.mem_flatMap, List.mem_map, List.mem_range, mem_filter, mem_product, mem_range,
    Function.comp_apply, decide_eq_true_eq]
  unfold InBin
  constructor
  · rintro ⟨⟨r, hr, c, hc, rfl⟩, h1, h2, h3, h4⟩
    exact ⟨⟨hr, hc⟩, ⟨h1, h2⟩, h3, h4⟩
  · rintro ⟨⟨hr, hc⟩, ⟨h1, h2⟩, h3, h4⟩
    exact ⟨⟨p.1, hr, p.2, hc, rfl⟩, h1, h2, h3, h4⟩

theorem entropies_flat {h w na nb : ℕ} {a b : ℕ → ℕ → ℝ} (ha : Unit01 h w a) (hb : Unit01 h w b) (hna : 0 < na) (hnb : 0 < nb)
    (hh : 0 < h) (hw : 0 < w) :
    MI.entropies (flat h w a) (flat h w b) na nb false false = some (Cross.entropy h w na a, Cross.entropy h w nb b,
      -∑ i ∈ range na, ∑ j ∈ range nb, pl ((pixelPairs h w na nb a b i j : ℝ) / (h * w))) := by
  have hj := (C37_binned_partial (flat h w a) (flat h w b) na nb hna hnb (flat_mem ha) (flat_mem hb)).1
  have hpos : (0 : ℝ) < h * w := by positivity
  have hrow : ∀ i, ∑ j ∈ range nb, (pixelPairs h w na nb a b i j : ℝ) / (h * w) = (pixels h w na a i : ℝ) / (h * w) := fun i => by
    rw [← sum_div]; congr 1; exact_mod_cast pairs_row hb hnb i
  have hcol : ∀ j, ∑ i ∈ range na, (pixelPairs h w na nb a b i j : ℝ) / (h * w) = (pixels h w nb b j : ℝ) / (h * w) := fun j => by
    rw [← sum_div]; congr 1; exact_mod_cast pairs_col ha hna j
  have ta : ∑ i ∈ range na, (pixels h w na a i : ℝ) / (h * w) = 1 := by
    rw [← sum_div, div_eq_one_iff_eq hpos.ne']; exact_mod_cast pixels_total ha hna
  have tb : ∑ i ∈ range nb, (pixels h w nb b i : ℝ) / (h * w) = 1 := by
    rw [← sum_div, div_eq_one_iff_eq hpos.ne']; exact_mod_cast pixels_total hb hnb
  have hj' : ∀ i ∈ range na, ∀ j ∈ range nb, (jointHist (flat h w a) (flat h w b) na nb i j : ℝ) = (pixelPairs h w na nb a b i j : ℝ) := by
    intro i hi j hj0
    rw [hj i (mem_range.mp hi) j (mem_range.mp hj0), pairCount_flat]
  have tot : ∑ i ∈ range na, ∑ j ∈ range nb, (jointHist (flat h w a) (flat h w b) na nb i j : ℝ) = h * w := by
    rw [sum_congr rfl fun i hi => sum_congr rfl fun j hj => hj' i hi j hj]
    have : ∀ i ∈ range na, ∑ j ∈ range nb, (pixelPairs h w na nb a b i j : ℝ) = (pixels h w na a i : ℝ) :=
      fun i _ => by exact_mod_cast pairs_row hb hnb i
    rw [sum_congr rfl this]; exact_mod_cast pixels_total ha hna
  have r' : ∀ i ∈ range na, ∑ j ∈ range nb, (jointHist (flat h w a) (flat h w b) na nb i j : ℝ) / (h * w) = (pixels h w na a i : ℝ) / (h * w) :=
    fun i hi => by rw [← hrow i]; exact sum_congr rfl fun j hj => by rw [hj' i hi j hj]
  have c' : ∀ j ∈ range nb, ∑ i ∈ range na, (jointHist (flat h w a) (flat h w b) na nb i j : ℝ) / (h * w) = (pixels h w nb b j : ℝ) / (h * w) :=
    fun j hj => by rw [← hcol j]; exact sum_congr rfl fun i hi => by rw [hj' i hi j hj]
  unfold MI.entropies tableEntropies
  simp only [Bool.false_eq_true, if_false]
  rw [tot, if_neg hpos.ne', sum_congr rfl r', sum_congr rfl c', ta, tb]
  unfold Cross.entropy
  refine congrArg some (Prod.ext_iff.mpr ⟨?_, Prod.ext_iff.mpr ⟨?_, ?_⟩⟩) <;> dsimp only
  · congr 1
    refine sum_congr rfl fun i hi => ?_
    rw [r' i hi, div_one]; exact pl_eq (by positivity)
  · congr 1
    refine sum_congr rfl fun j hj => ?_
    rw [c' j hj, div_one]; exact pl_eq (by positivity)
  · congr 1
    refine sum_congr rfl fun i hi => sum_congr rfl fun j hj => ?_
    rw [hj' i hi j hj]; rfl

/-- **C96, all normalisation modes.**  Each entry of the map is exactly what `binned_nmi` returns for the flattened source
and displaced destination, also where that is undefined (zero denominators). -/
theorem C96_agrees (a : Args) (h w : ℕ) (dst src : List Img) (hd : Images h w dst) (hs : Images h w src)
    (hh : 0 < h) (hw : 0 < w) (he : w % 2 = 0) (hnd : 0 < a.binsDst) (hnd' : a.binsDst ≤ 8)
    (hns : 0 < a.binsSrc) (hns' : a.binsSrc ≤ 8) (hc : a.constantMarginal = false) :
    ∃ m, cmif a dst src none none = some m ∧
      ∀ b c d s, dst[b]? = some d → src[c]? = some s → ∃ o, entry m b c = some o ∧ o.h = h ∧ o.w = w ∧
        ∀ y < h, ∀ x < w, o.at_ y x =
          binnedNmi (flat h w (laidOn h w d y x)) (flat h w s.px) a.binsDst a.binsSrc false a.norm false := by
  obtain ⟨k1, k2, k3⟩ := shapes_ok (a := a) hd hs hh (by omega : 2 ≤ w) hnd (by omega) hns (by omega)
  refine ⟨(List.range dst.length).map fun b => (List.range src.length).map fun c =>
    smallEntry a h w (slices a.binsDst dst none b) (slices a.binsSrc src none c), ?_, ?_⟩
  · unfold cmif
    rw [k1, k2, if_pos k3, if_neg (by omega), hc]
    rfl
  · intro b c d s hb hc'
    have hb' : b < dst.length := (List.getElem?_eq_some_iff.mp hb).1
    have hc'' : c < src.length := (List.getElem?_eq_some_iff.mp hc').1
    refine ⟨_, entry_range _ _ _ hb' hc'', rfl, by show 2 * (w / 2) = w; omega, ?_⟩
    intro y hy x hx
    have hd' := hd.2 d (List.mem_of_getElem? hb)
    have hs' := hs.2 s (List.mem_of_getElem? hc')
    have hu : Unit01 h w (laidOn h w d y x) := displaced_unit hd'.2.2 hh hw _ _
    have e := mutualInfo_eq hu hs'.2.2 hnd hns
    have bd := (mutualInfo_bounds hu hs'.2.2 hnd hns hh hw).1
    unfold smallEntry binnedNmi
    rw [if_pos ⟨by rw [flat_length, flat_length], hnd, hns⟩, entropies_flat hu hs'.2.2 hnd hns hh hw]
    simp only [stacks_none hb, stacks_none hc', entSmall_eq hh hw he hd' hs' hnd (by omega : a.binsDst ≤ 256) hns (by omega : a.binsSrc ≤ 256) y x,
      Option.bind_some]
    generalize ∑ i ∈ range a.binsDst, ∑ j ∈ range a.binsSrc, pl ((pixelPairs h w a.binsDst a.binsSrc (laidOn h w d y x) s.px i j : ℝ) / (h * w)) = J at *
    generalize Cross.entropy h w a.binsDst (laidOn h w d y x) = X at *
    generalize Cross.entropy h w a.binsSrc s.px = Y at *
    have e1 : Y + X - -J = X + Y - -J := by ring
    have e2 : ¬ (X + Y - -J < 0) := by rw [not_lt]; linarith
    unfold finish applyNorm
    cases a.norm <;> simp only [e1, if_neg e2]

end Verif.Cmif
