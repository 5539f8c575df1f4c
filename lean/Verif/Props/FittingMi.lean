import Verif.Model.FittingMi
import Verif.Props.FittingExamples
import Verif.Props.Tighten5
import Verif.Props.Refine
import Verif.Props.Cmif
import Verif.Props.CmifCases
/-! C151: the pattern-centre search with `metric="mi"` (fitting.py `spatial_fft_pc_fitter`). -/
namespace Verif.Fit
open Verif.Blur Verif.Fft Verif.Spec Verif.Spec.Cross
open Verif.Cmif (laidOn corrAt level stack thresh entSmall entOf pl byteOf cmif smallEntry slices)

/-! ### Specification -/

/-- Shannon entropy (nats) of a histogram. -/
noncomputable def entropyOf {ι : Type} (s : Finset ι) (c : ι → ℕ) : ℝ :=
  -∑ i ∈ s, ((c i : ℝ) / ∑ k ∈ s, (c k : ℝ)) * Real.log ((c i : ℝ) / ∑ k ∈ s, (c k : ℝ))

/-- The score computed for a simulation `sim` (already laid on the padded detector of `P` by `W` pixels) and a padded pattern
`pat`; the detector covers rows `t .. t + h - 1` and columns `l .. l + w - 1`.  Entropy of the simulation on the detector plus
entropy of the padded pattern minus the joint entropy on the padded detector (four grey levels; pixels of value 1 have no level), at least 0. -/
noncomputable def miScore (P W t l h w : ℕ) (sim pat : ℕ → ℕ → ℝ) : ℝ :=
  max 0 (entropyOf (Finset.range 4) (Cross.pixels h w 4 fun i j => sim (t + i) (l + j)) + entropyOf (Finset.range 4) (Cross.pixels P W 4 pat) -
    entropyOf (Finset.range 4 ×ˢ Finset.range 4) fun ij => pixelPairs P W 4 4 sim pat ij.1 ij.2)

/-! ### One entry of the map -/

theorem byteOf4 {v : ℝ} (h0 : 0 ≤ v) (h1 : v ≤ 1) (i : ℕ) : byteOf ((4 : ℕ) * v) = (i : ℤ) ↔ InBin 4 i v := by
  rcases h1.lt_or_eq with h | rfl
  · exact Cmif.byteOf_iff (by norm_num) (by norm_num) h0 h i
  · have : byteOf ((4 : ℕ) * (1 : ℝ)) = 4 := by
      unfold byteOf MI.trunc
      norm_num
    rw [this]
    unfold InBin
    constructor
    · intro h
      have : i = 4 := by exact_mod_cast h.symm
      subst this; norm_num
    · rintro ⟨a, b⟩
      rw [div_le_one (by norm_num)] at a
      rw [lt_div_iff₀ (by norm_num)] at b
      have a' : i ≤ 4 := by exact_mod_cast a
      have b' : 4 < i + 1 := by norm_num at b; exact_mod_cast b
      have : i = 4 := by omega
      rw [this]; rfl

/-- Grey values in `[0, 1]`. -/
def Closed01 (h w : ℕ) (a : ℕ → ℕ → ℝ) : Prop := ∀ k < h, ∀ l < w, 0 ≤ a k l ∧ a k l ≤ 1

section corr
variable {P W : ℕ} {d s : Img} (hP : 0 < P) (hW : 0 < W) (he : W % 2 = 0) (hd : d.h = P ∧ d.w = W) (hs : s.h = P ∧ s.w = W)
  (ud : Unit01 P W d.px) (us : Closed01 P W s.px)
include hP hW he hd hs ud us

theorem mi_joint (i j y x : ℕ) : corrAt (level 4 d i) (level 4 s j) y x = (pixelPairs P W 4 4 (laidOn P W d y x) s.px i j : ℝ) := by
  classical
  obtain ⟨rfl, rfl⟩ := hd
  rw [Cmif.corrAt_eq (level 4 d i) (level 4 s j) hs.1 hs.2 hP hW he y x]
  unfold pixelPairs
  have e := Cmif.sum_ind d.h d.w (fun k l => InBin 4 i (laidOn d.h d.w d y x k l)) (fun k l => InBin 4 j (s.px k l))
  rw [← e]
  refine Finset.sum_congr rfl fun k hk => Finset.sum_congr rfl fun l hl => ?_
  have hk' := Finset.mem_range.mp hk
  have hl' := Finset.mem_range.mp hl
  have hs' := us k hk' l hl'
  have hd' := Cmif.displaced_unit ud hP hW (displacementAt d.h y) (displacementAt d.w x) k hk' l hl'
  congr 1
  · show (if byteOf ((4 : ℕ) * s.px k l) = (j : ℤ) then (1 : ℝ) else 0) = _
    exact if_congr (byteOf4 hs'.1 hs'.2 j) rfl rfl
  · show (if byteOf ((4 : ℕ) * displaced d.h d.w d.px (displacementAt d.h y) (displacementAt d.w x) k l) = (i : ℤ) then (1 : ℝ) else 0) = _
    exact if_congr (byteOf4 hd'.1 hd'.2.le i) rfl rfl

theorem mi_src (j y x : ℕ) : corrAt (Cmif.ones d) (level 4 s j) y x = (Cross.pixels P W 4 s.px j : ℝ) := by
  classical
  obtain ⟨rfl, rfl⟩ := hd
  rw [Cmif.corrAt_eq (Cmif.ones d) (level 4 s j) hs.1 hs.2 hP hW he y x]
  unfold Cross.pixels
  have e := Cmif.sum_ind d.h d.w (fun _ _ => True) (fun k l => InBin 4 j (s.px k l))
  simp only [true_and, if_true] at e
  rw [← e]
  refine Finset.sum_congr rfl fun k hk => Finset.sum_congr rfl fun l hl => ?_
  have hs' := us k (Finset.mem_range.mp hk) l (Finset.mem_range.mp hl)
  congr 1
  show (if byteOf ((4 : ℕ) * s.px k l) = (j : ℤ) then (1 : ℝ) else 0) = _
  exact if_congr (byteOf4 hs'.1 hs'.2 j) rfl rfl

omit hs us in
theorem mi_win {t l h w : ℕ} (hm : t + h ≤ P) (hm' : l + w ≤ W) (i y x : ℕ) :
    corrAt (level 4 d i) ⟨P, W, fun a b => if t ≤ a ∧ a - t < h ∧ l ≤ b ∧ b - l < w then 1 else 0⟩ y x =
      (Cross.pixels h w 4 (fun a b => laidOn P W d y x (t + a) (l + b)) i : ℝ) := by
  classical
  obtain ⟨rfl, rfl⟩ := hd
  rw [Cmif.corrAt_eq (level 4 d i) _ (by rfl) (by rfl) hP hW he y x]
  have e := Cmif.sum_ind d.h d.w (fun k l => InBin 4 i (laidOn d.h d.w d y x k l)) (fun a b => t ≤ a ∧ a - t < h ∧ l ≤ b ∧ b - l < w)
  have e2 : ((Finset.range d.h ×ˢ Finset.range d.w).filter fun p => InBin 4 i (laidOn d.h d.w d y x p.1 p.2) ∧
      (t ≤ p.1 ∧ p.1 - t < h ∧ l ≤ p.2 ∧ p.2 - l < w)).card = Cross.pixels h w 4 (fun a b => laidOn d.h d.w d y x (t + a) (l + b)) i := by
    unfold Cross.pixels
    symm
    refine Finset.card_bij (fun p _ => (t + p.1, l + p.2)) ?_ ?_ ?_
    · intro p hp
      simp only [Finset.mem_filter, Finset.mem_product, Finset.mem_range] at hp ⊢
      exact ⟨⟨by omega, by omega⟩, hp.2, by omega, by omega, by omega, by omega⟩
    · intro p _ q _ hpq
      simp only [Prod.mk.injEq] at hpq
      ext <;> omega
    · intro p hp
      simp only [Finset.mem_filter, Finset.mem_product, Finset.mem_range] at hp
      refine ⟨(p.1 - t, p.2 - l), ?_, ?_⟩
      · simp only [Finset.mem_filter, Finset.mem_product, Finset.mem_range]
        rw [show t + (p.1 - t) = p.1 by omega, show l + (p.2 - l) = p.2 by omega]
        exact ⟨⟨by omega, by omega⟩, hp.2.1⟩
      · ext <;> simp <;> omega
  refine Eq.trans ?_ (e.trans ?_)
  swap
  · rw [← e2]; congr!
  refine Finset.sum_congr rfl fun k hk => Finset.sum_congr rfl fun l' hl => ?_
  have hd' := Cmif.displaced_unit ud hP hW (displacementAt d.h y) (displacementAt d.w x) k (Finset.mem_range.mp hk) l' (Finset.mem_range.mp hl)
  refine congrArg₂ (· * ·) ?_ ?_
  · by_cases hc : t ≤ k ∧ k - t < h ∧ l ≤ l' ∧ l' - l < w
    · rw [if_pos hc]; exact if_pos hc
    · rw [if_neg hc]; exact if_neg hc
  show (if byteOf ((4 : ℕ) * displaced d.h d.w d.px (displacementAt d.h y) (displacementAt d.w x) k l') = (i : ℤ) then (1 : ℝ) else 0) = _
  exact if_congr (byteOf4 hd'.1 hd'.2.le i) rfl rfl

end corr

theorem entOf_nat (n : ℕ) (c : ℕ → ℕ) : entOf n (fun i => (c i : ℝ)) = entropyOf (Finset.range n) c := by
  unfold entOf entropyOf
  congr 1
  exact Finset.sum_congr rfl fun i _ => Cmif.pl_eq (by positivity)

theorem smallEntry_mi {P W : ℕ} {d s : Img} (hP : 0 < P) (hW : 0 < W) (he : W % 2 = 0) (hd : d.h = P ∧ d.w = W) (hs : s.h = P ∧ s.w = W)
    (ud : Unit01 P W d.px) (us : Closed01 P W s.px) {t l h w : ℕ} (hm : t + h ≤ P) (hm' : l + w ≤ W) (y x : ℕ) :
    (smallEntry ⟨4, 4, 8, false, .none⟩ P W (stack (Cmif.ones d) 4 d)
      (stack ⟨P, W, fun a b => if t ≤ a ∧ a - t < h ∧ l ≤ b ∧ b - l < w then 1 else 0⟩ 4 s)).at_ y x =
      some (miScore P W t l h w (laidOn P W d y x) s.px) := by
  have e0 : ∀ (m : Img) (b : Img), stack m 4 b 0 = m := fun m b => rfl
  have e1 : ∀ (m : Img) (b : Img) (i : ℕ), stack m 4 b (i + 1) = level 4 b i := fun m b i => by
    unfold stack; rw [if_neg (by omega)]; rfl
  unfold smallEntry
  simp only [entSmall, e0, e1, mi_joint hP hW he hd hs ud us, mi_src hP hW he hd hs ud us, mi_win hP hW he hd ud hm hm', Cmif.thresh_nat]
  rw [entOf_nat 4 (Cross.pixels h w 4 fun a b => laidOn P W d y x (t + a) (l + b)), entOf_nat 4 (Cross.pixels P W 4 s.px)]
  have ej : -∑ i ∈ Finset.range 4, ∑ j ∈ Finset.range 4, pl ((pixelPairs P W 4 4 (laidOn P W d y x) s.px i j : ℝ) /
      ∑ i ∈ Finset.range 4, ∑ j ∈ Finset.range 4, (pixelPairs P W 4 4 (laidOn P W d y x) s.px i j : ℝ)) =
      entropyOf (Finset.range 4 ×ˢ Finset.range 4) fun ij => pixelPairs P W 4 4 (laidOn P W d y x) s.px ij.1 ij.2 := by
    unfold entropyOf
    rw [Finset.sum_product, Finset.sum_product]
    congr 1
    exact Finset.sum_congr rfl fun i _ => Finset.sum_congr rfl fun j _ => Cmif.pl_eq (by positivity)
  rw [ej]
  unfold Cmif.finish miScore
  simp only
  rw [add_comm (entropyOf (Finset.range 4) (Cross.pixels P W 4 s.px))]
  split_ifs with h0
  · rw [max_eq_left h0.le]
  · rw [max_eq_right (not_lt.mp h0)]

/-! ### The tables -/

/-- The window of the padded detector covered by the detector, as an image. -/
def windowImg (P W t l h w : ℕ) : Img := ⟨P, W, fun a b => if t ≤ a ∧ a - t < h ∧ l ≤ b ∧ b - l < w then 1 else 0⟩

section steps
variable {P W t l h w : ℕ} (hP : 0 < P) (hW : 0 < W) (he : W % 2 = 0) (hm : t + h ≤ P) (hm' : l + w ≤ W)
  {pats : List Img} (hn : pats ≠ []) (hp : ∀ s ∈ pats, (s.h = P ∧ s.w = W) ∧ Closed01 P W s.px)
include hP hW he hm hm' hn hp

theorem stepMi_eq {chunk : List Img} (hc : chunk ≠ []) (hs : ∀ d ∈ chunk, (d.h = P ∧ d.w = W) ∧ Unit01 P W d.px)
    (T : Img → (ℕ → ℕ → ℝ) × (ℕ → ℕ → ℕ)) :
    stepMi pats (windowImg P W t l h w) P W (pats.map T) chunk = some (pats.map fun p =>
      batchStep (T p) (chunk.map fun d y x => miScore P W t l h w (laidOn P W d y x) p.px)) := by
  have hcm : cmif ⟨4, 4, 8, false, .none⟩ chunk pats none (some (pats.map fun _ => windowImg P W t l h w)) =
      some ((List.range chunk.length).map fun b => (List.range pats.length).map fun c =>
        smallEntry ⟨4, 4, 8, false, .none⟩ P W (slices 4 chunk none b) (slices 4 pats (some (pats.map fun _ => windowImg P W t l h w)) c)) := by
    obtain ⟨s0, rest, rfl⟩ := List.exists_cons_of_ne_nil hn
    have h0 := (hp s0 (by simp)).1
    have k1 : ((s0 :: rest).getD 0 ⟨0, 0, fun _ _ => 0⟩).h = P := h0.1
    have k2 : ((s0 :: rest).getD 0 ⟨0, 0, fun _ _ => 0⟩).w = W := h0.2
    unfold cmif
    rw [k1, k2, if_pos, if_neg (by norm_num)]
    · rfl
    · refine ⟨?_, by simp, by simp, hP, by omega, hc, hn, by norm_num, by norm_num, by norm_num, by norm_num⟩
      intro i hi
      simp only [Option.getD_none, List.append_nil, Option.getD_some, List.mem_append, List.mem_map] at hi
      rcases hi with (hi | hi) | ⟨_, _, rfl⟩
      · exact (hs i hi).1
      · exact (hp i hi).1
      · exact ⟨rfl, rfl⟩
  unfold stepMi
  rw [hcm, Option.bind_some, if_pos]
  swap
  · intro r hr o ho
    obtain ⟨b, -, rfl⟩ := List.mem_map.mp hr
    obtain ⟨c, -, rfl⟩ := List.mem_map.mp ho
    exact ⟨rfl, by show 2 * (W / 2) = W; omega⟩
  congr 1
  apply List.ext_getElem?
  intro n
  rw [List.getElem?_map, List.getElem?_zipIdx, List.getElem?_map, List.getElem?_map]
  rcases hpn : pats[n]? with _ | p
  · rfl
  · simp only [Option.map_some, Nat.zero_add]
    have hlt : n < pats.length := (List.getElem?_eq_some_iff.mp hpn).1
    congr 2
    apply List.ext_getElem?
    intro b
    rw [List.getElem?_map, List.getElem?_map, List.getElem?_map]
    rcases hcb : chunk[b]? with _ | d
    · have : chunk.length ≤ b := List.getElem?_eq_none_iff.mp hcb
      rw [List.getElem?_eq_none (by simpa using this)]; rfl
    · have hb : b < chunk.length := (List.getElem?_eq_some_iff.mp hcb).1
      rw [List.getElem?_range hb]
      simp only [Option.map_some, Option.some.injEq]
      funext y x
      rw [List.getElem?_map, List.getElem?_range hlt, Option.map_some, Option.bind_some, Cmif.stacks_none hcb]
      have hS : slices 4 pats (some (pats.map fun _ => windowImg P W t l h w)) n = stack (windowImg P W t l h w) 4 p := by
        unfold slices
        simp only [Option.map_some, Option.getD_some, List.getD_eq_getElem?_getD, List.getElem?_map, hpn]
      rw [hS]
      have hd' := hs d (List.mem_of_getElem? hcb)
      have hp' := hp p (List.mem_of_getElem? hpn)
      unfold windowImg
      rw [smallEntry_mi hP hW he hd'.1 hp'.1 hd'.2 hp'.2 hm hm' y x]
      rfl

theorem foldMi_eq (L : List (List Img)) (hL : ∀ chunk ∈ L, chunk ≠ [] ∧ ∀ d ∈ chunk, (d.h = P ∧ d.w = W) ∧ Unit01 P W d.px)
    (T : Img → (ℕ → ℕ → ℝ) × (ℕ → ℕ → ℕ)) :
    L.foldlM (stepMi pats (windowImg P W t l h w) P W) (pats.map T) = some (pats.map fun p =>
      L.foldl (fun st chunk => batchStep st (chunk.map fun d y x => miScore P W t l h w (laidOn P W d y x) p.px)) (T p)) := by
  induction L generalizing T with
  | nil => rfl
  | cons c cs ih =>
    obtain ⟨h1, h2⟩ := hL c (by simp)
    rw [List.foldlM_cons, stepMi_eq hP hW he hm hm' hn hp h1 h2]
    exact ih (fun d hd => hL d (by simp [hd])) _

theorem tablesMi_eq {sims : List Img} (hne : sims ≠ []) (hs : ∀ d ∈ sims, (d.h = P ∧ d.w = W) ∧ Unit01 P W d.px) {batch : ℕ} (hb : 0 < batch) :
    tablesMi sims pats (windowImg P W t l h w) P W batch = some (pats.map fun p => (torchSplit batch sims).foldl (fun st chunk =>
      batchStep st (chunk.map fun d y x => miScore P W t l h w (laidOn P W d y x) p.px)) (fun _ _ => 0, fun _ _ => 0)) := by
  unfold tablesMi
  rw [if_neg (by omega)]
  apply foldMi_eq hP hW he hm hm' hn hp
  intro c hc
  refine ⟨torchSplit_ne _ _ hne c hc, fun d hd => hs d ?_⟩
  rw [← torchSplit_cat batch sims]
  exact List.mem_flatten.mpr ⟨c, hc, hd⟩

end steps

/-! ### The preprocessed pattern -/

theorem rescale_unit {x y : Img} (hy : rescale x = some y) : (y.h = x.h ∧ y.w = x.w) ∧ (0 < y.h ∧ 0 < y.w) ∧ Closed01 y.h y.w y.px ∧
    ∃ mn mx, (∃ i < x.h, ∃ j < x.w, x.px i j = mn) ∧ (∃ i < x.h, ∃ j < x.w, x.px i j = mx) ∧ mn < mx ∧
      (∀ i < x.h, ∀ j < x.w, mn ≤ x.px i j ∧ x.px i j ≤ mx) ∧ ∀ i j, y.px i j = (x.px i j - mn) / (mx - mn) := by
  unfold rescale at hy
  simp only [Option.bind_eq_some_iff] at hy
  obtain ⟨mn, h1, mx, h2, h3⟩ := hy
  have hm0 := maxOf_sub_nonneg h1 h2
  by_cases hm : mx = 0
  · rw [if_pos hm] at h3; simp at h3
  rw [if_neg hm] at h3
  obtain rfl := Option.some.inj h3
  have hpos : 0 < mx := lt_of_le_of_ne hm0 (Ne.symm hm)
  obtain ⟨lo, hlo⟩ := minOf_spec h1
  obtain ⟨hi, hhi⟩ := maxOf_spec h2
  rw [pixels_map] at hi hhi
  obtain ⟨pm, hpm, epm⟩ := List.mem_map.mp hhi
  rw [mem_pixels] at hlo hpm
  have hb : ∀ i < x.h, ∀ j < x.w, mn ≤ x.px i j ∧ x.px i j ≤ mn + mx := by
    intro i hi' j hj'
    have hmem := (mem_pixels x (x.px i j)).mpr ⟨i, hi', j, hj', rfl⟩
    have := hi _ (List.mem_map.mpr ⟨_, hmem, rfl⟩)
    exact ⟨lo _ hmem, by linarith⟩
  obtain ⟨i0, hi0, j0, hj0, e0⟩ := hlo
  refine ⟨⟨rfl, rfl⟩, ⟨by show 0 < x.h; omega, by show 0 < x.w; omega⟩, ?_, mn, mn + mx, ⟨i0, hi0, j0, hj0, e0⟩, ?_, by linarith, hb, ?_⟩
  · intro i hi' j hj'
    obtain ⟨a, b⟩ := hb i hi' j hj'
    show 0 ≤ (x.px i j - mn) / mx ∧ (x.px i j - mn) / mx ≤ 1
    exact ⟨div_nonneg (by linarith) hpos.le, by rw [div_le_one hpos]; linarith⟩
  · obtain ⟨i, hi', j, hj', e⟩ := hpm
    exact ⟨i, hi', j, hj', by linarith⟩
  · intro i j
    show (x.px i j - mn) / mx = _
    rw [add_sub_cancel_left]

/-! ### The selection -/

theorem select_eq (g : Args) (ps : List Img) (tab : ℝ → Img → (ℕ → ℕ → ℝ) × (ℕ → ℕ → ℕ)) (M : ℝ → ℕ → ℕ → ℝ)
    (h1 : 0 < pRows g) (h2 : 0 < pCols g) (hz : 0 < g.zSteps)
    (hM : ∀ pcz y x, avgScore (ps.map (tab pcz)) y x = M pcz y x)
    (hi : ∀ pcz, ∀ x ∈ ps, ∀ y c, (tab pcz x).2 y c < g.dict.length) :
    ∃ z < g.zSteps, ∃ y < pRows g, ∃ x < pCols g,
      select g ((zVals g).map fun pcz => ps.map (tab pcz)) = some
        (⟨pcOf (g.cols / g.binning) g.pads.1 x, pcOf (g.rows / g.binning) g.pads.2.2.1 y, (zVals g).getD z 0⟩,
          ps.map fun im => g.dict.getD ((tab ((zVals g).getD z 0) im).2 y x) ⟨1, 0, 0, 0⟩) ∧
      (∀ z' < g.zSteps, ∀ y' < pRows g, ∀ x' < pCols g, M ((zVals g).getD z' 0) y' x' ≤ M ((zVals g).getD z 0) y x) ∧
      (∀ y' < pRows g, ∀ x' < pCols g, M ((zVals g).getD z 0) y' x' = M ((zVals g).getD z 0) y x → y * pCols g + x ≤ y' * pCols g + x') := by
  set P := pRows g with hPd
  set W := pCols g with hWd
  set tabs := (zVals g).map fun pcz => ps.map (tab pcz) with htabs
  have hzl : (zVals g).length = g.zSteps := by rw [zVals, linspace_length]
  set L := flatScores tabs P W with hL
  have hrow : ∀ ts : List ((ℕ → ℕ → ℝ) × (ℕ → ℕ → ℕ)), ((List.range P).flatMap fun y => (List.range W).map fun x => avgScore ts y x).length = P * W := by
    intro ts
    rw [flatMap_length_const _ _ W (by simp), List.length_range]
  have hlen : L.length = g.zSteps * (P * W) := by
    rw [hL, flatScores, flatMap_length_const _ _ (P * W) (fun ts _ => hrow ts), htabs, List.length_map, hzl]
  have hget : ∀ k < g.zSteps * (P * W), L[k]? = some (M ((zVals g).getD (k / (P * W)) 0) (k / W % P) (k % W)) := by
    intro k hk
    have hz' : k / (P * W) < (zVals g).length := by
      rw [hzl]; exact (Nat.div_lt_iff_lt_mul (by positivity)).mpr hk
    rw [hL, flatScores, flatMap_get _ _ (P * W) (by positivity) (fun a _ => hrow a), htabs, List.getElem?_map,
      List.getElem?_eq_getElem hz', Option.map_some, Option.bind_some, flatMap_get _ _ W h2 (by simp), Nat.mod_mul_left_div_self,
      List.getElem?_range (Nat.mod_lt _ h1), Option.bind_some, List.getElem?_map,
      Nat.mod_mod_of_dvd _ (Dvd.intro_left _ rfl), List.getElem?_range (Nat.mod_lt _ h2), Option.map_some, hM,
      List.getD_eq_getElem?_getD, List.getElem?_eq_getElem hz', Option.getD_some]
  have hpos : 0 < g.zSteps * (P * W) := by positivity
  have hne : L ≠ [] := by
    intro h
    have := congrArg List.length h
    rw [hlen] at this
    simp at this
    omega
  have hlt := argmaxFirst_lt hne
  obtain ⟨hmax, hfirst⟩ := (Refine.argmaxFirst_iff hlt).mp rfl
  set k := argmaxFirst L with hk
  have hk' : k < g.zSteps * (P * W) := hlen ▸ hlt
  have hLk : L[k] = M ((zVals g).getD (k / (P * W)) 0) (k / W % P) (k % W) := by
    have := hget k hk'
    rw [List.getElem?_eq_getElem hlt] at this
    exact Option.some.inj this
  have place : ∀ z y x, y < P → x < W → (z * (P * W) + (y * W + x)) / (P * W) = z ∧ (z * (P * W) + (y * W + x)) / W % P = y ∧
      (z * (P * W) + (y * W + x)) % W = x ∧ y * W + x < P * W := by
    intro z y x hy hx
    have a : y * W + x < P * W :=
      calc y * W + x < y * W + W := by omega
        _ = (y + 1) * W := by ring
        _ ≤ P * W := Nat.mul_le_mul_right _ (by omega)
    refine ⟨?_, ?_, ?_, a⟩
    · rw [add_comm, Nat.add_mul_div_right _ _ (by positivity), Nat.div_eq_of_lt a, zero_add]
    · have : z * (P * W) + (y * W + x) = x + W * (z * P + y) := by ring
      rw [this, Nat.add_mul_div_left _ _ h2, Nat.div_eq_of_lt hx, zero_add, add_comm, Nat.add_mul_mod_self_right, Nat.mod_eq_of_lt hy]
    · have : z * (P * W) + (y * W + x) = x + W * (z * P + y) := by ring
      rw [this, Nat.add_mul_mod_self_left, Nat.mod_eq_of_lt hx]
  have bound : ∀ z y x, z < g.zSteps → y < P → x < W → z * (P * W) + (y * W + x) < g.zSteps * (P * W) := by
    intro z y x hz' hy hx
    have a := (place z y x hy hx).2.2.2
    calc z * (P * W) + (y * W + x) < z * (P * W) + P * W := by omega
      _ = (z + 1) * (P * W) := by ring
      _ ≤ _ := Nat.mul_le_mul_right _ (by omega)
  have hzk : k / (P * W) < g.zSteps := (Nat.div_lt_iff_lt_mul (by positivity)).mpr hk'
  refine ⟨k / (P * W), hzk, k / W % P, Nat.mod_lt _ h1, k % W, Nat.mod_lt _ h2, ?_, ?_, ?_⟩
  · unfold select
    have hP' : paddedSize g.rows g.binning g.pads.2.2.1 g.pads.2.2.2 = P := rfl
    have hW' : paddedSize g.cols g.binning g.pads.1 g.pads.2.1 = W := rfl
    simp only [hP', hW']
    rw [← hL, ← hk]
    have hgetz : tabs.getD (k / (P * W)) [] = ps.map (tab ((zVals g).getD (k / (P * W)) 0)) := by
      rw [htabs, List.getD_eq_getElem?_getD, List.getElem?_map, List.getD_eq_getElem?_getD, List.getElem?_eq_getElem (by rw [hzl]; exact hzk)]
      rfl
    rw [hgetz, List.mapM_map, mapM_some _ (fun x => g.dict.getD ((tab ((zVals g).getD (k / (P * W)) 0) x).2 (k / W % P) (k % W)) ⟨1, 0, 0, 0⟩)]
    · rfl
    · intro x hx
      have := hi ((zVals g).getD (k / (P * W)) 0) x hx (k / W % P) (k % W)
      simp only [Function.comp]
      generalize (tab ((zVals g).getD (k / (P * W)) 0) x).2 (k / W % P) (k % W) = idx at this ⊢
      rw [List.getD_eq_getElem?_getD, List.getElem?_eq_getElem this]
      rfl
  · intro z' hz' y' hy' x' hx'
    obtain ⟨e1, e2, e3, -⟩ := place z' y' x' hy' hx'
    have hb := bound z' y' x' hz' hy' hx'
    have := hget _ hb
    rw [e1, e2, e3, List.getElem?_eq_getElem (by rw [hlen]; exact hb)] at this
    rw [← Option.some.inj this, ← hLk]
    exact hmax _ (List.getElem_mem _)
  · intro y' hy' x' hx' heq
    by_contra hcon
    push Not at hcon
    obtain ⟨e1, e2, e3, -⟩ := place (k / (P * W)) y' x' hy' hx'
    have hb := bound (k / (P * W)) y' x' hzk hy' hx'
    have hkk : k = k / (P * W) * (P * W) + (k / W % P * W + k % W) := by
      have a1 := Nat.div_add_mod k (P * W)
      have a2 := Nat.div_add_mod (k % (P * W)) W
      rw [Nat.mod_mul_left_div_self, Nat.mod_mod_of_dvd _ (Dvd.intro_left _ rfl)] at a2
      rw [mul_comm (P * W)] at a1
      rw [mul_comm W] at a2
      omega
    have hlt' : k / (P * W) * (P * W) + (y' * W + x') < k := by omega
    have hf := hfirst _ hlt'
    have := hget _ hb
    rw [e1, e2, e3, List.getElem?_eq_getElem (by rw [hlen]; exact hb)] at this
    rw [Option.some.inj this, hLk, heq] at hf
    exact lt_irrefl _ hf

/-! ### The search -/

/-- The rescaled, zero-padded pattern as a function of the pixel. -/
noncomputable def patMi (g : Args) (x : Img) : ℕ → ℕ → ℝ :=
  match g.paddedMi x with
  | some p => p.px
  | none => fun _ _ => 0

/-- The score of the orientation `q` for the pattern `x` at entry `(y, c)` of the map. -/
noncomputable def scoreMi (g : Args) (pcz : ℝ) (q : Q) (x : Img) (y c : ℕ) : ℝ :=
  miScore (pRows g) (pCols g) g.pads.2.2.1 g.pads.1 (g.rows / g.binning) (g.cols / g.binning) (laidOn (pRows g) (pCols g) (g.sim pcz q) y c) (patMi g x)

/-- Mean over the patterns of the best score over the dictionary. -/
noncomputable def meanMi (g : Args) (patterns : List Img) (pcz : ℝ) (y c : ℕ) : ℝ :=
  (patterns.map fun x => bestOf (fun q => scoreMi g pcz q x y c) g.dict).sum / patterns.length

/-- Inputs the search is meant for: as for `metric="dot"`, and a master pattern with values in `[0, 1)`. -/
structure OkMi (g : Args) (patterns : List Img) : Prop where
  pats : patterns ≠ []
  dict : g.dict ≠ []
  bin : 0 < g.binning
  steps : 0 < g.zSteps
  batch : 0 < g.batch
  rows : g.rows % g.binning = 0
  cols : g.cols % g.binning = 0
  shape : ∀ x ∈ patterns, x.h = g.rows ∧ x.w = g.cols
  contrast : ∀ x ∈ patterns, (prepMi g.binning x).isSome
  even : pCols g % 2 = 0
  master : ∀ v, 0 ≤ g.master v ∧ g.master v < 1

theorem paddedMi_spec {g : Args} {ps : List Img} (ok : OkMi g ps) {x : Img} (hx : x ∈ ps) :
    ∃ p, g.paddedMi x = some p ∧ (p.h = pRows g ∧ p.w = pCols g) ∧ (0 < p.h ∧ 0 < p.w) ∧ Closed01 (pRows g) (pCols g) p.px ∧ p.px = patMi g x := by
  obtain ⟨y, hy⟩ := Option.isSome_iff_exists.mp (ok.contrast x hx)
  obtain ⟨t1, t2⟩ := ok.shape x hx
  have hs : (if g.binning > 1 then avgPool g.binning x else x).h = g.rows / g.binning ∧
      (if g.binning > 1 then avgPool g.binning x else x).w = g.cols / g.binning := by
    by_cases h1 : g.binning > 1
    · rw [if_pos h1, ← t1, ← t2]; exact ⟨rfl, rfl⟩
    · have : g.binning = 1 := by have := ok.bin; omega
      rw [if_neg h1, this, Nat.div_one, Nat.div_one]; exact ⟨t1, t2⟩
  obtain ⟨s, n, u, -⟩ := rescale_unit hy
  rw [hs.1, hs.2] at s
  have hp : g.paddedMi x = some ⟨g.pads.2.2.1 + y.h + g.pads.2.2.2, g.pads.1 + y.w + g.pads.2.1, fun i j =>
      if g.pads.2.2.1 ≤ i ∧ i - g.pads.2.2.1 < y.h ∧ g.pads.1 ≤ j ∧ j - g.pads.1 < y.w then
        y.px (i - g.pads.2.2.1) (j - g.pads.1) else 0⟩ := by
    unfold Args.paddedMi
    rw [hy, Option.bind_some]
    unfold pad
    simp only [Bool.false_eq_true, if_false]
  refine ⟨_, hp, ⟨?_, ?_⟩, ⟨?_, ?_⟩, ?_, ?_⟩
  · simp only [pRows, paddedSize, s.1]; omega
  · simp only [pCols, paddedSize, s.2]; omega
  · simp only; omega
  · simp only; omega
  · intro i _ j _
    simp only
    split_ifs with h
    · exact u _ h.2.1 _ h.2.2.2
    · exact ⟨le_rfl, zero_le_one⟩
  · unfold patMi; rw [hp]

theorem sizesMi {g : Args} {ps : List Img} (ok : OkMi g ps) : 0 < pRows g ∧ 0 < pCols g := by
  obtain ⟨x, hx⟩ := List.exists_mem_of_ne_nil _ ok.pats
  obtain ⟨p, -, h1, h2, -⟩ := paddedMi_spec ok hx
  omega

theorem window_eq (g : Args) : g.window = some (windowImg (pRows g) (pCols g) g.pads.2.2.1 g.pads.1 (g.rows / g.binning) (g.cols / g.binning)) := by
  unfold Args.window pad windowImg
  simp only [Bool.false_eq_true, if_false, Option.some.injEq, Img.mk.injEq]
  unfold pRows pCols
  rcases g.pads with ⟨wl, wr, ht, hb⟩
  refine ⟨?_, ?_, by trivial⟩
  · simp only [paddedSize]; omega
  · simp only [paddedSize]; omega

/-- The table of one pattern. -/
noncomputable def tabMi (g : Args) (pcz : ℝ) (x : Img) : (ℕ → ℕ → ℝ) × (ℕ → ℕ → ℕ) :=
  (torchSplit g.batch g.dict).foldl (fun st chunk => batchStep st (chunk.map fun q y c => scoreMi g pcz q x y c)) (fun _ _ => 0, fun _ _ => 0)

theorem torchSplit_map {α β : Type} (f : α → β) (n : ℕ) (l : List α) : torchSplit n (l.map f) = (torchSplit n l).map (List.map f) := by
  induction l using torchSplit.induct n with
  | case1 l hl ih =>
    conv_lhs => rw [torchSplit, if_pos (by simpa using hl)]
    conv_rhs => rw [torchSplit, if_pos hl]
    rw [List.map_cons, List.map_take, ← ih, List.map_drop]
  | case2 l hl =>
    conv_lhs => rw [torchSplit, if_neg (by simpa using hl)]
    conv_rhs => rw [torchSplit, if_neg hl]
    rfl

theorem allTablesMi_eq {g : Args} {ps : List Img} (ok : OkMi g ps) :
    g.allTablesMi ps = some ((zVals g).map fun pcz => ps.map (tabMi g pcz)) := by
  obtain ⟨hP, hW⟩ := sizesMi ok
  unfold Args.allTablesMi
  have h1 : ps.mapM g.paddedMi = some (ps.map fun x => (g.paddedMi x).getD ⟨0, 0, fun _ _ => 0⟩) := by
    apply mapM_some
    intro x hx
    obtain ⟨p, hp, -⟩ := paddedMi_spec ok hx
    rw [hp]; rfl
  rw [h1, Option.bind_some, window_eq, Option.bind_some]
  apply mapM_some
  intro pcz _
  have hp : ∀ s ∈ ps.map fun x => (g.paddedMi x).getD ⟨0, 0, fun _ _ => 0⟩, (s.h = pRows g ∧ s.w = pCols g) ∧ Closed01 (pRows g) (pCols g) s.px := by
    intro s hs
    obtain ⟨x, hx, rfl⟩ := List.mem_map.mp hs
    obtain ⟨p, hp, e1, -, e2, -⟩ := paddedMi_spec ok hx
    rw [hp]; exact ⟨e1, e2⟩
  have := tablesMi_eq (t := g.pads.2.2.1) (l := g.pads.1) (h := g.rows / g.binning) (w := g.cols / g.binning) hP hW ok.even
    (by simp only [pRows, paddedSize]; omega) (by simp only [pCols, paddedSize]; omega) (by simpa using ok.pats) hp
    (sims := g.dict.map (g.sim pcz)) (by simpa using ok.dict) (by
      intro d hd
      obtain ⟨q, -, rfl⟩ := List.mem_map.mp hd
      exact ⟨⟨rfl, rfl⟩, fun k _ l _ => ok.master _⟩) ok.batch
  rw [show paddedSize g.rows g.binning g.pads.2.2.1 g.pads.2.2.2 = pRows g from rfl, show paddedSize g.cols g.binning g.pads.1 g.pads.2.1 = pCols g from rfl, this,
    List.map_map]
  congr 1
  apply List.map_congr_left
  intro x hx
  obtain ⟨p, hp, -, -, -, e⟩ := paddedMi_spec ok hx
  simp only [Function.comp, hp, Option.getD_some, e, tabMi, torchSplit_map, List.foldl_map, List.map_map]
  rfl

theorem miScore_nonneg (P W t l h w : ℕ) (sim pat : ℕ → ℕ → ℝ) : 0 ≤ miScore P W t l h w sim pat := le_max_left _ _

theorem tabMi_best {g : Args} {ps : List Img} (ok : OkMi g ps) (pcz : ℝ) (x : Img) (y c : ℕ) :
    (tabMi g pcz x).1 y c = bestOf (fun q => scoreMi g pcz q x y c) g.dict := by
  unfold tabMi
  rw [batches_best _ _ (torchSplit_ne _ _ ok.dict), torchSplit_cat]
  rfl

theorem tabMi_index {g : Args} {ps : List Img} (ok : OkMi g ps) (pcz : ℝ) (x : Img) (y c : ℕ) :
    (tabMi g pcz x).2 y c < g.batch ∧ (tabMi g pcz x).2 y c < g.dict.length := by
  unfold tabMi
  constructor
  · apply batches_index _ g.batch
    · intro ch hch
      exact ⟨torchSplit_ne _ _ ok.dict ch hch, torchSplit_le _ ok.batch _ ch hch⟩
    · exact ok.batch
  · apply batches_index _ g.dict.length
    · intro ch hch
      refine ⟨torchSplit_ne _ _ ok.dict ch hch, ?_⟩
      have h1 : ch.length ≤ (torchSplit g.batch g.dict).flatten.length := by
        rw [List.length_flatten]
        exact List.single_le_sum (by simp) _ (List.mem_map.mpr ⟨ch, hch, rfl⟩)
      rwa [torchSplit_cat] at h1
    · exact List.length_pos_of_ne_nil ok.dict

/-- The search, with the tables evaluated. -/
theorem fitterMi_eq {g : Args} {ps : List Img} (ok : OkMi g ps) :
    ∃ z < g.zSteps, ∃ y < pRows g, ∃ x < pCols g,
      fitterBy "mi" g ps = some
        (⟨pcOf (g.cols / g.binning) g.pads.1 x, pcOf (g.rows / g.binning) g.pads.2.2.1 y, (zVals g).getD z 0⟩,
          ps.map fun im => g.dict.getD ((tabMi g ((zVals g).getD z 0) im).2 y x) ⟨1, 0, 0, 0⟩) ∧
      (∀ z' < g.zSteps, ∀ y' < pRows g, ∀ x' < pCols g, meanMi g ps ((zVals g).getD z' 0) y' x' ≤ meanMi g ps ((zVals g).getD z 0) y x) ∧
      (∀ y' < pRows g, ∀ x' < pCols g, meanMi g ps ((zVals g).getD z 0) y' x' = meanMi g ps ((zVals g).getD z 0) y x →
        y * pCols g + x ≤ y' * pCols g + x') := by
  obtain ⟨h1, h2⟩ := sizesMi ok
  have hrej : ¬ g.rejects ps := by
    rintro (h | h | ⟨x, hx, h⟩)
    · simp [ok.pats, ok.dict] at h; have := ok.bin; have := ok.steps; omega
    · simp [ok.rows, ok.cols] at h
    · obtain ⟨a, b⟩ := ok.shape x hx
      rcases h with h | h
      · exact h a
      · exact h b
  have hf : fitterBy "mi" g ps = select g ((zVals g).map fun pcz => ps.map (tabMi g pcz)) := by
    unfold fitterBy
    rw [if_neg (by decide), if_pos rfl, if_neg hrej, allTablesMi_eq ok, Option.bind_some]
  rw [hf]
  refine select_eq g ps (tabMi g) (meanMi g ps) h1 h2 ok.steps ?_ ?_
  · intro pcz y x
    unfold avgScore meanMi
    rw [List.map_map, List.length_map]
    congr 2
    apply List.map_congr_left
    intro im _
    exact tabMi_best ok pcz im y x
  · intro pcz x _ y c
    exact (tabMi_index ok pcz x y c).2

/-- **C151**: with `metric="mi"`, on every valid input the search succeeds, and the pattern centre it returns belongs to an entry
`(z, y, x)` of the search grid at which the mean over the patterns of the best score over the whole dictionary is largest. -/
theorem C151_search (g : Args) (ps : List Img) (ok : OkMi g ps) :
    ∃ pc qs, fitterBy "mi" g ps = some (pc, qs) ∧ qs.length = ps.length ∧ (∀ q ∈ qs, q ∈ g.dict) ∧
      ∃ z < g.zSteps, ∃ y < pRows g, ∃ x < pCols g,
        pc = ⟨pcOf (g.cols / g.binning) g.pads.1 x, pcOf (g.rows / g.binning) g.pads.2.2.1 y, (zVals g).getD z 0⟩ ∧
        ∀ z' < g.zSteps, ∀ y' < pRows g, ∀ x' < pCols g,
          meanMi g ps ((zVals g).getD z' 0) y' x' ≤ meanMi g ps ((zVals g).getD z 0) y x := by
  obtain ⟨z, hz, y, hy, x, hx, hf, hmax, -⟩ := fitterMi_eq ok
  refine ⟨_, _, hf, by simp, ?_, z, hz, y, hy, x, hx, rfl, hmax⟩
  intro q hq
  obtain ⟨im, -, rfl⟩ := List.mem_map.mp hq
  have := (tabMi_index ok ((zVals g).getD z 0) im y x).2
  rw [List.getD_eq_getElem?_getD, List.getElem?_eq_getElem this]
  exact List.getElem_mem _

/-- **C151 (partial)**: when the whole dictionary fits in one batch, the orientation returned for each pattern attains the best
score at the returned pattern centre.  Missing: longer dictionaries, see `C151_first_batch_fails`. -/
theorem C151_orientation_partial (g : Args) (ps : List Img) (ok : OkMi g ps) (hone : g.dict.length ≤ g.batch) :
    ∃ pc qs, fitterBy "mi" g ps = some (pc, qs) ∧ ∃ y x : ℕ,
      pc.x = pcOf (g.cols / g.binning) g.pads.1 x ∧ pc.y = pcOf (g.rows / g.binning) g.pads.2.2.1 y ∧
      ∀ n (hn : n < ps.length) (hq : n < qs.length), ∀ q ∈ g.dict, scoreMi g pc.z q ps[n] y x ≤ scoreMi g pc.z qs[n] ps[n] y x := by
  obtain ⟨z, hz, y, hy, x, hx, hf, -, -⟩ := fitterMi_eq ok
  refine ⟨_, _, hf, y, x, rfl, rfl, ?_⟩
  intro n hn hq q hqd
  rw [List.getElem_map]
  generalize ps[n] = im
  simp only
  generalize (zVals g).getD z 0 = pcz
  have ht : tabMi g pcz im = batchStep (fun _ _ => 0, fun _ _ => 0) (g.dict.map fun q y c => scoreMi g pcz q im y c) := by
    unfold tabMi
    rw [torchSplit, if_neg (by simp; omega)]
    rfl
  obtain ⟨m, hm, hmem, hmax, hidx⟩ := rowMax_some (l := g.dict.map fun q => scoreMi g pcz q im y x) (by simpa using ok.dict)
  have hm0 : 0 ≤ m := by
    obtain ⟨q', -, e⟩ := List.mem_map.mp hmem
    rw [← e]; exact miScore_nonneg _ _ _ _ _ _ _ _
  have hi : (tabMi g pcz im).2 y x = argmaxFirst (g.dict.map fun q => scoreMi g pcz q im y x) := by
    rw [ht]
    unfold batchStep
    simp only [List.map_map]
    rw [if_pos]
    · rfl
    · rw [show (g.dict.map ((fun s : ℕ → ℕ → ℝ => s y x) ∘ fun q y c => scoreMi g pcz q im y c)) = g.dict.map fun q => scoreMi g pcz q im y x from rfl,
        hm, Option.getD_some, max_eq_right hm0]
  rw [hi]
  rw [List.getElem?_map, Option.map_eq_some_iff] at hidx
  obtain ⟨q', hq1, hq2⟩ := hidx
  rw [List.getD_eq_getElem?_getD, hq1, Option.getD_some, hq2]
  exact hmax _ (List.mem_map.mpr ⟨q, hqd, rfl⟩)

/-- **C151 fails** for longer dictionaries: only orientations among the first `batch` of the dictionary are ever returned. -/
theorem C151_first_batch_fails (g : Args) (ps : List Img) (ok : OkMi g ps) :
    ∃ pc qs, fitterBy "mi" g ps = some (pc, qs) ∧ ∀ q ∈ qs, q ∈ g.dict.take g.batch := by
  obtain ⟨z, hz, y, hy, x, hx, hf, -, -⟩ := fitterMi_eq ok
  refine ⟨_, _, hf, ?_⟩
  intro q hq
  obtain ⟨im, -, rfl⟩ := List.mem_map.mp hq
  obtain ⟨i1, i2⟩ := tabMi_index ok ((zVals g).getD z 0) im y x
  generalize (tabMi g ((zVals g).getD z 0) im).2 y x = i at i1 i2
  rw [List.getD_eq_getElem?_getD, List.getElem?_eq_getElem i2, Option.getD_some, List.mem_take_iff_getElem]
  exact ⟨i, by omega, rfl⟩

/-- **C151**: the pattern entering the score.  Without binning: the pattern stretched so that its darkest pixel is 0 and its
brightest 1 on the detector, and 0 on the padding. -/
theorem C151_pattern (g : Args) (ps : List Img) (ok : OkMi g ps) (hb : g.binning = 1) (x : Img) (hx : x ∈ ps) :
    ∃ mn mx, (∃ i < g.rows, ∃ j < g.cols, x.px i j = mn) ∧ (∃ i < g.rows, ∃ j < g.cols, x.px i j = mx) ∧ mn < mx ∧
      (∀ i < g.rows, ∀ j < g.cols, mn ≤ x.px i j ∧ x.px i j ≤ mx) ∧
      (∀ i < g.rows, ∀ j < g.cols, patMi g x (g.pads.2.2.1 + i) (g.pads.1 + j) = (x.px i j - mn) / (mx - mn)) ∧
      ∀ i j, i < g.pads.2.2.1 ∨ g.pads.2.2.1 + g.rows ≤ i ∨ j < g.pads.1 ∨ g.pads.1 + g.cols ≤ j → patMi g x i j = 0 := by
  obtain ⟨y, hy⟩ := Option.isSome_iff_exists.mp (ok.contrast x hx)
  obtain ⟨t1, t2⟩ := ok.shape x hx
  have hp : g.paddedMi x = some ⟨g.pads.2.2.1 + y.h + g.pads.2.2.2, g.pads.1 + y.w + g.pads.2.1, fun i j =>
      if g.pads.2.2.1 ≤ i ∧ i - g.pads.2.2.1 < y.h ∧ g.pads.1 ≤ j ∧ j - g.pads.1 < y.w then
        y.px (i - g.pads.2.2.1) (j - g.pads.1) else 0⟩ := by
    unfold Args.paddedMi
    rw [hy, Option.bind_some]
    unfold pad
    simp only [Bool.false_eq_true, if_false]
  unfold prepMi at hy
  rw [hb, if_neg (by norm_num)] at hy
  obtain ⟨⟨s1, s2⟩, -, -, mn, mx, a1, a2, a3, a4, a5⟩ := rescale_unit hy
  rw [t1, t2] at a1 a2 a4
  refine ⟨mn, mx, a1, a2, a3, a4, ?_, ?_⟩
  · intro i hi j hj
    unfold patMi
    rw [hp]
    simp only
    rw [if_pos ⟨by omega, by omega, by omega, by omega⟩, Nat.add_sub_cancel_left, Nat.add_sub_cancel_left, a5]
  · intro i j h
    unfold patMi
    rw [hp]
    simp only
    rw [if_neg (by omega)]

theorem prepMi_affine (b : ℕ) (a c : ℝ) (ha : 0 < a) (x : Img) : prepMi b (mapImg (fun v => a * v + c) x) = prepMi b x := by
  unfold prepMi
  by_cases hb : b > 1
  · rw [if_pos hb, if_pos hb]
    have : avgPool b (mapImg (fun v => a * v + c) x) = mapImg (fun v => a * v + c) (avgPool b x) := by
      simp only [avgPool, mapImg]; congr 1; funext i j
      have hb0 : (b : ℝ) ≠ 0 := by positivity
      simp only [Finset.sum_add_distrib, ← Finset.mul_sum, Finset.sum_const, Finset.card_range, nsmul_eq_mul]
      field_simp
    rw [this, rescale_affine a c ha]
  · rw [if_neg hb, if_neg hb, rescale_affine a c ha]

/-- **C151**: the result does not change when the brightness of each pattern is changed by its own gain and offset. -/
theorem C151_brightness (g : Args) (ps : List Img) (gain : Img → ℝ) (offset : Img → ℝ) (hg : ∀ x ∈ ps, 0 < gain x) :
    fitterBy "mi" g (ps.map fun x => mapImg (fun v => gain x * v + offset x) x) = fitterBy "mi" g ps := by
  have hall : g.allTablesMi (ps.map fun x => mapImg (fun v => gain x * v + offset x) x) = g.allTablesMi ps := by
    unfold Args.allTablesMi
    congr 1
    rw [List.mapM_map]
    have : ∀ l : List Img, (∀ x ∈ l, x ∈ ps) → l.mapM (g.paddedMi ∘ fun x => mapImg (fun v => gain x * v + offset x) x)
        = l.mapM g.paddedMi := by
      intro l
      induction l with
      | nil => intro _; rfl
      | cons x xs ih =>
        intro h
        rw [List.mapM_cons, List.mapM_cons, ih (fun y hy => h y (by simp [hy]))]
        have : (g.paddedMi ∘ fun x => mapImg (fun v => gain x * v + offset x) x) x = g.paddedMi x := by
          simp only [Function.comp, Args.paddedMi]
          rw [prepMi_affine _ _ _ (hg x (h x (by simp)))]
        rw [this]
    exact this ps (fun _ h => h)
  unfold fitterBy
  have hne : ¬ ("mi" = "dot") := by decide
  simp only [if_neg hne, if_true, hall]
  have h1 : (ps.map (fun x => mapImg (fun v => gain x * v + offset x) x) = []) ↔ ps = [] := by simp
  have h2 : (∃ x ∈ ps.map (fun x => mapImg (fun v => gain x * v + offset x) x), x.h ≠ g.rows ∨ x.w ≠ g.cols) ↔
      ∃ x ∈ ps, x.h ≠ g.rows ∨ x.w ≠ g.cols := by
    simp [mapImg]
  have hr : g.rejects (ps.map fun x => mapImg (fun v => gain x * v + offset x) x) ↔ g.rejects ps := by
    unfold Args.rejects; rw [h1, h2]
  by_cases h : g.rejects ps
  · rw [if_pos h, if_pos (hr.mpr h)]
  · rw [if_neg h, if_neg (hr.not.mpr h)]

/-- **C151**: an unknown metric is rejected. -/
theorem C151_metric (g : Args) (ps : List Img) (m : String) (h1 : m ≠ "dot") (h2 : m ≠ "mi") : fitterBy m g ps = none := by
  unfold fitterBy
  rw [if_neg h1, if_neg h2]

/-! ### Patterns with one dark pixel -/

theorem entropyOf_single {ι : Type} [DecidableEq ι] (s : Finset ι) (c : ι → ℕ) (k : ι) (hk : k ∈ s) (n : ℕ) (hn : 0 < n)
    (hc : ∀ i ∈ s, c i = if i = k then n else 0) : entropyOf s c = 0 := by
  have hs : ∑ i ∈ s, (c i : ℝ) = n := by
    rw [Finset.sum_congr rfl fun i hi => by rw [hc i hi]]
    push_cast
    rw [Finset.sum_ite_eq' s k, if_pos hk]
  unfold entropyOf
  rw [hs, neg_eq_zero]
  apply Finset.sum_eq_zero
  intro i hi
  rw [hc i hi]
  by_cases h : i = k
  · rw [if_pos h, div_self (by exact_mod_cast hn.ne'), Real.log_one, mul_zero]
  · rw [if_neg h]; simp

theorem level_exists {v : ℝ} (h0 : 0 ≤ v) (h1 : v < 1) : ∃ a < 4, ∀ i : ℕ, InBin 4 i v ↔ i = a := by
  have hf : ⌊4 * v⌋₊ < 4 := by
    rw [Nat.floor_lt (by positivity)]; push_cast; linarith
  refine ⟨⌊4 * v⌋₊, hf, fun i => ?_⟩
  have := Nat.floor_eq_iff (a := 4 * v) (n := i) (by positivity)
  unfold InBin
  push_cast
  rw [div_le_iff₀ (by norm_num), lt_div_iff₀ (by norm_num), eq_comm, this, mul_comm v 4]

/-- The score of a pattern with one pixel of value 0, all others of value 1, is the entropy of the simulation. -/
theorem miScore_dark {P W : ℕ} {sim pat : ℕ → ℕ → ℝ} (us : Unit01 P W sim) {i0 j0 : ℕ} (hi : i0 < P) (hj : j0 < W)
    (hp : ∀ i < P, ∀ j < W, pat i j = if i = i0 ∧ j = j0 then 0 else 1) :
    miScore P W 0 0 P W sim pat = max 0 (entropyOf (Finset.range 4) (Cross.pixels P W 4 sim)) := by
  classical
  have one : ∀ j : ℕ, j < 4 → ¬ InBin 4 j (1 : ℝ) := by
    intro j hj h
    have := h.2
    have : (j : ℝ) + 1 ≤ 4 := by exact_mod_cast hj
    have h2 : ((j : ℝ) + 1) / (4 : ℕ) ≤ 1 := by rw [div_le_one (by norm_num)]; exact_mod_cast hj
    linarith
  obtain ⟨a, ha, hla⟩ := level_exists (us i0 hi j0 hj).1 (us i0 hi j0 hj).2
  obtain ⟨b, hb, hlb⟩ := level_exists (v := 0) le_rfl one_pos
  have inpat : ∀ i < P, ∀ j < W, ∀ m < 4, (InBin 4 m (pat i j) ↔ (i = i0 ∧ j = j0) ∧ m = b) := by
    intro i hi' j hj' m hm
    rw [hp i hi' j hj']
    by_cases h : i = i0 ∧ j = j0
    · rw [if_pos h, hlb]; simp [h]
    · rw [if_neg h]; simp [h, one m hm]
  have e1 : entropyOf (Finset.range 4) (Cross.pixels P W 4 pat) = 0 := by
    apply entropyOf_single _ _ b (Finset.mem_range.mpr hb) 1 one_pos
    intro m hm
    rw [Finset.mem_range] at hm
    unfold Cross.pixels
    by_cases h : m = b
    · rw [if_pos h, Finset.card_eq_one]
      refine ⟨(i0, j0), ?_⟩
      ext ⟨i, j⟩
      simp only [Finset.mem_filter, Finset.mem_product, Finset.mem_range, Finset.mem_singleton, Prod.mk.injEq]
      constructor
      · rintro ⟨⟨h1, h2⟩, h3⟩; exact ((inpat i h1 j h2 m hm).mp h3).1
      · rintro ⟨rfl, rfl⟩; exact ⟨⟨hi, hj⟩, (inpat _ hi _ hj m hm).mpr ⟨⟨rfl, rfl⟩, h⟩⟩
    · rw [if_neg h, Finset.card_eq_zero, Finset.filter_eq_empty_iff]
      rintro ⟨i, j⟩ hm' h3
      simp only [Finset.mem_product, Finset.mem_range] at hm'
      exact h ((inpat i hm'.1 j hm'.2 m hm).mp h3).2
  have e2 : entropyOf (Finset.range 4 ×ˢ Finset.range 4) (fun ij => pixelPairs P W 4 4 sim pat ij.1 ij.2) = 0 := by
    apply entropyOf_single _ _ (a, b) (by simp [ha, hb]) 1 one_pos
    rintro ⟨m, n⟩ hmn
    simp only [Finset.mem_product, Finset.mem_range] at hmn
    unfold pixelPairs
    by_cases h : (m, n) = (a, b)
    · rw [if_pos h, Finset.card_eq_one]
      obtain ⟨rfl, rfl⟩ := Prod.mk.inj h
      refine ⟨(i0, j0), ?_⟩
      ext ⟨i, j⟩
      simp only [Finset.mem_filter, Finset.mem_product, Finset.mem_range, Finset.mem_singleton, Prod.mk.injEq]
      constructor
      · rintro ⟨⟨h1, h2⟩, -, h3⟩; exact ((inpat i h1 j h2 _ hmn.2).mp h3).1
      · rintro ⟨rfl, rfl⟩; exact ⟨⟨hi, hj⟩, (hla _).mpr rfl, (inpat _ hi _ hj _ hmn.2).mpr ⟨⟨rfl, rfl⟩, rfl⟩⟩
    · rw [if_neg h, Finset.card_eq_zero, Finset.filter_eq_empty_iff]
      rintro ⟨i, j⟩ hm' ⟨h2, h3⟩
      simp only [Finset.mem_product, Finset.mem_range] at hm'
      obtain ⟨⟨rfl, rfl⟩, h4⟩ := (inpat i hm'.1 j hm'.2 n hmn.2).mp h3
      exact h (Prod.ext ((hla m).mp h2) h4)
  unfold miScore
  simp only [Nat.zero_add]
  rw [e1, e2, add_zero, sub_zero]

theorem pcOf_corner (n : ℕ) : pcOf n 0 0 = 1 / 2 - ((n + 1) / 2 : ℕ) / n := by
  unfold pcOf
  generalize (n + 1) / 2 = k
  push_cast
  ring

/-- **C151 fails** on patterns whose pixels are all equally bright except one darker one (no periphery, no binning): pixels of
maximal brightness have no grey level, so every displacement gets the same score, and the search returns the corner of its grid,
whatever the master pattern, the dictionary, the place of the dark pixel and the true pattern centre. -/
theorem C151_dark_fails (g : Args) (x : Img) (ok : OkMi g [x]) (hpads : g.pads = (0, 0, 0, 0)) (hb : g.binning = 1)
    (i0 j0 : ℕ) (hi : i0 < g.rows) (hj : j0 < g.cols) (lo hi' : ℝ) (hlo : lo < hi')
    (hx : ∀ i < g.rows, ∀ j < g.cols, x.px i j = if i = i0 ∧ j = j0 then lo else hi') :
    ∃ pc qs, fitterBy "mi" g [x] = some (pc, qs) ∧ pc.x = 1 / 2 - ((g.cols + 1) / 2 : ℕ) / g.cols ∧
      pc.y = 1 / 2 - ((g.rows + 1) / 2 : ℕ) / g.rows := by
  have hP : pRows g = g.rows := by simp [pRows, paddedSize, hpads, hb]
  have hW : pCols g = g.cols := by simp [pCols, paddedSize, hpads, hb]
  obtain ⟨z, hz, y, hy, c, hc, hf, -, hfirst⟩ := fitterMi_eq ok
  refine ⟨_, _, hf, ?_⟩
  obtain ⟨h1, h2⟩ := sizesMi ok
  -- the pattern
  obtain ⟨mn, mx, ⟨i1, hi1, j1, hj1, e1⟩, ⟨i2, hi2, j2, hj2, e2⟩, hlt, hbd, hpat, -⟩ := C151_pattern g [x] ok hb x (List.mem_singleton.mpr rfl)
  have hmn : mn = lo := by
    have := (hbd i0 hi j0 hj).1
    rw [hx i0 hi j0 hj, if_pos ⟨rfl, rfl⟩] at this
    rw [hx i1 hi1 j1 hj1] at e1
    split_ifs at e1 <;> linarith
  have hmx : mx = hi' := by
    rw [hx i2 hi2 j2 hj2] at e2
    split_ifs at e2 <;> linarith
  subst hmn hmx
  have hp : ∀ i < pRows g, ∀ j < pCols g, patMi g x i j = if i = i0 ∧ j = j0 then 0 else 1 := by
    intro i hi3 j hj3
    rw [hP] at hi3
    rw [hW] at hj3
    have := hpat i hi3 j hj3
    rw [hpads] at this
    simp only [Nat.zero_add] at this
    rw [this, hx i hi3 j hj3]
    by_cases h : i = i0 ∧ j = j0
    · rw [if_pos h, if_pos h, sub_self, zero_div]
    · rw [if_neg h, if_neg h, div_self (by linarith)]
  have hsc : ∀ q y c, scoreMi g ((zVals g).getD z 0) q x y c =
      max 0 (entropyOf (Finset.range 4) (Cross.pixels (pRows g) (pCols g) 4 (g.sim ((zVals g).getD z 0) q).px)) := by
    intro q y c
    unfold scoreMi
    rw [hpads, hb, Nat.div_one, Nat.div_one, ← hP, ← hW]
    rw [miScore_dark (i0 := i0) (j0 := j0) _ (hP ▸ hi) (hW ▸ hj) hp]
    · congr 2
      funext i
      exact Cmif.pixels_displaced _ _ _ _ _ _ _
    · intro k _ l _
      exact ok.master _
  have hc0 := hfirst 0 h1 0 h2 (by
    unfold meanMi bestOf
    simp only [List.map_cons, List.map_nil, hsc])
  have hy0 : y = 0 := by
    by_contra h
    have : 0 < y * pCols g := Nat.mul_pos (by omega) h2
    omega
  subst hy0
  have hc0' : c = 0 := by omega
  subst hc0'
  rw [hpads, hb, Nat.div_one, Nat.div_one]
  exact ⟨pcOf_corner _, pcOf_corner _⟩

/-! ### Non-vacuity -/

/-- A master pattern with values 0 and 0.9. -/
noncomputable def masterMi : V → ℝ := fun v => open Classical in if v.y < 0 ∧ 0 < v.z then 0 else 0.9

noncomputable def gMi (batch : ℕ) : Args := { gA batch with master := masterMi }

/-- One dark pixel. -/
noncomputable def dark : Img := ⟨2, 2, fun i j => if i = 0 ∧ j = 0 then 10 else 250⟩

theorem gMi_pads (b : ℕ) : (gMi b).pads = (0, 0, 0, 0) := gA_pads b

theorem dark_rescale : (rescale dark).isSome := by
  have hp : pixels dark = [10, 250, 250, 250] := by simp [pixels, dark, List.range_succ]
  unfold rescale
  rw [hp]
  have h1 : MI.minOf [10, 250, 250, 250] = some (10 : ℝ) := by norm_num [MI.minOf]
  rw [h1, Option.bind_some]
  simp only
  rw [pixels_map, hp]
  have h2 : MI.maxOf (([10, 250, 250, 250] : List ℝ).map fun v => v - 10) = some (240 : ℝ) := by norm_num [MI.maxOf]
  rw [h2, Option.bind_some, if_neg (by norm_num)]
  rfl

theorem gMi_ok (b : ℕ) (hb : 0 < b) : OkMi (gMi b) [dark] where
  pats := by simp
  dict := by simp [gMi, gA]
  bin := by simp [gMi, gA]
  steps := by simp [gMi, gA]
  batch := hb
  rows := by simp [gMi, gA]
  cols := by simp [gMi, gA]
  shape := by simp [gMi, gA, dark]
  contrast := by
    intro x hx
    rw [List.mem_singleton] at hx; subst hx
    change (prepMi 1 dark).isSome
    unfold prepMi
    rw [if_neg (by norm_num)]
    exact dark_rescale
  even := by show pCols (gA b) % 2 = 0; rw [gA_cols]
  master := by
    intro v
    show 0 ≤ masterMi v ∧ masterMi v < 1
    unfold masterMi
    split_ifs <;> norm_num

example := C151_search (gMi 1) [dark] (gMi_ok 1 (by norm_num))
example := C151_orientation_partial (gMi 2) [dark] (gMi_ok 2 (by norm_num)) (by simp [gMi, gA])
example := C151_first_batch_fails (gMi 1) [dark] (gMi_ok 1 (by norm_num))
example := C151_pattern (gMi 1) [dark] (gMi_ok 1 (by norm_num)) rfl dark (List.mem_singleton.mpr rfl)
example : fitterBy "mi" (gMi 1) [mapImg (fun v => 3 * v + 7) dark] = fitterBy "mi" (gMi 1) [dark] :=
  C151_brightness (gMi 1) [dark] (fun _ => 3) (fun _ => 7) (by norm_num)
example : fitterBy "ncc" (gMi 1) [dark] = none := C151_metric _ _ _ (by decide) (by decide)
/-- A dark pixel at the upper left; the search returns the pattern centre `(0, 0)`. -/
example : ∃ pc qs, fitterBy "mi" (gMi 2) [dark] = some (pc, qs) ∧ pc.x = 0 ∧ pc.y = 0 := by
  obtain ⟨pc, qs, h, a, b⟩ := C151_dark_fails (gMi 2) dark (gMi_ok 2 (by norm_num)) (gMi_pads 2) rfl 0 0 (by simp [gMi, gA]) (by simp [gMi, gA]) 10 250
    (by norm_num) (fun _ _ _ _ => rfl)
  refine ⟨pc, qs, h, ?_, ?_⟩
  · rw [a]; norm_num [gMi, gA]
  · rw [b]; norm_num [gMi, gA]

end Verif.Fit
