import Verif.Props.Cmif
/-! C96 continued: more than 8 bins, constant marginals, and the cases in which the property fails. -/
namespace Verif.Cmif
open Finset Verif.Blur Verif.Fft Verif.MI Verif.Spec
open Verif.Spec.Cross hiding entropy

/-! ### The chunked loops -/

theorem blocks (K c : ℕ) : ((List.range K).map fun k => 1 + k * c).flatMap (fun i => (List.range c).map fun r => i + r) =
    (List.range (K * c)).map fun l => l + 1 := by
  induction K with
  | zero => simp
  | succ K ih =>
    rw [List.range_succ, List.map_append, List.flatMap_append, ih, Nat.add_mul, Nat.one_mul, List.range_add, List.map_append]
    congr 1
    simp only [List.map_cons, List.map_nil, List.flatMap_cons, List.flatMap_nil, List.append_nil, List.map_map]
    exact List.map_congr_left fun r _ => by simp only [Function.comp]; omega

theorem visited_eq (bins chunk : ℕ) : visited bins chunk =
    ((List.range ((bins - 1 + chunk - 1) / chunk * chunk)).map fun l => l + 1).filter fun l => l ≤ bins := by
  unfold visited
  rw [← blocks, List.filter_flatMap]

/-- All slices `1 .. bins` are visited when `bins - 1` is not a multiple of the chunk size. -/
theorem visited_all {bins chunk : ℕ} (hc : 0 < chunk) (h : (bins - 1) % chunk ≠ 0) :
    visited bins chunk = (List.range bins).map fun l => l + 1 := by
  have hge : bins ≤ (bins - 1 + chunk - 1) / chunk * chunk := by
    have e := Nat.div_add_mod (bins - 1) chunk
    have hlt := Nat.mod_lt (bins - 1) hc
    have e2 : (bins - 1 + chunk - 1) / chunk = (bins - 1) / chunk + 1 := by
      rw [show bins - 1 + chunk - 1 = ((bins - 1) % chunk - 1) + chunk * ((bins - 1) / chunk + 1) by
        rw [Nat.mul_add, Nat.mul_one]; omega]
      rw [Nat.add_mul_div_left _ _ hc, Nat.div_eq_of_lt (by omega)]; omega
    rw [e2, Nat.add_mul, Nat.one_mul, Nat.mul_comm]
    omega
  rw [visited_eq]
  obtain ⟨m, hm⟩ := Nat.exists_eq_add_of_le hge
  rw [hm, List.range_add, List.map_append, List.filter_append]
  have a : ((List.range bins).map fun l => l + 1).filter (fun l => decide (l ≤ bins)) = (List.range bins).map fun l => l + 1 := by
    rw [List.filter_eq_self]
    intro l hl
    simp only [List.mem_map, List.mem_range] at hl
    obtain ⟨k, hk, rfl⟩ := hl
    simp; omega
  have b : (((List.range m).map fun l => bins + l).map fun l => l + 1).filter (fun l => decide (l ≤ bins)) = [] := by
    rw [List.filter_eq_nil_iff]
    intro l hl
    simp only [List.mem_map, List.mem_range] at hl
    obtain ⟨k, ⟨k', hk, rfl⟩, rfl⟩ := hl
    simp
  rw [a, b, List.append_nil]

/-- The last level is never visited when `bins - 1` is a multiple of the chunk size. -/
theorem visited_misses {bins chunk : ℕ} (hc : 0 < chunk) (hb : 0 < bins) (h : (bins - 1) % chunk = 0) : bins ∉ visited bins chunk := by
  have e2 : (bins - 1 + chunk - 1) / chunk = (bins - 1) / chunk := by
    have e := Nat.div_add_mod (bins - 1) chunk
    rw [show bins - 1 + chunk - 1 = (chunk - 1) + chunk * ((bins - 1) / chunk) by omega]
    rw [Nat.add_mul_div_left _ _ hc, Nat.div_eq_of_lt (by omega)]; omega
  have e3 : (bins - 1) / chunk * chunk = bins - 1 := Nat.div_mul_cancel (Nat.dvd_of_mod_eq_zero h)
  rw [visited_eq, e2, e3]
  intro hm
  have := (List.mem_filter.mp hm).1
  simp only [List.mem_map, List.mem_range] at this
  obtain ⟨k, hk, he⟩ := this
  omega

theorem list_sum_range (n : ℕ) (f : ℕ → ℝ) : (((List.range n).map fun l => l + 1).map f).sum = ∑ i ∈ range n, f (i + 1) := by
  rw [List.map_map]
  induction n with
  | zero => simp
  | succ n ih => rw [List.range_succ, List.map_append, List.sum_append, ih, sum_range_succ]; simp

section pair
variable {h w nd ns : ℕ} {d s : Img} (hh : 0 < h) (hw : 0 < w) (he : w % 2 = 0)
  (hd : d.h = h ∧ d.w = w ∧ Unit01 h w d.px) (hs : s.h = h ∧ s.w = w ∧ Unit01 h w s.px)
  (hnd : 0 < nd) (hnd' : nd ≤ 256) (hns : 0 < ns) (hns' : ns ≤ 256)
include hh hw he hd hs hnd hnd' hns hns'

theorem entMarg_eq (y x : ℕ) : entMarg nd ns (stack (ones d) nd d) (stack (ones s) ns s) y x =
    (Cross.entropy h w ns s.px, Cross.entropy h w nd (laidOn h w d y x)) := by
  obtain ⟨c1, c2, c3⟩ := corr_facts hh hw he hd hs hnd hnd' hns hns' y x
  have hu : Unit01 h w (laidOn h w d y x) := displaced_unit hd.2.2 hh hw _ _
  unfold entMarg
  simp only [c2, c3]
  rw [entOf_pixels hu hnd, entOf_pixels hs.2.2 hns]

theorem entJoint_eq {chunk : ℕ} (hk : 0 < chunk) (k1 : (nd - 1) % chunk ≠ 0) (k2 : (ns - 1) % chunk ≠ 0) (y x : ℕ) :
    entJoint nd ns chunk (stack (ones d) nd d) (stack (ones s) ns s) y x =
    -∑ i ∈ range nd, ∑ j ∈ range ns, pl ((pixelPairs h w nd ns (laidOn h w d y x) s.px i j : ℝ) / (h * w)) := by
  obtain ⟨c1, c2, c3⟩ := corr_facts hh hw he hd hs hnd hnd' hns hns' y x
  unfold entJoint
  rw [visited_all hk k1, visited_all hk k2]
  simp only [list_sum_range, c1, thresh_nat]
  rw [total_pairs hh hw he hd hs hnd hnd' hns hns' y x, zero_sub]

end pair

/-- **C96, more than 8 bins.**  With one destination image and bin counts that do not exceed a multiple of the chunk size by
exactly one, the maps are the same as for few bins.  Missing for the full property: see the `_fails` theorems below. -/
theorem C96_chunked_partial (a : Args) (h w : ℕ) (d : Img) (src : List Img) (hd : d.h = h ∧ d.w = w ∧ Unit01 h w d.px)
    (hs : Images h w src) (hh : 0 < h) (hw : 0 < w) (he : w % 2 = 0) (hnd : 0 < a.binsDst) (hnd' : a.binsDst ≤ 256)
    (hns : 0 < a.binsSrc) (hns' : a.binsSrc ≤ 256) (hbig : 8 < a.binsSrc ∨ 8 < a.binsDst) (hk : 0 < a.chunk)
    (k1 : (a.binsDst - 1) % a.chunk ≠ 0) (k2 : (a.binsSrc - 1) % a.chunk ≠ 0)
    (hc : a.constantMarginal = false) (hn : a.norm = .none) :
    ∃ m, cmif a [d] src none none = some m ∧ m.length = 1 ∧ (∀ r ∈ m, r.length = src.length) ∧
      ∀ c s, src[c]? = some s → ∃ o, entry m 0 c = some o ∧ o.h = h ∧ o.w = w ∧
        ∀ y < h, ∀ x < w, o.at_ y x = some (mutualInfo h w a.binsDst a.binsSrc (laidOn h w d y x) s.px) := by
  have hdl : Images h w [d] := ⟨by simp, fun i hi => by rw [List.mem_singleton.mp hi]; exact hd⟩
  obtain ⟨q1, q2, q3⟩ := shapes_ok (a := a) hdl hs hh (by omega : 2 ≤ w) hnd hnd' hns hns'
  have hpos : 0 < src.length := List.length_pos_iff.mpr hs.1
  have hmax : max 1 src.length = src.length := by omega
  unfold cmif
  rw [q1, q2, if_pos q3, if_pos hbig, hc]
  simp only [Bool.false_eq_true, if_false]
  unfold bigResult
  rw [if_pos ⟨he, hk, Or.inr (Or.inl rfl)⟩]
  refine ⟨_, rfl, by simp, by simpa using hmax, ?_⟩
  intro c s hc'
  have hcl : c < src.length := (List.getElem?_eq_some_iff.mp hc').1
  have hs' := hs.2 s (List.mem_of_getElem? hc')
  refine ⟨_, entry_range _ _ _ (by simp) (by simp; omega), rfl, rfl, ?_⟩
  intro y hy x hx
  have hsel : (if src.length = 1 then 0 else c) = c := by split_ifs <;> omega
  have h0 : [d][0]? = some d := rfl
  simp only [List.length_singleton, if_true, hsel, stacks_none hc', stacks_none h0, hn,
    entMarg_eq hh hw he hd hs' hnd hnd' hns hns' y x, entJoint_eq hh hw he hd hs' hnd hnd' hns hns' hk k1 k2 y x]
  rw [← finish_mi hh hw he hd hs' hnd hnd' hns hns' y x]
  unfold finish
  simp only [add_comm]

/-! ### Constant marginals -/

theorem sum_shift (n c : ℕ) (f : ℕ → ℕ) : ∑ k ∈ range n, f ((k + c) % n) = ∑ k ∈ range n, f k := by
  rcases Nat.eq_zero_or_pos n with rfl | hn
  · simp
  refine sum_nbij' (fun k => (k + c) % n) (fun k => (k + (n - c % n)) % n) ?_ ?_ ?_ ?_ ?_
  · intro k _; exact mem_range.mpr (Nat.mod_lt _ hn)
  · intro k _; exact mem_range.mpr (Nat.mod_lt _ hn)
  · intro k hk
    have hk' := mem_range.mp hk
    have hc := Nat.mod_lt c hn
    show ((k + c) % n + (n - c % n)) % n = k
    rw [Nat.mod_add_mod, show k + c + (n - c % n) = k + n + (c - c % n) by have := Nat.mod_le c n; omega]
    obtain ⟨q, hq⟩ : n ∣ c - c % n := Nat.dvd_sub_mod c
    rw [hq, Nat.add_mul_mod_self_left, Nat.add_mod_right, Nat.mod_eq_of_lt hk']
  · intro k hk
    have hk' := mem_range.mp hk
    have hc := Nat.mod_lt c hn
    show ((k + (n - c % n)) % n + c) % n = k
    rw [Nat.mod_add_mod, show k + (n - c % n) + c = k + n + (c - c % n) by have := Nat.mod_le c n; omega]
    obtain ⟨q, hq⟩ : n ∣ c - c % n := Nat.dvd_sub_mod c
    rw [hq, Nat.add_mul_mod_self_left, Nat.add_mod_right, Nat.mod_eq_of_lt hk']
  · intro k _; rfl

/-- A cyclic displacement does not change the grey-level histogram. -/
theorem pixels_displaced (h w n : ℕ) (d : ℕ → ℕ → ℝ) (dy dx i : ℕ) :
    pixels h w n (displaced h w d dy dx) i = pixels h w n d i := by
  classical
  have e : ∀ a : ℕ → ℕ → ℝ, pixels h w n a i = ∑ k ∈ range h, ∑ l ∈ range w, if InBin n i (a k l) then 1 else 0 := by
    intro a; unfold pixels; rw [card_filter, sum_product]
  rw [e, e]
  unfold displaced
  rw [← sum_shift h dy fun k => ∑ l ∈ range w, if InBin n i (d k l) then 1 else 0]
  refine sum_congr rfl fun k _ => ?_
  exact sum_shift w dx fun l => if InBin n i (d ((k + dy) % h) l) then 1 else 0

theorem entropy_displaced (h w n : ℕ) (d : ℕ → ℕ → ℝ) (dy dx : ℕ) :
    Cross.entropy h w n (displaced h w d dy dx) = Cross.entropy h w n d := by
  unfold Cross.entropy
  simp only [pixels_displaced]

/-- No grey value within the relative distance `1e-5` above the lower end of its bin. -/
def Clear (h w n : ℕ) (a : ℕ → ℕ → ℝ) : Prop := ∀ k < h, ∀ l < w, ∀ i, InBin n i (a k l) → InBin n i (a k l * 0.99999)

theorem constHist_eq {n : ℕ} (img : Img) (hn : 0 < n) (hu : Unit01 img.h img.w img.px) (hc : Clear img.h img.w n img.px) :
    ∃ f, constHist n img = some f ∧ ∀ i, f i = pixels img.h img.w n img.px i := by
  classical
  have key : ∀ k < img.h, ∀ l < img.w, ∀ i : ℕ, trunc (n * img.px k l * 0.99999) = (i : ℤ) ↔ InBin n i (img.px k l) := by
    intro k hk l hl i
    obtain ⟨v0, v1⟩ := hu k hk l hl
    obtain ⟨j, hj, hb⟩ := inBin_exists hn v0 v1
    have hb' := hc k hk l hl j hb
    have hf := (floor_bin hn j).mpr hb'
    have ht : trunc (n * img.px k l * 0.99999) = (j : ℤ) := by
      unfold trunc
      rw [if_pos (by positivity), ← hf]; congr 1; ring
    rw [ht]
    constructor
    · intro h; have : j = i := by exact_mod_cast h
      rw [← this]; exact hb
    · intro h; rw [inBin_unique hn h hb]
  unfold constHist scatterCount
  rw [if_pos]
  · refine ⟨_, rfl, fun i => ?_⟩
    have e : ∀ L : List (ℕ × ℕ), (L.map fun p => trunc (n * img.px p.1 p.2 * 0.99999)).count (i : ℤ) =
        (L.filter fun p => decide (trunc (n * img.px p.1 p.2 * 0.99999) = (i : ℤ))).length := by
      intro L
      induction L with
      | nil => rfl
      | cons p L ih =>
        rw [List.map_cons, List.count_cons, ih, List.filter_cons]
        by_cases hp : trunc (n * img.px p.1 p.2 * 0.99999) = (i : ℤ) <;> simp [hp]
    have e2 : ((List.range img.h).flatMap fun r => (List.range img.w).map fun c => trunc (n * img.px r c * 0.99999)) =
        ((List.range img.h ×ˢ List.range img.w).map fun p => trunc (n * img.px p.1 p.2 * 0.99999)) := by
      show _ = ((List.range img.h).flatMap fun r => (List.range img.w).map fun c => (r, c)).map _
      rw [List.map_flatMap]; simp [Function.comp_def]
    rw [e2, e]
    unfold pixels
    rw [← List.toFinset_card_of_nodup ((List.Nodup.product List.nodup_range List.nodup_range).filter _)]
    congr 1
    ext p
    simp only [List.mem_toFinset, List.mem_filter, List.mem_range, mem_filter, mem_product, mem_range, decide_eq_true_eq]
    constructor
    · rintro ⟨h1, h2⟩
      have := List.mem_product.mp h1
      simp only [List.mem_range] at this
      exact ⟨this, (key p.1 this.1 p.2 this.2 i).mp h2⟩
    · rintro ⟨h1, h2⟩
      exact ⟨List.mem_product.mpr ⟨List.mem_range.mpr h1.1, List.mem_range.mpr h1.2⟩, (key p.1 h1.1 p.2 h1.2 i).mpr h2⟩
  · intro t ht
    simp only [List.mem_flatMap, List.mem_map, List.mem_range] at ht
    obtain ⟨k, hk, l, hl, rfl⟩ := ht
    obtain ⟨v0, v1⟩ := hu k hk l hl
    obtain ⟨j, hj, hb⟩ := inBin_exists hn v0 v1
    rw [(key k hk l hl j).mpr hb]
    omega

/-- **C96, constant marginals** (at most 8 bins): the same maps, for images without grey values just above the lower end of a
bin (the marginals are binned after a multiplication by 0.99999, the joint histogram is not). -/
theorem C96_constant_partial (a : Args) (h w : ℕ) (dst src : List Img) (hd : Images h w dst) (hs : Images h w src)
    (hdc : ∀ i ∈ dst, Clear h w a.binsDst i.px) (hsc : ∀ i ∈ src, Clear h w a.binsSrc i.px)
    (hh : 0 < h) (hw : 0 < w) (he : w % 2 = 0) (hnd : 0 < a.binsDst) (hnd' : a.binsDst ≤ 8)
    (hns : 0 < a.binsSrc) (hns' : a.binsSrc ≤ 8) (hc : a.constantMarginal = true) (hn : a.norm = .none) :
    ∃ m, cmif a dst src none none = some m ∧ m.length = dst.length ∧ (∀ r ∈ m, r.length = src.length) ∧
      ∀ b c d s, dst[b]? = some d → src[c]? = some s → ∃ o, entry m b c = some o ∧ o.h = h ∧ o.w = w ∧
        ∀ y < h, ∀ x < w, o.at_ y x = some (mutualInfo h w a.binsDst a.binsSrc (laidOn h w d y x) s.px) := by
  obtain ⟨k1, k2, k3⟩ := shapes_ok (a := a) hd hs hh (by omega : 2 ≤ w) hnd (by omega) hns (by omega)
  have ce : ∀ (n : ℕ) (l : List Img), 0 < n → Images h w l → (∀ i ∈ l, Clear h w n i.px) → ∀ i ∈ l,
      entConst n i = some (Cross.entropy h w n i.px) := by
    intro n l hn0 hl hcl i hi
    obtain ⟨rfl, rfl, hu⟩ := hl.2 i hi
    obtain ⟨f, hf, hfi⟩ := constHist_eq i hn0 hu (hcl i hi)
    unfold entConst
    rw [hf]
    have : f = pixels i.h i.w n i.px := funext hfi
    rw [this]
    exact congrArg some (entOf_pixels hu hn0)
  unfold cmif
  rw [k1, k2, if_pos k3, if_neg (by omega), hc]
  simp only [if_true]
  unfold constResult
  rw [if_pos ⟨fun i hi => by rw [ce _ _ hnd hd hdc i hi]; rfl, fun i hi => by rw [ce _ _ hns hs hsc i hi]; rfl, Or.inl hn⟩]
  refine ⟨_, rfl, by simp, by simp, ?_⟩
  intro b c d s hb hc'
  have hb' : b < dst.length := (List.getElem?_eq_some_iff.mp hb).1
  have hc'' : c < src.length := (List.getElem?_eq_some_iff.mp hc').1
  refine ⟨_, entry_range _ _ _ hb' hc'', rfl, by show 2 * (w / 2) = w; omega, ?_⟩
  intro y hy x hx
  have hd' := hd.2 d (List.mem_of_getElem? hb)
  have hs' := hs.2 s (List.mem_of_getElem? hc')
  have g1 : dst.getD b ⟨0, 0, fun _ _ => 0⟩ = d := by rw [List.getD_eq_getElem?_getD, hb]; rfl
  have g2 : src.getD c ⟨0, 0, fun _ _ => 0⟩ = s := by rw [List.getD_eq_getElem?_getD, hc']; rfl
  simp only [g1, g2, ce _ _ hnd hd hdc d (List.mem_of_getElem? hb), ce _ _ hns hs hsc s (List.mem_of_getElem? hc'),
    Option.getD_some, stacks_none hb, stacks_none hc', hn,
    entSmall_eq hh hw he hd' hs' hnd (by omega : a.binsDst ≤ 256) hns (by omega : a.binsSrc ≤ 256) y x]
  rw [← finish_mi hh hw he hd' hs' hnd (by omega) hns (by omega) y x]
  unfold finish laidOn
  simp only [entropy_displaced, add_comm]

/-- Constant marginals with more than 8 bins always raise. -/
theorem C96_constant_fails (a : Args) (dst src : List Img) (dInd sInd : Option (List Img))
    (hbig : 8 < a.binsSrc ∨ 8 < a.binsDst) (hc : a.constantMarginal = true) : cmif a dst src dInd sInd = none := by
  unfold cmif
  simp only [if_pos hbig, hc, if_true, ite_self]

/-- Images of odd width: with few bins the maps lack a column, with more bins the call raises. -/
theorem C96_odd_width_fails (a : Args) (h w : ℕ) (dst src : List Img) (hd : Images h w dst) (hs : Images h w src)
    (hh : 0 < h) (hw : 2 ≤ w) (ho : w % 2 = 1) (hnd : 0 < a.binsDst) (hnd' : a.binsDst ≤ 256)
    (hns : 0 < a.binsSrc) (hns' : a.binsSrc ≤ 256) (hc : a.constantMarginal = false) :
    (8 < a.binsSrc ∨ 8 < a.binsDst → cmif a dst src none none = none) ∧
    (a.binsSrc ≤ 8 ∧ a.binsDst ≤ 8 → ∃ m, cmif a dst src none none = some m ∧ ∀ b < dst.length, ∀ c < src.length,
      ∃ o, entry m b c = some o ∧ o.w = w - 1) := by
  obtain ⟨k1, k2, k3⟩ := shapes_ok (a := a) hd hs hh hw hnd hnd' hns hns'
  constructor
  · intro hb
    unfold cmif
    rw [k1, k2, if_pos k3, if_pos hb, hc]
    simp only [Bool.false_eq_true, if_false]
    unfold bigResult
    rw [if_neg (by omega)]
  · intro hb
    unfold cmif
    rw [k1, k2, if_pos k3, if_neg (by omega), hc]
    refine ⟨_, rfl, fun b hb c hc => ⟨_, entry_range _ _ _ hb hc, ?_⟩⟩
    show 2 * (w / 2) = w - 1
    omega

/-- More than 8 bins, several destination images and one source image: the result has as many columns as rows, instead of
one column. -/
theorem C96_batch_shape_fails (a : Args) (h w : ℕ) (dst : List Img) (s : Img) (hd : Images h w dst) (hs : Images h w [s])
    (h2 : 2 ≤ dst.length) (hh : 0 < h) (hw : 0 < w) (he : w % 2 = 0) (hnd : 0 < a.binsDst) (hnd' : a.binsDst ≤ 256)
    (hns : 0 < a.binsSrc) (hns' : a.binsSrc ≤ 256) (hbig : 8 < a.binsSrc ∨ 8 < a.binsDst) (hk : 0 < a.chunk)
    (hc : a.constantMarginal = false) :
    ∃ m, cmif a dst [s] none none = some m ∧ m.length = dst.length ∧ ∀ r ∈ m, r.length = dst.length := by
  obtain ⟨q1, q2, q3⟩ := shapes_ok (a := a) hd hs hh (by omega : 2 ≤ w) hnd hnd' hns hns'
  unfold cmif
  rw [q1, q2, if_pos q3, if_pos hbig, hc]
  simp only [Bool.false_eq_true, if_false]
  unfold bigResult
  rw [if_pos ⟨he, hk, Or.inr (Or.inr rfl)⟩]
  refine ⟨_, rfl, by simp, ?_⟩
  simp only [List.mem_map, List.mem_range, List.length_singleton]
  rintro r ⟨b, -, rfl⟩
  simp; omega

end Verif.Cmif
