import Verif.Model.Clean
import Verif.Props.Clahe
import Verif.Props.Nlpar
import Verif.Props.Utils
import Verif.Props.Binning
/-! C128-C131: the cleaning methods of `ExperimentPatterns`, and what they do to the caller's tensor. -/
namespace Verif.Clean
open Blur Clahe Nlpar

variable {n h w : ℕ}

/-! ### the single calls -/

lemma subtract_eq {W : World n h w} {o : ℕ} {ob : Obj} {x : Stack n h w} (ho : W.objs[o]? = some ob) (hx : W.heap[ob.addr]? = some x) :
    subtract W o = some (write W ob.addr (subtractBackground x), false) := by
  simp only [subtract, withObj, ho, hx, Option.bind_some]

lemma minmax_eq {W : World n h w} {o : ℕ} {ob : Obj} {x : Stack n h w} (ho : W.objs[o]? = some ob) (hx : W.heap[ob.addr]? = some x) :
    normalize W o "minmax" = some (⟨W.heap.set ob.addr fun k => patMinmax (x k), W.objs.set o { ob with flat := false }⟩, false) := by
  simp only [normalize, withObj, ho, hx, Option.bind_some]
  rw [if_neg (by rintro ⟨h, -⟩; exact absurd h (by decide))]
  simp only [normalizePerPattern, if_true]
  rfl

lemma enhance_ok {W : World n h w} {o : ℕ} {ob : Obj} {x : Stack n h w} (ho : W.objs[o]? = some ob) (hx : W.heap[ob.addr]? = some x)
    (hf : ob.flat = false) (clip : ℝ) (grid bins : ℕ) (q : ∀ k, (clahe (imgOf (x k)) clip bins grid grid).isSome) :
    enhance W o clip grid bins =
      some (assign W o ob fun k => ofImg ((clahe (imgOf (x k)) clip bins grid grid).get (q k)), false) := by
  simp only [enhance, withObj, ho, hx, Option.bind_some, hf, Bool.false_eq_true, if_false]
  rw [dif_pos q]

lemma enhance_refused {W : World n h w} {o : ℕ} {ob : Obj} {x : Stack n h w} (ho : W.objs[o]? = some ob) (hx : W.heap[ob.addr]? = some x)
    (hf : ob.flat = false) (clip : ℝ) (grid bins : ℕ) (q : ¬ ∀ k, (clahe (imgOf (x k)) clip bins grid grid).isSome) :
    enhance W o clip grid bins = some (W, true) := by
  simp only [enhance, withObj, ho, hx, Option.bind_some, hf, Bool.false_eq_true, if_false]
  rw [dif_neg q]

/-- the values computed by `standard_clean` from the background-subtracted patterns -/
noncomputable def pipeline (s : Stack n h w) : Stack n h w := fun k =>
  patMinmax (ofImg ((clahe (imgOf (patMinmax (s k))) 40 64 4 4).getD ⟨0, 0, fun _ _ => 0⟩))

lemma get_getD {α : Type} (o : Option α) (q : o.isSome) (d : α) : o.get q = o.getD d := by
  cases o with
  | none => cases q
  | some v => rfl

lemma pad_ok {s : ℕ} (hs : 3 ≤ s) : padSize s 4 < s := by
  unfold padSize
  split <;> omega

lemma minmax_range {p : ℕ} (hp : 0 < p) (x : Fin p → ℝ) : (∀ i, 0 ≤ patMinmax x i ∧ patMinmax x i < 1) ∧ ∃ i, patMinmax x i = 0 := by
  obtain ⟨out, h1, h2⟩ := C41_minmax (n := 1) hp fun _ => x
  simp only [normalizePerPattern, if_true, Option.some.injEq] at h1
  subst h1
  obtain ⟨-, a, b, -⟩ := h2 0
  exact ⟨a, b⟩

lemma clahe_ok (h3 : 3 ≤ h) (w3 : 3 ≤ w) (x : Fin (h * w) → ℝ) (hx : ∀ i, 0 ≤ x i ∧ x i < 1) :
    (clahe (imgOf x) 40 64 4 4).isSome := by
  refine C38_succeeds _ _ _ _ _ (by norm_num) (by norm_num) (by norm_num) (pad_ok h3) (pad_ok w3) fun i hi j hj => ?_
  have hi' : i < h := hi
  have hj' : j < w := hj
  simp only [imgOf]
  rw [dif_pos ⟨hi', hj'⟩]
  exact ⟨(hx _).1, (hx _).2.le⟩

lemma set_get {α : Type} {l : List α} {i : ℕ} {a b : α} (hi : l[i]? = some a) : (l.set i b)[i]? = some b := by
  obtain ⟨q, -⟩ := List.getElem?_eq_some_iff.mp hi
  exact List.getElem?_set_self q

/-- the world after `standard_clean` -/
lemma standard_eq {W : World n h w} {o : ℕ} {ob : Obj} {x : Stack n h w} (ho : W.objs[o]? = some ob) (hx : W.heap[ob.addr]? = some x)
    (q : ∀ k, (clahe (imgOf (patMinmax (subtractBackground x k))) 40 64 4 4).isSome) :
    standardClean W o = some (⟨W.heap.set ob.addr (fun k => patMinmax (subtractBackground x k)) ++ [pipeline (subtractBackground x)],
      W.objs.set o ⟨W.heap.length, ob.spatial, false⟩⟩, false) := by
  unfold standardClean
  rw [subtract_eq ho hx]
  simp only [Res.andThen, Option.bind_some, Bool.false_eq_true, if_false]
  have hx1 : (write W ob.addr (subtractBackground x)).heap[ob.addr]? = some (subtractBackground x) := set_get hx
  rw [minmax_eq (W := write W ob.addr (subtractBackground x)) ho hx1]
  simp only [Option.bind_some, Bool.false_eq_true, if_false]
  rw [enhance_ok (ob := { ob with flat := false }) (x := fun k => patMinmax (subtractBackground x k)) (set_get ho)
    (set_get hx1) rfl 40 4 64 q]
  simp only [Option.bind_some, Bool.false_eq_true, if_false, assign, write, List.length_set]
  rw [minmax_eq (ob := ⟨W.heap.length, ob.spatial, false⟩)
    (x := fun k => ofImg ((clahe (imgOf (patMinmax (subtractBackground x k))) 40 64 4 4).get (q k)))
    (set_get (set_get ho))
    (by simp only; rw [List.getElem?_append_right (by simp)]; simp)]
  simp only [List.set_set]
  congr 3
  rw [List.set_append_right _ _ (by simp)]
  simp only [List.length_set, Nat.sub_self, List.set_cons_zero, List.append_cancel_left_eq, List.cons.injEq, and_true]
  funext k
  rw [pipeline, get_getD]

/-- the world after a `standard_clean` that raised -/
lemma standard_refused {W : World n h w} {o : ℕ} {ob : Obj} {x : Stack n h w} (ho : W.objs[o]? = some ob)
    (hx : W.heap[ob.addr]? = some x) (q : ¬ ∀ k, (clahe (imgOf (patMinmax (subtractBackground x k))) 40 64 4 4).isSome) :
    standardClean W o = some (⟨W.heap.set ob.addr (fun k => patMinmax (subtractBackground x k)),
      W.objs.set o { ob with flat := false }⟩, true) := by
  have hx1 : (write W ob.addr (subtractBackground x)).heap[ob.addr]? = some (subtractBackground x) := set_get hx
  unfold standardClean
  rw [subtract_eq ho hx]
  simp only [Res.andThen, Option.bind_some, Bool.false_eq_true, if_false]
  rw [minmax_eq (W := write W ob.addr (subtractBackground x)) ho hx1]
  simp only [Option.bind_some, Bool.false_eq_true, if_false]
  rw [enhance_refused (ob := { ob with flat := false }) (x := fun k => patMinmax (subtractBackground x k)) (set_get ho)
    (set_get hx1) rfl 40 4 64 q]
  simp only [write, Option.bind_some, if_true, List.set_set]

lemma clahe_small (y : Img) (hs : ¬ (padSize y.w 4 < y.w ∧ padSize y.h 4 < y.h)) : clahe y 40 64 4 4 = none := by
  unfold clahe pad
  rw [if_pos (by norm_num)]
  simp only [if_true]
  rw [if_neg (fun q => hs ⟨q.2.1, q.2.2.2⟩)]
  rfl

/-- What a user expects of cleaned patterns `y` of raw patterns `x`: grey levels in `[0, 1)` with minimum 0 in every pattern, and at each
pixel a non-decreasing function of the raw value minus the mean of that pixel over the scan. -/
def Cleaned (x y : Stack n h w) : Prop :=
  (∀ k i, 0 ≤ y k i ∧ y k i < 1) ∧ (∀ k, ∃ i, y k i = 0) ∧
  ∃ T : Fin n → Fin (h * w) → ℝ → ℝ, (∀ k i, Monotone (T k i)) ∧ ∀ k i, y k i = T k i (x k i - (∑ l, x l i) / n)

lemma minmax_mono {p : ℕ} (hp : 0 < p) (x : Fin p → ℝ) : ∃ a b : ℝ, 0 < a ∧ ∀ i, patMinmax x i = a * x i + b := by
  obtain ⟨out, h1, h2⟩ := C41_minmax (n := 1) hp fun _ => x
  simp only [normalizePerPattern, if_true, Option.some.injEq] at h1
  subst h1
  exact (h2 0).1

lemma imgOf_px (x : Fin (h * w) → ℝ) (p : Fin (h * w)) : (imgOf x).px (p.val / w) (p.val % w) = x p := by
  have hw : 0 < w := by
    rcases Nat.eq_zero_or_pos w with rfl | q
    · exact absurd p.isLt (by simp)
    · exact q
  have a : p.val / w < h := (Nat.div_lt_iff_lt_mul hw).mpr p.isLt
  have b : p.val % w < w := Nat.mod_lt _ hw
  simp only [imgOf]
  rw [dif_pos ⟨a, b⟩]
  congr 1
  exact Fin.ext (by simp only; exact Nat.div_add_mod' _ _)

/-- C128, partial: on patterns of at least 3 by 3 pixels `standard_clean` never raises; number and shape of the patterns and the scan shape
are kept; the result is clean; and the same image added to all patterns changes nothing.  Missing: smaller patterns, see `C128_small_fails`. -/
theorem C128_standard_clean_partial (W : World n h w) (o : ℕ) (ob : Obj) (x : Stack n h w) (ho : W.objs[o]? = some ob)
    (hx : W.heap[ob.addr]? = some x) (h3 : 3 ≤ h) (w3 : 3 ≤ w) :
    ∃ W' y, standardClean W o = some (W', false) ∧ patterns W' o = some ([n, h, w], y) ∧
      (W'.objs[o]?).map Obj.spatial = some ob.spatial ∧ Cleaned x y ∧
      ∀ (V : World n h w) (p : ℕ) (pb : Obj) (b : Fin (h * w) → ℝ), 0 < n → V.objs[p]? = some pb →
        V.heap[pb.addr]? = some (fun k i => x k i + b i) →
        ∃ V', standardClean V p = some (V', false) ∧ patterns V' p = some ([n, h, w], y) := by
  have hp : 0 < h * w := Nat.mul_pos (by omega) (by omega)
  have key : ∀ (W : World n h w) (o : ℕ) (ob : Obj) (x : Stack n h w), W.objs[o]? = some ob → W.heap[ob.addr]? = some x →
      ∃ W', standardClean W o = some (W', false) ∧ patterns W' o = some ([n, h, w], pipeline (subtractBackground x)) ∧
        (W'.objs[o]?).map Obj.spatial = some ob.spatial := by
    intro W o ob x ho hx
    refine ⟨_, standard_eq ho hx fun k => clahe_ok h3 w3 _ (minmax_range hp _).1, ?_, ?_⟩
    · simp only [patterns]
      rw [set_get ho]
      simp only [Option.bind_some, Bool.false_eq_true, if_false]
      rw [List.getElem?_append_right (by simp)]
      simp
    · simp only
      rw [set_get ho]
      rfl
  obtain ⟨W', e1, e2, e3⟩ := key W o ob x ho hx
  refine ⟨W', _, e1, e2, e3, ⟨fun k i => (minmax_range hp _).1 i, fun k => (minmax_range hp _).2, ?_⟩, ?_⟩
  · have : ∀ k : Fin n, ∃ T : Fin (h * w) → ℝ → ℝ, (∀ i, Monotone (T i)) ∧
        ∀ i, pipeline (subtractBackground x) k i = T i (x k i - (∑ l, x l i) / n) := by
      intro k
      have q := clahe_ok h3 w3 (patMinmax (subtractBackground x k)) (minmax_range hp _).1
      obtain ⟨y, hy⟩ := Option.isSome_iff_exists.mp q
      obtain ⟨-, -, -, T, t1, t2⟩ := C38_output _ y _ _ _ _ (show 0 < (imgOf _).h from by simp only [imgOf]; omega)
        (show 0 < (imgOf _).w from by simp only [imgOf]; omega) hy
      obtain ⟨a, b, a0, ab⟩ := minmax_mono hp (subtractBackground x k)
      obtain ⟨c, d, c0, cd⟩ := minmax_mono hp (ofImg (h := h) (w := w) y)
      refine ⟨fun i v => c * T (i.val / w) (i.val % w) (a * v + b) + d, fun i u v huv => ?_, fun i => ?_⟩
      · have : a * u + b ≤ a * v + b := by nlinarith
        have := t1 (i.val / w) (i.val % w) this
        simp only
        nlinarith
      · simp only [pipeline, hy, Option.getD_some]
        rw [cd]
        simp only [ofImg]
        rw [t2, imgOf_px, ab]
        rfl
    choose T t1 t2 using this
    exact ⟨T, t1, t2⟩
  · intro V p pb b hn hp hv
    obtain ⟨V', f1, f2, -⟩ := key V p pb _ hp hv
    refine ⟨V', f1, ?_⟩
    rw [f2]
    have : subtractBackground (fun k i => x k i + b i) = subtractBackground x := by
      funext k i
      simp only [subtractBackground]
      rw [Finset.sum_add_distrib, Finset.sum_const, Finset.card_univ, Fintype.card_fin, nsmul_eq_mul]
      have : (n : ℝ) ≠ 0 := by positivity
      field_simp
      ring
    rw [this]

/-- C128 fails for patterns with one or two rows or columns: `standard_clean` raises, and the patterns of the object, which the caller's
tensor shares, have been replaced by an intermediate result. -/
theorem C128_small_fails (W : World n h w) (o : ℕ) (ob : Obj) (x : Stack n h w) (ho : W.objs[o]? = some ob)
    (hx : W.heap[ob.addr]? = some x) (hn : 0 < n) (hp : 0 < h * w) (hs : h < 3 ∨ w < 3) :
    ∃ W' z, standardClean W o = some (W', true) ∧ W'.heap[ob.addr]? = some z ∧ (∀ k i, 0 ≤ z k i ∧ z k i < 1) ∧
      ((∃ k i, x k i < 0 ∨ 1 ≤ x k i) → z ≠ x) := by
  have h0 : 0 < h := Nat.pos_of_mul_pos_right hp
  have w0 : 0 < w := Nat.pos_of_mul_pos_left hp
  have q : ¬ ∀ k : Fin n, (clahe (imgOf (patMinmax (subtractBackground x k))) 40 64 4 4).isSome := by
    intro q
    have := q ⟨0, hn⟩
    rw [clahe_small] at this
    · cases this
    · rintro ⟨a, b⟩
      simp only [imgOf, padSize] at a b
      rcases hs with q | q
      · interval_cases h <;> simp at b
      · interval_cases w <;> simp at a
  refine ⟨_, _, standard_refused ho hx q, set_get hx, fun k i => (minmax_range hp _).1 i, ?_⟩
  · rintro ⟨k, i, hki⟩ e
    have := (minmax_range hp (subtractBackground x k)).1 i
    rw [← e] at hki
    rcases hki with a | a <;> linarith [this.1, this.2]

/-! ### what a call touches -/

/-- the object a method is called on -/
def Op.target : Op n h w → Option ℕ
  | .alloc _ => none
  | .create _ _ => none
  | .subtract o => some o
  | .normalize o _ => some o
  | .enhance o _ _ _ => some o
  | .standardClean o => some o
  | .doNlpar _ o _ _ => some o

/-- the methods that give the object a tensor of its own -/
def Op.detaches : Op n h w → Prop
  | .enhance _ _ _ _ => True
  | .standardClean _ => True
  | .doNlpar _ _ _ _ => True
  | _ => False

/-- effect of a method call on object `o` -/
def Eff (W : World n h w) (o : ℕ) (W' : World n h w) : Prop :=
  ∃ ob ob', W.objs[o]? = some ob ∧ W'.objs = W.objs.set o ob' ∧ W.heap.length ≤ W'.heap.length ∧
    (ob'.addr = ob.addr ∨ W.heap.length = ob'.addr ∧ ob'.addr < W'.heap.length) ∧
    ∀ a < W.heap.length, a ≠ ob.addr → W'.heap[a]? = W.heap[a]?

lemma withObj_some {W : World n h w} {o : ℕ} {f : Obj → Stack n h w → Res n h w} {r : World n h w × Bool} (hr : withObj W o f = some r) :
    ∃ ob x, W.objs[o]? = some ob ∧ W.heap[ob.addr]? = some x ∧ f ob x = some r := by
  unfold withObj at hr
  cases ho : W.objs[o]? with
  | none => rw [ho] at hr; cases hr
  | some ob =>
    rw [ho] at hr
    simp only [Option.bind_some] at hr
    cases hx : W.heap[ob.addr]? with
    | none => rw [hx] at hr; cases hr
    | some x =>
      rw [hx] at hr
      exact ⟨ob, x, rfl, hx, hr⟩

lemma set_self {α : Type} {l : List α} {i : ℕ} {a : α} (hi : l[i]? = some a) : l.set i a = l := by
  obtain ⟨q, e⟩ := List.getElem?_eq_some_iff.mp hi
  subst e
  exact List.set_getElem_self q

lemma eff_same {W : World n h w} {o : ℕ} {ob : Obj} (ho : W.objs[o]? = some ob) : Eff W o W :=
  ⟨ob, ob, ho, (set_self ho).symm, le_rfl, .inl rfl, fun _ _ _ => rfl⟩

lemma eff_write {W : World n h w} {o : ℕ} {ob : Obj} (ho : W.objs[o]? = some ob) (y : Stack n h w) (fl : Bool) :
    Eff W o ⟨W.heap.set ob.addr y, W.objs.set o { ob with flat := fl }⟩ :=
  ⟨ob, { ob with flat := fl }, ho, rfl, by simp, .inl rfl, fun a _ q => List.getElem?_set_ne q.symm⟩

lemma eff_assign {W : World n h w} {o : ℕ} {ob : Obj} (ho : W.objs[o]? = some ob) (y : Stack n h w) : Eff W o (assign W o ob y) :=
  ⟨ob, _, ho, rfl, by simp [assign], .inr ⟨rfl, by simp [assign]⟩, fun a q _ => by
    simp only [assign]; exact List.getElem?_append_left q⟩

lemma step_eff {W : World n h w} {op : Op n h w} {o : ℕ} (hop : op.target = some o) {r : World n h w × Bool} (hr : step W op = some r) :
    Eff W o r.1 := by
  cases op with
  | alloc x => cases hop
  | create a s => cases hop
  | subtract p =>
    cases hop
    obtain ⟨ob, x, ho, hx, e⟩ := withObj_some hr
    cases e
    have := eff_write ho (subtractBackground x) ob.flat
    rw [show ({ ob with flat := ob.flat } : Obj) = ob from rfl, set_self ho] at this
    exact this
  | normalize p kind =>
    cases hop
    obtain ⟨ob, x, ho, hx, e⟩ := withObj_some hr
    simp only at e
    split at e
    · cases e
    · split at e
      · cases e
        exact eff_write ho _ _
      · cases e
        have := eff_write ho x true
        rw [set_self hx] at this
        exact this
  | enhance p c g b =>
    cases hop
    obtain ⟨ob, x, ho, hx, e⟩ := withObj_some hr
    split at e
    · split at e
      · cases e
      · cases e
        exact eff_same ho
    · split at e
      · cases e
        exact eff_assign ho _
      · cases e
        exact eff_same ho
  | standardClean p =>
    cases hop
    have hr' : standardClean W o = some r := hr
    cases ho : W.objs[o]? with
    | none =>
      simp only [standardClean, subtract, withObj, ho, Option.bind_none, Res.andThen] at hr'
      cases hr'
    | some ob =>
      cases hx : W.heap[ob.addr]? with
      | none =>
        simp only [standardClean, subtract, withObj, ho, hx, Option.bind_none, Option.bind_some, Res.andThen] at hr'
        cases hr'
      | some x =>
        by_cases q : ∀ k, (clahe (imgOf (patMinmax (subtractBackground x k))) 40 64 4 4).isSome
        · rw [standard_eq ho hx q] at hr'
          cases hr'
          refine ⟨ob, _, ho, rfl, by simp, .inr ⟨rfl, by simp⟩, fun a ha hne => ?_⟩
          simp only
          rw [List.getElem?_append_left (by simpa using ha), List.getElem?_set_ne hne.symm]
        · rw [standard_refused ho hx q] at hr'
          cases hr'
          exact eff_write ho _ _
  | doNlpar A p k c =>
    cases hop
    obtain ⟨ob, x, ho, hx, e⟩ := withObj_some hr
    split at e
    · obtain ⟨out, -, e⟩ := Option.map_eq_some_iff.mp e
      cases e
      exact eff_assign ho _
    · cases e
      exact eff_same ho

/-- a successful `contrast_enhance_clahe`, `standard_clean` or `do_nlpar` leaves the object with a tensor that did not exist before -/
lemma detach_addr {W : World n h w} {op : Op n h w} {o : ℕ} (hop : op.target = some o) (hd : op.detaches) {W' : World n h w}
    (hr : step W op = some (W', false)) : ∃ ob', W'.objs[o]? = some ob' ∧ ob'.addr = W.heap.length ∧ ob'.addr < W'.heap.length := by
  cases op with
  | alloc x => cases hop
  | create a s => cases hop
  | subtract p => exact hd.elim
  | normalize p kind => exact hd.elim
  | enhance p c g b =>
    cases hop
    obtain ⟨ob, x, ho, hx, e⟩ := withObj_some hr
    split at e
    · split at e
      · cases e
      · cases e
    · split at e
      · cases e
        exact ⟨_, set_get ho, rfl, by simp [assign]⟩
      · cases e
  | standardClean p =>
    cases hop
    have hr' : standardClean W o = some (W', false) := hr
    cases ho : W.objs[o]? with
    | none =>
      simp only [standardClean, subtract, withObj, ho, Option.bind_none, Res.andThen] at hr'
      cases hr'
    | some ob =>
      cases hx : W.heap[ob.addr]? with
      | none =>
        simp only [standardClean, subtract, withObj, ho, hx, Option.bind_none, Option.bind_some, Res.andThen] at hr'
        cases hr'
      | some x =>
        by_cases q : ∀ k, (clahe (imgOf (patMinmax (subtractBackground x k))) 40 64 4 4).isSome
        · rw [standard_eq ho hx q] at hr'
          cases hr'
          exact ⟨_, set_get ho, rfl, by simp⟩
        · rw [standard_refused ho hx q] at hr'
          cases hr'
  | doNlpar A p k c =>
    cases hop
    obtain ⟨ob, x, ho, hx, e⟩ := withObj_some hr
    split at e
    · obtain ⟨out, -, e⟩ := Option.map_eq_some_iff.mp e
      cases e
      exact ⟨_, set_get ho, rfl, by simp [assign]⟩
    · cases e

/-- an operation without target only adds a tensor or an object -/
lemma step_noeff {W : World n h w} {op : Op n h w} (hop : op.target = none) {r : World n h w × Bool} (hr : step W op = some r) :
    (∃ x, r.1 = ⟨W.heap ++ [x], W.objs⟩) ∨ r.1 = W ∨ ∃ a s s', op = .create a s ∧ a < W.heap.length ∧ r.1 = ⟨W.heap, W.objs ++ [⟨a, s', false⟩]⟩ := by
  cases op with
  | alloc x => cases hr; exact .inl ⟨x, rfl⟩
  | create a s =>
    simp only [step, create] at hr
    split at hr
    · rename_i hc
      split at hr
      · cases hr; exact .inr (.inr ⟨a, s, _, rfl, hc.1, rfl⟩)
      · split at hr
        · cases hr; exact .inr (.inl rfl)
        · cases hr; exact .inr (.inr ⟨a, s, _, rfl, hc.1, rfl⟩)
    · cases hr
  | _ => cases hop

/-- every reachable object refers to a tensor -/
def Valid (W : World n h w) : Prop := ∀ (o : ℕ) (ob : Obj), W.objs[o]? = some ob → ob.addr < W.heap.length

lemma set_cases {α : Type} {l : List α} {i j : ℕ} {a b : α} (q : (l.set i a)[j]? = some b) : (j = i ∧ b = a) ∨ (j ≠ i ∧ l[j]? = some b) := by
  by_cases e : j = i
  · subst e
    have : j < l.length := by
      have := (List.getElem?_eq_some_iff.mp q).1
      simpa using this
    rw [List.getElem?_set_self this] at q
    exact .inl ⟨rfl, (Option.some.inj q).symm⟩
  · rw [List.getElem?_set_ne (Ne.symm e)] at q
    exact .inr ⟨e, q⟩

lemma append_cases {α : Type} {l : List α} {j : ℕ} {a b : α} (q : (l ++ [a])[j]? = some b) : (j = l.length ∧ b = a) ∨ l[j]? = some b := by
  by_cases e : j < l.length
  · rw [List.getElem?_append_left e] at q
    exact .inr q
  · rw [List.getElem?_append_right (by omega)] at q
    have : j - l.length = 0 := by
      have := (List.getElem?_eq_some_iff.mp q).1
      simpa using this
    rw [this] at q
    exact .inl ⟨by omega, (Option.some.inj q).symm⟩

lemma step_valid {W : World n h w} (hv : Valid W) {op : Op n h w} {r : World n h w × Bool} (hr : step W op = some r) : Valid r.1 := by
  cases ht : op.target with
  | none =>
    rcases step_noeff ht hr with ⟨x, e⟩ | e | ⟨a, s, s', -, ha, e⟩
    · rw [e]
      intro o ob q
      have := hv o ob q
      simp only [List.length_append, List.length_cons, List.length_nil]
      omega
    · rw [e]; exact hv
    · rw [e]
      intro o ob q
      rcases append_cases q with ⟨-, e⟩ | q
      · subst e; exact ha
      · exact hv o ob q
  | some o =>
    obtain ⟨ob, ob', e1, e2, e3, e4, -⟩ := step_eff ht hr
    intro p pb q
    rw [e2] at q
    rcases set_cases q with ⟨-, e⟩ | ⟨-, q⟩
    · subst e
      rcases e4 with e | e
      · have := hv o ob e1; omega
      · exact e.2
    · have := hv p pb q; omega

lemma foldlM_ind {β : Type} (P : World n h w → Prop) (f : World n h w → β → Option (World n h w)) (l : List β)
    (hf : ∀ W b W', b ∈ l → P W → f W b = some W' → P W') : ∀ W W', P W → l.foldlM f W = some W' → P W' := by
  induction l with
  | nil => intro W W' p e; cases e; exact p
  | cons b l ih =>
    intro W W' p e
    rw [List.foldlM_cons] at e
    cases hb : f W b with
    | none => rw [hb] at e; cases e
    | some V =>
      rw [hb] at e
      exact ih (fun W c W' hc => hf W c W' (List.mem_cons_of_mem _ hc)) V W' (hf W b V (List.mem_cons_self ..) p hb) e

lemma run_valid {hist : List (Op n h w)} {W : World n h w} (hr : run hist = some W) : Valid W := by
  refine foldlM_ind Valid _ hist (fun W op W' _ p e => ?_) ⟨[], []⟩ W (fun o ob q => by simp at q) hr
  obtain ⟨r, e', rfl⟩ := Option.map_eq_some_iff.mp e
  exact step_valid p e'

/-- C129, partial: in every history a method call changes nothing but the patterns of the objects built on the same tensor as its object
and that tensor itself: other tensors of the caller, and the objects built on them, are left alone.  Missing: the objects that share the
tensor, and the caller's tensor, see `C129_alias_fails`. -/
theorem C129_frame_partial (hist : List (Op n h w)) (W : World n h w) (hw : run hist = some W) (op : Op n h w) (o : ℕ)
    (hop : op.target = some o) (W' : World n h w) (raised : Bool) (hr : step W op = some (W', raised)) :
    ∃ ob, W.objs[o]? = some ob ∧ (∀ a < W.heap.length, a ≠ ob.addr → W'.heap[a]? = W.heap[a]?) ∧
      ∀ p pb, p ≠ o → W.objs[p]? = some pb → pb.addr ≠ ob.addr → patterns W' p = patterns W p := by
  have hv := run_valid hw
  obtain ⟨ob, ob', e1, e2, e3, e4, e5⟩ := step_eff hop hr
  refine ⟨ob, e1, e5, fun p pb hp hpb hne => ?_⟩
  simp only [patterns]
  simp only at e2 e5
  rw [e2, List.getElem?_set_ne hp.symm, hpb]
  simp only [Option.bind_some]
  rw [e5 pb.addr (hv p pb hpb) hne]

/-- C129, partial: once `contrast_enhance_clahe`, `standard_clean` or `do_nlpar` has succeeded, the object has a tensor of its own: whatever is
done later to the other objects and their tensors, its patterns stay as they are (unless a new object is built on this very tensor). -/
theorem C129_detached_partial (hist : List (Op n h w)) (W : World n h w) (hw : run hist = some W) (op : Op n h w) (o : ℕ)
    (hop : op.target = some o) (hd : op.detaches) (W1 : World n h w) (hr : step W op = some (W1, false))
    (rest : List (Op n h w)) (hrest : ∀ q ∈ rest, q.target ≠ some o ∧ ∀ a s, q = .create a s → a ≠ W.heap.length) (W2 : World n h w)
    (h2 : rest.foldlM (fun W op => (step W op).map Prod.fst) W1 = some W2) : patterns W2 o = patterns W1 o := by
  have hv := run_valid hw
  obtain ⟨ob', o1, o2, o3⟩ := detach_addr hop hd hr
  obtain ⟨ob, ob'', e1, e2, e3, e4, e5⟩ := step_eff hop hr
  have hv1 := step_valid hv hr
  let P : World n h w → Prop := fun V => Valid V ∧ V.objs[o]? = some ob' ∧ V.heap[ob'.addr]? = W1.heap[ob'.addr]? ∧
    ∀ p pb, p ≠ o → V.objs[p]? = some pb → pb.addr ≠ ob'.addr
  have h0 : P W1 := by
    refine ⟨hv1, o1, rfl, fun p pb hp hpb => ?_⟩
    simp only at e2
    rw [e2, List.getElem?_set_ne hp.symm] at hpb
    have := hv p pb hpb
    omega
  have : P W2 := by
    refine foldlM_ind P _ rest (fun V q V' hq p e => ?_) W1 W2 h0 h2
    obtain ⟨r, e', rfl⟩ := Option.map_eq_some_iff.mp e
    clear e
    rename' e' => e
    obtain ⟨p1, p2, p3, p4⟩ := p
    have hlt := p1 o ob' p2
    refine ⟨step_valid p1 e, ?_⟩
    cases ht : q.target with
    | none =>
      rcases step_noeff ht e with ⟨x, e⟩ | e | ⟨a, s, s', ec, ha, e⟩
      · rw [e]
        exact ⟨p2, by rw [List.getElem?_append_left hlt]; exact p3, p4⟩
      · rw [e]; exact ⟨p2, p3, p4⟩
      · rw [e]
        refine ⟨?_, p3, fun p pb hp hpb => ?_⟩
        · rw [List.getElem?_append_left (List.getElem?_eq_some_iff.mp p2).1]; exact p2
        · rcases append_cases hpb with ⟨-, e⟩ | hpb
          · subst e
            have := (hrest q hq).2 a s ec
            simp only
            omega
          · exact p4 p pb hp hpb
    | some t =>
      have hto : t ≠ o := by
        rintro rfl
        exact (hrest q hq).1 ht
      obtain ⟨tb, tb', f1, f2, f3, f4, f5⟩ := step_eff ht e
      have hta := p4 t tb hto f1
      refine ⟨by rw [f2, List.getElem?_set_ne hto]; exact p2, by rw [f5 _ hlt hta.symm]; exact p3, fun p pb hp hpb => ?_⟩
      rw [f2] at hpb
      rcases set_cases hpb with ⟨-, e⟩ | ⟨-, hpb⟩
      · subst e
        rcases f4 with f4 | f4
        · rw [f4]; exact hta
        · omega
      · exact p4 p pb hp hpb
  simp only [patterns]
  rw [this.2.1, o1]
  simp only [Option.bind_some]
  rw [this.2.2.1]

/-- C129 fails for objects built on one tensor: subtracting the background (or normalising) through one of them changes the caller's
tensor and the patterns of the other. -/
theorem C129_alias_fails (W : World n h w) (o p : ℕ) (ob pb : Obj) (x : Stack n h w) (ho : W.objs[o]? = some ob) (hp : W.objs[p]? = some pb)
    (_ : p ≠ o) (hs : pb.addr = ob.addr) (hx : W.heap[ob.addr]? = some x) (hn : 0 < n) (i : Fin (h * w)) (hi : ∑ l, x l i ≠ 0) :
    ∃ W', step W (.subtract o) = some (W', false) ∧ W'.heap[ob.addr]? ≠ W.heap[ob.addr]? ∧ patterns W' p ≠ patterns W p := by
  have hne : subtractBackground x ≠ x := by
    intro e
    have := congrFun (congrFun e ⟨0, hn⟩) i
    simp only [subtractBackground] at this
    have hn' : (n : ℝ) ≠ 0 := by positivity
    have h0 : (∑ l, x l i) / n = 0 := by linarith
    rcases div_eq_zero_iff.mp h0 with q | q
    · exact hi q
    · exact hn' q
  refine ⟨_, subtract_eq ho hx, ?_, ?_⟩
  · simp only [write]
    rw [set_get hx, hx]
    exact fun e => hne (Option.some.inj e)
  · simp only [patterns, write]
    rw [hp]
    simp only [Option.bind_some]
    rw [hs, set_get hx, hx]
    intro e
    simp only [Option.map_some, Option.some.injEq, Prod.mk.injEq] at e
    exact hne e.2

/-! ### exceptions -/

/-- C130, partial: a cleaning call that raises changes no pattern value and no other object, except `standard_clean` (`C128_small_fails`); calls
other than `normalize_per_pattern` change nothing at all, and after a refused `normalize_per_pattern` a further normalisation or `do_nlpar`
behaves as if it had not been called.  Missing: the shape of the patterns, see `C130_shape_fails`. -/
theorem C130_raise_partial (W : World n h w) (op : Op n h w) (hs : ∀ o, op ≠ .standardClean o) (W' : World n h w)
    (hr : step W op = some (W', true)) :
    W'.heap = W.heap ∧ ((∀ o kind, op ≠ .normalize o kind) → W' = W) ∧
    ∀ o kind, op = .normalize o kind → (∀ p, p ≠ o → W'.objs[p]? = W.objs[p]?) ∧ kind ∉ ["minmax", "zeromean", "standard"] ∧
      (∀ kind' ∈ ["minmax", "zeromean", "standard"], step W' (.normalize o kind') = step W (.normalize o kind')) ∧
      ∀ A k c sh sw, (W.objs[o]?).map Obj.spatial = some [sh, sw] → step W' (.doNlpar A o k c) = step W (.doNlpar A o k c) := by
  cases op with
  | alloc x => cases hr
  | create a s =>
    have : W' = W := by
      simp only [step, create] at hr
      split at hr
      · split at hr
        · cases hr
        · split at hr
          · cases hr; rfl
          · cases hr
      · cases hr
    subst this
    exact ⟨rfl, fun _ => rfl, fun o kind e => by cases e⟩
  | subtract o =>
    obtain ⟨ob, x, ho, hx, e⟩ := withObj_some hr
    cases e
  | standardClean o => exact (hs o rfl).elim
  | enhance o c g b =>
    have : W' = W := by
      obtain ⟨ob, x, ho, hx, e⟩ := withObj_some hr
      split at e
      · split at e
        · cases e
        · cases e; rfl
      · split at e
        · cases e
        · cases e; rfl
    subst this
    exact ⟨rfl, fun _ => rfl, fun o kind e => by cases e⟩
  | doNlpar A o k c =>
    have : W' = W := by
      obtain ⟨ob, x, ho, hx, e⟩ := withObj_some hr
      split at e
      · obtain ⟨out, -, e⟩ := Option.map_eq_some_iff.mp e
        cases e
      · cases e; rfl
    subst this
    exact ⟨rfl, fun _ => rfl, fun o kind e => by cases e⟩
  | normalize o kind =>
    obtain ⟨ob, x, ho, hx, e⟩ := withObj_some hr
    simp only at e
    split at e
    · cases e
    split at e
    · cases e
    rename_i hnone
    cases e
    refine ⟨rfl, fun q => (q o kind rfl).elim, fun o' kind' e => ?_⟩
    cases e
    refine ⟨fun p hp => by simp only; rw [List.getElem?_set_ne hp.symm], (C41_invalid kind x).mp hnone, fun kind' hk => ?_, ?_⟩
    · simp only [step, normalize, withObj]
      rw [set_get ho, ho]
      simp only [Option.bind_some, hx]
      obtain ⟨y, hy⟩ := Option.ne_none_iff_exists'.mp (fun q => (C41_invalid kind' x).mp q hk)
      rw [hy]
      simp only [write, List.set_set]
    · intro A k c sh sw hsp
      rw [ho] at hsp
      simp only [Option.map_some, Option.some.injEq] at hsp
      simp only [step, doNlpar, withObj]
      rw [set_get ho, ho]
      simp only [Option.bind_some, hx, hsp, assign, List.set_set]

/-- C130 fails for `normalize_per_pattern`: after a refused name the patterns are left flattened to `(n, h * w)`, and contrast enhancement is
refused from then on although nothing is wrong with the patterns. -/
theorem C130_shape_fails (W : World n h w) (o : ℕ) (ob : Obj) (x : Stack n h w) (ho : W.objs[o]? = some ob) (hx : W.heap[ob.addr]? = some x)
    (kind : String) (hk : kind ∉ ["minmax", "zeromean", "standard"]) :
    ∃ W', step W (.normalize o kind) = some (W', true) ∧ patterns W' o = some ([n, h * w], x) ∧
      ∀ clip grid bins, grid ≠ 1 → step W' (.enhance o clip grid bins) = some (W', true) := by
  have hk1 : kind ≠ "standard" := by rintro rfl; simp at hk
  refine ⟨⟨W.heap, W.objs.set o { ob with flat := true }⟩, ?_, ?_, ?_⟩
  · simp only [step, normalize, withObj, ho, hx, Option.bind_some]
    rw [if_neg (fun q => hk1 q.1), (C41_invalid kind x).mpr hk]
  · simp only [patterns]
    rw [set_get ho]
    simp only [Option.bind_some, hx, Option.map_some, if_true]
  · intro clip grid bins hg
    simp only [step, enhance, withObj]
    rw [set_get ho]
    simp only [Option.bind_some, hx, if_true]
    rw [if_neg hg]

/-! ### `do_nlpar` -/

/-- Specification: patterns number `l` and `k` of a scan with `sw` columns, stored row by row, are at most `r` rows and columns apart. -/
def Near (sw r l k : ℕ) : Prop :=
  |((l / sw : ℕ) : ℤ) - ((k / sw : ℕ) : ℤ)| ≤ r ∧ |((l % sw : ℕ) : ℤ) - ((k % sw : ℕ) : ℤ)| ≤ r

/-- the offset from pattern `k` to pattern `l` -/
def off (sw k l : ℕ) : ℤ × ℤ := (((l / sw : ℕ) : ℤ) - ((k / sw : ℕ) : ℤ), ((l % sw : ℕ) : ℤ) - ((k % sw : ℕ) : ℤ))

lemma add_off (a b : ℕ) : ((a : ℤ) + ((b : ℤ) - (a : ℤ))).toNat = b := by omega

lemma on_off {a b c d s t : ℕ} (h1 : b < s) (h2 : d < t) : 0 ≤ (a : ℤ) + ((b : ℤ) - (a : ℤ)) ∧ (a : ℤ) + ((b : ℤ) - (a : ℤ)) < s ∧
    0 ≤ (c : ℤ) + ((d : ℤ) - (c : ℤ)) ∧ (c : ℤ) + ((d : ℤ) - (c : ℤ)) < t := by
  refine ⟨by omega, by omega, by omega, by omega⟩

/-- C131, partial: on a two-dimensional scan `do_nlpar` keeps shape and number of the patterns and the scan shape, leaves the caller's tensor
alone, and replaces pattern `k` by a weighted mean of the patterns at most `k_rad` rows and columns away from it (and of no others), the
largest weight being its own.  A scan with one axis is refused.  Missing: the cases where the result is not finite, see
`C131_duplicate_fails`. -/
theorem C131_nlpar_partial (A : OffsetSort) (W : World n h w) (o : ℕ) (ob : Obj) (x : Stack n h w) (ho : W.objs[o]? = some ob)
    (hx : W.heap[ob.addr]? = some x) (kRad : ℕ) (coeff : ℝ) :
    (ob.spatial.length ≠ 2 → doNlpar A W o kRad coeff = some (W, true)) ∧
    ∀ sh sw, ob.spatial = [sh, sw] → sh * sw = n → ∀ W', doNlpar A W o kRad coeff = some (W', false) →
      ∃ y, patterns W' o = some ([n, h, w], y) ∧ (W'.objs[o]?).map Obj.spatial = some [sh, sw] ∧ W'.heap[ob.addr]? = some x ∧
        ∀ k : Fin n, ∃ V : Fin n → ℝ, (∀ l, 0 ≤ V l) ∧ (∀ l : Fin n, 0 < V l ↔ Near sw kRad l k) ∧ ∑ l, V l = 1 ∧ (∀ l, V l ≤ V k) ∧
          ∀ p, y k p = ∑ l, V l * x l p := by
  constructor
  · intro hl
    simp only [doNlpar, withObj, ho, hx, Option.bind_some]
    split
    · rename_i e; rw [e] at hl; exact (hl rfl).elim
    · rfl
  intro sh sw hs hprod W' hr
  simp only [doNlpar, withObj, ho, hx, Option.bind_some, hs] at hr
  obtain ⟨out, hout, e⟩ := Option.map_eq_some_iff.mp hr
  cases e
  refine ⟨fun k p => out (k.val / sw) (k.val % sw) p.val, ?_, ?_, ?_, fun k => ?_⟩
  · simp only [patterns, assign]
    rw [set_get ho]
    simp
  · simp only [assign]
    rw [set_get ho]
    simp [hs]
  · simp only [assign]
    rw [List.getElem?_append_left (List.getElem?_eq_some_iff.mp hx).1]
    exact hx
  have hsw : 0 < sw := by
    rcases Nat.eq_zero_or_pos sw with e | q
    · subst e; rw [mul_zero] at hprod; exact absurd k.isLt (by omega)
    · exact q
  have hrow : ∀ l : Fin n, l.val / sw < sh := fun l => (Nat.div_lt_iff_lt_mul hsw).mpr (by rw [hprod]; exact l.isLt)
  have hcol : ∀ l : Fin n, l.val % sw < sw := fun l => Nat.mod_lt _ hsw
  obtain ⟨V, v0, v1, v2, v3, v4, v5⟩ := C39_convex A (scanOf x sh sw) kRad coeff 1e-6 0 out hout (k.val / sw) (hrow k)
    (k.val % sw) (hcol k)
  have near : ∀ l : Fin n, Near sw kRad l k ↔ off sw k l ∈ window kRad := by
    intro l
    unfold Near window off
    rw [Finset.mem_product, Finset.mem_Icc, Finset.mem_Icc, abs_le, abs_le]
  have on : ∀ l : Fin n, OnScan (scanOf x sh sw) (k.val / sw) (k.val % sw) (off sw k l) := by
    intro l
    exact on_off (hrow l) (hcol l)
  classical
  let U : Fin n → ℝ := fun l => if off sw k l ∈ window kRad then V (off sw k l) else 0
  have offk : off sw k k = (0, 0) := by unfold off; simp
  have kin : off sw k k ∈ window kRad := by rw [offk]; unfold window; simp
  -- sums over the window are sums over the patterns
  have reindex : ∀ f : ℤ × ℤ → ℝ, ∑ q ∈ (window kRad).filter (fun q => 0 < V q), f q =
      ∑ l : Fin n, if off sw k l ∈ window kRad then f (off sw k l) else 0 := by
    intro f
    rw [← Finset.sum_filter]
    symm
    refine Finset.sum_bij (fun l _ => off sw k l) ?_ ?_ ?_ fun _ _ => rfl
    · intro l hl
      have hl' := (Finset.mem_filter.mp hl).2
      exact Finset.mem_filter.mpr ⟨hl', v2 _ hl' (on l)⟩
    · intro a _ b _ e
      unfold off at e
      have e1 := congrArg Prod.fst e
      have e2 := congrArg Prod.snd e
      simp only at e1 e2
      have d1 : a.val / sw = b.val / sw := by omega
      have d2 : a.val % sw = b.val % sw := by omega
      apply Fin.ext
      rw [← Nat.div_add_mod a.val sw, ← Nat.div_add_mod b.val sw, d1, d2]
    · intro q hq
      obtain ⟨q1, q2⟩ := Finset.mem_filter.mp hq
      have hon : OnScan (scanOf x sh sw) (k.val / sw) (k.val % sw) q := by
        by_contra c
        rw [v1 q q1 c] at q2
        exact lt_irrefl _ q2
      obtain ⟨c1, c2, c3, c4⟩ := hon
      simp only [scanOf] at c2 c4
      obtain ⟨i, hi⟩ := Int.eq_ofNat_of_zero_le c1
      obtain ⟨j, hj⟩ := Int.eq_ofNat_of_zero_le c3
      have hi' : i < sh := by omega
      have hj' : j < sw := by omega
      have hlt : i * sw + j < n := by
        rw [← hprod]
        have : (i + 1) * sw ≤ sh * sw := Nat.mul_le_mul_right sw hi'
        rw [add_mul, one_mul] at this
        omega
      have g1 : (i * sw + j) / sw = i := by
        rw [mul_comm, Nat.mul_add_div hsw, Nat.div_eq_of_lt hj', add_zero]
      have g2 : (i * sw + j) % sw = j := by
        rw [mul_comm, Nat.mul_add_mod, Nat.mod_eq_of_lt hj']
      have e : off sw k (⟨i * sw + j, hlt⟩ : Fin n) = q := by
        unfold off
        simp only
        rw [g1, g2]
        exact Prod.ext (by simp only; omega) (by simp only; omega)
      exact ⟨⟨i * sw + j, hlt⟩, Finset.mem_filter.mpr ⟨Finset.mem_univ _, by rw [e]; exact q1⟩, e⟩
  refine ⟨U, fun l => ?_, fun l => ?_, ?_, fun l => ?_, fun p => ?_⟩
  · simp only [U]; split
    · exact v0 _
    · exact le_rfl
  · rw [near]
    simp only [U]
    constructor
    · intro q
      by_contra c
      rw [if_neg c] at q
      exact lt_irrefl _ q
    · intro q
      rw [if_pos q]
      exact v2 _ q (on l)
  · have := reindex V
    simp only [U]
    rw [← this, ← v3, Finset.sum_filter]
    refine Finset.sum_congr rfl fun q _ => ?_
    split
    · rfl
    · rename_i c
      exact le_antisymm (v0 q) (not_lt.mp c)
  · simp only [U]
    rw [if_pos kin, offk]
    split
    · rename_i c
      exact v4 _ c
    · exact v0 _
  · simp only
    rw [v5]
    have := reindex fun q => V q * (scanOf x sh sw).pat (((k.val / sw : ℕ) : ℤ) + q.1).toNat (((k.val % sw : ℕ) : ℤ) + q.2).toNat p
    rw [this]
    refine Finset.sum_congr rfl fun l _ => ?_
    simp only [U]
    split
    · congr 1
      have e1 : (((k.val / sw : ℕ) : ℤ) + (off sw k l).1).toNat = l.val / sw := add_off _ _
      have e2 : (((k.val % sw : ℕ) : ℤ) + (off sw k l).2).toNat = l.val % sw := add_off _ _
      rw [e1, e2]
      simp only [scanOf]
      rw [dif_pos ⟨by rw [Nat.div_add_mod']; exact l.isLt, p.isLt⟩]
      congr 1
      exact Fin.ext (Nat.div_add_mod' _ _)
    · rw [zero_mul]

/-- C131 fails if two neighbours of the scan are identical: with `k_rad = 1` the result is not finite. -/
theorem C131_duplicate_fails (A : OffsetSort) (W : World n h w) (o : ℕ) (ob : Obj) (x : Stack n h w) (ho : W.objs[o]? = some ob)
    (hx : W.heap[ob.addr]? = some x) (coeff : ℝ) (sh sw : ℕ) (hs : ob.spatial = [sh, sw]) (hprod : sh * sw = n) (k l : Fin n) (hkl : l ≠ k)
    (hnear : Near sw 1 l k) (heq : x l = x k) : doNlpar A W o 1 coeff = none := by
  simp only [doNlpar, withObj, ho, hx, Option.bind_some, hs]
  have hsw : 0 < sw := by
    rcases Nat.eq_zero_or_pos sw with e | q
    · subst e; rw [mul_zero] at hprod; exact absurd k.isLt (by omega)
    · exact q
  have hrow : ∀ l : Fin n, l.val / sw < sh := fun l => (Nat.div_lt_iff_lt_mul hsw).mpr (by rw [hprod]; exact l.isLt)
  have hcol : ∀ l : Fin n, l.val % sw < sw := fun l => Nat.mod_lt _ hsw
  rw [C39_duplicate_fails A (scanOf x sh sw) coeff 1e-6 0 (k.val / sw) (k.val % sw) (hrow k) (hcol k) (off sw k l)]
  · rfl
  · unfold Near at hnear
    unfold window off
    rw [Finset.mem_product, Finset.mem_Icc, Finset.mem_Icc]
    rw [abs_le, abs_le] at hnear
    exact hnear
  · intro e
    unfold off at e
    have e1 := congrArg Prod.fst e
    have e2 := congrArg Prod.snd e
    simp only at e1 e2
    apply hkl
    apply Fin.ext
    rw [← Nat.div_add_mod l.val sw, ← Nat.div_add_mod k.val sw, show l.val / sw = k.val / sw by omega, show l.val % sw = k.val % sw by omega]
  · exact on_off (hrow l) (hcol l)
  · intro p hp
    have e1 : (((k.val / sw : ℕ) : ℤ) + (off sw k l).1).toNat = l.val / sw := add_off _ _
    have e2 : (((k.val % sw : ℕ) : ℤ) + (off sw k l).2).toNat = l.val % sw := add_off _ _
    rw [e1, e2]
    simp only [scanOf] at hp ⊢
    rw [dif_pos ⟨by rw [Nat.div_add_mod']; exact l.isLt, hp⟩, dif_pos ⟨by rw [Nat.div_add_mod']; exact k.isLt, hp⟩]
    have f : ∀ a : Fin n, ∀ q, (⟨a.val / sw * sw + a.val % sw, q⟩ : Fin n) = a := fun a q => Fin.ext (Nat.div_add_mod' _ _)
    rw [f, f, heq]

/-! ### non-vacuity -/

/-- two patterns of 3 by 4 pixels -/
noncomputable def demo : Stack 2 3 4 := fun k i => 5 * k.val + i.val ^ 2

/-- The hypotheses of C128 and C129 are met in a reachable world: one tensor, two objects on it, one of them cleaned. -/
example : ∃ W W' y, run [.alloc demo, .create 0 [2], .create 0 [1, 2]] = some W ∧ step W (.standardClean 0) = some (W', false) ∧
    patterns W' 0 = some ([2, 3, 4], y) ∧ Cleaned demo y ∧ patterns W 1 = some ([2, 3, 4], demo) ∧ patterns W' 1 ≠ patterns W 1 := by
  have hr : run [.alloc demo, .create 0 [2], .create 0 [1, 2]] = some ⟨[demo], [⟨0, [2], false⟩, ⟨0, [1, 2], false⟩]⟩ := by
    simp [run, step, create]
  obtain ⟨W', y, e1, e2, -, e4, -⟩ := C128_standard_clean_partial (n := 2) (h := 3) (w := 4)
    ⟨[demo], [⟨0, [2], false⟩, ⟨0, [1, 2], false⟩]⟩ 0 ⟨0, [2], false⟩ demo rfl rfl le_rfl (by norm_num)
  refine ⟨_, W', y, hr, e1, e2, e4, rfl, ?_⟩
  have hq := standard_eq (n := 2) (h := 3) (w := 4) (W := ⟨[demo], [⟨0, [2], false⟩, ⟨0, [1, 2], false⟩]⟩) (o := 0) (ob := ⟨0, [2], false⟩)
    (x := demo) rfl rfl fun k => clahe_ok le_rfl (by norm_num) _ (minmax_range (by norm_num) _).1
  rw [hq] at e1
  cases e1
  intro e
  simp only [patterns, List.set_cons_zero, List.getElem?_cons_succ, List.getElem?_cons_zero, Option.bind_some, List.cons_append,
    Option.map_some, Option.some.injEq, Prod.mk.injEq, true_and] at e
  have := congrFun (congrFun e 1) 11
  have r := (minmax_range (p := 3 * 4) (by norm_num) (subtractBackground demo 1)).1 11
  rw [this] at r
  simp only [demo] at r
  norm_num at r

/-- a tensor whose pixel sums do not vanish, a name that is refused, and a pattern too small to be cleaned -/
example : (∑ l, demo l 0 ≠ 0) ∧ "max" ∉ ["minmax", "zeromean", "standard"] ∧ (∃ k i, (fun _ _ => 7 : Stack 2 2 5) k i < 0 ∨ 1 ≤ (fun _ _ => 7 : Stack 2 2 5) k i) := by
  refine ⟨?_, by decide, 0, 0, .inr (by norm_num)⟩
  simp [Fin.sum_univ_two, demo]

lemma nlpar_congr (A : OffsetSort) (a b m : ℕ) (f g : ℕ → ℕ → ℕ → ℝ) (hfg : ∀ i < a, ∀ j < b, ∀ k < m, f i j k = g i j k) (kRad : ℕ)
    (coeff tol bias : ℝ) (hs : (nlpar A ⟨a, b, m, f⟩ kRad coeff tol bias).isSome) : (nlpar A ⟨a, b, m, g⟩ kRad coeff tol bias).isSome := by
  have hd : dist0 ⟨a, b, m, f⟩ = dist0 ⟨a, b, m, g⟩ := by
    funext i j q
    unfold dist0
    refine Finset.sum_congr rfl fun k hk => ?_
    have hp : ∀ u v : ℤ, Scan.padded ⟨a, b, m, f⟩ u v k = Scan.padded ⟨a, b, m, g⟩ u v k := by
      intro u v
      unfold Scan.padded Scan.on
      simp only [decide_eq_true_eq]
      split
      · rename_i c
        exact hfg _ (by omega) _ (by omega) _ (Finset.mem_range.mp hk)
      · rfl
    rw [hp, hp]
  have hsg : sigmaHat ⟨a, b, m, f⟩ = sigmaHat ⟨a, b, m, g⟩ := by funext O i j; simp only [sigmaHat, hd]
  have hsi : sig ⟨a, b, m, f⟩ = sig ⟨a, b, m, g⟩ := by funext O i j; simp only [sig, hsg]
  have hsp : sigmaPad ⟨a, b, m, f⟩ = sigmaPad ⟨a, b, m, g⟩ := by funext O i j; simp only [sigmaPad, hsi]; rfl
  have hv : var2 ⟨a, b, m, f⟩ = var2 ⟨a, b, m, g⟩ := by funext O i j q; simp only [var2, hsi, hsp]
  have hw : weight0 ⟨a, b, m, f⟩ = weight0 ⟨a, b, m, g⟩ := by funext O i j q; simp only [weight0, hv, hd]
  have hn : ∀ nn : ℕ → ℕ → List ℝ, ∀ fuel t, newton ⟨a, b, m, f⟩ nn coeff tol fuel t = newton ⟨a, b, m, g⟩ nn coeff tol fuel t := by
    intro nn fuel
    induction fuel with
    | zero => intro t; rfl
    | succ fuel ih =>
      intro t
      unfold newton
      simp only [ih]
      rfl
  unfold nlpar at hs ⊢
  simp only [hsg, hv, hw, hn] at hs
  simp only at hs ⊢
  split at hs
  · rename_i c
    rw [if_pos c]
    cases hc : newton ⟨a, b, m, g⟩ (fun i j => ((A.run kRad).take 9).map (weight0 ⟨a, b, m, g⟩ (A.run kRad) i j)) coeff tol 10 1 with
    | none => rw [hc] at hs; cases hs
    | some t =>
      rw [hc] at hs
      simp only [Option.bind_some] at hs ⊢
      split
      · rename_i c; rw [if_pos c] at hs; cases hs
      · rfl
  · cases hs

/-- a 1 by 2 scan of one-pixel patterns 3 and -3 -/
noncomputable def pair : Stack 2 1 1 := fun k _ => if k.val = 0 then 3 else -3

/-- The hypotheses of C131 are met: `do_nlpar` succeeds on this scan. -/
example (A : OffsetSort) : ∃ coeff W', doNlpar A ⟨[pair], [⟨0, [1, 2], false⟩]⟩ 0 1 coeff = some (W', false) := by
  obtain ⟨coeff, out, e, -⟩ := exScan_result A 1e-6 (by norm_num)
  have : (nlpar A (scanOf pair 1 2) 1 coeff 1e-6 0).isSome := by
    refine nlpar_congr A 1 2 (1 * 1) _ _ ?_ 1 coeff 1e-6 0 (by
      have : (nlpar A exScan 1 coeff 1e-6 0).isSome := by rw [e]; rfl
      exact this)
    intro i hi j hj k hk
    rw [dif_pos ⟨by omega, hk⟩]
    simp only [pair]
    congr 1
    exact propext ⟨fun h => by omega, fun h => by omega⟩
  obtain ⟨out', e'⟩ := Option.isSome_iff_exists.mp this
  refine ⟨coeff, assign ⟨[pair], [⟨0, [1, 2], false⟩]⟩ 0 ⟨0, [1, 2], false⟩ fun k p => out' (k.val / 2) (k.val % 2) p.val, ?_⟩
  simp only [doNlpar, withObj, List.getElem?_cons_zero, Option.bind_some, e', Option.map_some]

end Verif.Clean
