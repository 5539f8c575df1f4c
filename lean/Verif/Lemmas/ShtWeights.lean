import Verif.Model.ShtFull
import Verif.Lemmas.WignerRep
import Verif.Props.Wigner
import Verif.Props.WignerIndex
/-!
The entries of the sparse weight matrices of the spherical harmonic transforms.
-/
namespace Verif.Sht
open Verif.Wigner Verif.Wigner.Rep Verif.Spec Finset

/-- The coefficient of `(l, m, n)` before the cut-off. -/
noncomputable def wExact (L : ℕ) (e : Lmn) : ℝ :=
  wTerm L e * (if e.2.1 % 2 = 0 then wignerD e.1 e.2.2 (-e.2.1) (Real.pi / 2) * wignerD e.1 e.2.2 0 (Real.pi / 2)
    else wignerD e.1 (e.2.2 + 1) (-e.2.1) (Real.pi / 2) * wignerD e.1 (e.2.2 + 1) 0 (Real.pi / 2))

open Classical in
/-- The coefficient after the cut-off. -/
noncomputable def wKept (L : ℕ) (e : Lmn) : ℝ := if |wExact L e| > (1.0e-14 : ℝ) then wExact L e else 0

theorem wRead_some {L : ℕ} {t : Table ℝ} (ht : wignerEq L = some t) {l : ℕ} {m n : ℤ} (hl : l ≤ L) (hm : |m| ≤ l)
    (hn : |n| ≤ l) : wRead t l m n = some (wignerD l m n (Real.pi / 2)) := by
  obtain ⟨t', h1, _, h3⟩ := C71_read_half_pi L l m n hl hm hn
  rw [ht] at h1
  cases h1
  exact h3

theorem wRead_edge {L : ℕ} {t : Table ℝ} (ht : wignerEq L = some t) {l : ℕ} {n : ℤ} (hl : l < L)
    (hn : |n| ≤ l) : ∃ x, wRead t l (l + 1) n = some x := by
  obtain ⟨t', h1, h2, _⟩ := C70_eq L
  rw [ht] at h1
  cases h1
  rw [abs_le] at hn
  have hsw : ¬ |((l : ℤ) + 1)| < |n| := by
    rw [abs_of_nonneg (by omega : (0:ℤ) ≤ (l : ℤ) + 1)]
    have := abs_le.2 hn
    omega
  have hpos : (readHalfPi l (l + 1) n true).1 < tableSize L := by
    unfold readHalfPi
    simp only [hsw, decide_false, Bool.false_eq_true, if_false]
    rw [te_form, idx_eq, tableSize_eq, show ((l : ℤ) + 1).natAbs = l + 1 by omega]
    have e : te (l + 1) = te l + tr (l + 1) := rfl
    have := te_lt (a := l + 1) (b := L + 1) (by omega)
    omega
  have := h2 _ hpos
  obtain ⟨x, hx⟩ := Option.ne_none_iff_exists'.1 this
  exact ⟨_, by unfold wRead; rw [hx]; rfl⟩

theorem coeff_some {L : ℕ} {t : Table ℝ} (ht : wignerEq L = some t) (e : Lmn) (hl : e.1 < L) (hm : |e.2.1| ≤ e.1)
    (hn0 : 0 ≤ e.2.2) (hn : e.2.2 ≤ e.1) : coeff L t e = some (wExact L e) := by
  obtain ⟨l, m, n⟩ := e
  simp only at hl hm hn0 hn
  have r1 := wRead_some ht (l := l) (m := n) (n := -m) (by omega) (by rw [abs_of_nonneg hn0]; exact hn) (by rwa [abs_neg])
  have r2 := wRead_some ht (l := l) (m := n) (n := 0) (by omega) (by rw [abs_of_nonneg hn0]; exact hn) (by simp)
  unfold coeff wigProd wExact
  simp only [r1, r2, Option.bind_some]
  by_cases h : n = l
  · subst h
    obtain ⟨x, hx⟩ := wRead_edge ht (l := l) (n := -m) hl (by rwa [abs_neg])
    obtain ⟨y, hy⟩ := wRead_edge ht (l := l) (n := 0) hl (by simp)
    simp only [hx, hy, Option.bind_some, Option.map_some]
    by_cases h2 : m % 2 = 0
    · rw [if_pos h2, if_pos h2]
    · rw [if_neg h2, if_neg h2]
      have : wTerm L (l, m, (l : ℤ)) = 0 := by unfold wTerm; simp [h2]
      rw [this, zero_mul, zero_mul]
  · have r3 := wRead_some ht (l := l) (m := n + 1) (n := -m) (by omega) (by rw [abs_of_nonneg (by omega)]; omega) (by rwa [abs_neg])
    have r4 := wRead_some ht (l := l) (m := n + 1) (n := 0) (by omega) (by rw [abs_of_nonneg (by omega)]; omega) (by simp)
    simp only [r3, r4, Option.bind_some, Option.map_some]

/-! ### Sums over the coordinate lists -/

theorem sum_filter_map (a : List Lmn) (p : Lmn → Prop) [DecidablePred p] (f : Lmn → Lmn) (g : Lmn → ℝ) :
    (((a.filter fun e => decide (p e)).map f).map g).sum = (a.map fun e => if p e then g (f e) else 0).sum := by
  induction a with
  | nil => rfl
  | cons e a ih =>
    by_cases h : p e
    · rw [List.filter_cons_of_pos (by simpa using h)]
      simp only [List.map_cons, List.sum_cons, ih, h, if_true]
    · rw [List.filter_cons_of_neg (by simpa using h)]
      simp only [List.map_cons, List.sum_cons, ih, h, if_false, zero_add]

theorem sum_map_add (a : List Lmn) (f g : Lmn → ℝ) : (a.map f).sum + (a.map g).sum = (a.map fun e => f e + g e).sum := by
  induction a with
  | nil => simp
  | cons e a ih => simp only [List.map_cons, List.sum_cons]; rw [← ih]; ring

theorem sum_half (a : List Lmn) (g : Lmn → ℝ) : ((lmkHalf a).map g).sum =
    (a.map fun e => g e + if e.2.1 ≠ e.2.2 then g (e.1, e.2.2, e.2.1) else 0).sum := by
  unfold lmkHalf
  rw [List.map_append, List.sum_append, sum_filter_map, sum_map_add]

theorem sum_full (a : List Lmn) (g : Lmn → ℝ) : ((lmkFull a).map g).sum =
    (a.map fun e => g e + if e.2.1 ≠ 0 then g (e.1, -e.2.1, e.2.2) else 0).sum := by
  unfold lmkFull
  rw [List.map_append, List.sum_append, sum_filter_map, sum_map_add]

theorem batches_flatten (mx bs : ℕ) (hb : 0 < bs) : (batches mx bs).flatten = List.range mx := by
  have key : ∀ c, ((List.range c).map fun b => (List.range (min (b * bs + bs) mx - b * bs)).map (b * bs + ·)).flatten
      = List.range (min (c * bs) mx) := by
    intro c
    induction c with
    | zero => simp
    | succ c ih =>
      rw [List.range_succ, List.map_append, List.flatten_append, ih]
      simp only [List.map_cons, List.map_nil, List.flatten_cons, List.flatten_nil, List.append_nil]
      rw [show (c + 1) * bs = c * bs + bs by ring]
      rcases Nat.le_total (c * bs) mx with h | h
      · rw [min_eq_left h, ← List.range_add]
        congr 1
        omega
      · rw [min_eq_right h, show min (c * bs + bs) mx - c * bs = 0 by omega, min_eq_right (by omega)]
        simp
  unfold batches
  rw [key, min_eq_right]
  have h1 := Nat.div_add_mod (mx + bs - 1) bs
  have h2 := Nat.mod_lt (mx + bs - 1) hb
  rw [mul_comm] at h1
  omega

theorem sum_tri (K : ℕ) (f : ℕ → ℝ) : ∑ x ∈ range (tr K), f x = ∑ m ∈ range K, ∑ n ∈ range (m + 1), f (tr m + n) := by
  induction K with
  | zero => simp [tr]
  | succ K ih =>
    rw [sum_range_succ, ← ih, show tr (K + 1) = tr K + (K + 1) from rfl, sum_range_add]

theorem sum_te (L : ℕ) (f : ℕ → ℝ) : ∑ x ∈ range (te L), f x =
    ∑ l ∈ range L, ∑ m ∈ range (l + 1), ∑ n ∈ range (m + 1), f (idx l m n) := by
  induction L with
  | zero => simp [te]
  | succ L ih =>
    rw [sum_range_succ, ← ih, show te (L + 1) = te L + tr (L + 1) from rfl, sum_range_add, sum_tri]
    congr 1
    apply sum_congr rfl; intro m _
    apply sum_congr rfl; intro n _
    rw [idx_eq]; congr 1; omega

theorem maxIndex_eq (L : ℕ) (hL : 0 < L) : maxIndex L = te L := by
  obtain ⟨k, rfl⟩ : ∃ k, L = k + 1 := ⟨L - 1, by omega⟩
  unfold maxIndex
  rw [show k + 1 - 1 = k by omega, tr_eq, show k + 1 + 1 = k + 2 by omega, te_eq]
  show te k + tr k + (k + 1) = te k + (tr k + (k + 1))
  omega

theorem sum_square (K : ℕ) (k : ℕ → ℕ → ℝ) :
    ∑ m ∈ range K, ∑ n ∈ range (m + 1), (k m n + if m ≠ n then k n m else 0) = ∑ m ∈ range K, ∑ n ∈ range K, k m n := by
  induction K with
  | zero => simp
  | succ K ih =>
    rw [sum_range_succ, ih, sum_range_succ (fun m => ∑ n ∈ range (K + 1), k m n), sum_range_succ (fun n => k K n + _)]
    have e1 : ∑ m ∈ range K, ∑ n ∈ range (K + 1), k m n = ∑ m ∈ range K, ∑ n ∈ range K, k m n + ∑ m ∈ range K, k m K := by
      rw [← sum_add_distrib]; exact sum_congr rfl fun m _ => sum_range_succ _ _
    have e2 : ∑ n ∈ range K, (k K n + if K ≠ n then k n K else 0) = ∑ n ∈ range K, k K n + ∑ n ∈ range K, k n K := by
      rw [← sum_add_distrib]
      apply sum_congr rfl
      intro n hn
      rw [mem_range] at hn
      rw [if_pos (by omega)]
    rw [e1, e2, sum_range_succ (fun n => k K n)]
    simp only [ne_eq, not_true_eq_false, if_false]
    ring

theorem sum_signed (l : ℕ) (g : ℤ → ℝ) :
    ∑ m ∈ range (l + 1), (g m + if (m : ℤ) ≠ 0 then g (-m) else 0) = ∑ r ∈ range (2 * l + 1), g ((r : ℤ) - l) := by
  rw [sum_mirror, sum_range_succ']
  simp only [Nat.cast_zero, ne_eq, not_true_eq_false, if_false, add_zero, sub_self]
  rw [add_comm]
  congr 1
  apply sum_congr rfl
  intro n hn
  rw [mem_range] at hn
  rw [if_pos (by omega), show ((l + (n + 1) : ℕ) : ℤ) - l = ((n + 1 : ℕ) : ℤ) by omega,
    show ((l - (n + 1) : ℕ) : ℤ) - l = -((n + 1 : ℕ) : ℤ) by omega]

theorem list_sum_range (n : ℕ) (f : ℕ → ℝ) : ((List.range n).map f).sum = ∑ i ∈ range n, f i := by
  induction n with
  | zero => rfl
  | succ n ih => rw [List.range_succ, List.map_append, List.sum_append, ih, sum_range_succ]; simp

/-- Sum over all batches of a function of the unexpanded coordinates. -/
theorem sum_batches (L bs : ℕ) (hL : 0 < L) (hb : 0 < bs) (h : Lmn → ℝ) :
    ((batches (maxIndex L) bs).map fun is => ((lmkOf is).map h).sum).sum =
      ∑ l ∈ range L, ∑ m ∈ range (l + 1), ∑ n ∈ range (m + 1), h (l, (m : ℤ), (n : ℤ)) := by
  have e : ((batches (maxIndex L) bs).map fun is => ((lmkOf is).map h).sum).sum
      = ((batches (maxIndex L) bs).flatten.map fun i => h ((coordsFromIndex i).1, ((coordsFromIndex i).2.1 : ℤ), ((coordsFromIndex i).2.2 : ℤ))).sum := by
    rw [List.map_flatten, List.sum_flatten, List.map_map]
    congr 1
    apply List.map_congr_left
    intro is _
    unfold lmkOf
    rw [List.map_map]
    rfl
  rw [e, batches_flatten _ _ hb, list_sum_range, maxIndex_eq L hL, sum_te]
  apply sum_congr rfl; intro l _
  apply sum_congr rfl; intro m hm
  apply sum_congr rfl; intro n hn
  rw [mem_range] at hm hn
  rw [C47_inverse (by omega) (by omega)]


/-! ### The dense matrix -/

theorem mem_lmkOf {L bs : ℕ} (hL : 0 < L) (hb : 0 < bs) {is : List ℕ} (his : is ∈ batches (maxIndex L) bs) {e : Lmn}
    (he : e ∈ lmkOf is) : e.1 < L ∧ 0 ≤ e.2.2 ∧ e.2.2 ≤ e.2.1 ∧ e.2.1 ≤ e.1 := by
  unfold lmkOf at he
  obtain ⟨i, hi, rfl⟩ := List.mem_map.1 he
  have hi' : i ∈ List.range (maxIndex L) := by
    rw [← batches_flatten _ bs hb]; exact List.mem_flatten.2 ⟨is, his, hi⟩
  rw [List.mem_range, maxIndex_eq L hL] at hi'
  obtain ⟨K, rfl⟩ : ∃ K, L = K + 1 := ⟨L - 1, by omega⟩
  obtain ⟨l, m, n, h1, h2, h3, rfl⟩ := exists_coords_lt hi'
  rw [C47_inverse h1 h2]
  simp only
  omega

theorem mem_half {a : List Lmn} {L : ℕ} (ha : ∀ e ∈ a, e.1 < L ∧ 0 ≤ e.2.2 ∧ e.2.2 ≤ e.2.1 ∧ e.2.1 ≤ e.1) {e : Lmn}
    (he : e ∈ lmkHalf a) : e.1 < L ∧ 0 ≤ e.2.2 ∧ e.2.2 ≤ e.1 ∧ 0 ≤ e.2.1 ∧ e.2.1 ≤ e.1 := by
  unfold lmkHalf at he
  rcases List.mem_append.1 he with h | h
  · have := ha e h; omega
  · obtain ⟨e', h', rfl⟩ := List.mem_map.1 h
    have := ha e' (List.mem_filter.1 h').1
    simp only
    omega

theorem mem_full {a : List Lmn} {L : ℕ} (ha : ∀ e ∈ a, e.1 < L ∧ 0 ≤ e.2.2 ∧ e.2.2 ≤ e.1 ∧ 0 ≤ e.2.1 ∧ e.2.1 ≤ e.1) {e : Lmn}
    (he : e ∈ lmkFull a) : e.1 < L ∧ 0 ≤ e.2.2 ∧ e.2.2 ≤ e.1 ∧ |e.2.1| ≤ e.1 := by
  unfold lmkFull at he
  rw [abs_le]
  rcases List.mem_append.1 he with h | h
  · have := ha e h; omega
  · obtain ⟨e', h', rfl⟩ := List.mem_map.1 h
    have := ha e' (List.mem_filter.1 h').1
    simp only
    omega

/-- One term of the dense matrix. -/
noncomputable def dterm (L off i j : ℕ) (e : Lmn) : ℝ :=
  if (e.2.1 + off) * L + e.1 = (i : ℤ) ∧ (2 * L) * (e.2.1 + off) + e.2.2 = (j : ℤ) then wKept L e else 0

theorem triples_sum (L off i j : ℕ) (a : List Lmn) :
    ((triples L off (a.map fun e => (e, wExact L e))).map fun e => if e.1 = (i : ℤ) ∧ e.2.1 = (j : ℤ) then e.2.2 else 0).sum
      = (a.map (dterm L off i j)).sum := by
  unfold triples
  induction a with
  | nil => rfl
  | cons e a ih =>
    by_cases h : |wExact L e| > (1.0e-14 : ℝ)
    · rw [List.map_cons, List.filter_cons_of_pos (by simpa using h)]
      simp only [List.map_cons, List.sum_cons]
      rw [ih]
      congr 1
      unfold dterm wKept
      rw [if_pos h]
    · rw [List.map_cons, List.filter_cons_of_neg (by simpa using h)]
      simp only [List.map_cons, List.sum_cons]
      rw [ih]
      have : dterm L off i j e = 0 := by
        unfold dterm wKept
        rw [if_neg h]; simp
      rw [this, zero_add]

theorem weights_eq (L off rows bs : ℕ) (expand : List Lmn → List Lmn)
    (hex : ∀ is ∈ batches (maxIndex L) bs, ∀ e ∈ expand (lmkOf is),
      e.1 < L ∧ 0 ≤ e.2.2 ∧ e.2.2 ≤ e.1 ∧ |e.2.1| ≤ e.1 ∧ 0 ≤ e.2.1 + off ∧ e.2.1 + off < rows) :
    ∃ D, weights L off rows bs expand = some D ∧ ∀ i j,
      D i j = ((batches (maxIndex L) bs).map fun is => ((expand (lmkOf is)).map (dterm L off i j)).sum).sum := by
  obtain ⟨t, ht, _⟩ := C70_eq L
  have hm : ((batches (maxIndex L) bs).mapM fun is => (expand (lmkOf is)).mapM fun e => (coeff L t e).map fun v => (e, v))
      = some ((batches (maxIndex L) bs).map fun is => (expand (lmkOf is)).map fun e => (e, wExact L e)) := by
    apply mapM_some
    intro is his
    apply mapM_some
    intro e he
    obtain ⟨h1, h2, h3, h4, _⟩ := hex is his e he
    rw [coeff_some ht e h1 h4 h2 h3]; rfl
  unfold weights
  rw [ht]
  simp only [Option.bind_some]
  rw [hm]
  simp only [Option.bind_some]
  unfold sparse
  rw [if_pos]
  · refine ⟨_, rfl, ?_⟩
    intro i j
    rw [List.flatMap_map, List.flatMap_def, List.map_flatten, List.sum_flatten, List.map_map, List.map_map]
    congr 1
    apply List.map_congr_left
    intro is _
    exact triples_sum L off i j _
  · intro e he
    rw [List.flatMap_map] at he
    obtain ⟨is, his, h⟩ := List.mem_flatMap.1 he
    unfold triples at h
    obtain ⟨p, hp, rfl⟩ := List.mem_map.1 h
    obtain ⟨q, hq, rfl⟩ := List.mem_map.1 (List.mem_filter.1 hp).1
    obtain ⟨h1, h2, h3, h4, h5, h6⟩ := hex is his q hq
    simp only
    set μ := q.2.1 + (off : ℤ)
    have h1' : (q.1 : ℤ) < L := by exact_mod_cast h1
    push_cast
    refine ⟨by positivity, ?_, by positivity, ?_⟩
    · nlinarith
    · nlinarith

theorem cshtWeights_eq (L bs : ℕ) (hL : 0 < L) (hb : 0 < bs) : ∃ D, cshtWeights L bs = some D ∧ ∀ i j,
    D i j = ∑ l ∈ range L, ∑ r ∈ range (2 * l + 1), ∑ n ∈ range (l + 1),
      dterm L (L - 1) i j (l, (r : ℤ) - l, (n : ℤ)) := by
  obtain ⟨D, h1, h2⟩ := weights_eq L (L - 1) (2 * L - 1) bs (fun a => lmkFull (lmkHalf a)) (by
    intro is his e he
    have := mem_full (fun e he => mem_half (fun e he => mem_lmkOf hL hb his he) he) he
    have h4 := abs_le.1 this.2.2.2
    refine ⟨this.1, this.2.1, this.2.2.1, this.2.2.2, ?_, ?_⟩ <;> omega)
  refine ⟨D, h1, ?_⟩
  intro i j
  rw [h2]
  simp only [sum_full, sum_half]
  rw [sum_batches L bs hL hb]
  apply sum_congr rfl
  intro l _
  have := sum_square (l + 1) (fun m n => dterm L (L - 1) i j (l, (m : ℤ), (n : ℤ)) +
    if (m : ℤ) ≠ 0 then dterm L (L - 1) i j (l, -(m : ℤ), (n : ℤ)) else 0)
  simp only [ne_eq, Nat.cast_inj] at this ⊢
  rw [this, sum_comm (s := range (2 * l + 1)), sum_comm]
  apply sum_congr rfl
  intro n _
  exact sum_signed l (fun μ => dterm L (L - 1) i j (l, μ, (n : ℤ)))

theorem rshtWeights_eq (L bs : ℕ) (hL : 0 < L) (hb : 0 < bs) : ∃ D, rshtWeights L bs = some D ∧ ∀ i j,
    D i j = ∑ l ∈ range L, ∑ m ∈ range (l + 1), ∑ n ∈ range (l + 1), dterm L 0 i j (l, (m : ℤ), (n : ℤ)) := by
  obtain ⟨D, h1, h2⟩ := weights_eq L 0 L bs lmkHalf (by
    intro is his e he
    have := mem_half (fun e he => mem_lmkOf hL hb his he) he
    refine ⟨this.1, this.2.1, this.2.2.1, ?_, ?_, ?_⟩
    · rw [abs_of_nonneg (by omega)]; omega
    · omega
    · omega)
  refine ⟨D, h1, ?_⟩
  intro i j
  rw [h2]
  simp only [sum_half]
  rw [sum_batches L bs hL hb]
  apply sum_congr rfl
  intro l _
  have := sum_square (l + 1) (fun m n => dterm L 0 i j (l, (m : ℤ), (n : ℤ)))
  simp only [ne_eq, Nat.cast_inj] at this ⊢
  exact this

/-- Row and column numbers determine the coordinates. -/
theorem dterm_entry (L off mi l mi' n : ℕ) (hl : l < L) (hn : n < 2 * L) (e : Lmn) (he : e.1 < L) (hn0 : 0 ≤ e.2.2)
    (hn1 : e.2.2 ≤ e.1) :
    dterm L off (mi * L + l) (mi' * (2 * L) + n) e =
      if mi = mi' ∧ e = (l, (mi : ℤ) - off, (n : ℤ)) then wKept L e else 0 := by
  obtain ⟨l', m, n'⟩ := e
  simp only at he hn0 hn1
  unfold dterm
  have hL : (0 : ℤ) < L := by exact_mod_cast (show 0 < L by omega)
  have key : ∀ (a b : ℤ) (c d K : ℤ), 0 ≤ c → c < K → 0 ≤ d → d < K → a * K + c = b * K + d → a = b ∧ c = d := by
    intro a b c d K h1 h2 h3 h4 h
    have e1 : a = b := by
      rcases lt_trichotomy a b with h5 | h5 | h5
      · exfalso
        have : a + 1 ≤ b := h5
        nlinarith
      · exact h5
      · exfalso
        have : b + 1 ≤ a := h5
        nlinarith
    exact ⟨e1, by subst e1; linarith⟩
  by_cases h : mi = mi' ∧ (l', m, n') = ((l, (mi : ℤ) - off, (n : ℤ)) : Lmn)
  · rw [if_pos h, if_pos]
    obtain ⟨rfl, h⟩ := h
    simp only [Prod.mk.injEq] at h
    obtain ⟨rfl, rfl, rfl⟩ := h
    simp only
    push_cast
    constructor <;> ring
  · rw [if_neg h, if_neg]
    rintro ⟨h1, h2⟩
    simp only at h1 h2
    push_cast at h1 h2
    obtain ⟨a1, a2⟩ := key (m + off) mi l' l L (by omega) (by exact_mod_cast he) (by omega) (by exact_mod_cast hl) h1
    obtain ⟨b1, b2⟩ := key (m + off) mi' n' n (2 * L) hn0 (by omega) (by omega) (by exact_mod_cast hn)
      (by rw [← h2]; ring)
    apply h
    refine ⟨by omega, ?_⟩
    simp only [Prod.mk.injEq]
    omega

/-- The entries of the complex weight matrix. -/
theorem cshtWeights_entry (L bs : ℕ) (hL : 0 < L) (hb : 0 < bs) : ∃ D, cshtWeights L bs = some D ∧
    ∀ mi l mi' n : ℕ, l < L → n < 2 * L → D (mi * L + l) (mi' * (2 * L) + n) =
      if mi = mi' ∧ |(mi : ℤ) - ((L - 1 : ℕ) : ℤ)| ≤ l ∧ n ≤ l then wKept L (l, (mi : ℤ) - ((L - 1 : ℕ) : ℤ), (n : ℤ)) else 0 := by
  obtain ⟨D, h1, h2⟩ := cshtWeights_eq L bs hL hb
  refine ⟨D, h1, ?_⟩
  intro mi l mi' n hl hn
  rw [h2]
  have e : ∀ l' ∈ range L, ∀ r ∈ range (2 * l' + 1), ∀ n' ∈ range (l' + 1),
      dterm L (L - 1) (mi * L + l) (mi' * (2 * L) + n) (l', (r : ℤ) - l', (n' : ℤ)) =
      if mi = mi' ∧ ((l', (r : ℤ) - l', (n' : ℤ)) : Lmn) = (l, (mi : ℤ) - ((L - 1 : ℕ) : ℤ), (n : ℤ))
        then wKept L (l', (r : ℤ) - l', (n' : ℤ)) else 0 := by
    intro l' hl' r hr n' hn'
    rw [mem_range] at hl' hr hn'
    exact dterm_entry L (L - 1) mi l mi' n hl hn _ hl' (by simp only; omega) (by simp only; omega)
  rw [sum_congr rfl fun l' hl' => sum_congr rfl fun r hr => sum_congr rfl fun n' hn' => e l' hl' r hr n' hn']
  by_cases h : mi = mi' ∧ |(mi : ℤ) - ((L - 1 : ℕ) : ℤ)| ≤ l ∧ n ≤ l
  · rw [if_pos h]
    obtain ⟨h3, h4, h5⟩ := h
    rw [abs_le] at h4
    rw [sum_eq_single l, sum_eq_single ((mi : ℤ) - ((L - 1 : ℕ) : ℤ) + l).toNat, sum_eq_single n]
    · have : ((((mi : ℤ) - ((L - 1 : ℕ) : ℤ) + l).toNat : ℕ) : ℤ) - l = (mi : ℤ) - ((L - 1 : ℕ) : ℤ) := by omega
      rw [this, if_pos ⟨h3, rfl⟩]
    · intro n' _ hne
      rw [if_neg]
      rintro ⟨_, h⟩
      simp only [Prod.mk.injEq] at h
      omega
    · intro hh; exact absurd (mem_range.2 (by omega)) hh
    · intro r _ hne
      apply sum_eq_zero
      intro n' _
      rw [if_neg]
      rintro ⟨_, h⟩
      simp only [Prod.mk.injEq] at h
      omega
    · intro hh; exact absurd (mem_range.2 (by omega)) hh
    · intro l' _ hne
      apply sum_eq_zero
      intro r _
      apply sum_eq_zero
      intro n' _
      rw [if_neg]
      rintro ⟨_, h⟩
      simp only [Prod.mk.injEq] at h
      omega
    · intro hh; exact absurd (mem_range.2 (by omega)) hh
  · rw [if_neg h]
    apply sum_eq_zero
    intro l' _
    apply sum_eq_zero
    intro r hr
    apply sum_eq_zero
    intro n' hn'
    rw [mem_range] at hr hn'
    rw [if_neg]
    rintro ⟨h3, h4⟩
    simp only [Prod.mk.injEq] at h4
    apply h
    refine ⟨h3, ?_, by omega⟩
    rw [abs_le]
    omega

/-- The entries of the real weight matrix. -/
theorem rshtWeights_entry (L bs : ℕ) (hL : 0 < L) (hb : 0 < bs) : ∃ D, rshtWeights L bs = some D ∧
    ∀ mi l mi' n : ℕ, l < L → n < 2 * L → D (mi * L + l) (mi' * (2 * L) + n) =
      if mi = mi' ∧ |(mi : ℤ) - ((0 : ℕ) : ℤ)| ≤ l ∧ n ≤ l then wKept L (l, (mi : ℤ) - ((0 : ℕ) : ℤ), (n : ℤ)) else 0 := by
  obtain ⟨D, h1, h2⟩ := rshtWeights_eq L bs hL hb
  refine ⟨D, h1, ?_⟩
  intro mi l mi' n hl hn
  rw [h2]
  have e : ∀ l' ∈ range L, ∀ m ∈ range (l' + 1), ∀ n' ∈ range (l' + 1),
      dterm L 0 (mi * L + l) (mi' * (2 * L) + n) (l', (m : ℤ), (n' : ℤ)) =
      if mi = mi' ∧ ((l', (m : ℤ), (n' : ℤ)) : Lmn) = (l, (mi : ℤ) - ((0 : ℕ) : ℤ), (n : ℤ))
        then wKept L (l', (m : ℤ), (n' : ℤ)) else 0 := by
    intro l' hl' m hm n' hn'
    rw [mem_range] at hl' hm hn'
    exact dterm_entry L 0 mi l mi' n hl hn _ hl' (by simp only; omega) (by simp only; omega)
  rw [sum_congr rfl fun l' hl' => sum_congr rfl fun r hr => sum_congr rfl fun n' hn' => e l' hl' r hr n' hn']
  by_cases h : mi = mi' ∧ |(mi : ℤ) - ((0 : ℕ) : ℤ)| ≤ l ∧ n ≤ l
  · rw [if_pos h]
    obtain ⟨h3, h4, h5⟩ := h
    rw [abs_le] at h4
    rw [sum_eq_single l, sum_eq_single mi, sum_eq_single n]
    · rw [if_pos ⟨h3, by simp⟩]; simp
    · intro n' _ hne
      rw [if_neg]
      rintro ⟨_, h⟩
      simp only [Prod.mk.injEq] at h
      omega
    · intro hh; exact absurd (mem_range.2 (by omega)) hh
    · intro r _ hne
      apply sum_eq_zero
      intro n' _
      rw [if_neg]
      rintro ⟨_, h⟩
      simp only [Prod.mk.injEq] at h
      omega
    · intro hh; exact absurd (mem_range.2 (by omega)) hh
    · intro l' _ hne
      apply sum_eq_zero
      intro r _
      apply sum_eq_zero
      intro n' _
      rw [if_neg]
      rintro ⟨_, h⟩
      simp only [Prod.mk.injEq] at h
      omega
    · intro hh; exact absurd (mem_range.2 (by omega)) hh
  · rw [if_neg h]
    apply sum_eq_zero
    intro l' _
    apply sum_eq_zero
    intro r hr
    apply sum_eq_zero
    intro n' hn'
    rw [mem_range] at hr hn'
    rw [if_neg]
    rintro ⟨h3, h4⟩
    simp only [Prod.mk.injEq] at h4
    apply h
    refine ⟨h3, ?_, by omega⟩
    rw [abs_le]
    omega

end Verif.Sht
