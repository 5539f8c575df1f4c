import Verif.Model.Wigner
import Verif.Spec.Wigner
import Mathlib.Tactic.Ring
import Mathlib.Tactic.Linarith
import Mathlib.Data.List.Range
/-! Index arithmetic of the Wigner table and the correctness of the vectorised fill. -/
namespace Verif.Wigner

/-- Triangular numbers, recursively. -/
def tr : ℕ → ℕ
  | 0 => 0
  | k + 1 => tr k + (k + 1)
/-- Tetrahedral numbers, recursively. -/
def te : ℕ → ℕ
  | 0 => 0
  | k + 1 => te k + tr (k + 1)

theorem tr_two (k : ℕ) : 2 * tr k = k * (k + 1) := by
  induction k with
  | zero => rfl
  | succ k ih => rw [tr]; nlinarith
theorem te_three (k : ℕ) : 3 * te k = tr k * (k + 2) := by
  induction k with
  | zero => rfl
  | succ k ih => have h1 := tr_two k; rw [te, tr]; nlinarith
theorem tr_eq (k : ℕ) : k * (k + 1) / 2 = tr k := by have := tr_two k; omega
theorem te_eq (k : ℕ) : tr k * (k + 2) / 3 = te k := by have := te_three k; omega
theorem te_eq6 (k : ℕ) : k * (k + 1) * (k + 2) / 6 = te k := by
  have h1 := tr_two k; have h2 := te_three k
  have : k * (k + 1) * (k + 2) = 6 * te k := by rw [← h1, mul_assoc, ← h2]; ring
  omega
theorem idx_eq (l m n : ℕ) : idx l m n = te l + tr m + n := by rw [idx, tr_eq, te_eq, tr_eq]
theorem tr_mono {a b : ℕ} (h : a ≤ b) : tr a ≤ tr b := by
  induction h with
  | refl => rfl
  | step _ ih => rw [tr]; omega
theorem te_mono {a b : ℕ} (h : a ≤ b) : te a ≤ te b := by
  induction h with
  | refl => rfl
  | step _ ih => rw [te]; omega
theorem tr_lt {a b : ℕ} (h : a < b) : tr a + a + 1 ≤ tr b := by
  have := tr_mono (show a + 1 ≤ b from h); rw [tr] at this; omega
theorem te_lt {a b : ℕ} (h : a < b) : te a + tr a + a + 1 ≤ te b := by
  have := te_mono (show a + 1 ≤ b from h); rw [te, tr] at this; omega
theorem le_tr (k : ℕ) : k ≤ tr k := by cases k with
  | zero => simp
  | succ k => rw [tr]; omega
theorem le_te (k : ℕ) : k ≤ te k := by
  cases k with
  | zero => simp
  | succ k => rw [te]; have := le_tr (k + 1); omega

theorem tableSize_eq (L : ℕ) : tableSize L = te (L + 1) := by
  rw [tableSize, tr_eq (L + 1), te_eq (L + 1)]
theorem tableSizeLog_eq (L : ℕ) : tableSizeLog L = te (L + 1) := by
  rw [tableSizeLog, tr_eq, te_eq, te, tr]; omega
theorem te_closed (L : ℕ) : te (L + 1) = (L + 1) * (L + 2) * (L + 3) / 6 := (te_eq6 (L + 1)).symm

/-- Lexicographic comparison. -/
theorem idx_lt_of {l m n l' m' n' : ℕ} (h1 : n ≤ m) (h2 : m ≤ l)
    (h : l < l' ∨ (l = l' ∧ (m < m' ∨ (m = m' ∧ n < n')))) : idx l m n < idx l' m' n' := by
  rw [idx_eq, idx_eq]
  rcases h with h | ⟨rfl, h | ⟨rfl, h⟩⟩
  · have := te_lt h; have := tr_mono h2; omega
  · have := tr_lt h; omega
  · omega

theorem idx_inj {l m n l' m' n' : ℕ} (h1 : n ≤ m) (h2 : m ≤ l) (h1' : n' ≤ m') (h2' : m' ≤ l')
    (h : idx l m n = idx l' m' n') : l = l' ∧ m = m' ∧ n = n' := by
  rcases Nat.lt_trichotomy l l' with h3 | h3 | h3
  · have := idx_lt_of (l' := l') (m' := m') (n' := n') h1 h2 (Or.inl h3); omega
  · rcases Nat.lt_trichotomy m m' with h4 | h4 | h4
    · have := idx_lt_of (l' := l') (m' := m') (n' := n') h1 h2 (Or.inr ⟨h3, Or.inl h4⟩); omega
    · subst h3 h4; rw [idx_eq, idx_eq] at h; exact ⟨rfl, rfl, by omega⟩
    · have := idx_lt_of (l' := l) (m' := m) (n' := n) h1' h2' (Or.inr ⟨h3.symm, Or.inl h4⟩); omega
  · have := idx_lt_of (l' := l) (m' := m) (n' := n) h1' h2' (Or.inl h3); omega

theorem idx_lt_size {l m n L : ℕ} (h1 : n ≤ m) (h2 : m ≤ l) (h3 : l ≤ L) : idx l m n < te (L + 1) := by
  rw [idx_eq]; have := te_lt (show l < L + 1 by omega); have := tr_mono h2; omega

/-- The correction loop finds the largest figurate number below, from any overestimate. -/
theorem fixDown_spec (T : ℕ → ℕ) (x k : ℕ) (hk : T k ≤ x) (hk' : ∀ j, k < j → x < T j) :
    ∀ e, k ≤ e → fixDown T x e = k := by
  intro e
  induction e with
  | zero => intro h; rw [fixDown]; omega
  | succ e ih =>
    intro h
    rw [fixDown]
    by_cases h1 : k = e + 1
    · subst h1; rw [if_neg (by omega)]
    · rw [if_pos (hk' _ (by omega))]; exact ih (by omega)

theorem coordsFrom_idx (e1 e2 : ℕ → ℕ) {l m n : ℕ} (h1 : n ≤ m) (h2 : m ≤ l)
    (he1 : l ≤ e1 (idx l m n)) (he2 : m ≤ e2 (tr m + n)) : coordsFrom e1 e2 (idx l m n) = (l, m, n) := by
  have hl : fixDown (fun l => l * (l + 1) * (l + 2) / 6) (idx l m n) (e1 (idx l m n)) = l := by
    apply fixDown_spec _ _ _ _ _ _ he1
    · simp only [te_eq6, idx_eq]; omega
    · intro j hj; simp only [te_eq6]; rw [idx_eq]
      have := te_lt hj; have := tr_mono h2; omega
  have hr : idx l m n - l * (l + 1) * (l + 2) / 6 = tr m + n := by rw [te_eq6, idx_eq]; omega
  have hm : fixDown (fun m => m * (m + 1) / 2) (tr m + n) (e2 (tr m + n)) = m := by
    apply fixDown_spec _ _ _ _ _ _ he2
    · simp only [tr_eq]; omega
    · intro j hj; simp only [tr_eq]; have := tr_lt hj; omega
  unfold coordsFrom
  simp only [hl, hr, hm]
  rw [tr_eq]; simp

/-! ### Surjectivity -/
theorem exists_tr (x : ℕ) : ∃ k, tr k ≤ x ∧ x < tr (k + 1) := by
  induction x with
  | zero => exact ⟨0, by simp [tr]⟩
  | succ x ih =>
    obtain ⟨k, h1, h2⟩ := ih
    by_cases h : x + 1 < tr (k + 1)
    · exact ⟨k, by omega, h⟩
    · refine ⟨k + 1, by omega, ?_⟩; rw [tr]; omega
theorem exists_te (x : ℕ) : ∃ k, te k ≤ x ∧ x < te (k + 1) := by
  induction x with
  | zero => exact ⟨0, by simp [te, tr]⟩
  | succ x ih =>
    obtain ⟨k, h1, h2⟩ := ih
    by_cases h : x + 1 < te (k + 1)
    · exact ⟨k, by omega, h⟩
    · refine ⟨k + 1, by omega, ?_⟩; rw [te]; have : 0 < tr (k + 1 + 1) := by rw [tr]; omega
      omega
theorem exists_coords (i : ℕ) : ∃ l m n, n ≤ m ∧ m ≤ l ∧ idx l m n = i := by
  obtain ⟨l, h1, h2⟩ := exists_te i
  obtain ⟨m, h3, h4⟩ := exists_tr (i - te l)
  rw [te] at h2
  rw [tr] at h4
  refine ⟨l, m, i - te l - tr m, by omega, ?_, by rw [idx_eq]; omega⟩
  by_contra hc
  have := tr_mono (show l + 1 ≤ m by omega)
  omega
theorem exists_coords_lt {i L : ℕ} (h : i < te (L + 1)) : ∃ l m n, n ≤ m ∧ m ≤ l ∧ l ≤ L ∧ idx l m n = i := by
  obtain ⟨l, m, n, h1, h2, h3⟩ := exists_coords i
  refine ⟨l, m, n, h1, h2, ?_, h3⟩
  by_contra hc
  have := te_mono (show L + 1 ≤ l by omega)
  rw [idx_eq] at h3; omega

/-! ### Lists of coordinates -/

/-- Row `m`. -/
def rowList (m : ℕ) : List (ℕ × ℕ) := (List.range (m + 1)).map fun n => (m, n)
/-- All rows below `K`. -/
def triList : ℕ → List (ℕ × ℕ)
  | 0 => []
  | K + 1 => triList K ++ rowList K

theorem mem_triList {K m n : ℕ} : (m, n) ∈ triList K ↔ n ≤ m ∧ m < K := by
  induction K with
  | zero => simp [triList]
  | succ K ih =>
    rw [triList, List.mem_append, ih, rowList, List.mem_map]
    simp only [List.mem_range, Prod.mk.injEq]
    constructor
    · rintro (h | ⟨a, h1, rfl, rfl⟩) <;> omega
    · intro h
      by_cases h1 : m = K
      · right; exact ⟨n, by omega, h1.symm, rfl⟩
      · left; omega

theorem length_triList (K : ℕ) : (triList K).length = tr K := by
  induction K with
  | zero => rfl
  | succ K ih => rw [triList, List.length_append, ih, rowList, List.length_map, List.length_range, tr]

theorem triList_flatMap (K : ℕ) : triList K = (List.range K).flatMap rowList := by
  induction K with
  | zero => rfl
  | succ K ih => rw [triList, ih, List.range_succ, List.flatMap_append]; simp

theorem triList_take (K j : ℕ) : (triList (K + j)).take (tr K) = triList K := by
  induction j with
  | zero => rw [Nat.add_zero, ← length_triList K, List.take_length]
  | succ j ih =>
    rw [← Nat.add_assoc, triList, List.take_append_of_le_length, ih]
    rw [length_triList]; exact tr_mono (by omega)

theorem filter_range (a b : ℕ) (h : a ≤ b) : (List.range b).filter (fun n => decide (n < a)) = List.range a := by
  induction b with
  | zero => simp_all
  | succ b ih =>
    rw [List.range_succ, List.filter_append]
    by_cases h1 : a = b + 1
    · subst h1
      rw [← List.filter_append, ← List.range_succ]
      apply List.filter_eq_self.mpr
      intro x hx; simpa using hx
    · rw [ih (by omega)]; simp; omega

theorem flatMap_congr_mem {α β : Type} (l : List α) (f g : α → List β) (h : ∀ x ∈ l, f x = g x) :
    l.flatMap f = l.flatMap g := by
  induction l with
  | nil => rfl
  | cons a l ih =>
    rw [List.flatMap_cons, List.flatMap_cons, h a (by simp), ih (fun x hx => h x (by simp [hx]))]

theorem mmn_eq (L : ℕ) : mmn L = triList (L + 1) := by
  rw [mmn, List.filter_flatMap, triList_flatMap]
  apply flatMap_congr_mem
  intro m hm
  rw [List.mem_range] at hm
  rw [List.filter_map, rowList, ← filter_range (m + 1) (L + 1) (by omega)]
  congr 1
  apply List.filter_congr
  intro x _
  simp

theorem mp1mn_eq (L : ℕ) : mp1mn L = (triList L).map fun p => (p.1 + 1, p.1, p.2) := by
  rw [mp1mn, List.filter_flatMap, triList_flatMap, List.map_flatMap, List.map_flatMap, List.range_succ_eq_map,
    List.flatMap_cons]
  have h0 : (List.map (fun p : ℤ × ℤ × ℤ => (p.1.toNat, p.2.1.toNat, p.2.2.toNat))
      (List.filter (fun p => decide (p.2.2 ≤ p.2.1 ∧ 0 ≤ p.2.1 ∧ 0 ≤ p.2.2))
      (List.map (fun n : ℕ => (((0:ℕ) : ℤ), ((0:ℕ) : ℤ) - 1, (n : ℤ) - 1)) (0 :: List.map Nat.succ (List.range L))))) = [] := by
    rw [List.map_eq_nil_iff, List.filter_eq_nil_iff]
    intro a ha
    rw [List.mem_map] at ha
    obtain ⟨n, _, rfl⟩ := ha
    simp
  rw [h0, List.nil_append, List.flatMap_map]
  apply flatMap_congr_mem
  intro m hm
  rw [List.mem_range] at hm
  rw [List.filter_map, List.map_map, List.filter_cons]
  simp only [Function.comp_apply]
  rw [if_neg (by simp), rowList, List.map_map, List.filter_map, List.map_map,
    ← filter_range (m + 1) L (by omega)]
  have : (List.filter (((fun p : ℤ × ℤ × ℤ => decide (p.2.2 ≤ p.2.1 ∧ 0 ≤ p.2.1 ∧ 0 ≤ p.2.2)) ∘
      fun n : ℕ => ((m.succ : ℤ), (m.succ : ℤ) - 1, (n : ℤ) - 1)) ∘ Nat.succ) (List.range L)) =
      List.filter (fun n => decide (n < m + 1)) (List.range L) := by
    apply List.filter_congr
    intro x _
    simp
  rw [this]
  apply List.map_congr_left
  intro x _
  simp

/-! ### Writes and reads -/

theorem mapM_some {α β : Type} (l : List α) (f : α → Option β) (g : α → β) (h : ∀ x ∈ l, f x = some (g x)) :
    l.mapM f = some (l.map g) := by
  induction l with
  | nil => rfl
  | cons a l ih =>
    rw [List.mapM_cons, h a (by simp), ih (fun x hx => h x (by simp [hx]))]
    rfl

theorem putAll_spec {α : Type} (size : ℕ) (l : List (ℕ × α)) : ∀ t : Table α, (∀ p ∈ l, p.1 < size) →
    ∃ t', putAll size l t = some t' ∧ (∀ j, (∀ p ∈ l, p.1 ≠ j) → t' j = t j) ∧
      (∀ p ∈ l, (∀ q ∈ l, q.1 = p.1 → q.2 = p.2) → t' p.1 = some p.2) := by
  induction l with
  | nil => intro t _; exact ⟨t, rfl, fun _ _ => rfl, by simp⟩
  | cons a l ih =>
    intro t hl
    obtain ⟨i, v⟩ := a
    obtain ⟨t', h1, h2, h3⟩ := ih (Function.update t i (some v)) (fun p hp => hl p (by simp [hp]))
    refine ⟨t', ?_, ?_, ?_⟩
    · rw [putAll, if_pos (hl (i, v) (by simp)), h1]
    · intro j hj
      rw [h2 j (fun p hp => hj p (by simp [hp]))]
      have := hj (i, v) (by simp)
      exact Function.update_of_ne (Ne.symm this) _ _
    · intro p hp hu
      by_cases hpl : ∃ q ∈ l, q.1 = p.1
      · obtain ⟨q, hq, hqp⟩ := hpl
        have e := hu q (by simp [hq]) hqp
        rw [← hqp, ← e]
        apply h3 q hq
        intro r hr hrq
        rw [e]; exact hu r (by simp [hr]) (hrq.trans hqp)
      · push Not at hpl
        have : p = (i, v) := by
          rcases List.mem_cons.mp hp with h | h
          · exact h
          · exact absurd rfl (hpl p h)
        subst this
        rw [h2 i (fun q hq => hpl q hq)]
        exact Function.update_self _ _ _

/-- The table agrees with the recurrence for all entries with `l - m < s`. -/
def Filled {α : Type} (seed : ℕ → ℕ → α) (second : ℕ → ℕ → α → α) (comb : ℕ → ℕ → ℕ → α → α → α) (L s : ℕ)
    (t : Table α) : Prop :=
  ∀ l m n, n ≤ m → m ≤ l → l ≤ L → l - m < s → t (idx l m n) = some (recD seed second comb m n (l - m))

theorem idx_sub1 {l m n : ℕ} : idx (l + 1) m n - (l + 1) * (l + 2) / 2 = idx l m n := by
  rw [show (l + 1) * (l + 2) / 2 = tr (l + 1) from tr_eq (l + 1), idx_eq, idx_eq, te]; omega
theorem tr_succ_add (l : ℕ) : tr (l + 1) + tr l = (l + 1) * (l + 1) := by
  have := tr_two l; rw [tr]; nlinarith
theorem idx_sub2 {l m n : ℕ} : idx (l + 2) m n - (l + 2) * (l + 2) = idx l m n := by
  have h := tr_succ_add (l + 1)
  rw [← h, idx_eq, idx_eq, te, te]; omega

theorem map_take_triList {β : Type} (f : ℕ × ℕ → β) (K : ℕ) (c : ℕ) (hc : tr (K + 1) - c = tr K) :
    ((triList (K + 1)).map f).take (((triList (K + 1)).map f).length - c) = (triList K).map f := by
  rw [List.length_map, length_triList, hc, ← List.map_take, triList_take K 1]

theorem recLoop_spec {α : Type} (seed : ℕ → ℕ → α) (second : ℕ → ℕ → α → α) (comb : ℕ → ℕ → ℕ → α → α → α) (L : ℕ) :
    ∀ (todo s : ℕ) (t : Table α), todo + s + 1 = L → Filled seed second comb L (s + 2) t →
    ∃ t', recLoop comb (te (L + 1)) L todo s
      ((triList todo).map fun p => ⟨p.1 + 2 + s, p.1, p.2, idx (p.1 + 2 + s) p.1 p.2⟩) t = some t' ∧
      Filled seed second comb L (L + 1) t' := by
  intro todo
  induction todo with
  | zero =>
    intro s t hs hf
    refine ⟨t, rfl, ?_⟩
    have : s + 2 = L + 1 := by omega
    rw [← this]; exact hf
  | succ K ih =>
    intro s t hs hf
    rw [recLoop]
    set cur : List Cur := (triList (K + 1)).map fun p => ⟨p.1 + 2 + s, p.1, p.2, idx (p.1 + 2 + s) p.1 p.2⟩ with hcur
    have hmap : (cur.mapM fun c => (t (c.i - c.l * (c.l + 1) / 2)).bind fun d1 => (t (c.i - c.l * c.l)).map fun d2 =>
        (c.i, comb c.l c.m c.n d1 d2)) =
        some (cur.map fun c => (c.i, recD seed second comb c.m c.n (c.l - c.m))) := by
      apply mapM_some
      intro c hc
      rw [hcur, List.mem_map] at hc
      obtain ⟨⟨m, n⟩, hp, rfl⟩ := hc
      rw [mem_triList] at hp
      have e1 : idx (m + 2 + s) m n - (m + 2 + s) * (m + 2 + s + 1) / 2 = idx (m + s + 1) m n := by
        rw [show m + 2 + s = (m + s + 1) + 1 by omega]; exact idx_sub1
      have e2 : idx (m + 2 + s) m n - (m + 2 + s) * (m + 2 + s) = idx (m + s) m n := by
        rw [show m + 2 + s = (m + s) + 2 by omega]; exact idx_sub2
      simp only [e1, e2]
      rw [hf (m + s + 1) m n hp.1 (by omega) (by omega) (by omega), hf (m + s) m n hp.1 (by omega) (by omega) (by omega)]
      simp only [Option.bind_some, Option.map_some]
      rw [show m + 2 + s - m = s + 2 by omega, show m + s + 1 - m = s + 1 by omega, show m + s - m = s by omega, recD,
        show m + s + 2 = m + 2 + s by omega]
    rw [hmap, Option.bind_some]
    obtain ⟨t', h1, h2, h3⟩ := putAll_spec (te (L + 1)) (cur.map fun c => (c.i, recD seed second comb c.m c.n (c.l - c.m))) t (by
      intro p hp
      rw [hcur, List.map_map, List.mem_map] at hp
      obtain ⟨⟨m, n⟩, hp, rfl⟩ := hp
      rw [mem_triList] at hp
      exact idx_lt_size hp.1 (by omega) (by omega))
    rw [h1, Option.bind_some]
    have hnext : (List.map (fun c : Cur => (⟨c.l + 1, c.m, c.n, c.i + (c.l + 1) * (c.l + 1 + 1) / 2⟩ : Cur))
        (List.take (cur.length - (L - 1 - s)) cur)) =
        (triList K).map fun p => ⟨p.1 + 2 + (s + 1), p.1, p.2, idx (p.1 + 2 + (s + 1)) p.1 p.2⟩ := by
      rw [hcur, map_take_triList _ K (L - 1 - s) (by rw [tr]; omega), List.map_map]
      apply List.map_congr_left
      rintro ⟨m, n⟩ _
      simp only [Function.comp_apply, Cur.mk.injEq, true_and]
      refine ⟨by omega, ?_⟩
      have h := tr_eq (m + 2 + s + 1)
      rw [h, idx_eq, idx_eq, show m + 2 + (s + 1) = m + 2 + s + 1 by omega, te]; omega
    rw [hnext]
    apply ih (s + 1) t' (by omega)
    intro l m n hn hm hl hlt
    by_cases hc : l - m = s + 2
    · have hmem : (idx l m n, recD seed second comb m n (l - m)) ∈
          (cur.map fun c => (c.i, recD seed second comb c.m c.n (c.l - c.m))) := by
        rw [hcur, List.map_map, List.mem_map]
        refine ⟨(m, n), mem_triList.mpr ⟨hn, by omega⟩, ?_⟩
        simp only [Function.comp_apply]
        rw [show m + 2 + s = l by omega]
      apply h3 _ hmem
      intro q hq hqi
      rw [hcur, List.map_map, List.mem_map] at hq
      obtain ⟨⟨m', n'⟩, hp, rfl⟩ := hq
      rw [mem_triList] at hp
      simp only [Function.comp_apply] at hqi ⊢
      obtain ⟨a1, a2, a3⟩ := idx_inj hp.1 (by omega) hn hm hqi
      rw [a1, a2, a3]
    · rw [h2, hf l m n hn hm hl (by omega)]
      intro p hp he
      rw [hcur, List.map_map, List.mem_map] at hp
      obtain ⟨⟨m', n'⟩, hp, rfl⟩ := hp
      rw [mem_triList] at hp
      simp only [Function.comp_apply] at he
      obtain ⟨a1, a2, a3⟩ := idx_inj hp.1 (by omega) hn hm he
      omega

theorem idx_two (m n : ℕ) : idx m m n + (m + 2) ^ 2 = idx (m + 2) m n := by
  have h := tr_succ_add (m + 1)
  have h' : (m + 2) ^ 2 = (m + 1 + 1) * (m + 1 + 1) := by ring
  rw [h', ← h, idx_eq, idx_eq, te, te]; omega

theorem fillTable_spec {α : Type} (seed : ℕ → ℕ → α) (second : ℕ → ℕ → α → α) (comb : ℕ → ℕ → ℕ → α → α → α) (L : ℕ) :
    ∃ t, fillTable seed second comb (te (L + 1)) L = some t ∧ Filled seed second comb L (L + 1) t := by
  unfold fillTable
  simp only [mmn_eq, mp1mn_eq]
  obtain ⟨t1, h1, _, h13⟩ := putAll_spec (te (L + 1)) ((triList (L + 1)).map fun p => (idx p.1 p.1 p.2, seed p.1 p.2))
    (fun _ => none) (by
      intro p hp
      rw [List.mem_map] at hp
      obtain ⟨⟨m, n⟩, hp, rfl⟩ := hp
      rw [mem_triList] at hp
      exact idx_lt_size hp.1 le_rfl (by omega))
  rw [h1, Option.bind_some]
  have f1 : ∀ m n, n ≤ m → m ≤ L → t1 (idx m m n) = some (seed m n) := by
    intro m n hn hm
    apply h13 (idx m m n, seed m n)
    · rw [List.mem_map]; exact ⟨(m, n), mem_triList.mpr ⟨hn, by omega⟩, rfl⟩
    · intro q hq hqi
      rw [List.mem_map] at hq
      obtain ⟨⟨m', n'⟩, hp, rfl⟩ := hq
      rw [mem_triList] at hp
      obtain ⟨a1, a2, a3⟩ := idx_inj hp.1 le_rfl hn le_rfl hqi
      subst a1 a3; rfl
  have hzip : (((triList L).map fun p : ℕ × ℕ => (p.1 + 1, p.1, p.2)).zip
      (((triList (L + 1)).map fun p => idx p.1 p.1 p.2).take ((triList L).map fun p : ℕ × ℕ => (p.1 + 1, p.1, p.2)).length)) =
      (triList L).map fun p => ((p.1 + 1, p.1, p.2), idx p.1 p.1 p.2) := by
    rw [List.length_map, length_triList, ← List.map_take, triList_take L 1]
    exact List.zip_map'
  rw [hzip]
  have hmap : (((triList L).map fun p => ((p.1 + 1, p.1, p.2), idx p.1 p.1 p.2)).mapM fun q => (t1 q.2).map fun d =>
      (idx q.1.1 q.1.2.1 q.1.2.2, second q.1.2.1 q.1.2.2 d)) =
      some (((triList L).map fun p => ((p.1 + 1, p.1, p.2), idx p.1 p.1 p.2)).map fun q =>
        (idx q.1.1 q.1.2.1 q.1.2.2, second q.1.2.1 q.1.2.2 (seed q.1.2.1 q.1.2.2))) := by
    apply mapM_some
    intro q hq
    rw [List.mem_map] at hq
    obtain ⟨⟨m, n⟩, hp, rfl⟩ := hq
    rw [mem_triList] at hp
    simp only [f1 m n hp.1 (by omega), Option.map_some]
  rw [hmap, Option.bind_some, List.map_map]
  obtain ⟨t2, h2, h22, h23⟩ := putAll_spec (te (L + 1)) ((triList L).map ((fun q : (ℕ × ℕ × ℕ) × ℕ =>
        (idx q.1.1 q.1.2.1 q.1.2.2, second q.1.2.1 q.1.2.2 (seed q.1.2.1 q.1.2.2))) ∘
        fun p => ((p.1 + 1, p.1, p.2), idx p.1 p.1 p.2))) t1 (by
      intro p hp
      rw [List.mem_map] at hp
      obtain ⟨⟨m, n⟩, hp, rfl⟩ := hp
      rw [mem_triList] at hp
      have : idx (m + 1) m n < te (L + 1) := idx_lt_size hp.1 (by omega) (by omega)
      exact this)
  rw [h2, Option.bind_some]
  have f2 : Filled seed second comb L 2 t2 := by
    intro l m n hn hm hl hlt
    by_cases hc : l = m
    · subst hc
      rw [h22, f1 l n hn hl, Nat.sub_self, recD]
      intro p hp he
      rw [List.mem_map] at hp
      obtain ⟨⟨m', n'⟩, hp, rfl⟩ := hp
      rw [mem_triList] at hp
      simp only [Function.comp_apply] at he
      obtain ⟨a1, a2, a3⟩ := idx_inj hp.1 (by omega) hn hm he
      omega
    · have hl' : l = m + 1 := by omega
      subst hl'
      have hmem : (idx (m + 1) m n, second m n (seed m n)) ∈ ((triList L).map ((fun q : (ℕ × ℕ × ℕ) × ℕ =>
        (idx q.1.1 q.1.2.1 q.1.2.2, second q.1.2.1 q.1.2.2 (seed q.1.2.1 q.1.2.2))) ∘
        fun p => ((p.1 + 1, p.1, p.2), idx p.1 p.1 p.2))) := by
        rw [List.mem_map]; exact ⟨(m, n), mem_triList.mpr ⟨hn, by omega⟩, rfl⟩
      rw [show m + 1 - m = 1 by omega, recD]
      apply h23 _ hmem
      intro q hq hqi
      rw [List.mem_map] at hq
      obtain ⟨⟨m', n'⟩, hp, rfl⟩ := hq
      rw [mem_triList] at hp
      simp only [Function.comp_apply] at hqi ⊢
      obtain ⟨a1, a2, a3⟩ := idx_inj hp.1 (by omega) hn hm hqi
      rw [a2, a3]
  have hz2 : ((triList (L + 1)).zip ((triList (L + 1)).map fun p => idx p.1 p.1 p.2)) =
      (triList (L + 1)).map fun p => (p, idx p.1 p.1 p.2) := by
    have := List.zip_map' (f := id) (g := fun p : ℕ × ℕ => idx p.1 p.1 p.2) (l := triList (L + 1))
    rw [List.map_id] at this; exact this
  have hstart : (((triList (L + 1)).zip ((triList (L + 1)).map fun p => idx p.1 p.1 p.2)).take
      ((triList (L + 1)).length - (2 * L + 1))).map (fun q : (ℕ × ℕ) × ℕ =>
        (⟨q.1.1 + 2, q.1.1, q.1.2, q.2 + (q.1.1 + 2) ^ 2⟩ : Cur)) =
      (triList (L - 1)).map fun p => ⟨p.1 + 2 + 0, p.1, p.2, idx (p.1 + 2 + 0) p.1 p.2⟩ := by
    have hk : (triList (L + 1)).take ((triList (L + 1)).length - (2 * L + 1)) = triList (L - 1) := by
      rw [length_triList]
      cases L with
      | zero => rfl
      | succ K =>
        rw [show tr (K + 1 + 1) - (2 * (K + 1) + 1) = tr K by rw [tr, tr]; omega]
        exact triList_take K 2
    rw [hz2, ← List.map_take, hk, List.map_map]
    apply List.map_congr_left
    rintro ⟨m, n⟩ _
    simp only [Function.comp_apply, Cur.mk.injEq, true_and, Nat.add_zero]
    exact idx_two m n
  rw [hstart]
  rcases L with _ | K
  · refine ⟨t2, rfl, ?_⟩
    intro l m n hn hm hl hlt
    exact f2 l m n hn hm hl (by omega)
  · exact recLoop_spec seed second comb (K + 1) K 0 t2 (by omega) f2

end Verif.Wigner
