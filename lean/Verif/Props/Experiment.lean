import Verif.Spec.Store
import Mathlib.Data.List.Nodup
import Mathlib.Data.List.Induction
import Mathlib.Data.List.Forall2
import Mathlib.Tactic.Linarith
import Mathlib.Tactic.NormNum
/-! Properties C42 and C43 (ebsd/experiment_pats.py). -/
namespace Verif
open Spec

theorem mapM_forall₂ {α β : Type} {f : α → Option β} : ∀ {l : List α} {r : List β},
    l.mapM f = some r → List.Forall₂ (fun a b => f a = some b) l r := by
  intro l
  induction l with
  | nil => intro r h; simp at h; subst h; exact .nil
  | cons a t ih =>
    intro r h
    rw [List.mapM_cons] at h
    simp only [Option.bind_eq_bind, Option.bind_eq_some_iff, Option.pure_def, Option.some.injEq] at h
    obtain ⟨b, hb, bs, hbs, rfl⟩ := h
    exact .cons hb (ih hbs)

theorem mapM_of_forall₂ {α β : Type} {f : α → Option β} : ∀ {l : List α} {r : List β},
    List.Forall₂ (fun a b => f a = some b) l r → l.mapM f = some r := by
  intro l r h
  induction h with
  | nil => rfl
  | cons h1 _ ih => rw [List.mapM_cons, h1, ih]; rfl

theorem pos_spec {n : ℕ} {i : ℤ} {p : ℕ} (h : pos n i = some p) :
    p < n ∧ (i = p ∨ i + n = p) ∧ i % (n : ℤ) = p := by
  unfold pos at h
  split_ifs at h with h1 h2
  · simp only [Option.some.injEq] at h
    have : i = p := by omega
    exact ⟨by omega, Or.inl this, by rw [Int.emod_eq_of_lt h1.1 h1.2]; exact this⟩
  · simp only [Option.some.injEq] at h
    have : i + n = p := by omega
    refine ⟨by omega, Or.inr this, ?_⟩
    rw [← this, ← Int.add_emod_right, Int.emod_eq_of_lt (by omega) (by omega)]

theorem pos_of_match {n : ℕ} {i : ℤ} {p : ℕ} (hp : p < n) (h : i = p ∨ i + n = p) : pos n i = some p := by
  unfold pos
  rcases h with h | h
  · rw [if_pos (by omega)]; congr 1; omega
  · rw [if_neg (by omega), if_pos (by omega)]; congr 1; omega

theorem foldl_set_length {α : Type} (ws : List (ℕ × α)) : ∀ x : List α,
    (ws.foldl (fun t w => t.set w.1 w.2) x).length = x.length := by
  induction ws with
  | nil => intro x; rfl
  | cons w t ih => intro x; rw [List.foldl_cons, ih, List.length_set]

theorem foldl_set_untouched {α : Type} (i : ℕ) (ws : List (ℕ × α)) (h : ∀ w ∈ ws, w.1 ≠ i) : ∀ x : List α,
    (ws.foldl (fun t w => t.set w.1 w.2) x)[i]? = x[i]? := by
  induction ws with
  | nil => intro x; rfl
  | cons w t ih =>
    intro x
    rw [List.foldl_cons, ih fun v hv => h v (by simp [hv])]
    exact List.getElem?_set_ne (h w (by simp))

theorem foldl_set_touched {α : Type} (i : ℕ) (v : α) (ws : List (ℕ × α)) (hn : (ws.map Prod.fst).Nodup)
    (hm : (i, v) ∈ ws) : ∀ x : List α, i < x.length →
    (ws.foldl (fun t w => t.set w.1 w.2) x)[i]? = some v := by
  induction ws with
  | nil => simp at hm
  | cons w t ih =>
    intro x hx
    rw [List.map_cons, List.nodup_cons] at hn
    rw [List.foldl_cons]
    rcases List.mem_cons.mp hm with rfl | hm
    · rw [foldl_set_untouched]
      · simp [hx]
      · intro u hu hc
        exact hn.1 (List.mem_map.mpr ⟨u, hu, hc⟩)
    · exact ih hn.2 hm _ (by simpa using hx)

/-- Value of an index assignment with duplicates: one of the values given for the position. -/
theorem foldl_set_some {α : Type} (i : ℕ) (ws : List (ℕ × α)) : ∀ x : List α, i < x.length →
    (∃ w ∈ ws, w.1 = i) → ∃ v, (i, v) ∈ ws ∧ (ws.foldl (fun t w => t.set w.1 w.2) x)[i]? = some v := by
  induction ws with
  | nil => intro x _ h; simp at h
  | cons w t ih =>
    intro x hx h
    rw [List.foldl_cons]
    by_cases ht : ∃ w ∈ t, w.1 = i
    · obtain ⟨v, hv, he⟩ := ih (x.set w.1 w.2) (by simpa using hx) ht
      exact ⟨v, by simp [hv], he⟩
    · have hw : w.1 = i := by
        obtain ⟨u, hu, hui⟩ := h
        rcases List.mem_cons.mp hu with rfl | hu
        · exact hui
        · exact absurd ⟨u, hu, hui⟩ ht
      refine ⟨w.2, by rw [← hw]; simp, ?_⟩
      rw [foldl_set_untouched i t (fun v hv hc => ht ⟨v, hv, hc⟩), ← hw]
      simp [hw, hx]

structure StoreInv {α : Type} (n : ℕ → ℕ) (all : ℕ → Option (List α)) (h : List (Op α)) (w : World α) :
    Prop where
  fresh : ∀ a < w.heap.length, a ∉ handed h → w.heap[a]? = all a
  used : ∀ o a, w.obj o = some a → a ∈ handed h
  inj : ∀ o o' a, w.obj o = some a → w.obj o' = some a → o = o'
  val : ∀ o a, w.obj o = some a → ∃ t, w.heap[a]? = some t ∧ t.length = n o ∧
    ∀ i < n o, t[i]? = lastWrite all (n o) o i h.reverse
  unset : ∀ o, w.obj o = none → ∀ i, lastWrite all (n o) o i h.reverse = none

theorem heap_length {α : Type} (n : ℕ → ℕ) (h : List (Op α)) : ∀ w, World.runOps n h = some w →
    w.heap.length = (allocs h).length := by
  induction h using List.reverseRecOn with
  | nil => intro w hw; simp [World.runOps] at hw; subst hw; rfl
  | append_singleton h op ih =>
    intro w hw
    unfold World.runOps at hw
    rw [List.foldlM_append] at hw
    simp only [Option.bind_eq_bind, Option.bind_eq_some_iff, List.foldlM_cons, List.foldlM_nil,
      Option.pure_def] at hw
    obtain ⟨w0, hw0, w1, hs, hw⟩ := hw
    simp only [Option.some.injEq] at hw
    subst hw
    have ih := ih w0 hw0
    have happ : allocs (h ++ [op]) = allocs h ++ allocs [op] := List.filterMap_append ..
    rw [happ, List.length_append, ← ih]
    cases op with
    | alloc t => simp [World.step] at hs; subst hs; simp [allocs]
    | setAll o a =>
      simp only [World.step] at hs
      split at hs
      · simp at hs
      · split_ifs at hs; simp at hs; subst hs; simp [allocs]
    | setAt o idx vals s =>
      simp only [World.step] at hs
      split at hs
      · simp at hs
      · split at hs
        · simp at hs
        · split at hs
          · simp at hs
          · simp at hs; subst hs; simp [allocs]

theorem storeInv {α : Type} (n : ℕ → ℕ) (H : List (Op α)) (hlin : (handed H).Nodup)
    (hdup : NoDuplicateIndex n H) (h : List (Op α)) : ∀ rest, H = h ++ rest → ∀ w,
    World.runOps n h = some w → StoreInv n (allocated H) h w := by
  induction h using List.reverseRecOn with
  | nil =>
    intro rest _ w hw
    simp [World.runOps] at hw
    subst hw
    exact ⟨by simp, by simp, by simp, by simp, by simp [lastWrite]⟩
  | append_singleton h op ih =>
    intro rest hH w hw
    have hw' := hw
    unfold World.runOps at hw
    rw [List.foldlM_append] at hw
    simp only [Option.bind_eq_bind, Option.bind_eq_some_iff, List.foldlM_cons, List.foldlM_nil,
      Option.pure_def] at hw
    obtain ⟨w0, hw0, w1, hs, hw⟩ := hw
    simp only [Option.some.injEq] at hw
    subst hw
    have I := ih (op :: rest) (by rw [hH]; simp) w0 hw0
    have hlen := heap_length n h w0 hw0
    have hrev : (h ++ [op]).reverse = op :: h.reverse := by simp
    cases op with
    | alloc t =>
      simp only [World.step, Option.some.injEq] at hs
      subst hs
      have hh : handed (h ++ [Op.alloc t]) = handed h := by simp [handed]
      have hold : ∀ a < w0.heap.length, (w0.heap ++ [t])[a]? = w0.heap[a]? :=
        fun a ha => List.getElem?_append_left ha
      refine ⟨?_, ?_, I.inj, ?_, ?_⟩
      · intro a ha hn
        rw [hh] at hn
        by_cases hal : a < w0.heap.length
        · rw [hold a hal]; exact I.fresh a hal hn
        · have hae : a = w0.heap.length := by
            simp at ha; omega
          subst hae
          simp only [List.getElem?_concat_length]
          rw [hH]
          unfold allocated
          have happ : allocs (h ++ [Op.alloc t] ++ rest) = allocs h ++ (allocs [Op.alloc t] ++ allocs rest) := by
            unfold allocs
            rw [List.filterMap_append, List.filterMap_append, List.append_assoc]
          rw [happ, hlen,
            List.getElem?_append_right (le_refl _), Nat.sub_self]
          rfl
      · intro o a ho; rw [hh]; exact I.used o a ho
      · intro o a ho
        obtain ⟨t', h1, h2, h3⟩ := I.val o a ho
        refine ⟨t', ?_, h2, ?_⟩
        · have : a < w0.heap.length := by
            by_contra hc
            rw [List.getElem?_eq_none (by omega)] at h1; simp at h1
          show (w0.heap ++ [t])[a]? = some t'
          rw [hold a this]; exact h1
        · intro i hi; rw [hrev]; exact h3 i hi
      · intro o ho i; rw [hrev]; exact I.unset o ho i
    | setAll o0 a0 =>
      simp only [World.step] at hs
      split at hs
      · simp at hs
      rename_i t ht
      split_ifs at hs with hlt
      simp only [Option.some.injEq] at hs
      subst hs
      have hh : handed (h ++ [Op.setAll o0 a0]) = handed h ++ [a0] := by simp [handed]
      have ha0 : a0 ∉ handed h := by
        have h1 : handed H = handed h ++ [a0] ++ handed rest := by
          rw [hH]; simp [handed]
        rw [h1, List.nodup_append, List.nodup_append] at hlin
        intro hc
        exact hlin.1.2.2 a0 hc a0 (by simp) rfl
      have hal : a0 < w0.heap.length := by
        by_contra hc
        rw [List.getElem?_eq_none (by omega)] at ht; simp at ht
      have hfr := I.fresh a0 hal ha0
      refine ⟨?_, ?_, ?_, ?_, ?_⟩
      · intro a ha hn
        rw [hh] at hn
        exact I.fresh a ha fun hc => hn (by simp [hc])
      · intro o a ho
        rw [hh]
        simp only at ho
        split_ifs at ho with hoo
        · simp at ho; simp [ho]
        · exact List.mem_append_left _ (I.used o a ho)
      · intro o o' a h1 h2
        simp only at h1 h2
        split_ifs at h1 h2 with e1 e2 e2
        · rw [e1, e2]
        · simp at h1; subst h1
          exact absurd (I.used o' _ h2) ha0
        · simp at h2; subst h2
          exact absurd (I.used o _ h1) ha0
        · exact I.inj o o' a h1 h2
      · intro o a ho
        simp only at ho
        split_ifs at ho with hoo
        · subst hoo
          simp only [Option.some.injEq] at ho
          subst ho
          refine ⟨t, ht, hlt, fun i hi => ?_⟩
          rw [hrev]
          simp only [lastWrite, if_true]
          rw [← hfr, ht]; rfl
        · obtain ⟨t', h1, h2, h3⟩ := I.val o a ho
          refine ⟨t', h1, h2, fun i hi => ?_⟩
          rw [hrev]
          simp only [lastWrite]
          rw [if_neg (Ne.symm hoo)]; exact h3 i hi
      · intro o ho i
        simp only at ho
        split_ifs at ho with hoo
        rw [hrev]
        simp only [lastWrite]
        rw [if_neg (Ne.symm hoo)]; exact I.unset o ho i
    | setAt o0 idx vals s =>
      simp only [World.step] at hs
      split at hs
      · simp at hs
      rename_i a0 ho0
      split at hs
      · simp at hs
      rename_i t0 ht0
      split at hs
      · simp at hs
      rename_i t' ht'
      simp only [Option.some.injEq] at hs
      subst hs
      have hh : handed (h ++ [Op.setAt o0 idx vals s]) = handed h := by simp [handed]
      obtain ⟨t, hta, htl, htv⟩ := I.val o0 a0 ho0
      rw [ht0] at hta
      simp only [Option.some.injEq] at hta
      subst hta
      have hal : a0 < w0.heap.length := by
        by_contra hc
        rw [List.getElem?_eq_none (by omega)] at ht0; simp at ht0
      -- the index assignment
      unfold indexPut at ht'
      simp only [Option.bind_eq_bind, Option.bind_eq_some_iff, Option.pure_def] at ht'
      obtain ⟨ps, hps, ht'⟩ := ht'
      split_ifs at ht' with hlv
      simp only [Option.some.injEq] at ht'
      have hF := mapM_forall₂ hps
      have hpl : ps.length = idx.length := hF.length_eq.symm
      have hget : ∀ k (hk : k < idx.length) (hk' : k < ps.length), pos t0.length (idx[k]) = some (ps[k]) := by
        intro k hk hk'
        exact (List.forall₂_iff_get.mp hF).2 k hk hk'
      have hnd0 := hdup o0 idx vals s (by rw [hH]; simp)
      have hmod : idx.map (fun i => i % (n o0 : ℤ)) = ps.map fun p : ℕ => (p : ℤ) := by
        apply List.ext_getElem
        · simp [hpl]
        · intro k h1 h2
          simp only [List.length_map] at h1 h2
          simp only [List.getElem_map]
          have := (pos_spec (hget k h1 h2)).2.2
          rw [htl] at this; exact this
      rw [hmod] at hnd0
      have hpnd : ps.Nodup := hnd0.of_map _
      have hzfst : (ps.zip vals).map Prod.fst = ps := by
        rw [List.map_fst_zip]; omega
      have hsnd : ((s.run (ps.zip vals)).map Prod.fst).Nodup := by
        rw [((s.perm (ps.zip vals)).map Prod.fst).nodup_iff, hzfst]; exact hpnd
      have ht'len : t'.length = n o0 := by rw [← ht', foldl_set_length, htl]
      have ht'val : ∀ i < n o0, t'[i]? = match (idx.zip vals).find? (fun iv => iv.1 = (i : ℤ) ∨ iv.1 + n o0 = (i : ℤ)) with
          | some iv => some iv.2
          | none => t0[i]? := by
        intro i hi
        rw [← ht']
        cases hf : (idx.zip vals).find? (fun iv => iv.1 = (i : ℤ) ∨ iv.1 + n o0 = (i : ℤ)) with
        | some iv =>
          have hmem := List.mem_of_find?_eq_some hf
          have hp := List.find?_some hf
          simp only [decide_eq_true_eq] at hp
          obtain ⟨k, hk, hke⟩ := List.getElem_of_mem hmem
          have hk1 : k < idx.length := by simp at hk; omega
          have hk2 : k < vals.length := by simp at hk; omega
          have hk3 : k < ps.length := by omega
          rw [List.getElem_zip] at hke
          have e1 : idx[k] = iv.1 := by rw [← hke]
          have e2 : vals[k] = iv.2 := by rw [← hke]
          have hpk : ps[k] = i := by
            have h1 := hget k hk1 hk3
            rw [e1, pos_of_match (p := i) (by omega) (by rw [htl]; exact hp)] at h1
            simpa using h1.symm
          apply foldl_set_touched i iv.2 _ hsnd
          · rw [(s.perm _).mem_iff]
            have : (ps.zip vals)[k]'(by simp; omega) = (i, iv.2) := by
              rw [List.getElem_zip, hpk, e2]
            rw [← this]; exact List.getElem_mem _
          · omega
        | none =>
          simp only
          apply foldl_set_untouched
          intro wv hwv
          rw [(s.perm _).mem_iff] at hwv
          obtain ⟨k, hk, hke⟩ := List.getElem_of_mem hwv
          have hk1 : k < idx.length := by simp at hk; omega
          have hk2 : k < vals.length := by simp at hk; omega
          have hk3 : k < ps.length := by omega
          rw [List.getElem_zip] at hke
          have e1 : ps[k] = wv.1 := by rw [← hke]
          intro hc
          have hn := List.find?_eq_none.mp hf (idx[k], vals[k]) (by
            have : (idx.zip vals)[k]'(by simp; omega) = (idx[k], vals[k]) := List.getElem_zip
            rw [← this]; exact List.getElem_mem _)
          apply hn
          simp only [decide_eq_true_eq]
          have := (pos_spec (hget k hk1 hk3)).2.1
          rw [e1, hc, htl] at this
          exact this
      refine ⟨?_, ?_, I.inj, ?_, ?_⟩
      · intro a ha hn
        rw [hh] at hn
        have hne : a0 ≠ a := by rintro rfl; exact hn (I.used o0 a0 ho0)
        simp only [List.length_set] at ha
        show (w0.heap.set a0 t')[a]? = _
        rw [List.getElem?_set_ne hne]
        exact I.fresh a ha hn
      · intro o a ho; rw [hh]; exact I.used o a ho
      · intro o a ho
        by_cases hoo : o0 = o
        · subst hoo
          have : a = a0 := by
            have h1 : w0.obj o0 = some a := ho
            rw [ho0] at h1; simpa using h1.symm
          subst this
          refine ⟨t', by simp [hal], ht'len, fun i hi => ?_⟩
          rw [hrev, ht'val i hi]
          simp only [lastWrite, if_true]
          cases hf : (idx.zip vals).find? (fun iv => iv.1 = (i : ℤ) ∨ iv.1 + n o0 = (i : ℤ)) with
          | some iv => rfl
          | none => exact htv i hi
        · obtain ⟨t1, h1, h2, h3⟩ := I.val o a ho
          have hne : a0 ≠ a := by
            rintro rfl
            exact hoo (I.inj _ _ _ ho0 ho)
          refine ⟨t1, ?_, h2, fun i hi => ?_⟩
          · show (w0.heap.set a0 t')[a]? = _
            rw [List.getElem?_set_ne hne]; exact h1
          · rw [hrev]
            simp only [lastWrite]
            rw [if_neg hoo]; exact h3 i hi
      · intro o ho i
        rw [hrev]
        have hoo : o0 ≠ o := by
          rintro rfl
          have h1 : w0.obj o0 = none := ho
          rw [ho0] at h1; simp at h1
        simp only [lastWrite]
        rw [if_neg hoo]; exact I.unset o ho i

/-- C42 (each tensor handed to at most one setter, see `C42_aliasing_fails`; no duplicated index inside
one call, see `C42_duplicate_index`): after any history of tensor creations and setter calls on any number
of objects that raises nowhere, reading any list of indices of an object that has been set returns, for
every index (negative ones counted from the end), the value most recently written to that pattern of that
object. -/
theorem C42_read_your_writes_partial {α : Type} (n : ℕ → ℕ) (hist : List (Op α)) (w : World α)
    (hrun : World.runOps n hist = some w) (hlin : (handed hist).Nodup)
    (hdup : NoDuplicateIndex n hist) (o : ℕ) (ho : w.obj o ≠ none) (idx : List ℕ)
    (hidx : ∀ i ∈ idx, i < n o) :
    ∃ vals, w.get o (idx.map fun i : ℕ => (i : ℤ)) = some vals ∧
      w.get o (idx.map fun i : ℕ => (i : ℤ) - n o) = some vals ∧
      vals.map some = idx.map fun i => lastWrite (allocated hist) (n o) o i hist.reverse := by
  have I := storeInv n hist hlin hdup hist [] (by simp) w hrun
  obtain ⟨a, ha⟩ := Option.ne_none_iff_exists'.mp ho
  obtain ⟨t, h1, h2, h3⟩ := I.val o a ha
  have key : ∀ (f : ℕ → ℤ), (∀ i < n o, f i = i ∨ f i + n o = i) →
      ∃ vals, w.get o (idx.map f) = some vals ∧
      vals.map some = idx.map fun i => lastWrite (allocated hist) (n o) o i hist.reverse := by
    intro f hf
    unfold World.get
    rw [ha]
    simp only [Option.bind_eq_bind, Option.bind_some]
    rw [h1]
    simp only [Option.bind_some]
    clear ha h1 hrun
    induction idx with
    | nil => exact ⟨[], rfl, rfl⟩
    | cons i r ih =>
      obtain ⟨vs, hv1, hv2⟩ := ih fun j hj => hidx j (by simp [hj])
      have hi := hidx i (by simp)
      have hp : pos t.length (f i) = some i := pos_of_match (by omega) (by rw [h2]; exact hf i hi)
      have hg : t[i]? = some (t[i]'(by omega)) := List.getElem?_eq_getElem _
      refine ⟨t[i]'(by omega) :: vs, ?_, ?_⟩
      · rw [List.map_cons, List.mapM_cons, hv1, hp]
        simp only [Option.bind_eq_bind, Option.bind_some, hg]
        rfl
      · rw [List.map_cons, List.map_cons, hv2, ← h3 i hi, hg]
  obtain ⟨v1, e1, e1'⟩ := key (fun i => (i : ℤ)) fun i _ => Or.inl rfl
  obtain ⟨v2, e2, e2'⟩ := key (fun i => (i : ℤ) - n o) fun i _ => Or.inr (by ring)
  have : v1 = v2 := by
    have h := e1'.trans e2'.symm
    exact List.map_injective_iff.mpr (Option.some_injective _) h
  subst this
  exact ⟨v1, e1, e2, e1'⟩

/-- C42, duplicated indices in one call: the position holds one of the values given for it, and a
position not mentioned keeps its value, whatever order the writes are done in. -/
theorem C42_duplicate_index {α : Type} (sched : Sched) (x x' : List α) (idx : List ℕ) (vals : List α)
    (h : indexPut sched x (idx.map fun i : ℕ => (i : ℤ)) vals = some x') (i : ℕ) (hi : i < x.length) :
    (i ∈ idx → ∃ (k : ℕ) (v : α), idx[k]? = some i ∧ vals[k]? = some v ∧ x'[i]? = some v) ∧
    (i ∉ idx → x'[i]? = x[i]?) := by
  unfold indexPut at h
  simp only [Option.bind_eq_bind, Option.bind_eq_some_iff, Option.pure_def] at h
  obtain ⟨ps, hps, h⟩ := h
  split_ifs at h with hl
  simp only [Option.some.injEq] at h
  have hF := mapM_forall₂ hps
  have hps' : ps = idx := by
    apply List.ext_getElem
    · rw [← hF.length_eq]; simp
    · intro k h1 h2
      have := (List.forall₂_iff_get.mp hF).2 k (by simpa using h2) h1
      have := (pos_spec this)
      simp at this
      omega
  subst hps'
  simp only [List.length_map] at hl
  constructor
  · intro hm
    obtain ⟨k, hk, hke⟩ := List.getElem_of_mem hm
    have hmem : (i, vals[k]'(by omega)) ∈ sched.run (ps.zip vals) := by
      rw [(sched.perm _).mem_iff]
      have : (ps.zip vals)[k]'(by simp; omega) = (i, vals[k]'(by omega)) := by
        rw [List.getElem_zip, hke]
      rw [← this]; exact List.getElem_mem _
    obtain ⟨v, hv, he⟩ := foldl_set_some i _ x hi ⟨_, hmem, rfl⟩
    rw [(sched.perm _).mem_iff] at hv
    obtain ⟨k', hk', hke'⟩ := List.getElem_of_mem hv
    rw [List.getElem_zip] at hke'
    have e1 : ps[k']'(by simp at hk'; omega) = i := by simpa using congrArg Prod.fst hke'
    have e2 : vals[k']'(by simp at hk'; omega) = v := by simpa using congrArg Prod.snd hke'
    refine ⟨k', v, ?_, ?_, by rw [← h]; exact he⟩
    · rw [List.getElem?_eq_getElem (by simp at hk'; omega), e1]
    · rw [List.getElem?_eq_getElem (by simp at hk'; omega), e2]
  · intro hn
    rw [← h]
    apply foldl_set_untouched
    intro wv hwv hc
    rw [(sched.perm _).mem_iff] at hwv
    exact hn (hc ▸ (List.of_mem_zip hwv).1)

/-- The write order "as given". -/
def Sched.id : Sched := ⟨fun l => l, fun _ => List.Perm.refl _⟩

/-- C42 fails under aliasing: one orientation tensor handed to two objects, then an indexed update of the
first object, silently changes the second one. -/
theorem C42_aliasing_fails {α : Type} (a b : α) (hab : a ≠ b) :
    let hist : List (Op α) := [.alloc [a], .setAll 0 0, .setAll 1 0, .setAt 0 [0] [b] Sched.id]
    ∃ w, World.runOps (fun _ => 1) hist = some w ∧
      w.get 1 [0] = some [b] ∧ lastWrite (allocated hist) 1 1 0 hist.reverse = some a ∧
      (some b : Option α) ≠ some a := by
  refine ⟨⟨[[b]], fun o => if o = 1 then some 0 else if o = 0 then some 0 else none⟩, ?_, ?_, ?_, ?_⟩
  · rfl
  · rfl
  · rfl
  · intro h; exact hab (Option.some.inj h).symm

/-! Non-vacuity of `C42_read_your_writes_partial`: two objects, two tensors, an indexed overwrite with a
negative index. -/
example : ∃ w, World.runOps (fun _ => 2)
    [Op.alloc [(1 : ℕ), 2], .alloc [3, 4], .setAll 0 0, .setAll 1 1, .setAt 0 [-1] [7] Sched.id] = some w ∧
    w.get 0 [0, 1] = some [1, 7] ∧ w.get 1 [0, 1] = some [3, 4] := by
  exact ⟨_, rfl, rfl, rfl⟩
example : (handed [Op.alloc [(1 : ℕ), 2], .alloc [3, 4], .setAll 0 0, .setAll 1 1,
    .setAt 0 [-1] [7] Sched.id]).Nodup := by decide
example : NoDuplicateIndex (fun _ => 2) [Op.alloc [(1 : ℕ), 2], .alloc [3, 4], .setAll 0 0, .setAll 1 1,
    .setAt 0 [-1] [7] Sched.id] := by
  intro o idx vals s h
  simp at h
  obtain ⟨rfl, rfl, rfl, rfl⟩ := h
  decide

/-- C42: an indexed assignment to an attribute that holds a tensor `t` succeeds exactly when there is one value per
index and every index addresses a row of `t` (negative ones from the end); otherwise it raises. -/
theorem C42_set_at_raises_iff {α : Type} (n : ℕ → ℕ) (w : World α) (o addr : ℕ) (t : List α)
    (hobj : w.obj o = some addr) (ht : w.heap[addr]? = some t) (idx : List ℤ) (vals : List α) (sched : Sched) :
    (w.step n (.setAt o idx vals sched)).isSome ↔
      idx.length = vals.length ∧ ∀ i ∈ idx, -(t.length : ℤ) ≤ i ∧ i < t.length := by
  have hpos : (∃ ps, idx.mapM (pos t.length) = some ps) ↔ ∀ i ∈ idx, -(t.length : ℤ) ≤ i ∧ i < t.length := by
    constructor
    · rintro ⟨ps, hps⟩ i hi
      have h := mapM_forall₂ hps
      obtain ⟨k, hk, rfl⟩ := List.getElem_of_mem hi
      have h2 := (List.forall₂_iff_get.mp h).2 k hk (by rw [← h.length_eq]; exact hk)
      simp only [List.get_eq_getElem] at h2
      unfold pos at h2
      split_ifs at h2 with h3 h4
      · omega
      · omega
    · intro h
      refine ⟨idx.map fun i : ℤ => if 0 ≤ i then i.toNat else (i + t.length).toNat, ?_⟩
      apply mapM_of_forall₂
      rw [List.forall₂_map_right_iff, List.forall₂_same]
      intro i hi
      have := h i hi
      unfold pos
      by_cases h0 : 0 ≤ i
      · rw [if_pos ⟨h0, this.2⟩, if_pos h0]
      · rw [if_neg (by omega), if_pos ⟨this.1, by omega⟩, if_neg h0]
  rw [← hpos]
  simp only [World.step, hobj, ht, indexPut]
  cases hm : idx.mapM (pos t.length) with
  | none => simp
  | some ps =>
    by_cases hl : idx.length = vals.length
    · simp [hl]
    · simp [hl]

/-- C42: the assignment of a whole tensor succeeds exactly when it has one row per pattern; an indexed assignment to
an attribute that was never set raises. -/
theorem C42_set_all_raises_iff {α : Type} (n : ℕ → ℕ) (w : World α) (o addr : ℕ) :
    ((w.step n (.setAll o addr)).isSome ↔ ∃ t, w.heap[addr]? = some t ∧ t.length = n o) ∧
    (w.obj o = none → ∀ idx vals sched, w.step n (.setAt o idx vals sched) = none) := by
  constructor
  · simp only [World.step]
    cases h : w.heap[addr]? with
    | none => simp
    | some t => by_cases hl : t.length = n o <;> simp [hl]
  · intro h idx vals sched
    simp [World.step, h]

example : ((⟨[[(1 : ℕ), 2]], fun _ => some 0⟩ : World ℕ).step (fun _ => 2) (.setAt 0 [-2] [5] Sched.id)).isSome ∧
    (⟨[[(1 : ℕ), 2]], fun _ => some 0⟩ : World ℕ).step (fun _ => 2) (.setAt 0 [-3] [5] Sched.id) = none := by
  constructor
  · rw [C42_set_at_raises_iff _ _ 0 0 [1, 2] rfl rfl]; simp
  · rw [← Option.not_isSome_iff_eq_none, C42_set_at_raises_iff _ _ 0 0 [1, 2] rfl rfl]; simp

/-! ### C43 -/

/-- `p`'s entry is at least as good as every candidate. -/
theorem combine_fold {O : Type} (higher : Bool) (cands : List (ℕ × O × EReal)) :
    ∀ best : EReal × ℤ × O,
    let r := cands.foldl (combineStep higher) best
    (r = best ∨ ∃ c ∈ cands, r = (c.2.2, (c.1 : ℤ), c.2.1)) ∧
    (if higher = true then best.1 ≤ r.1 ∧ ∀ c ∈ cands, c.2.2 ≤ r.1
      else r.1 ≤ best.1 ∧ ∀ c ∈ cands, r.1 ≤ c.2.2) := by
  induction cands with
  | nil => intro best; cases higher <;> simp
  | cons c t ih =>
    intro best
    simp only [List.foldl_cons]
    obtain ⟨h1, h2⟩ := ih (combineStep higher best c)
    constructor
    · rcases h1 with h1 | ⟨d, hd, h1⟩
      · rw [h1]
        unfold combineStep
        split_ifs
        · right; exact ⟨c, by simp, rfl⟩
        · left; rfl
        · right; exact ⟨c, by simp, rfl⟩
        · left; rfl
      · right; exact ⟨d, by simp [hd], h1⟩
    · cases higher
      · simp only [Bool.false_eq_true, if_false] at h2 ⊢
        have hs : (combineStep false best c).1 ≤ best.1 ∧ (combineStep false best c).1 ≤ c.2.2 := by
          unfold combineStep
          simp only [Bool.false_eq_true, if_false]
          split_ifs with h
          · exact ⟨h.le, le_refl _⟩
          · exact ⟨le_refl _, not_lt.mp h⟩
        refine ⟨h2.1.trans hs.1, ?_⟩
        intro d hd
        rcases List.mem_cons.mp hd with rfl | hd
        · exact h2.1.trans hs.2
        · exact h2.2 d hd
      · simp only [if_true] at h2 ⊢
        have hs : best.1 ≤ (combineStep true best c).1 ∧ c.2.2 ≤ (combineStep true best c).1 := by
          unfold combineStep
          simp only [if_true]
          split_ifs with h
          · exact ⟨h.le, le_refl _⟩
          · exact ⟨le_refl _, not_lt.mp h⟩
        refine ⟨hs.1.trans h2.1, ?_⟩
        intro d hd
        rcases List.mem_cons.mp hd with rfl | hd
        · exact hs.2.trans h2.1
        · exact h2.2 d hd

/-- C43, the comparison loop alone (the call itself raises before reaching it, see
`C43_multi_phase_fails`): for any number of phases with finite metrics, in any insertion order, the
result is the phase and orientation of a candidate with the best metric. -/
theorem C43_loop_partial {O : Type} (higher : Bool) (zero : O) (cands : List (ℕ × O × EReal))
    (hne : cands ≠ []) (hfin : ∀ c ∈ cands, c.2.2 ≠ ⊥ ∧ c.2.2 ≠ ⊤) :
    ∃ c ∈ cands, combineLoop higher zero cands = (c.2.2, (c.1 : ℤ), c.2.1) ∧
      ∀ c' ∈ cands, if higher = true then c'.2.2 ≤ c.2.2 else c.2.2 ≤ c'.2.2 := by
  obtain ⟨h1, h2⟩ := combine_fold higher cands ((if higher = true then ⊥ else ⊤), -1, zero)
  unfold combineLoop
  rcases h1 with h1 | ⟨c, hc, h1⟩
  · exfalso
    obtain ⟨c, hc⟩ := List.exists_mem_of_ne_nil _ hne
    rw [h1] at h2
    cases higher
    · simp only [Bool.false_eq_true, if_false] at h2
      exact (hfin c hc).2 (top_le_iff.mp (h2.2 c hc))
    · simp only [if_true] at h2
      exact (hfin c hc).1 (le_bot_iff.mp (h2.2 c hc))
  · refine ⟨c, hc, h1, ?_⟩
    rw [h1] at h2
    cases higher
    · simp only [Bool.false_eq_true, if_false] at h2 ⊢; exact h2.2
    · simp only [if_true] at h2 ⊢; exact h2.2

/-- C43, one phase stored under id 0: every pattern gets the first (best) stored match. -/
theorem C43_single_phase_partial {O : Type} (r : List (List (O × EReal))) (hr : ∀ ms ∈ r, ms ≠ []) :
    ∃ out, combineResults (setRaw [] 0 r) = some out ∧
      List.Forall₂ (fun ms res => ∃ m, ms.head? = some m ∧ res = (0, m.1, m.2)) r out := by
  have : setRaw ([] : RawResults O) 0 r = [(0, r)] := by simp [setRaw]
  rw [this]
  unfold combineResults
  simp only [if_true]
  induction r with
  | nil => exact ⟨[], rfl, .nil⟩
  | cons ms t ih =>
    obtain ⟨out, ho, hF⟩ := ih (fun m hm => hr m (by simp [hm])) (by simp [setRaw])
    obtain ⟨m, ms', rfl⟩ := List.exists_cons_of_ne_nil (hr ms (by simp))
    refine ⟨(0, m.1, m.2) :: out, ?_, .cons ⟨m, rfl, rfl⟩ hF⟩
    rw [List.mapM_cons, ho]; rfl

/-- C43 fails: with results of two or more distinct phases the call always raises, and with a single phase
whose id is not 0 it raises too. -/
theorem C43_multi_phase_fails {O : Type} (p q : ℕ) (hpq : p ≠ q) (rs : List (ℕ × List (List (O × EReal))))
    (hp : p ∈ rs.map Prod.fst) (hq : q ∈ rs.map Prod.fst) :
    combineResults (rs.foldl (fun d e => setRaw d e.1 e.2) []) = none := by
  have key : ∀ (rs : List (ℕ × List (List (O × EReal)))) (d : RawResults O) (x : ℕ),
      x ∈ (rs.foldl (fun d e => setRaw d e.1 e.2) d).map Prod.fst ↔ x ∈ d.map Prod.fst ∨ x ∈ rs.map Prod.fst := by
    intro rs
    induction rs with
    | nil => intro d x; simp
    | cons e t ih =>
      intro d x
      rw [List.foldl_cons, ih]
      have hk : x ∈ (setRaw d e.1 e.2).map Prod.fst ↔ x ∈ d.map Prod.fst ∨ x = e.1 := by
        unfold setRaw
        split_ifs with h
        · have hm : (d.map fun f => if (f.1 == e.1) = true then (e.1, e.2) else f).map Prod.fst = d.map Prod.fst := by
            rw [List.map_map]
            apply List.map_congr_left
            intro f _
            simp only [Function.comp]
            split_ifs with hf
            · simpa using (beq_iff_eq.mp hf).symm
            · rfl
          rw [hm]
          constructor
          · intro hx; exact Or.inl hx
          · rintro (hx | rfl)
            · exact hx
            · rw [List.any_eq_true] at h
              obtain ⟨f, hf, hfe⟩ := h
              rw [← beq_iff_eq.mp hfe]
              exact List.mem_map_of_mem hf
        · simp
      rw [hk, List.map_cons, List.mem_cons, or_assoc]
  have h1 := (key rs [] p).mpr (Or.inr hp)
  have h2 := (key rs [] q).mpr (Or.inr hq)
  revert h1 h2
  generalize rs.foldl (fun d e => setRaw d e.1 e.2) [] = d
  intro h1 h2
  match d, h1, h2 with
  | [], h1, _ => simp at h1
  | [(x, r)], h1, h2 =>
    simp at h1 h2
    exact absurd (h1.trans h2.symm) hpq
  | _ :: _ :: _, _, _ => rfl

/-- C43 fails: a single phase whose id is not 0 (as set by the caller) makes the call raise. -/
theorem C43_nonzero_phase_fails {O : Type} (p : ℕ) (hp : p ≠ 0) (r : List (List (O × EReal))) :
    combineResults (setRaw [] p r) = none := by
  simp [setRaw, combineResults, hp]

/-! Non-vacuity: two phases, the second one better. -/
example : combineLoop true 'z' [(0, 'a', ((1 : ℝ) : EReal)), (1, 'b', ((2 : ℝ) : EReal))] =
    (((2 : ℝ) : EReal), 1, 'b') := by
  have h : ((1 : ℝ) : EReal) < ((2 : ℝ) : EReal) := by exact_mod_cast (by norm_num : (1 : ℝ) < 2)
  have h0 : (⊥ : EReal) < ((1 : ℝ) : EReal) := EReal.bot_lt_coe 1
  unfold combineLoop
  simp only [List.foldl_cons, List.foldl_nil, combineStep, if_true, if_pos h0, if_pos h]
  rfl
example : ∀ c ∈ [(0, 'a', ((1 : ℝ) : EReal)), (1, 'b', ((2 : ℝ) : EReal))], c.2.2 ≠ ⊥ ∧ c.2.2 ≠ ⊤ := by
  intro c hc
  simp only [List.mem_cons, List.not_mem_nil, or_false] at hc
  rcases hc with rfl | rfl
  · exact ⟨EReal.coe_ne_bot 1, EReal.coe_ne_top 1⟩
  · exact ⟨EReal.coe_ne_bot 2, EReal.coe_ne_top 2⟩

end Verif
