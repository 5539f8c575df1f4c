import Verif.Model.Fitting
import Verif.Spec.PatternCentre
import Verif.Lemmas.Fft
import Verif.Lemmas.Fz
import Mathlib.Tactic
/-! Lemmas for the pattern-centre search. -/
namespace Verif.Fit
open Verif.Blur Verif.Fft Verif.Spec

theorem foldl_max_mem {α : Type} (f : α → ℝ) (l : List α) (a : ℝ) :
    l.foldl (fun m q => max m (f q)) a = a ∨ ∃ q ∈ l, l.foldl (fun m q => max m (f q)) a = f q := by
  induction l generalizing a with
  | nil => left; rfl
  | cons x xs ih =>
    simp only [List.foldl_cons]
    rcases ih (max a (f x)) with h | ⟨q, hq, h⟩
    · rw [h]
      rcases le_total a (f x) with h1 | h1
      · right; exact ⟨x, by simp, by rw [max_eq_right h1]⟩
      · left; exact max_eq_left h1
    · right; exact ⟨q, by simp [hq], h⟩

theorem foldl_max_ge {α : Type} (f : α → ℝ) (l : List α) (a : ℝ) :
    a ≤ l.foldl (fun m q => max m (f q)) a ∧ ∀ q ∈ l, f q ≤ l.foldl (fun m q => max m (f q)) a := by
  induction l generalizing a with
  | nil => simp
  | cons x xs ih =>
    simp only [List.foldl_cons]
    obtain ⟨h1, h2⟩ := ih (max a (f x))
    refine ⟨(le_max_left _ _).trans h1, ?_⟩
    intro q hq
    rcases List.mem_cons.mp hq with rfl | hq
    · exact (le_max_right _ _).trans h1
    · exact h2 q hq

theorem foldl_max_eq {α : Type} (f : α → ℝ) (l : List α) (a m : ℝ) (h1 : a ≤ m) (h2 : ∀ q ∈ l, f q ≤ m)
    (h3 : m = a ∨ ∃ q ∈ l, m = f q) : l.foldl (fun m q => max m (f q)) a = m := by
  obtain ⟨g1, g2⟩ := foldl_max_ge f l a
  apply le_antisymm
  · rcases foldl_max_mem f l a with h | ⟨q, hq, h⟩
    · rw [h]; exact h1
    · rw [h]; exact h2 q hq
  · rcases h3 with rfl | ⟨q, hq, rfl⟩
    · exact g1
    · exact g2 q hq

theorem rowMax_some {l : List ℝ} (h : l ≠ []) : ∃ m, rowMax l = some m ∧ m ∈ l ∧ (∀ y ∈ l, y ≤ m) ∧ l[argmaxFirst l]? = some m := by
  have hlt := argmaxFirst_lt h
  refine ⟨l[argmaxFirst l], ?_, List.getElem_mem hlt, argmaxFirst_max hlt, ?_⟩
  · unfold rowMax; exact List.getElem?_eq_getElem hlt
  · exact List.getElem?_eq_getElem hlt

/-- One batch updates the running best by the maximum over the batch. -/
theorem batchStep_best {α : Type} (f : α → ℕ → ℕ → ℝ) (c : List α) (hc : c ≠ [])
    (st : (ℕ → ℕ → ℝ) × (ℕ → ℕ → ℕ)) (y x : ℕ) :
    (batchStep st (c.map f)).1 y x = c.foldl (fun m q => max m (f q y x)) (st.1 y x) := by
  unfold batchStep
  simp only [List.map_map]
  obtain ⟨m, hm, hmem, hmax, -⟩ := rowMax_some (l := c.map ((fun s : ℕ → ℕ → ℝ => s y x) ∘ f)) (by simpa using hc)
  rw [hm, Option.getD_some]
  symm
  apply foldl_max_eq (fun q => f q y x)
  · exact le_max_left _ _
  · intro q hq
    exact (hmax _ (List.mem_map.mpr ⟨q, hq, rfl⟩)).trans (le_max_right _ _)
  · rcases le_total (st.1 y x) m with h | h
    · right
      obtain ⟨q, hq, e⟩ := List.mem_map.mp hmem
      exact ⟨q, hq, by rw [max_eq_right h, ← e]; rfl⟩
    · left; exact max_eq_left h

theorem torchSplit_ne {α : Type} (c : ℕ) (l : List α) (h : l ≠ []) : ∀ b ∈ torchSplit c l, b ≠ [] := by
  induction l using torchSplit.induct c with
  | case1 l hl ih =>
    rw [torchSplit, if_pos hl]
    intro b hb
    rcases List.mem_cons.mp hb with rfl | hb
    · intro he
      have := congrArg List.length he
      simp at this
      rcases this with h0 | h0
      · omega
      · exact h h0
    · refine ih ?_ b hb
      intro he
      have := congrArg List.length he
      simp at this
      omega
  | case2 l hl =>
    rw [torchSplit, if_neg hl]
    intro b hb
    rw [List.mem_singleton] at hb; rw [hb]; exact h

theorem torchSplit_le {α : Type} (c : ℕ) (hc : 0 < c) (l : List α) : ∀ b ∈ torchSplit c l, b.length ≤ c := by
  induction l using torchSplit.induct c with
  | case1 l hl ih =>
    rw [torchSplit, if_pos hl]
    intro b hb
    rcases List.mem_cons.mp hb with rfl | hb
    · simp
    · exact ih b hb
  | case2 l hl =>
    rw [torchSplit, if_neg hl]
    intro b hb
    rw [List.mem_singleton] at hb; subst hb; omega

theorem torchSplit_cat {α : Type} (c : ℕ) (l : List α) : (torchSplit c l).flatten = l := by
  induction l using torchSplit.induct c with
  | case1 l h ih => rw [torchSplit, if_pos h, List.flatten_cons, ih, List.take_append_drop]
  | case2 l h => rw [torchSplit, if_neg h]; simp

theorem batches_best {α : Type} (f : α → ℕ → ℕ → ℝ) (L : List (List α)) (hL : ∀ c ∈ L, c ≠ [])
    (st : (ℕ → ℕ → ℝ) × (ℕ → ℕ → ℕ)) (y x : ℕ) :
    (L.foldl (fun st c => batchStep st (c.map f)) st).1 y x
      = L.flatten.foldl (fun m q => max m (f q y x)) (st.1 y x) := by
  induction L generalizing st with
  | nil => rfl
  | cons c cs ih =>
    rw [List.foldl_cons, ih (fun d hd => hL d (by simp [hd])), List.flatten_cons, List.foldl_append,
      batchStep_best f c (hL c (by simp))]

theorem batches_index {α : Type} (f : α → ℕ → ℕ → ℝ) (b : ℕ) (L : List (List α)) (hL : ∀ c ∈ L, c ≠ [] ∧ c.length ≤ b)
    (st : (ℕ → ℕ → ℝ) × (ℕ → ℕ → ℕ)) (y x : ℕ) (h0 : st.2 y x < b) :
    (L.foldl (fun st c => batchStep st (c.map f)) st).2 y x < b := by
  induction L generalizing st with
  | nil => exact h0
  | cons c cs ih =>
    rw [List.foldl_cons]
    apply ih (fun d hd => hL d (by simp [hd]))
    unfold batchStep
    simp only
    split_ifs
    · obtain ⟨h1, h2⟩ := hL c (by simp)
      have := argmaxFirst_lt (l := (c.map f).map fun s => s y x) (by simpa using h1)
      simp at this
      simp
      omega
    · exact h0

theorem mapM_some {α β : Type} (f : α → Option β) (g : α → β) (l : List α) (h : ∀ a ∈ l, f a = some (g a)) :
    l.mapM f = some (l.map g) := by
  induction l with
  | nil => rfl
  | cons a as ih =>
    rw [List.mapM_cons, h a (by simp), ih (fun b hb => h b (by simp [hb]))]
    rfl

theorem tables_fold (sims : List Img) (pat : Img) (batch : ℕ) (hb : 0 < batch) (f : Img → ℕ → ℕ → ℝ)
    (h : ∀ s ∈ sims, scoreMap s pat = some (f s)) :
    tables sims pat batch = some ((torchSplit batch sims).foldl (fun st c => batchStep st (c.map f))
      (fun _ _ => 0, fun _ _ => 0)) := by
  unfold tables
  rw [if_neg (by omega)]
  have hmem : ∀ c ∈ torchSplit batch sims, ∀ s ∈ c, s ∈ sims := by
    intro c hc s hs
    rw [← torchSplit_cat batch sims]
    exact List.mem_flatten.mpr ⟨c, hc, hs⟩
  have key : ∀ (L : List (List Img)) (st : (ℕ → ℕ → ℝ) × (ℕ → ℕ → ℕ)), (∀ c ∈ L, ∀ s ∈ c, s ∈ sims) →
      L.foldlM (fun st chunk => (chunk.mapM fun s => scoreMap s pat).map (batchStep st)) st
        = some (L.foldl (fun st c => batchStep st (c.map f)) st) := by
    intro L
    induction L with
    | nil => intro st _; rfl
    | cons c cs ih =>
      intro st hc
      rw [List.foldlM_cons, mapM_some _ f c (fun s hs => h s (hc c (by simp) s hs))]
      simp only [Option.map_some, Option.bind_eq_bind, Option.bind_some, List.foldl_cons]
      exact ih _ (fun d hd => hc d (by simp [hd]))
  exact key _ _ hmem

/-- The score maps of simulations of the right shape. -/
theorem scoreMap_eq (s p : Img) (h1 : p.h = s.h) (h2 : p.w = s.w) (hh : 0 < s.h) (hw : 0 < s.w) (he : s.w % 2 = 0) :
    ∃ c, scoreMap s p = some c ∧ ∀ y x, c y x = overlap s.h s.w s.px p.px (displacementAt s.h y) (displacementAt s.w x) := by
  obtain ⟨c, hc, g1, g2, g3⟩ := xcorr_eq s p h1 h2 hh hw he
  refine ⟨c.px, ?_, ?_⟩
  · unfold scoreMap
    rw [hc, Option.bind_some, if_pos ⟨g1, g2⟩]
  · intro y x
    rw [g3]; rfl

theorem scoreMap_odd (s p : Img) (h1 : p.h = s.h) (h2 : p.w = s.w) (hh : 0 < s.h) (ho : s.w % 2 = 1) :
    scoreMap s p = none := by
  obtain ⟨a, b⟩ := xcorr_odd s p h1 h2 hh ho
  unfold scoreMap
  by_cases h : s.w = 1
  · rw [a h]; rfl
  · obtain ⟨c, hc, -, g2⟩ := b (by omega)
    rw [hc, Option.bind_some, if_neg]
    omega

end Verif.Fit
