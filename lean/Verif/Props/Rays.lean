import Verif.Model.Rays
import Verif.Props.Geometry
/-! C154: rays from the scan position (`average_pattern_center=False`). -/
namespace Verif.Rays
open Verif

/-! ### Specification -/

/-- The direction from the scan position `(s.1, s.2)` of the sample plane to the point `P`. -/
noncomputable def rayFrom (s : ℝ × ℝ) (P : V) : V :=
  ⟨(P.x - s.1) / √((P.x - s.1) ^ 2 + (P.y - s.2) ^ 2 + P.z ^ 2), (P.y - s.2) / √((P.x - s.1) ^ 2 + (P.y - s.2) ^ 2 + P.z ^ 2),
    P.z / √((P.x - s.1) ^ 2 + (P.y - s.2) ^ 2 + P.z ^ 2)⟩

/-- The rays of a pattern are right: one per detector pixel, from the scan position to that pixel. -/
def Right (coords : List V) (s : ℝ × ℝ) (rays : List V) : Prop := rays = coords.map (rayFrom s)

theorem unit_add (c : V) (a b : ℝ) : unit (V.add c ⟨a, b, 0⟩) = rayFrom (-a, -b) c := by
  simp only [unit, V.add, V.smul, rayFrom, sub_neg_eq_add, add_zero]
  refine V.ext ?_ ?_ ?_ <;> simp only <;> ring

/-- The rays agree with `project2sample` given the scan position. -/
theorem rayFrom_project (g : Geom) (px py : ℝ) (s : ℝ × ℝ) :
    rayFrom s (g.project2sample px py none) = unit (g.project2sample px py (some s)) := by
  simp only [unit, V.sub, V.smul, rayFrom, Geom.project2sample, sub_zero]
  refine V.ext ?_ ?_ ?_ <;> simp only <;> ring

theorem rayFrom_ne {P : V} (hz : P.z ≠ 0) {s t : ℝ × ℝ} (hn : s ≠ t) : rayFrom s P ≠ rayFrom t P := by
  intro h
  have h1 := congrArg V.x h
  have h2 := congrArg V.y h
  have h3 := congrArg V.z h
  simp only [rayFrom] at h1 h2 h3
  have hp : ∀ u : ℝ × ℝ, 0 < √((P.x - u.1) ^ 2 + (P.y - u.2) ^ 2 + P.z ^ 2) := fun u => Real.sqrt_pos.mpr (by positivity)
  have a := hp s
  have b := hp t
  generalize √((P.x - s.1) ^ 2 + (P.y - s.2) ^ 2 + P.z ^ 2) = A at *
  generalize √((P.x - t.1) ^ 2 + (P.y - t.2) ^ 2 + P.z ^ 2) = B at *
  have e : A = B := by
    rw [div_eq_div_iff a.ne' b.ne'] at h3
    exact (mul_left_cancel₀ hz h3).symm
  subst e
  rw [div_left_inj' a.ne'] at h1 h2
  exact hn (Prod.ext (by linarith) (by linarith))

/-! ### Grid refinement -/

/-- **C154 (partial)**, grid refinement: with the scan position of the pattern at the origin, or with the scan coordinates negated,
the rays are right.  Missing: see `C154_refine_fails`. -/
theorem C154_refine_partial (g : Geom) (bi bj : ℕ) (coords : List V) (hc : g.coordsSampleFrame bi bj = some coords)
    (scan : Mat) (rays : ℕ → List V) (h : refineRays coords scan = some rays) (p : ℕ) :
    Right coords (-scan.at_ p 0, -scan.at_ p 1) (rays p) ∧
      ∃ px, g.pixelCoords bi bj = some px ∧
        rays p = px.map fun q => unit (g.project2sample q.1 q.2 (some (-scan.at_ p 0, -scan.at_ p 1))) := by
  unfold refineRays at h
  by_cases hd : scan.cols ≠ 2
  · rw [if_pos hd] at h; simp at h
  · rw [if_neg hd] at h
    have h' := Option.some.inj h
    have r : rays p = coords.map (rayFrom (-scan.at_ p 0, -scan.at_ p 1)) := by
      rw [← h']
      simp only [unit_add]
    refine ⟨r, ?_⟩
    unfold Geom.coordsSampleFrame at hc
    obtain ⟨px, hpx, rfl⟩ := Option.map_eq_some_iff.mp hc
    refine ⟨px, hpx, ?_⟩
    rw [r, List.map_map]
    refine List.map_congr_left fun q _ => ?_
    exact rayFrom_project g q.1 q.2 _

/-- **C154 fails** in the grid refinement: the scan coordinates are added instead of subtracted, so that for every pattern away
from the origin and every detector with a pixel off the sample plane the rays are wrong. -/
theorem C154_refine_fails (coords : List V) (scan : Mat) (rays : ℕ → List V) (h : refineRays coords scan = some rays) (p : ℕ)
    (hs : (scan.at_ p 0, scan.at_ p 1) ≠ (0, 0)) (hP : ∃ P ∈ coords, P.z ≠ 0) :
    ¬ Right coords (scan.at_ p 0, scan.at_ p 1) (rays p) := by
  unfold refineRays at h
  by_cases hd : scan.cols ≠ 2
  · rw [if_pos hd] at h; simp at h
  · rw [if_neg hd] at h
    have h' := Option.some.inj h
    intro hr
    unfold Right at hr
    rw [← h'] at hr
    simp only [unit_add] at hr
    obtain ⟨P, hP, hz⟩ := hP
    have := List.map_inj_left.mp hr P hP
    refine rayFrom_ne hz (fun e => hs ?_) this
    have e1 := congrArg Prod.fst e
    have e2 := congrArg Prod.snd e
    simp only at e1 e2
    exact Prod.ext (by simp only; linarith) (by simp only; linarith)

/-- **C154 fails** in the gradient refinement, which ignores the scan coordinates. -/
theorem C154_gradient_fails (coords : List V) (scan : Mat) (p : ℕ)
    (hs : (scan.at_ p 0, scan.at_ p 1) ≠ (0, 0)) (hP : ∃ P ∈ coords, P.z ≠ 0) :
    ¬ Right coords (scan.at_ p 0, scan.at_ p 1) (gradRays coords scan p) := by
  intro hr
  unfold Right gradRays at hr
  obtain ⟨P, hP, hz⟩ := hP
  have h := List.map_inj_left.mp hr P hP
  have e : unit P = rayFrom (0, 0) P := by
    have := unit_add P 0 0
    rw [neg_zero] at this
    rw [← this]
    simp [V.add]
  rw [e] at h
  exact rayFrom_ne hz (fun e => hs e.symm) h

/-- **C154 (partial)**, gradient refinement: right for a pattern at the origin. -/
theorem C154_gradient_partial (coords : List V) (scan : Mat) (p : ℕ) (hs : (scan.at_ p 0, scan.at_ p 1) = (0, 0)) :
    Right coords (scan.at_ p 0, scan.at_ p 1) (gradRays coords scan p) := by
  rw [hs]
  unfold Right gradRays
  refine List.map_congr_left fun P _ => ?_
  have := unit_add P 0 0
  rw [neg_zero] at this
  rw [← this]
  simp [V.add]

/-! ### Dictionary indexing -/

/-- Row `i` of a tensor with three columns. -/
def rowV (m : Mat) (i : ℕ) : V := ⟨m.at_ i 0, m.at_ i 1, m.at_ i 2⟩

/-- **C154 (partial)**, indexing of a single pattern whose scan position is given with three coordinates, the third 0: the rays are
right. -/
theorem C154_index_partial (coords : List V) (scan : Mat) (h1 : scan.rows = 1) (h3 : scan.cols = 3) (hz : scan.at_ 0 2 = 0) :
    ∃ m, indexRays coords scan = some m ∧ m.rows = coords.length ∧ m.cols = 3 ∧
      Right coords (scan.at_ 0 0, scan.at_ 0 1) ((List.range coords.length).map (rowV m)) := by
  unfold indexRays Mat.sub ofCoords
  simp only [h1, h3, bcast, if_true]
  have hb : (if coords.length = 1 then some coords.length else if coords.length = 1 then some 1 else some coords.length) =
      some coords.length := by split_ifs <;> rfl
  rw [hb]
  simp only [Option.map_some, Option.bind_some]
  refine ⟨_, rfl, rfl, rfl, ?_⟩
  unfold Right
  apply List.ext_getElem (by simp)
  intro i hi hi'
  have hi2 : i < coords.length := by simpa using hi
  have hst : stretch coords.length i = i := by
    unfold stretch; split_ifs with h
    · omega
    · rfl
  have hg : coords.getD i ⟨0, 0, 0⟩ = coords[i] := by rw [List.getD_eq_getElem?_getD, List.getElem?_eq_getElem hi2]; rfl
  rw [List.getElem_map, List.getElem_map, List.getElem_range]
  have s3 : ∀ j, stretch 3 j = j := fun j => by simp [stretch]
  have s1 : stretch 1 i = 0 := by simp [stretch]
  simp only [rowV, Mat.normalize, hst, s1, s3, hg, Finset.sum_range_succ, Finset.sum_range_zero, zero_add]
  simp only [comp, rayFrom, hz]
  norm_num

/-- **C154 fails** in the indexing for scan positions given with two coordinates, as they are documented: the call raises, whatever
the detector and the number of patterns. -/
theorem C154_index_fails (coords : List V) (scan : Mat) (h2 : scan.cols = 2) : indexRays coords scan = none := by
  unfold indexRays Mat.sub ofCoords
  rw [h2]
  cases bcast coords.length scan.rows <;> simp [bcast]

/-- **C154 fails** in the indexing of several patterns: also with three coordinates the call raises, except when there are as many
patterns as detector pixels (or a single pixel). -/
theorem C154_index_count_fails (coords : List V) (scan : Mat) (h1 : scan.rows ≠ 1) (hp : coords.length ≠ 1)
    (hn : scan.rows ≠ coords.length) : indexRays coords scan = none := by
  unfold indexRays Mat.sub ofCoords
  simp [bcast, h1, hp, hn.symm]

/-- **C154 fails** in that case too: with as many patterns as pixels the ray to pixel `i` starts at the scan position of pattern
`i`, for every pattern. -/
theorem C154_index_square_fails (coords : List V) (scan : Mat) (h3 : scan.cols = 3) (hn : scan.rows = coords.length)
    (hz : ∀ i, scan.at_ i 2 = 0) :
    ∃ m, indexRays coords scan = some m ∧ ∀ i (hi : i < coords.length),
      rowV m i = rayFrom (scan.at_ i 0, scan.at_ i 1) coords[i] := by
  unfold indexRays Mat.sub ofCoords
  simp only [hn, h3, bcast, if_true, Option.bind_some, Option.map_some]
  refine ⟨_, rfl, fun i hi => ?_⟩
  have hst : stretch coords.length i = i := by
    unfold stretch; split_ifs with h
    · omega
    · rfl
  have hg : coords.getD i ⟨0, 0, 0⟩ = coords[i] := by rw [List.getD_eq_getElem?_getD, List.getElem?_eq_getElem hi]; rfl
  have s3 : ∀ j, stretch 3 j = j := fun j => by simp [stretch]
  simp only [rowV, Mat.normalize, hst, s3, hg, Finset.sum_range_succ, Finset.sum_range_zero, zero_add]
  simp only [comp, rayFrom, hz]
  norm_num

/-- **C154 fails** for a scan that is first indexed and then refined: no array of scan coordinates is accepted by both. -/
theorem C154_both_fails (coords : List V) (scan : Mat) : indexRays coords scan = none ∨ refineRays coords scan = none := by
  by_cases h : scan.cols = 2
  · exact Or.inl (C154_index_fails coords scan h)
  · right; unfold refineRays; rw [if_pos h]

/-! ### Non-vacuity -/

/-- A detector of two pixels at unit distance; one scan position. -/
def two : List V := [⟨0, 0, 1⟩, ⟨1, 0, 1⟩]

example : (∃ rays, refineRays two ⟨3, 2, fun i j => i + j⟩ = some rays ∧ ¬ Right two (1, 2) (rays 1)) ∧
    ¬ Right two (1, 2) (gradRays two ⟨3, 2, fun i j => i + j⟩ 1) ∧ Right two (0, 0) (gradRays two ⟨3, 2, fun _ _ => 0⟩ 1) := by
  have hP : ∃ P ∈ two, P.z ≠ 0 := ⟨⟨0, 0, 1⟩, by simp [two], by norm_num⟩
  refine ⟨⟨_, rfl, ?_⟩, ?_, ?_⟩
  · have := C154_refine_fails two ⟨3, 2, fun i j => i + j⟩ _ rfl 1 (by norm_num) hP
    convert this using 2
    norm_num
  · have := C154_gradient_fails two ⟨3, 2, fun i j => i + j⟩ 1 (by norm_num) hP
    convert this using 2
    norm_num
  · exact C154_gradient_partial two ⟨3, 2, fun _ _ => 0⟩ 1 rfl

example : (∃ m, indexRays two ⟨1, 3, fun _ j => if j = 0 then 5 else 0⟩ = some m ∧ Right two (5, 0) ((List.range 2).map (rowV m))) ∧
    indexRays two ⟨3, 3, fun _ _ => 0⟩ = none ∧ indexRays two ⟨2, 2, fun _ _ => 0⟩ = none ∧
    ∃ m, indexRays two ⟨2, 3, fun i j => if j = 0 then i else 0⟩ = some m ∧ rowV m 1 = rayFrom (1, 0) ⟨1, 0, 1⟩ := by
  refine ⟨?_, C154_index_count_fails two _ (by norm_num) (by simp [two]) (by simp [two]), C154_index_fails two _ rfl, ?_⟩
  · obtain ⟨m, h, -, -, hr⟩ := C154_index_partial two ⟨1, 3, fun _ j => if j = 0 then 5 else 0⟩ rfl rfl (by norm_num)
    exact ⟨m, h, by simpa [two] using hr⟩
  · obtain ⟨m, h, hr⟩ := C154_index_square_fails two ⟨2, 3, fun i j => if j = 0 then i else 0⟩ rfl rfl (by norm_num)
    exact ⟨m, h, by simpa [two] using hr 1 (by simp [two])⟩

/-- A detector of 2 by 2 pixels. -/
example : ∃ coords rays, (Geom.init 2 2 ⟨0, 0, 0⟩ ⟨0.5, 0.5, 0.5⟩ none (fun _ => false) fun _ => false).coordsSampleFrame 1 1 = some coords ∧
    refineRays coords ⟨2, 2, fun i j => i + j⟩ = some rays ∧ coords.length = 4 ∧ Right coords (-1, -2) (rays 1) := by
  have hc : ∃ coords, (Geom.init 2 2 ⟨0, 0, 0⟩ ⟨0.5, 0.5, 0.5⟩ none (fun _ => false) fun _ => false).coordsSampleFrame 1 1 = some coords ∧
      coords.length = 4 := by
    refine ⟨_, rfl, ?_⟩
    simp [Geom.init, axisCoords, linspace]
  obtain ⟨coords, hc, hl⟩ := hc
  refine ⟨coords, _, hc, rfl, hl, ?_⟩
  have := (C154_refine_partial _ 1 1 coords hc ⟨2, 2, fun i j => i + j⟩ _ rfl 1).1
  norm_num at this ⊢
  exact this

end Verif.Rays
