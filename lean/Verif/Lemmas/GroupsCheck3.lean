import Verif.Lemmas.GroupsCheck2
/-! Kernel evaluation of the space-group certificates, part 3: space groups 207 to 224, in chunks. -/
namespace Verif.SG

set_option maxRecDepth 1000000
set_option Elab.async false

private lemma chunk207 : ∀ k < 2, check (k + 207) = true := by decide +kernel
private lemma chunk209 : ∀ k < 1, check (k + 209) = true := by decide +kernel
private lemma chunk210 : ∀ k < 1, check (k + 210) = true := by decide +kernel
private lemma chunk211 : ∀ k < 3, check (k + 211) = true := by decide +kernel
private lemma chunk214 : ∀ k < 2, check (k + 214) = true := by decide +kernel
private lemma chunk216 : ∀ k < 1, check (k + 216) = true := by decide +kernel
private lemma chunk217 : ∀ k < 2, check (k + 217) = true := by decide +kernel
private lemma chunk219 : ∀ k < 1, check (k + 219) = true := by decide +kernel
private lemma chunk220 : ∀ k < 2, check (k + 220) = true := by decide +kernel
private lemma chunk222 : ∀ k < 2, check (k + 222) = true := by decide +kernel
private lemma chunk224 : ∀ k < 1, check (k + 224) = true := by decide +kernel

/-- The certificates of the space groups 207 to 224. -/
lemma check_part3 {sg : ℕ} (h1 : 207 ≤ sg) (h2 : sg ≤ 224) : check sg = true := by
  by_cases h : sg < 209
  · have := chunk207 (sg - 207) (by omega); rwa [Nat.sub_add_cancel (by omega)] at this
  by_cases h : sg < 210
  · have := chunk209 (sg - 209) (by omega); rwa [Nat.sub_add_cancel (by omega)] at this
  by_cases h : sg < 211
  · have := chunk210 (sg - 210) (by omega); rwa [Nat.sub_add_cancel (by omega)] at this
  by_cases h : sg < 214
  · have := chunk211 (sg - 211) (by omega); rwa [Nat.sub_add_cancel (by omega)] at this
  by_cases h : sg < 216
  · have := chunk214 (sg - 214) (by omega); rwa [Nat.sub_add_cancel (by omega)] at this
  by_cases h : sg < 217
  · have := chunk216 (sg - 216) (by omega); rwa [Nat.sub_add_cancel (by omega)] at this
  by_cases h : sg < 219
  · have := chunk217 (sg - 217) (by omega); rwa [Nat.sub_add_cancel (by omega)] at this
  by_cases h : sg < 220
  · have := chunk219 (sg - 219) (by omega); rwa [Nat.sub_add_cancel (by omega)] at this
  by_cases h : sg < 222
  · have := chunk220 (sg - 220) (by omega); rwa [Nat.sub_add_cancel (by omega)] at this
  by_cases h : sg < 224
  · have := chunk222 (sg - 222) (by omega); rwa [Nat.sub_add_cancel (by omega)] at this
  have := chunk224 (sg - 224) (by omega); rwa [Nat.sub_add_cancel (by omega)] at this

end Verif.SG
