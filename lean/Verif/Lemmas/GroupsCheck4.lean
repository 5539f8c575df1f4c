import Verif.Lemmas.GroupsCheck3
/-! Kernel evaluation of the space-group certificates, part 4: space groups 225 to 230, in chunks. -/
namespace Verif.SG

set_option maxRecDepth 1000000
set_option Elab.async false

private lemma chunk225 : ∀ k < 1, check (k + 225) = true := by decide +kernel
private lemma chunk226 : ∀ k < 1, check (k + 226) = true := by decide +kernel
private lemma chunk227 : ∀ k < 1, check (k + 227) = true := by decide +kernel
private lemma chunk228 : ∀ k < 1, check (k + 228) = true := by decide +kernel
private lemma chunk229 : ∀ k < 1, check (k + 229) = true := by decide +kernel
private lemma chunk230 : ∀ k < 1, check (k + 230) = true := by decide +kernel

/-- The certificates of the space groups 225 to 230. -/
lemma check_part4 {sg : ℕ} (h1 : 225 ≤ sg) (h2 : sg ≤ 230) : check sg = true := by
  by_cases h : sg < 226
  · have := chunk225 (sg - 225) (by omega); rwa [Nat.sub_add_cancel (by omega)] at this
  by_cases h : sg < 227
  · have := chunk226 (sg - 226) (by omega); rwa [Nat.sub_add_cancel (by omega)] at this
  by_cases h : sg < 228
  · have := chunk227 (sg - 227) (by omega); rwa [Nat.sub_add_cancel (by omega)] at this
  by_cases h : sg < 229
  · have := chunk228 (sg - 228) (by omega); rwa [Nat.sub_add_cancel (by omega)] at this
  by_cases h : sg < 230
  · have := chunk229 (sg - 229) (by omega); rwa [Nat.sub_add_cancel (by omega)] at this
  have := chunk230 (sg - 230) (by omega); rwa [Nat.sub_add_cancel (by omega)] at this

end Verif.SG
