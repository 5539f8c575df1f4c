import Verif.Lemmas.GroupsCheck1
/-! Kernel evaluation of the space-group certificates, part 2: space groups 143 to 206, in chunks. -/
namespace Verif.SG

set_option maxRecDepth 1000000
set_option Elab.async false

private lemma chunk143 : ∀ k < 17, check (k + 143) = true := by decide +kernel
private lemma chunk160 : ∀ k < 7, check (k + 160) = true := by decide +kernel
private lemma chunk167 : ∀ k < 11, check (k + 167) = true := by decide +kernel
private lemma chunk178 : ∀ k < 10, check (k + 178) = true := by decide +kernel
private lemma chunk188 : ∀ k < 6, check (k + 188) = true := by decide +kernel
private lemma chunk194 : ∀ k < 5, check (k + 194) = true := by decide +kernel
private lemma chunk199 : ∀ k < 3, check (k + 199) = true := by decide +kernel
private lemma chunk202 : ∀ k < 1, check (k + 202) = true := by decide +kernel
private lemma chunk203 : ∀ k < 1, check (k + 203) = true := by decide +kernel
private lemma chunk204 : ∀ k < 3, check (k + 204) = true := by decide +kernel

/-- The certificates of the space groups 143 to 206. -/
lemma check_part2 {sg : ℕ} (h1 : 143 ≤ sg) (h2 : sg ≤ 206) : check sg = true := by
  by_cases h : sg < 160
  · have := chunk143 (sg - 143) (by omega); rwa [Nat.sub_add_cancel (by omega)] at this
  by_cases h : sg < 167
  · have := chunk160 (sg - 160) (by omega); rwa [Nat.sub_add_cancel (by omega)] at this
  by_cases h : sg < 178
  · have := chunk167 (sg - 167) (by omega); rwa [Nat.sub_add_cancel (by omega)] at this
  by_cases h : sg < 188
  · have := chunk178 (sg - 178) (by omega); rwa [Nat.sub_add_cancel (by omega)] at this
  by_cases h : sg < 194
  · have := chunk188 (sg - 188) (by omega); rwa [Nat.sub_add_cancel (by omega)] at this
  by_cases h : sg < 199
  · have := chunk194 (sg - 194) (by omega); rwa [Nat.sub_add_cancel (by omega)] at this
  by_cases h : sg < 202
  · have := chunk199 (sg - 199) (by omega); rwa [Nat.sub_add_cancel (by omega)] at this
  by_cases h : sg < 203
  · have := chunk202 (sg - 202) (by omega); rwa [Nat.sub_add_cancel (by omega)] at this
  by_cases h : sg < 204
  · have := chunk203 (sg - 203) (by omega); rwa [Nat.sub_add_cancel (by omega)] at this
  have := chunk204 (sg - 204) (by omega); rwa [Nat.sub_add_cancel (by omega)] at this

end Verif.SG
