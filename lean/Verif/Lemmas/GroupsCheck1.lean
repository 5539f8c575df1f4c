import Verif.Lemmas.Groups
/-! Kernel evaluation of the space-group certificates, part 1: space groups 1 to 142, in chunks. -/
namespace Verif.SG

set_option maxRecDepth 1000000
set_option Elab.async false

private lemma chunk1 : ∀ k < 24, check (k + 1) = true := by decide +kernel
private lemma chunk25 : ∀ k < 18, check (k + 25) = true := by decide +kernel
private lemma chunk43 : ∀ k < 14, check (k + 43) = true := by decide +kernel
private lemma chunk57 : ∀ k < 10, check (k + 57) = true := by decide +kernel
private lemma chunk67 : ∀ k < 5, check (k + 67) = true := by decide +kernel
private lemma chunk72 : ∀ k < 14, check (k + 72) = true := by decide +kernel
private lemma chunk86 : ∀ k < 12, check (k + 86) = true := by decide +kernel
private lemma chunk98 : ∀ k < 11, check (k + 98) = true := by decide +kernel
private lemma chunk109 : ∀ k < 11, check (k + 109) = true := by decide +kernel
private lemma chunk120 : ∀ k < 7, check (k + 120) = true := by decide +kernel
private lemma chunk127 : ∀ k < 7, check (k + 127) = true := by decide +kernel
private lemma chunk134 : ∀ k < 6, check (k + 134) = true := by decide +kernel
private lemma chunk140 : ∀ k < 3, check (k + 140) = true := by decide +kernel

/-- The certificates of the space groups 1 to 142. -/
lemma check_part1 {sg : ℕ} (h1 : 1 ≤ sg) (h2 : sg ≤ 142) : check sg = true := by
  by_cases h : sg < 25
  · have := chunk1 (sg - 1) (by omega); rwa [Nat.sub_add_cancel (by omega)] at this
  by_cases h : sg < 43
  · have := chunk25 (sg - 25) (by omega); rwa [Nat.sub_add_cancel (by omega)] at this
  by_cases h : sg < 57
  · have := chunk43 (sg - 43) (by omega); rwa [Nat.sub_add_cancel (by omega)] at this
  by_cases h : sg < 67
  · have := chunk57 (sg - 57) (by omega); rwa [Nat.sub_add_cancel (by omega)] at this
  by_cases h : sg < 72
  · have := chunk67 (sg - 67) (by omega); rwa [Nat.sub_add_cancel (by omega)] at this
  by_cases h : sg < 86
  · have := chunk72 (sg - 72) (by omega); rwa [Nat.sub_add_cancel (by omega)] at this
  by_cases h : sg < 98
  · have := chunk86 (sg - 86) (by omega); rwa [Nat.sub_add_cancel (by omega)] at this
  by_cases h : sg < 109
  · have := chunk98 (sg - 98) (by omega); rwa [Nat.sub_add_cancel (by omega)] at this
  by_cases h : sg < 120
  · have := chunk109 (sg - 109) (by omega); rwa [Nat.sub_add_cancel (by omega)] at this
  by_cases h : sg < 127
  · have := chunk120 (sg - 120) (by omega); rwa [Nat.sub_add_cancel (by omega)] at this
  by_cases h : sg < 134
  · have := chunk127 (sg - 127) (by omega); rwa [Nat.sub_add_cancel (by omega)] at this
  by_cases h : sg < 140
  · have := chunk134 (sg - 134) (by omega); rwa [Nat.sub_add_cancel (by omega)] at this
  have := chunk140 (sg - 140) (by omega); rwa [Nat.sub_add_cancel (by omega)] at this

end Verif.SG
