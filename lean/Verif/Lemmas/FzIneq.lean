import Verif.Lemmas.Fz
/-! Equivalence of the closed-form zone inequalities with the table of each group (for `w ≥ 0`). -/
namespace Verif

theorem R2_eq : R2 = Real.sqrt 2 / 2 := by
  unfold R2
  have := Real.mul_self_sqrt (show (0:ℝ) ≤ 2 by norm_num)
  have h0 : Real.sqrt 2 ≠ 0 := by positivity
  field_simp
  linarith [this, pow_two (Real.sqrt 2)]

theorem inv_sqrt3 : 1 / Real.sqrt 3 = Real.sqrt 3 / 3 := by
  have := Real.mul_self_sqrt (show (0:ℝ) ≤ 3 by norm_num)
  have h0 : Real.sqrt 3 ≠ 0 := by positivity
  field_simp
  linarith [this, pow_two (Real.sqrt 3)]

theorem abs4 (x y z w : ℝ) (hw : 0 ≤ w) :
    (|w - x - y - z| ≤ 2 * w ∧ |w - x - y + z| ≤ 2 * w ∧ |w - x + y - z| ≤ 2 * w ∧
     |w - x + y + z| ≤ 2 * w ∧ |w + x - y - z| ≤ 2 * w ∧ |w + x - y + z| ≤ 2 * w ∧
     |w + x + y - z| ≤ 2 * w ∧ |w + x + y + z| ≤ 2 * w) ↔ |x| + |y| + |z| ≤ w := by
  constructor
  · rintro ⟨h1, h2, h3, h4, h5, h6, h7, h8⟩
    rw [abs_le] at *
    rcases abs_cases x with ⟨e, _⟩ | ⟨e, _⟩ <;> rcases abs_cases y with ⟨e', _⟩ | ⟨e', _⟩ <;>
      rcases abs_cases z with ⟨e'', _⟩ | ⟨e'', _⟩ <;> rw [e, e', e''] <;>
      linarith [h1.2, h2.2, h3.2, h4.2, h5.2, h6.2, h7.2, h8.2]
  · intro h
    have := neg_abs_le x; have := neg_abs_le y; have := neg_abs_le z
    have := le_abs_self x; have := le_abs_self y; have := le_abs_self z
    refine ⟨?_, ?_, ?_, ?_, ?_, ?_, ?_, ?_⟩ <;> rw [abs_le] <;> constructor <;> linarith

/-- `|a - b|` conditions of a table row, normalised -/
theorem half_iff {e f w : ℝ} (h : e = f / 2) : |e| ≤ w ↔ |f| ≤ 2 * w := by
  rw [h, abs_div, abs_of_pos (show (0:ℝ) < 2 by norm_num)]
  constructor <;> intro h <;> linarith

theorem pm {e f w : ℝ} (a b x y : ℝ) (ha : 0 ≤ a) (hb : 0 ≤ b) (he : e = a * x - b * y)
    (hf : f = a * x + b * y ∨ f = -(a * x + b * y)) :
    (|e| ≤ w ∧ |f| ≤ w) ↔ a * |x| + b * |y| ≤ w := by
  have : |f| = |a * x + b * y| := by
    rcases hf with h | h <;> rw [h]
    rw [abs_neg]
  rw [this, he, abs_pm, abs_mul, abs_mul, abs_of_nonneg ha, abs_of_nonneg hb]

theorem s2_facts : 0 < Real.sqrt 2 ∧ Real.sqrt 2 * Real.sqrt 2 = 2 ∧ 1.4 < Real.sqrt 2 ∧
    Real.sqrt 2 < 1.5 := by
  have h := Real.mul_self_sqrt (show (0:ℝ) ≤ 2 by norm_num)
  have h0 : 0 < Real.sqrt 2 := by positivity
  refine ⟨h0, h, ?_, ?_⟩ <;> nlinarith

theorem s3_facts : 0 < Real.sqrt 3 ∧ Real.sqrt 3 * Real.sqrt 3 = 3 ∧ 1.7 < Real.sqrt 3 ∧
    Real.sqrt 3 < 1.75 := by
  have h := Real.mul_self_sqrt (show (0:ℝ) ≤ 3 by norm_num)
  have h0 : 0 < Real.sqrt 3 := by positivity
  refine ⟨h0, h, ?_, ?_⟩ <;> nlinarith

/-- multiply through by √2 -/
theorem r2lin {a w : ℝ} : Real.sqrt 2 / 2 * a ≤ w ↔ a ≤ Real.sqrt 2 * w := by
  obtain ⟨h0, h2, _, _⟩ := s2_facts
  constructor <;> intro h
  · have := mul_le_mul_of_nonneg_left h h0.le
    have e : Real.sqrt 2 * (Real.sqrt 2 / 2 * a) = a := by linear_combination (a / 2) * h2
    linarith
  · have := mul_le_mul_of_nonneg_left h (show 0 ≤ Real.sqrt 2 / 2 by positivity)
    have e : Real.sqrt 2 / 2 * (Real.sqrt 2 * w) = w := by linear_combination (w / 2) * h2
    linarith

theorem ineq_C1 (q : Q) (hw : 0 ≤ q.w) : ∀ g ∈ laueC1, quProdPosReal q g ≤ q.w := by
  simp [laueC1, quProdPosReal, abs_of_nonneg hw]

theorem ineq_C2 (q : Q) (hw : 0 ≤ q.w) :
    (∀ g ∈ laueC2, quProdPosReal q g ≤ q.w) ↔ |q.z| ≤ q.w := by
  simp [laueC2, quProdPosReal, abs_of_nonneg hw]

theorem ineq_D2 (q : Q) (hw : 0 ≤ q.w) :
    (∀ g ∈ laueD2, quProdPosReal q g ≤ q.w) ↔ maxAbsXyz q ≤ q.w := by
  simp [laueD2, quProdPosReal, abs_of_nonneg hw, maxAbsXyz]
  tauto

theorem ineq_C4 (q : Q) (hw : 0 ≤ q.w) :
    (∀ g ∈ laueC4, quProdPosReal q g ≤ q.w) ↔ |q.z| ≤ (Real.sqrt 2 - 1) * q.w := by
  obtain ⟨h0, h2, h3, h4⟩ := s2_facts
  simp only [laueC4, List.forall_mem_cons, quProdPosReal, R2_eq]
  simp only [List.not_mem_nil, false_implies, implies_true, and_true]
  rw [pm (Real.sqrt 2 / 2) (Real.sqrt 2 / 2) q.w q.z (by positivity) (by positivity) (by ring)
    (Or.inl (by ring)), ← mul_add, r2lin, abs_of_nonneg hw]
  constructor
  · rintro ⟨_, _, h⟩; linarith
  · intro h
    refine ⟨?_, ?_, by linarith⟩
    · rw [abs_of_nonneg (by linarith)]; linarith
    · rw [show q.w * 0 - q.x * 0 - q.y * 0 - q.z * 1 = - q.z by ring, abs_neg]; nlinarith

theorem ineq_D4 (q : Q) (hw : 0 ≤ q.w) :
    (∀ g ∈ laueD4, quProdPosReal q g ≤ q.w) ↔
      |q.z| ≤ (Real.sqrt 2 - 1) * q.w ∧ |q.x| ≤ q.w ∧ |q.y| ≤ q.w ∧
      |q.x| + |q.y| ≤ Real.sqrt 2 * q.w := by
  obtain ⟨h0, h2, h3, h4⟩ := s2_facts
  have e1 : (∀ g ∈ laueC4, quProdPosReal q g ≤ q.w) ↔ _ := ineq_C4 q hw
  rw [← e1]
  simp only [laueC4, laueD4, List.forall_mem_cons, quProdPosReal, R2_eq]
  simp only [List.not_mem_nil, false_implies, implies_true, and_true]
  rw [← r2lin, mul_add, ← pm (e := q.w * 0 - q.x * -(Real.sqrt 2 / 2) - q.y * (Real.sqrt 2 / 2) - q.z * 0)
    (f := q.w * 0 - q.x * (Real.sqrt 2 / 2) - q.y * (Real.sqrt 2 / 2) - q.z * 0)
    (Real.sqrt 2 / 2) (Real.sqrt 2 / 2) q.x q.y (by positivity) (by positivity) (by ring)
    (Or.inr (by ring))]
  have ex : |q.w * 0 - q.x * 1 - q.y * 0 - q.z * 0| = |q.x| := by
    rw [← abs_neg q.x]; congr 1; ring
  have ey : |q.w * 0 - q.x * 0 - q.y * 1 - q.z * 0| = |q.y| := by
    rw [← abs_neg q.y]; congr 1; ring
  rw [ex, ey]
  tauto

theorem ineq_C3 (q : Q) (hw : 0 ≤ q.w) :
    (∀ g ∈ laueC3, quProdPosReal q g ≤ q.w) ↔ |q.z| ≤ (1 / Real.sqrt 3) * q.w := by
  obtain ⟨h0, h2, h3, h4⟩ := s3_facts
  rw [inv_sqrt3]
  simp only [laueC3, List.forall_mem_cons, quProdPosReal, R3]
  simp only [List.not_mem_nil, false_implies, implies_true, and_true]
  rw [pm (1 / 2) (Real.sqrt 3 / 2) q.w q.z (by positivity) (by positivity) (by ring)
    (Or.inl (by ring)), abs_of_nonneg hw]
  have hz := abs_nonneg q.z
  constructor
  · rintro ⟨_, h⟩; nlinarith
  · intro h
    refine ⟨?_, by nlinarith⟩
    rw [abs_of_nonneg (by linarith)]; linarith

theorem ineq_C6 (q : Q) (hw : 0 ≤ q.w) :
    (∀ g ∈ laueC6, quProdPosReal q g ≤ q.w) ↔ |q.z| ≤ (2 - Real.sqrt 3) * q.w := by
  obtain ⟨h0, h2, h3, h4⟩ := s3_facts
  simp only [laueC6, List.forall_mem_cons, quProdPosReal, R3]
  simp only [List.not_mem_nil, false_implies, implies_true, and_true]
  rw [pm (Real.sqrt 3 / 2) (1 / 2) q.w q.z (by positivity) (by positivity) (by ring)
    (Or.inl (by ring)), abs_of_nonneg hw]
  have hz := abs_nonneg q.z
  constructor
  · rintro ⟨_, _, _, _, h⟩; linarith
  · intro h
    obtain ⟨ha, hb⟩ := (pm (e := q.w * (1/2) - q.x * 0 - q.y * 0 - q.z * (Real.sqrt 3 / 2))
      (f := q.w * (1/2) - q.x * 0 - q.y * 0 - q.z * -(Real.sqrt 3 / 2)) (w := q.w)
      (1 / 2) (Real.sqrt 3 / 2) q.w q.z (by positivity) (by positivity) (by ring)
      (Or.inl (by ring))).2 (by rw [abs_of_nonneg hw]; nlinarith)
    refine ⟨?_, ha, hb, ?_, by linarith⟩
    · rw [abs_of_nonneg (by linarith)]; linarith
    · rw [show q.w * 0 - q.x * 0 - q.y * 0 - q.z * 1 = - q.z by ring, abs_neg]; nlinarith

theorem ineq_D3 (q : Q) (hw : 0 ≤ q.w) :
    (∀ g ∈ laueD3, quProdPosReal q g ≤ q.w) ↔
      |q.z| ≤ (1 / Real.sqrt 3) * q.w ∧ |q.x| ≤ q.w ∧
      1 / 2 * |q.x| + Real.sqrt 3 / 2 * |q.y| ≤ q.w := by
  obtain ⟨h0, h2, h3, h4⟩ := s3_facts
  rw [← ineq_C3 q hw]
  simp only [laueC3, laueD3, List.forall_mem_cons, quProdPosReal, R3]
  simp only [List.not_mem_nil, false_implies, implies_true, and_true]
  rw [← pm (e := q.w * 0 - q.x * -(1 / 2) - q.y * (Real.sqrt 3 / 2) - q.z * 0)
    (f := q.w * 0 - q.x * (1 / 2) - q.y * (Real.sqrt 3 / 2) - q.z * 0)
    (1 / 2) (Real.sqrt 3 / 2) q.x q.y (by positivity) (by positivity) (by ring)
    (Or.inr (by ring))]
  have ex : |q.w * 0 - q.x * 1 - q.y * 0 - q.z * 0| = |q.x| := by
    rw [← abs_neg q.x]; congr 1; ring
  rw [ex]
  tauto

theorem ineq_D6 (q : Q) (hw : 0 ≤ q.w) :
    (∀ g ∈ laueD6, quProdPosReal q g ≤ q.w) ↔
      |q.z| ≤ (2 - Real.sqrt 3) * q.w ∧ |q.x| ≤ q.w ∧ |q.y| ≤ q.w ∧
      1 / 2 * |q.x| + Real.sqrt 3 / 2 * |q.y| ≤ q.w ∧
      Real.sqrt 3 / 2 * |q.x| + 1 / 2 * |q.y| ≤ q.w := by
  rw [← ineq_C6 q hw]
  simp only [laueC6, laueD6, List.forall_mem_cons, quProdPosReal, R3]
  simp only [List.not_mem_nil, false_implies, implies_true, and_true]
  rw [← pm (e := q.w * 0 - q.x * -(1 / 2) - q.y * (Real.sqrt 3 / 2) - q.z * 0)
    (f := q.w * 0 - q.x * (1 / 2) - q.y * (Real.sqrt 3 / 2) - q.z * 0)
    (1 / 2) (Real.sqrt 3 / 2) q.x q.y (by positivity) (by positivity) (by ring)
    (Or.inr (by ring)),
    ← pm (e := q.w * 0 - q.x * -(Real.sqrt 3 / 2) - q.y * (1 / 2) - q.z * 0)
    (f := q.w * 0 - q.x * (Real.sqrt 3 / 2) - q.y * (1 / 2) - q.z * 0)
    (Real.sqrt 3 / 2) (1 / 2) q.x q.y (by positivity) (by positivity) (by ring)
    (Or.inr (by ring))]
  have ex : |q.w * 0 - q.x * 1 - q.y * 0 - q.z * 0| = |q.x| := by
    rw [← abs_neg q.x]; congr 1; ring
  have ey : |q.w * 0 - q.x * 0 - q.y * 1 - q.z * 0| = |q.y| := by
    rw [← abs_neg q.y]; congr 1; ring
  rw [ex, ey]
  tauto

theorem ineq_T (q : Q) (hw : 0 ≤ q.w) :
    (∀ g ∈ laueT, quProdPosReal q g ≤ q.w) ↔ |q.x| + |q.y| + |q.z| ≤ q.w := by
  have hx := abs_nonneg q.x
  have hy := abs_nonneg q.y
  have hz := abs_nonneg q.z
  simp only [laueT, List.forall_mem_cons, quProdPosReal]
  simp only [List.not_mem_nil, false_implies, implies_true, and_true]
  have ex : |q.w * 0 - q.x * 1 - q.y * 0 - q.z * 0| = |q.x| := by
    rw [← abs_neg q.x]; congr 1; ring
  have ey : |q.w * 0 - q.x * 0 - q.y * 1 - q.z * 0| = |q.y| := by
    rw [← abs_neg q.y]; congr 1; ring
  have ez : |q.w * 0 - q.x * 0 - q.y * 0 - q.z * 1| = |q.z| := by
    rw [← abs_neg q.z]; congr 1; ring
  have ew : |q.w * 1 - q.x * 0 - q.y * 0 - q.z * 0| = q.w := by
    rw [← abs_of_nonneg hw]; congr 1; rw [abs_of_nonneg hw]; ring
  rw [ex, ey, ez, ew]
  rw [half_iff (e := q.w * (1/2) - q.x * (1/2) - q.y * -(1/2) - q.z * (1/2)) (f := q.w - q.x + q.y - q.z) (w := q.w) (by ring),
    half_iff (e := q.w * (1/2) - q.x * (1/2) - q.y * (1/2) - q.z * -(1/2)) (f := q.w - q.x - q.y + q.z) (w := q.w) (by ring),
    half_iff (e := q.w * (1/2) - q.x * (1/2) - q.y * -(1/2) - q.z * -(1/2)) (f := q.w - q.x + q.y + q.z) (w := q.w) (by ring),
    half_iff (e := q.w * (1/2) - q.x * -(1/2) - q.y * -(1/2) - q.z * -(1/2)) (f := q.w + q.x + q.y + q.z) (w := q.w) (by ring),
    half_iff (e := q.w * (1/2) - q.x * -(1/2) - q.y * (1/2) - q.z * (1/2)) (f := q.w + q.x - q.y - q.z) (w := q.w) (by ring),
    half_iff (e := q.w * (1/2) - q.x * -(1/2) - q.y * (1/2) - q.z * -(1/2)) (f := q.w + q.x - q.y + q.z) (w := q.w) (by ring),
    half_iff (e := q.w * (1/2) - q.x * -(1/2) - q.y * -(1/2) - q.z * (1/2)) (f := q.w + q.x + q.y - q.z) (w := q.w) (by ring),
    half_iff (e := q.w * (1/2) - q.x * (1/2) - q.y * (1/2) - q.z * (1/2)) (f := q.w - q.x - q.y - q.z) (w := q.w) (by ring)]
  constructor
  · intro h
    exact (abs4 q.x q.y q.z q.w hw).1 (by tauto)
  · intro h
    have := (abs4 q.x q.y q.z q.w hw).2 h
    refine ⟨le_refl _, by linarith, by linarith, by linarith, ?_⟩
    tauto

theorem ineq_O (q : Q) (hw : 0 ≤ q.w) :
    (∀ g ∈ laueO, quProdPosReal q g ≤ q.w) ↔
      maxAbsXyz q ≤ q.w * (Real.sqrt 2 - 1) ∧ |q.x| + |q.y| + |q.z| ≤ q.w := by
  obtain ⟨h0, h2, h3, h4⟩ := s2_facts
  have hx := abs_nonneg q.x
  have hy := abs_nonneg q.y
  have hz := abs_nonneg q.z
  have P := fun a b : ℝ => pm (w := q.w) (e := Real.sqrt 2 / 2 * a - Real.sqrt 2 / 2 * b)
    (f := Real.sqrt 2 / 2 * a + Real.sqrt 2 / 2 * b) (Real.sqrt 2 / 2) (Real.sqrt 2 / 2) a b
    (by positivity) (by positivity) (by ring) (Or.inl (by ring))
  have P' : ∀ a b : ℝ, (|Real.sqrt 2 / 2 * a - Real.sqrt 2 / 2 * b| ≤ q.w ∧
      |Real.sqrt 2 / 2 * a + Real.sqrt 2 / 2 * b| ≤ q.w) ↔ |a| + |b| ≤ Real.sqrt 2 * q.w :=
    fun a b => by rw [← r2lin, mul_add]; exact P a b
  have hsplit : (∀ g ∈ laueO, quProdPosReal q g ≤ q.w) ↔
      (∀ g ∈ laueT, quProdPosReal q g ≤ q.w) ∧
      (|q.w| + |q.z| ≤ Real.sqrt 2 * q.w) ∧ (|q.w| + |q.x| ≤ Real.sqrt 2 * q.w) ∧
      (|q.w| + |q.y| ≤ Real.sqrt 2 * q.w) ∧ (|q.x| + |q.y| ≤ Real.sqrt 2 * q.w) ∧
      (|q.x| + |q.z| ≤ Real.sqrt 2 * q.w) ∧ (|q.y| + |q.z| ≤ Real.sqrt 2 * q.w) := by
    rw [← P', ← P', ← P', ← P', ← P', ← P']
    simp only [laueT, laueO, List.forall_mem_cons, quProdPosReal, R2_eq]
    simp only [List.not_mem_nil, false_implies, implies_true, and_true]
    have A : ∀ a b c d : ℝ, a = b ∨ a = -b → |a| = |b| := fun a b _ _ h => by
      rcases h with h | h <;> rw [h]
      rw [abs_neg]
    rw [A (q.w * (Real.sqrt 2 / 2) - q.x * 0 - q.y * 0 - q.z * (Real.sqrt 2 / 2))
        (Real.sqrt 2 / 2 * q.w - Real.sqrt 2 / 2 * q.z) 0 0 (Or.inl (by ring)),
      A (q.w * (Real.sqrt 2 / 2) - q.x * 0 - q.y * 0 - q.z * -(Real.sqrt 2 / 2))
        (Real.sqrt 2 / 2 * q.w + Real.sqrt 2 / 2 * q.z) 0 0 (Or.inl (by ring)),
      A (q.w * 0 - q.x * (Real.sqrt 2 / 2) - q.y * (Real.sqrt 2 / 2) - q.z * 0)
        (Real.sqrt 2 / 2 * q.x + Real.sqrt 2 / 2 * q.y) 0 0 (Or.inr (by ring)),
      A (q.w * 0 - q.x * -(Real.sqrt 2 / 2) - q.y * (Real.sqrt 2 / 2) - q.z * 0)
        (Real.sqrt 2 / 2 * q.x - Real.sqrt 2 / 2 * q.y) 0 0 (Or.inl (by ring)),
      A (q.w * (Real.sqrt 2 / 2) - q.x * (Real.sqrt 2 / 2) - q.y * 0 - q.z * 0)
        (Real.sqrt 2 / 2 * q.w - Real.sqrt 2 / 2 * q.x) 0 0 (Or.inl (by ring)),
      A (q.w * (Real.sqrt 2 / 2) - q.x * -(Real.sqrt 2 / 2) - q.y * 0 - q.z * 0)
        (Real.sqrt 2 / 2 * q.w + Real.sqrt 2 / 2 * q.x) 0 0 (Or.inl (by ring)),
      A (q.w * (Real.sqrt 2 / 2) - q.x * 0 - q.y * (Real.sqrt 2 / 2) - q.z * 0)
        (Real.sqrt 2 / 2 * q.w - Real.sqrt 2 / 2 * q.y) 0 0 (Or.inl (by ring)),
      A (q.w * (Real.sqrt 2 / 2) - q.x * 0 - q.y * -(Real.sqrt 2 / 2) - q.z * 0)
        (Real.sqrt 2 / 2 * q.w + Real.sqrt 2 / 2 * q.y) 0 0 (Or.inl (by ring)),
      A (q.w * 0 - q.x * (Real.sqrt 2 / 2) - q.y * 0 - q.z * (Real.sqrt 2 / 2))
        (Real.sqrt 2 / 2 * q.x + Real.sqrt 2 / 2 * q.z) 0 0 (Or.inr (by ring)),
      A (q.w * 0 - q.x * -(Real.sqrt 2 / 2) - q.y * 0 - q.z * (Real.sqrt 2 / 2))
        (Real.sqrt 2 / 2 * q.x - Real.sqrt 2 / 2 * q.z) 0 0 (Or.inl (by ring)),
      A (q.w * 0 - q.x * 0 - q.y * (Real.sqrt 2 / 2) - q.z * (Real.sqrt 2 / 2))
        (Real.sqrt 2 / 2 * q.y + Real.sqrt 2 / 2 * q.z) 0 0 (Or.inr (by ring)),
      A (q.w * 0 - q.x * 0 - q.y * -(Real.sqrt 2 / 2) - q.z * (Real.sqrt 2 / 2))
        (Real.sqrt 2 / 2 * q.y - Real.sqrt 2 / 2 * q.z) 0 0 (Or.inl (by ring))]
    tauto
  rw [hsplit, ineq_T q hw, abs_of_nonneg hw]
  unfold maxAbsXyz
  rw [max_le_iff, max_le_iff]
  constructor
  · rintro ⟨ht, a, b, c, _, _, _⟩
    exact ⟨⟨⟨by linarith, by linarith⟩, by linarith⟩, ht⟩
  · rintro ⟨⟨⟨a, b⟩, c⟩, ht⟩
    refine ⟨ht, by linarith, by linarith, by linarith, ?_, ?_, ?_⟩ <;> nlinarith

end Verif
