import Verif.Model.McKernel
/-! C123: the random generator of the Monte Carlo kernel. -/
namespace Verif.Mck

/-- The state a component must have for the generator to run: above 1, 7, 15 and 127 (L'Ecuyer's condition for LFSR113). -/
def Alive (s : Seed) : Prop := 1 < s.x.toNat ∧ 7 < s.y.toNat ∧ 15 < s.z.toNat ∧ 127 < s.w.toNat

/-- The two states agree in the bits that the generator uses. -/
def SameUsed (a b : Seed) : Prop :=
  a.x.toNat / 2 = b.x.toNat / 2 ∧ a.y.toNat / 8 = b.y.toNat / 8 ∧ a.z.toNat / 16 = b.z.toNat / 16 ∧ a.w.toNat / 128 = b.w.toNat / 128

/-- one component: mask, two shifts left, one shift right -/
def comp (m : BitVec 32) (a q r : ℕ) (z : BitVec 32) : BitVec 32 := ((z &&& m) <<< a) ^^^ (((z <<< q) ^^^ z) >>> r)

theorem high_bits (k : ℕ) (a b : BitVec 32) :
    a.toNat / 2 ^ k = b.toNat / 2 ^ k ↔ ∀ i, k ≤ i → a.getLsbD i = b.getLsbD i := by
  constructor
  · intro h i hi
    have := congrArg (fun n => n.testBit (i - k)) h
    simp only [Nat.testBit_div_two_pow] at this
    rw [show i - k + k = i by omega] at this
    simpa [BitVec.getLsbD] using this
  · intro h
    apply Nat.eq_of_testBit_eq
    intro i
    rw [Nat.testBit_div_two_pow, Nat.testBit_div_two_pow]
    simpa [BitVec.getLsbD] using h (i + k) (by omega)

theorem comp_bit (k a q r : ℕ) (m : BitVec 32) (hm : ∀ i, i < 32 → m.getLsbD i = decide (k ≤ i)) (z : BitVec 32) (i : ℕ) (hi : i < 32) :
    (comp m a q r z).getLsbD i =
      ((decide (a + k ≤ i) && z.getLsbD (i - a)) ^^ ((decide (q ≤ i + r ∧ i + r < 32) && z.getLsbD (i + r - q)) ^^ z.getLsbD (i + r))) := by
  unfold comp
  rw [BitVec.getLsbD_xor, BitVec.getLsbD_shiftLeft, BitVec.getLsbD_and, BitVec.getLsbD_ushiftRight, BitVec.getLsbD_xor,
    BitVec.getLsbD_shiftLeft, hm (i - a) (by omega), Nat.add_comm r i]
  have e1 : (decide (i < 32) && !decide (i < a) && (z.getLsbD (i - a) && decide (k ≤ i - a))) =
      (decide (a + k ≤ i) && z.getLsbD (i - a)) := by
    by_cases h1 : i < a
    · simp [h1, show ¬ (a + k ≤ i) by omega]
    · simp only [hi, h1, decide_true, decide_false, Bool.not_false, Bool.true_and]
      rw [Bool.and_comm]
      congr 1
      simp only [decide_eq_decide]; omega
  have e2 : (decide (i + r < 32) && !decide (i + r < q) && z.getLsbD (i + r - q)) =
      (decide (q ≤ i + r ∧ i + r < 32) && z.getLsbD (i + r - q)) := by
    congr 1
    by_cases h1 : i + r < 32 <;> by_cases h2 : i + r < q <;> simp [h1, h2] <;> omega
  rw [e1, e2]

/-- One component is injective on the bits it uses, provided the mask, the shifts and the word length fit. -/
theorem comp_inj (k a q r : ℕ) (m : BitVec 32) (hm : ∀ i, i < 32 → m.getLsbD i = decide (k ≤ i)) (hq : 0 < q) (hfit : r + a + k = 32)
    (hlow : q + a + k ≤ 32) (x y : BitVec 32)
    (h : ∀ i, k ≤ i → (comp m a q r x).getLsbD i = (comp m a q r y).getLsbD i) :
    ∀ i, k ≤ i → x.getLsbD i = y.getLsbD i := by
  intro j
  induction j using Nat.strong_induction_on with
  | _ j ih =>
    intro hj
    by_cases h32 : 32 ≤ j
    · rw [BitVec.getLsbD_of_ge _ _ h32, BitVec.getLsbD_of_ge _ _ h32]
    by_cases hja : j + a < 32
    · have := h (j + a) (by omega)
      rw [comp_bit k a q r m hm x _ hja, comp_bit k a q r m hm y _ hja, Nat.add_sub_cancel,
        BitVec.getLsbD_of_ge x _ (by omega : 32 ≤ j + a + r), BitVec.getLsbD_of_ge y _ (by omega : 32 ≤ j + a + r)] at this
      simpa [show a + k ≤ j + a by omega, show ¬ (j + a + r < 32) by omega] using this
    · have := h (j - r) (by omega)
      rw [comp_bit k a q r m hm x _ (by omega), comp_bit k a q r m hm y _ (by omega), show j - r + r = j by omega,
        ih (j - q) (by omega) (by omega)] at this
      simpa [show ¬ (a + k ≤ j - r) by omega] using this

theorem comp_zero (m : BitVec 32) (a q r : ℕ) : comp m a q r 0#32 = 0#32 := by
  unfold comp
  simp

theorem comp_alive (k a q r : ℕ) (m : BitVec 32) (hm : ∀ i, i < 32 → m.getLsbD i = decide (k ≤ i)) (hq : 0 < q) (hfit : r + a + k = 32)
    (hlow : q + a + k ≤ 32) (z : BitVec 32) (h : 2 ^ k ≤ z.toNat) : 2 ^ k ≤ (comp m a q r z).toNat := by
  by_contra hc
  have h0 : (comp m a q r z).toNat / 2 ^ k = (comp m a q r 0#32).toNat / 2 ^ k := by
    rw [comp_zero, Nat.div_eq_of_lt (by omega)]; simp
  have h1 := (high_bits k z 0#32).mpr (comp_inj k a q r m hm hq hfit hlow z 0#32 ((high_bits k _ _).mp h0))
  rw [BitVec.toNat_ofNat, Nat.zero_mod, Nat.zero_div] at h1
  have := Nat.div_pos h (Nat.two_pow_pos k)
  omega

theorem mask_x : ∀ i, i < 32 → (4294967294#32).getLsbD i = decide (1 ≤ i) := by decide
theorem mask_y : ∀ i, i < 32 → (4294967288#32).getLsbD i = decide (3 ≤ i) := by decide
theorem mask_z : ∀ i, i < 32 → (4294967280#32).getLsbD i = decide (4 ≤ i) := by decide
theorem mask_w : ∀ i, i < 32 → (4294967168#32).getLsbD i = decide (7 ≤ i) := by decide

theorem lfsr_eq (s : Seed) : lfsr s = ⟨comp 4294967294#32 18 6 13 s.x, comp 4294967288#32 2 2 27 s.y, comp 4294967280#32 7 13 21 s.z,
    comp 4294967168#32 13 3 12 s.w⟩ := rfl

/-- C123, partial: a generator state that meets L'Ecuyer's condition meets it for ever, so no component ever collapses.  Missing: the
seeds that the host code draws need not meet the condition, see `C123_fails`. -/
theorem C123_alive_partial (s : Seed) (h : Alive s) (n : ℕ) : Alive (lfsr^[n] s) := by
  induction n with
  | zero => exact h
  | succ n ih =>
    rw [Function.iterate_succ_apply', lfsr_eq]
    obtain ⟨h1, h2, h3, h4⟩ := ih
    have k1 := comp_alive 1 18 6 13 _ mask_x (by norm_num) (by norm_num) (by norm_num) _ (show 2 ^ 1 ≤ _ from h1)
    have k2 := comp_alive 3 2 2 27 _ mask_y (by norm_num) (by norm_num) (by norm_num) _ (show 2 ^ 3 ≤ _ from h2)
    have k3 := comp_alive 4 7 13 21 _ mask_z (by norm_num) (by norm_num) (by norm_num) _ (show 2 ^ 4 ≤ _ from h3)
    have k4 := comp_alive 7 13 3 12 _ mask_w (by norm_num) (by norm_num) (by norm_num) _ (show 2 ^ 7 ≤ _ from h4)
    exact ⟨k1, k2, k3, k4⟩

/-- C123: the generator never merges two streams: states that differ in the bits it uses differ for ever, so different seeds give
different streams of states. -/
theorem C123_injective (a b : Seed) (n : ℕ) : SameUsed (lfsr^[n] a) (lfsr^[n] b) ↔ SameUsed a b := by
  have one : ∀ a b : Seed, SameUsed (lfsr a) (lfsr b) ↔ SameUsed a b := by
    intro a b
    constructor
    · rintro ⟨h1, h2, h3, h4⟩
      exact ⟨(high_bits 1 _ _).mpr (comp_inj 1 18 6 13 _ mask_x (by norm_num) (by norm_num) (by norm_num) _ _ ((high_bits 1 _ _).mp h1)),
        (high_bits 3 _ _).mpr (comp_inj 3 2 2 27 _ mask_y (by norm_num) (by norm_num) (by norm_num) _ _ ((high_bits 3 _ _).mp h2)),
        (high_bits 4 _ _).mpr (comp_inj 4 7 13 21 _ mask_z (by norm_num) (by norm_num) (by norm_num) _ _ ((high_bits 4 _ _).mp h3)),
        (high_bits 7 _ _).mpr (comp_inj 7 13 3 12 _ mask_w (by norm_num) (by norm_num) (by norm_num) _ _ ((high_bits 7 _ _).mp h4))⟩
    · rintro ⟨h1, h2, h3, h4⟩
      have h1 := (high_bits 1 _ _).mp h1
      have h2 := (high_bits 3 _ _).mp h2
      have h3 := (high_bits 4 _ _).mp h3
      have h4 := (high_bits 7 _ _).mp h4
      refine ⟨(high_bits 1 _ _).mpr fun i hi => ?_, (high_bits 3 _ _).mpr fun i hi => ?_, (high_bits 4 _ _).mpr fun i hi => ?_,
        (high_bits 7 _ _).mpr fun i hi => ?_⟩
      · by_cases h32 : i < 32
        · rw [lfsr_eq, lfsr_eq, comp_bit 1 _ _ _ _ mask_x _ _ h32, comp_bit 1 _ _ _ _ mask_x _ _ h32]
          by_cases hc : 18 + 1 ≤ i
          · rw [h1 (i - 18) (by omega), h1 (i + 13) (by omega), h1 (i + 13 - 6) (by omega)]
          · rw [h1 (i + 13) (by omega), h1 (i + 13 - 6) (by omega)]; simp [hc]
        · rw [BitVec.getLsbD_of_ge _ _ (by omega), BitVec.getLsbD_of_ge _ _ (by omega)]
      · by_cases h32 : i < 32
        · rw [lfsr_eq, lfsr_eq, comp_bit 3 _ _ _ _ mask_y _ _ h32, comp_bit 3 _ _ _ _ mask_y _ _ h32]
          by_cases hc : 2 + 3 ≤ i
          · rw [h2 (i - 2) (by omega), h2 (i + 27) (by omega), h2 (i + 27 - 2) (by omega)]
          · rw [h2 (i + 27) (by omega), h2 (i + 27 - 2) (by omega)]; simp [hc]
        · rw [BitVec.getLsbD_of_ge _ _ (by omega), BitVec.getLsbD_of_ge _ _ (by omega)]
      · by_cases h32 : i < 32
        · rw [lfsr_eq, lfsr_eq, comp_bit 4 _ _ _ _ mask_z _ _ h32, comp_bit 4 _ _ _ _ mask_z _ _ h32]
          by_cases hc : 7 + 4 ≤ i
          · rw [h3 (i - 7) (by omega), h3 (i + 21) (by omega), h3 (i + 21 - 13) (by omega)]
          · rw [h3 (i + 21) (by omega), h3 (i + 21 - 13) (by omega)]; simp [hc]
        · rw [BitVec.getLsbD_of_ge _ _ (by omega), BitVec.getLsbD_of_ge _ _ (by omega)]
      · by_cases h32 : i < 32
        · rw [lfsr_eq, lfsr_eq, comp_bit 7 _ _ _ _ mask_w _ _ h32, comp_bit 7 _ _ _ _ mask_w _ _ h32]
          by_cases hc : 13 + 7 ≤ i
          · rw [h4 (i - 13) (by omega), h4 (i + 12) (by omega), h4 (i + 12 - 3) (by omega)]
          · rw [h4 (i + 12) (by omega), h4 (i + 12 - 3) (by omega)]; simp [hc]
        · rw [BitVec.getLsbD_of_ge _ _ (by omega), BitVec.getLsbD_of_ge _ _ (by omega)]
  induction n with
  | zero => rfl
  | succ n ih => rw [Function.iterate_succ_apply', Function.iterate_succ_apply']; exact (one _ _).trans ih

/-- C123: the numbers drawn lie in `[0, 1)`. -/
theorem C123_range (s : Seed) : 0 ≤ s.rand ∧ s.rand < 1 := by
  unfold Seed.rand
  refine ⟨by positivity, ?_⟩
  rw [div_lt_one (by positivity)]
  exact_mod_cast s.word.isLt

theorem comp_dead (k a q r : ℕ) (m : BitVec 32) (hm : ∀ i, i < 32 → m.getLsbD i = decide (k ≤ i)) (hr : k + q ≤ r) (z : BitVec 32)
    (h : z.toNat < 2 ^ k) : comp m a q r z = 0#32 := by
  have hz : ∀ i, k ≤ i → z.getLsbD i = false := by
    intro i hi
    have := (high_bits k z 0#32).mp (by rw [Nat.div_eq_of_lt h]; simp) i hi
    simpa using this
  apply BitVec.eq_of_getLsbD_eq
  intro i hi
  rw [comp_bit k a q r m hm z i hi, hz (i + r) (by omega), hz (i + r - q) (by omega)]
  by_cases hc : a + k ≤ i
  · rw [hz (i - a) (by omega)]; simp
  · simp [hc]

/-- all four components below their bounds -/
def Dead (s : Seed) : Prop := s.x.toNat ≤ 1 ∧ s.y.toNat ≤ 7 ∧ s.z.toNat ≤ 15 ∧ s.w.toNat ≤ 127

theorem lfsr_dead {s : Seed} (h : Dead s) : lfsr s = ⟨0#32, 0#32, 0#32, 0#32⟩ := by
  obtain ⟨h1, h2, h3, h4⟩ := h
  rw [lfsr_eq, comp_dead 1 _ _ _ _ mask_x (by norm_num) _ (by omega), comp_dead 3 _ _ _ _ mask_y (by norm_num) _ (by omega),
    comp_dead 4 _ _ _ _ mask_z (by norm_num) _ (by omega), comp_dead 7 _ _ _ _ mask_w (by norm_num) _ (by omega)]

theorem dead_zero : Dead ⟨0#32, 0#32, 0#32, 0#32⟩ := by simp [Dead]

theorem kTrial_dead (p : KParams) (fuel : ℕ) (st : KState) {s : Seed} (h : Dead s) :
    (kTrial p fuel st s).1 = none ∧ Dead (kTrial p fuel st s).2 := by
  cases fuel with
  | zero => exact ⟨rfl, h⟩
  | succ n =>
    have h1 := lfsr_dead h
    have h2 := lfsr_dead dead_zero
    unfold kTrial
    dsimp only
    rw [h1, h2, h2, if_pos (Or.inl (by simp [Seed.word]))]
    exact ⟨rfl, dead_zero⟩

/-- C123 fails for seeds that `np.random.randint(0, 2**32)` may draw (ebsd_mc.py:210-213): a component below its bound is zero from the
next step on, and with all four components below their bounds every number drawn is zero, so that no electron of this work item is
ever counted. -/
theorem C123_fails :
    (∀ s : Seed, s.x.toNat ≤ 1 → ∀ n, (lfsr^[n + 1] s).x = 0#32) ∧
    ∀ s : Seed, s.x.toNat ≤ 1 → s.y.toNat ≤ 7 → s.z.toNat ≤ 15 → s.w.toNat ≤ 127 →
      (∀ n, (lfsr^[n + 1] s).rand = 0) ∧ ∀ (p : KParams) (t : ℕ), (kItem p t s).1 = [] := by
  refine ⟨fun s h n => ?_, fun s h1 h2 h3 h4 => ⟨fun n => ?_, fun p t => ?_⟩⟩
  · have key : (lfsr^[n] s).x.toNat ≤ 1 := by
      cases n with
      | zero => exact h
      | succ n =>
        induction n with
        | zero =>
          rw [Function.iterate_succ_apply', lfsr_eq]
          dsimp only
          rw [comp_dead 1 _ _ _ _ mask_x (by norm_num) _ (by simpa using Nat.lt_succ_of_le h)]
          simp
        | succ n ih =>
          rw [Function.iterate_succ_apply', lfsr_eq]
          dsimp only
          rw [comp_dead 1 _ _ _ _ mask_x (by norm_num) _ (by omega)]
          simp
    rw [Function.iterate_succ_apply', lfsr_eq]
    dsimp only
    exact comp_dead 1 _ _ _ _ mask_x (by norm_num) _ (by omega)
  · have key : lfsr^[n + 1] s = ⟨0#32, 0#32, 0#32, 0#32⟩ := by
      induction n with
      | zero => exact lfsr_dead ⟨h1, h2, h3, h4⟩
      | succ n ih => rw [Function.iterate_succ_apply', ih]; exact lfsr_dead dead_zero
    rw [key]
    simp [Seed.rand, Seed.word]
  · have : ∀ (t : ℕ) (s : Seed), Dead s → (kItem p t s).1 = [] := by
      intro t
      induction t with
      | zero => intro s _; rfl
      | succ t ih =>
        intro s hs
        unfold kItem
        dsimp only
        rw [(kTrial_dead p _ _ hs).1, ih _ (kTrial_dead p _ _ hs).2]
        rfl
    exact this t s ⟨h1, h2, h3, h4⟩

-- an ordinary seed is alive, a small one is not
example : Alive ⟨12345#32, 67890#32, 4242#32, 999#32⟩ ∧ ¬ Alive ⟨1#32, 67890#32, 4242#32, 999#32⟩ := by
  unfold Alive; decide

example : ¬ SameUsed ⟨12345#32, 67890#32, 4242#32, 999#32⟩ ⟨12349#32, 67890#32, 4242#32, 999#32⟩ := by
  unfold SameUsed; decide

end Verif.Mck
