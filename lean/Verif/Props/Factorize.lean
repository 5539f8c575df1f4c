import Verif.Model.Factorize
import Mathlib.Data.Nat.Factors
import Mathlib.Data.Nat.Prime.Basic
import Mathlib.Algebra.BigOperators.Group.List.Lemmas
import Mathlib.Tactic.Ring
import Mathlib.Tactic.Linarith
import Mathlib.Tactic.NormNum.Prime
import Mathlib.Tactic.Simproc.Factors
/-! Properties C33 and C34 (utils/factorize.py). -/
namespace Verif

theorem stripFactor_spec : ∀ (fuel d x : ℕ) (l : List ℕ) (y : ℕ), stripFactor fuel d x = some (l, y) →
    l.prod * y = x ∧ (∀ f ∈ l, f = d) ∧ y % d ≠ 0 ∧ (l ≠ [] → d ∣ x) := by
  intro fuel
  induction fuel with
  | zero => intro d x l y h; simp [stripFactor] at h
  | succ fuel ih =>
    intro d x l y h
    unfold stripFactor at h
    split_ifs at h with hx
    · rw [Option.map_eq_some_iff] at h
      obtain ⟨⟨l', y'⟩, h1, h2⟩ := h
      obtain ⟨rfl, rfl⟩ := Prod.mk.inj h2
      obtain ⟨hp, hall, hm, _⟩ := ih _ _ _ _ h1
      refine ⟨?_, ?_, hm, fun _ => Nat.dvd_of_mod_eq_zero hx⟩
      · rw [List.prod_cons, mul_assoc, hp]
        exact Nat.mul_div_cancel' (Nat.dvd_of_mod_eq_zero hx)
      · intro f hf
        rcases List.mem_cons.mp hf with rfl | hf
        · rfl
        · exact hall f hf
    · obtain ⟨rfl, rfl⟩ := Prod.mk.inj (Option.some.inj h)
      exact ⟨by simp, by simp, hx, by simp⟩

theorem stripFactor_total : ∀ (fuel d x : ℕ), 1 < d → 0 < x → x ≤ fuel → (stripFactor fuel d x).isSome := by
  intro fuel
  induction fuel with
  | zero => intro d x _ h1 h2; omega
  | succ fuel ih =>
    intro d x hd hx hf
    unfold stripFactor
    split_ifs with h
    · have hlt : x / d < x := Nat.div_lt_self hx hd
      have hpos : 0 < x / d := Nat.div_pos (Nat.le_of_dvd hx (Nat.dvd_of_mod_eq_zero h)) (by omega)
      have := ih d (x / d) hd hpos (by omega)
      rw [Option.isSome_map]; exact this
    · rfl

theorem trialLoop_spec (fuel : ℕ) : ∀ (n b x : ℕ) (l : List ℕ) (y : ℕ), 3 ≤ b → b % 2 = 1 →
    (∀ p, p.Prime → p ∣ x → b ≤ p) →
    trialLoop fuel (List.range' b n 2) x = some (l, y) →
    l.prod * y = x ∧ (∀ f ∈ l, f.Prime) ∧ (∀ p, p.Prime → p ∣ y → b + 2 * n ≤ p) := by
  intro n
  induction n with
  | zero =>
    intro b x l y _ _ hx h
    simp only [List.range'_zero, trialLoop, Option.some.injEq, Prod.mk.injEq] at h
    obtain ⟨rfl, rfl⟩ := h
    exact ⟨by simp, by simp, by simpa using hx⟩
  | succ n ih =>
    intro b x l y hb3 hbo hx h
    rw [List.range'_succ] at h
    simp only [trialLoop, Option.bind_eq_bind, Option.pure_def, Option.bind_eq_some_iff] at h
    obtain ⟨⟨l1, x1⟩, hs, ⟨l2, y2⟩, ht, he⟩ := h
    simp only [Option.some.injEq, Prod.mk.injEq] at he
    obtain ⟨rfl, rfl⟩ := he
    obtain ⟨hp, hall, hm, hdv⟩ := stripFactor_spec _ _ _ _ _ hs
    have hx1 : ∀ p, p.Prime → p ∣ x1 → b + 2 ≤ p := by
      intro p hpp hpd
      have h1 := hx p hpp (hp ▸ Dvd.dvd.mul_left hpd _)
      have hne : p ≠ b := by
        rintro rfl
        exact hm (Nat.mod_eq_zero_of_dvd hpd)
      have hne2 : p ≠ b + 1 := by
        rintro rfl
        rcases hpp.eq_two_or_odd with h | h <;> omega
      omega
    obtain ⟨hp2, hall2, hlast⟩ := ih (b + 2) x1 l2 y2 (by omega) (by omega) hx1 ht
    refine ⟨?_, ?_, ?_⟩
    · rw [List.prod_append, mul_assoc, hp2, hp]
    · intro f hf
      rcases List.mem_append.mp hf with hf | hf
      · have hfb := hall f hf
        subst hfb
        have hfd : f ∣ x := hdv (by rintro rfl; simp at hf)
        have hmf := Nat.minFac_prime (show f ≠ 1 by omega)
        have := hx _ hmf ((Nat.minFac_dvd f).trans hfd)
        have hle := Nat.minFac_le (show 0 < f by omega)
        have : f.minFac = f := by omega
        rw [← this]; exact hmf
      · exact hall2 f hf
    · intro p hpp hpd
      have := hlast p hpp hpd
      omega

theorem trialLoop_total (fuel : ℕ) : ∀ (ds : List ℕ) (x : ℕ), (∀ d ∈ ds, 1 < d) → 0 < x → x ≤ fuel →
    ∃ l y, trialLoop fuel ds x = some (l, y) := by
  intro ds
  induction ds with
  | nil => intro x _ _ _; exact ⟨[], x, rfl⟩
  | cons d t ih =>
    intro x hd hx hf
    obtain ⟨⟨l1, x1⟩, h1⟩ := Option.isSome_iff_exists.mp (stripFactor_total fuel d x (hd d (by simp)) hx hf)
    have hp := (stripFactor_spec _ _ _ _ _ h1).1
    have hx1 : x1 ∣ x := ⟨l1.prod, by rw [← hp, mul_comm]⟩
    have hle := Nat.le_of_dvd hx hx1
    have hpos := Nat.pos_of_dvd_of_pos hx1 hx
    obtain ⟨l2, y2, h2⟩ := ih x1 (fun d hd' => hd d (by simp [hd'])) hpos (by omega)
    refine ⟨l1 ++ l2, y2, ?_⟩
    simp only [trialLoop, h1, Option.bind_eq_bind, Option.bind_some, h2, Option.pure_def]

theorem trialDivision_spec (fuel x : ℕ) (l : List ℕ) (h : trialDivision fuel x = some l) :
    l.prod = x ∧ l.Pairwise (· ≤ ·) ∧ (∀ f ∈ l, f.Prime) := by
  unfold trialDivision at h
  simp only [Option.bind_eq_bind, Option.pure_def, Option.bind_eq_some_iff, Option.some.injEq] at h
  obtain ⟨⟨l1, x1⟩, hs, ⟨l2, y⟩, ht, rfl⟩ := h
  simp only at ht ⊢
  obtain ⟨hp, hall, hm, hdv⟩ := stripFactor_spec _ _ _ _ _ hs
  have hodd : ∀ p, p.Prime → p ∣ x1 → 3 ≤ p := by
    intro p hpp hpd
    have := hpp.two_le
    have hne : p ≠ 2 := by rintro rfl; exact hm (Nat.mod_eq_zero_of_dvd hpd)
    omega
  obtain ⟨hp2, hall2, hlast⟩ := trialLoop_spec fuel _ 3 x1 l2 y (le_refl _) rfl hodd ht
  have hyprime : y > 1 → y.Prime := by
    intro hy
    by_contra hnp
    have hmf := Nat.minFac_prime (show y ≠ 1 by omega)
    have h1 := hlast _ hmf (Nat.minFac_dvd y)
    have hsq := Nat.minFac_sq_le_self (by omega : 0 < y) hnp
    have hx1pos : 0 < x1 := by
      rcases Nat.eq_zero_or_pos x1 with h0 | h0
      · rw [h0] at hm; simp at hm
      · exact h0
    have hle : y ≤ x1 := Nat.le_of_dvd hx1pos ⟨l2.prod, by rw [← hp2, mul_comm]⟩
    have hs1 : y.minFac ≤ Nat.sqrt x1 := by
      rw [Nat.le_sqrt']; omega
    have h3 := hodd _ hmf ((Nat.minFac_dvd y).trans ⟨l2.prod, by rw [← hp2, mul_comm]⟩)
    omega
  refine ⟨?_, List.pairwise_insertionSort _ _, ?_⟩
  · rw [(List.perm_insertionSort _ _).prod_eq, List.prod_append, List.prod_append]
    have hyy : (if y > 1 then [y] else []).prod = y := by
      split_ifs with hy
      · simp
      · have hy0 : y ≠ 0 := by
          rintro rfl
          have : x1 = 0 := by rw [← hp2, mul_zero]
          rw [this] at hm; simp at hm
        have : y = 1 := by omega
        simp [this]
    rw [hyy, mul_assoc, hp2, hp]
  · intro f hf
    rw [(List.perm_insertionSort _ _).mem_iff] at hf
    rcases List.mem_append.mp hf with hf | hf
    · rcases List.mem_append.mp hf with hf | hf
      · rw [hall f hf]; exact Nat.prime_two
      · exact hall2 f hf
    · split_ifs at hf with hy
      · simp at hf; subst hf; exact hyprime hy
      · simp at hf

theorem trialDivision_total (fuel x : ℕ) (hx : 0 < x) (hf : x ≤ fuel) :
    ∃ l, trialDivision fuel x = some l := by
  obtain ⟨⟨l1, x1⟩, h1⟩ := Option.isSome_iff_exists.mp (stripFactor_total fuel 2 x (by norm_num) hx hf)
  have hp := (stripFactor_spec _ _ _ _ _ h1).1
  have hx1 : x1 ∣ x := ⟨l1.prod, by rw [← hp, mul_comm]⟩
  have hle := Nat.le_of_dvd hx hx1
  have hpos := Nat.pos_of_dvd_of_pos hx1 hx
  obtain ⟨l2, y2, h2⟩ := trialLoop_total fuel (List.range' 3 ((Nat.sqrt x1 - 1) / 2) 2) x1 (by
    intro d hd
    rw [List.mem_range'] at hd
    obtain ⟨i, _, rfl⟩ := hd
    omega) hpos (by omega)
  unfold trialDivision
  simp only [h1, Option.bind_eq_bind, Option.bind_some, h2, Option.pure_def]
  exact ⟨_, rfl⟩

theorem pyGcd_eq (a b : ℤ) (hb : 0 ≤ b) (hab : 0 ≤ a ∨ 0 < b) : pyGcd a b = (Int.gcd a b : ℤ) := by
  induction a, b using pyGcd.induct with
  | case1 a =>
    rw [pyGcd]; simp
    rcases hab with h | h
    · rw [abs_of_nonneg h]
    · omega
  | case2 a b h ih =>
    rw [pyGcd, dif_neg h]
    have hbp : 0 < b := lt_of_le_of_ne hb (Ne.symm h)
    rw [Int.fmod_eq_emod_of_nonneg _ hb] at ih ⊢
    rw [ih (Int.emod_nonneg _ h) (Or.inl hb)]
    rw [Int.gcd_comm b, Int.gcd_emod]

theorem pyGcd_dvd (a : ℤ) (N : ℕ) (hN : 0 < N) : (pyGcd a N).toNat ∣ N := by
  rw [pyGcd_eq a N (by omega) (Or.inr (by omega)), Int.toNat_natCast]
  have := Int.gcd_dvd_right a (N : ℤ)
  exact_mod_cast this

/-- C33: whatever the random draws and for however long it runs, a returned list is sorted and multiplies
back to the argument. -/
theorem C33_product_sorted (rand : ℕ → ℕ) (fuel N : ℕ) (l : List ℕ)
    (h : factorECM rand fuel N = some l) : l.prod = N ∧ l.Pairwise (· ≤ ·) := by
  have key : ∀ (fuel N bound i : ℕ) (l : List ℕ) (i' : ℕ), factorEcm rand fuel N bound i = some (l, i') →
      l.prod = N ∧ l.Pairwise (· ≤ ·) := by
    intro fuel
    induction fuel with
    | zero => intro N b i l i' h; simp [factorEcm] at h
    | succ fuel ih =>
      intro N b i l i' h
      unfold factorEcm at h
      simp only at h
      by_cases h1 : N < 65536
      · rw [if_pos h1, Option.map_eq_some_iff] at h
        obtain ⟨l', hl', he⟩ := h
        obtain ⟨rfl, rfl⟩ := Prod.mk.inj he
        obtain ⟨a, b, _⟩ := trialDivision_spec _ _ _ hl'
        exact ⟨a, b⟩
      rw [if_neg h1] at h
      by_cases h2 : (fermatTest rand N 32 i).1 = true
      · rw [if_pos h2] at h
        simp only [Option.some.injEq, Prod.mk.injEq] at h
        obtain ⟨rfl, rfl⟩ := h
        simp
      · rw [if_neg h2] at h
        simp only [Option.bind_eq_bind, Option.bind_eq_some_iff] at h
        obtain ⟨c, hc, h⟩ := h
        split at h
        · rename_i a _
          split_ifs at h with hg
          · simp only [Option.pure_def, Option.bind_eq_some_iff, Option.some.injEq, Prod.mk.injEq] at h
            obtain ⟨⟨l1, i1⟩, hl1, ⟨l2, i2⟩, hl2, rfl, rfl⟩ := h
            refine ⟨?_, List.pairwise_insertionSort _ _⟩
            rw [(List.perm_insertionSort _ _).prod_eq, List.prod_append, (ih _ _ _ _ _ hl1).1,
              (ih _ _ _ _ _ hl2).1]
            exact Nat.mul_div_cancel' (pyGcd_dvd a N (by omega))
          · exact ih _ _ _ _ _ h
        · exact ih _ _ _ _ _ h
  unfold factorECM at h
  rw [Option.map_eq_some_iff] at h
  obtain ⟨⟨l', i'⟩, h', rfl⟩ := h
  exact key _ _ _ _ _ _ h'

/-- C33: for 1 ≤ N < 2^16 the function returns (given enough steps) exactly the list of prime factors
with multiplicity, in increasing order. -/
theorem C33_small_prime_factors (rand : ℕ → ℕ) (fuel N : ℕ) (h0 : 0 < N) (hN : N < 2 ^ 16)
    (hf : N < fuel) : factorECM rand fuel N = some N.primeFactorsList := by
  obtain ⟨f, rfl⟩ : ∃ f, fuel = f + 1 := ⟨fuel - 1, by omega⟩
  obtain ⟨l, hl⟩ := trialDivision_total f N h0 (by omega)
  obtain ⟨hp, hs, hpr⟩ := trialDivision_spec _ _ _ hl
  have : factorECM rand (f + 1) N = some l := by
    unfold factorECM factorEcm
    rw [if_pos (by simpa using hN), hl]
    rfl
  rw [this]
  congr 1
  have hperm : l.Perm N.primeFactorsList := Nat.primeFactorsList_unique hp hpr
  exact hperm.eq_of_pairwise (fun a b _ _ h1 h2 => le_antisymm h1 h2) hs
    (Nat.primeFactorsList_sorted N).pairwise

/-- C33: `FactorECM(0)` never returns. -/
theorem C33_zero_diverges (rand : ℕ → ℕ) (fuel : ℕ) : factorECM rand fuel 0 = none := by
  have h : ∀ f, stripFactor f 2 0 = none := by
    intro f
    induction f with
    | zero => rfl
    | succ f ih => unfold stripFactor; simp [ih]
  cases fuel with
  | zero => rfl
  | succ f =>
    unfold factorECM factorEcm
    simp [trialDivision, h]

/-- C33 does not extend to N ≥ 2^16: the Fermat test accepts Carmichael numbers, so for some random draws
the composite 75361 = 11·13·17·31 is returned as its own single factor. -/
theorem C33_large_composite_possible :
    ∃ rand : ℕ → ℕ, factorECM rand 1 75361 = some [75361] ∧ ¬ Nat.Prime 75361 := by
  refine ⟨fun _ => 0, ?_, by norm_num⟩
  have ht0 : ∀ n, (2 + 0 % (n - 3)) ^ (n - 1) % n = 1 → ∀ t i, fermatTest (fun _ => 0) n t i =
      (true, i + t) := by
    intro n hn t
    induction t with
    | zero => intro i; rfl
    | succ t ih =>
      intro i
      unfold fermatTest
      rw [if_neg (not_not.mpr hn), ih]
      congr 1; omega
  have gen : ∀ n, ¬ n < 65536 → (2 + 0 % (n - 3)) ^ (n - 1) % n = 1 →
      factorECM (fun _ => 0) 1 n = some [n] := by
    intro n hn hp
    unfold factorECM factorEcm
    rw [if_neg hn]
    simp only [ht0 n hp, if_true, Option.map_some]
  have hpow : (2 + 0 % (75361 - 3)) ^ (75361 - 1) % 75361 = 1 := by decide +kernel
  exact gen 75361 (by norm_num) hpow

theorem sieveLoop_spec (stop : ℕ) : ∀ (n q : ℕ) (c : ℕ → Bool), 2 ≤ q → (n = 0 ∨ q + n ≤ Nat.sqrt stop + 1) →
    (∀ i, c i = true ↔ i < stop ∧ ∃ r, r.Prime ∧ r < q ∧ r * r ≤ i ∧ r ∣ i) →
    ∀ i, sieveLoop stop (List.range' q n) c i = true ↔
      i < stop ∧ ∃ r, r.Prime ∧ r < q + n ∧ r * r ≤ i ∧ r ∣ i := by
  intro n
  induction n with
  | zero => intro q c _ _ hc; simpa [sieveLoop] using hc
  | succ n ih =>
    intro q c hq hn hc
    have hn' : q + (n + 1) ≤ Nat.sqrt stop + 1 := by omega
    have hqs : q * q ≤ stop := Nat.le_sqrt.mp (by omega)
    have hqlt : q < stop := by nlinarith
    rw [List.range'_succ]
    unfold sieveLoop
    have hcq : c q = true ↔ ¬ q.Prime := by
      rw [hc]
      constructor
      · rintro ⟨_, r, hr, hrq, _, hd⟩ hp
        rcases (Nat.dvd_prime hp).mp hd with h | h
        · exact hr.one_lt.ne' h
        · omega
      · intro hnp
        refine ⟨hqlt, q.minFac, Nat.minFac_prime (by omega), ?_, ?_, Nat.minFac_dvd q⟩
        · have h1 := Nat.minFac_le (show 0 < q by omega)
          have h2 : q.minFac ≠ q := fun h => hnp (h ▸ Nat.minFac_prime (by omega))
          omega
        · have := Nat.minFac_sq_le_self (show 0 < q by omega) hnp
          rwa [sq] at this
    have hstep : q + 1 + n = q + (n + 1) := by ring
    split_ifs with h
    · rw [← hstep]
      apply ih (q + 1) c (by omega) (Or.inr (by omega))
      intro i
      rw [hc i]
      constructor
      · rintro ⟨h1, r, hr, hrq, h2⟩
        exact ⟨h1, r, hr, by omega, h2⟩
      · rintro ⟨h1, r, hr, hrq, h2⟩
        refine ⟨h1, r, hr, ?_, h2⟩
        have : r ≠ q := by rintro rfl; exact (hcq.mp h) hr
        omega
    · rw [← hstep]
      have hqp : q.Prime := by by_contra hnp; exact h (hcq.mpr hnp)
      apply ih (q + 1) _ (by omega) (Or.inr (by omega))
      intro i
      unfold markMultiples
      rw [Bool.or_eq_true, hc i]
      simp only [Bool.and_eq_true, decide_eq_true_eq]
      constructor
      · rintro (⟨h1, r, hr, hrq, h2⟩ | ⟨⟨h1, h2⟩, h3⟩)
        · exact ⟨h1, r, hr, by omega, h2⟩
        · refine ⟨h2, q, hqp, by omega, h1, ?_⟩
          have h4 := Nat.dvd_of_mod_eq_zero h3
          have h5 : i = (i - q * q) + q * q := by omega
          rw [h5]
          exact dvd_add h4 (dvd_mul_left q q)
      · rintro ⟨h1, r, hr, hrq, h2, h3⟩
        by_cases hrq' : r = q
        · subst hrq'
          right
          exact ⟨⟨h2, h1⟩, Nat.mod_eq_zero_of_dvd (Nat.dvd_sub h3 (dvd_mul_left r r))⟩
        · left
          exact ⟨h1, r, hr, by omega, h2, h3⟩

/-- C33: the sieve used to build the curve multipliers returns exactly the primes below its bound, in
increasing order. -/
theorem C33_sieve (stop : ℕ) : (∀ p, p ∈ genPrimes stop ↔ p.Prime ∧ p < stop) ∧
    (genPrimes stop).Pairwise (· < ·) := by
  constructor
  · intro p
    unfold genPrimes
    simp only [List.mem_filter, List.mem_range'_1, Bool.not_eq_true', ]
    have h := sieveLoop_spec stop (Nat.sqrt stop + 1 - 2) 2 (fun _ => false) (le_refl _) (by omega) (by
      intro i
      simp only [Bool.false_eq_true, false_iff, not_and, not_exists]
      intro _ r hr hr2
      have := hr.two_le
      omega) p
    constructor
    · rintro ⟨⟨h2, h3⟩, h4⟩
      have hps : p < stop := by omega
      refine ⟨?_, hps⟩
      by_contra hnp
      have : sieveLoop stop (List.range' 2 (Nat.sqrt stop + 1 - 2)) (fun _ => false) p = true := by
        rw [h]
        have hmf := Nat.minFac_sq_le_self (show 0 < p by omega) hnp
        rw [sq] at hmf
        have hpr := Nat.minFac_prime (show p ≠ 1 by omega)
        refine ⟨hps, p.minFac, hpr, ?_, hmf, Nat.minFac_dvd p⟩
        have := hpr.two_le
        have h5 : p.minFac ≤ Nat.sqrt stop := Nat.le_sqrt.mpr (by omega)
        omega
      rw [h4] at this
      exact Bool.false_ne_true this
    · rintro ⟨hp, hps⟩
      have := hp.two_le
      refine ⟨by omega, ?_⟩
      by_contra hc
      rw [Bool.not_eq_false, h] at hc
      obtain ⟨_, r, hr, _, hrr, hd⟩ := hc
      rcases (Nat.dvd_prime hp).mp hd with h1 | h1
      · exact hr.one_lt.ne' h1
      · subst h1
        have := hr.two_le
        nlinarith
  · unfold genPrimes
    exact (List.pairwise_lt_range' 1).sublist List.filter_sublist

/-! ### nearly_square_factors -/

theorem nsf_fold (fs : List ℕ) : ∀ ab : ℕ × ℕ,
    let r := fs.foldl (fun ab f => if ab.1 > ab.2 then (ab.1, ab.2 * f) else (ab.1 * f, ab.2)) ab
    r.1 * r.2 = ab.1 * ab.2 * fs.prod := by
  induction fs with
  | nil => intro ab; simp
  | cons f t ih =>
    intro ab
    simp only [List.foldl_cons, List.prod_cons]
    have := ih (if ab.1 > ab.2 then (ab.1, ab.2 * f) else (ab.1 * f, ab.2))
    simp only at this
    rw [this]
    split_ifs <;> ring

/-- C34: the two returned numbers multiply to `n`, for every random tape. -/
theorem C34_product (rand : ℕ → ℕ) (fuel n a b : ℕ) (h : nearlySquareFactors rand fuel n = some (a, b)) :
    a * b = n := by
  unfold nearlySquareFactors at h
  rw [Option.map_eq_some_iff] at h
  obtain ⟨fs, hfs, he⟩ := h
  have := nsf_fold fs.reverse (1, 1)
  simp only [he] at this
  rw [this, List.prod_reverse, (C33_product_sorted rand fuel n fs hfs).1]
  simp

theorem nsf_balance (P : ℕ) (fs : List ℕ) (hfs : ∀ f ∈ fs, 1 ≤ f ∧ f ≤ P)   : ∀ ab : ℕ × ℕ,
    ab.1 ≤ P * ab.2 → ab.2 ≤ P * ab.1 →
    let r := fs.foldl (fun ab f => if ab.1 > ab.2 then (ab.1, ab.2 * f) else (ab.1 * f, ab.2)) ab
    r.1 ≤ P * r.2 ∧ r.2 ≤ P * r.1 := by
  induction fs with
  | nil => intro ab h1 h2; exact ⟨h1, h2⟩
  | cons f t ih =>
    intro ab h1 h2
    obtain ⟨hf1, hf2⟩ := hfs f (by simp)
    simp only [List.foldl_cons]
    apply ih (fun g hg => hfs g (by simp [hg]))
    · split_ifs with h
      · calc ab.1 ≤ P * ab.2 := h1
          _ ≤ P * (ab.2 * f) := Nat.mul_le_mul_left _ (Nat.le_mul_of_pos_right _ hf1)
      · simp only
        calc ab.1 * f ≤ ab.2 * P := Nat.mul_le_mul (by omega) hf2
          _ = P * ab.2 := mul_comm _ _
    · split_ifs with h
      · simp only
        calc ab.2 * f ≤ ab.1 * P := Nat.mul_le_mul (by omega) hf2
          _ = P * ab.1 := mul_comm _ _
      · calc ab.2 ≤ P * ab.1 := h2
          _ ≤ P * (ab.1 * f) := Nat.mul_le_mul_left _ (Nat.le_mul_of_pos_right _ hf1)

/-- C34: the split is balanced up to the largest prime factor: if no prime factor of `n` exceeds `P`,
neither returned number exceeds `P` times the other (1 ≤ n < 2^16). -/
theorem C34_balanced (rand : ℕ → ℕ) (fuel n P a b : ℕ) (h0 : 0 < n) (hn : n < 2 ^ 16) (hf : n < fuel)
    (hP1 : 1 ≤ P) (hP : ∀ p, p.Prime → p ∣ n → p ≤ P)
    (h : nearlySquareFactors rand fuel n = some (a, b)) : a ≤ P * b ∧ b ≤ P * a := by
  unfold nearlySquareFactors at h
  rw [C33_small_prime_factors rand fuel n h0 hn hf] at h
  simp only [Option.map_some, Option.some.injEq] at h
  have := nsf_balance P n.primeFactorsList.reverse (by
    intro f hf
    rw [List.mem_reverse] at hf
    have hpr := Nat.prime_of_mem_primeFactorsList hf
    exact ⟨hpr.one_le, hP f hpr (Nat.dvd_of_mem_primeFactorsList hf)⟩) (1, 1) (by simpa using hP1)
    (by simpa using hP1)
  simp only [h] at this
  exact this

/-- C34: for 1 ≤ n < 2^16 it does return. -/
theorem C34_returns (rand : ℕ → ℕ) (fuel n : ℕ) (h0 : 0 < n) (hn : n < 2 ^ 16) (hf : n < fuel) :
    ∃ a b, nearlySquareFactors rand fuel n = some (a, b) ∧ a * b = n := by
  have h := C33_small_prime_factors rand fuel n h0 hn hf
  have hsome : ∃ ab, nearlySquareFactors rand fuel n = some ab := by
    unfold nearlySquareFactors; rw [h]; exact ⟨_, rfl⟩
  obtain ⟨⟨a, b⟩, hab⟩ := hsome
  exact ⟨a, b, hab, C34_product rand fuel n a b hab⟩

/-! Non-vacuity. -/
example : factorECM (fun _ => 0) 400 360 = some [2, 2, 2, 3, 3, 5] := by
  rw [C33_small_prime_factors _ _ _ (by norm_num) (by norm_num) (by norm_num)]
  simp [Nat.primeFactorsList_ofNat]

end Verif
