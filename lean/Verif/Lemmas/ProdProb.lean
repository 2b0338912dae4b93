import Verif.Lemmas.Avg
import Verif.Lemmas.BiasTail
import Verif.Props.ReencRandom
import Mathlib.Probability.UniformOn
import Mathlib.MeasureTheory.Measure.Prod

/-!
# Probabilities on products of a measure space and a finite set
-/

namespace GoTfhe

open MeasureTheory ProbabilityTheory Finset

section

variable {Ω X Z : Type*} [MeasurableSpace Ω] [MeasurableSpace X] {μ : Measure Ω} [IsProbabilityMeasure μ]
  {ν : Measure X} [IsProbabilityMeasure ν]

theorem tsum_preimage_le [Countable Z] (f : Ω → Z) (hf : ∀ z, MeasurableSet (f ⁻¹' {z})) :
    ∑' z, μ (f ⁻¹' {z}) ≤ 1 := by
  rw [← measure_iUnion (fun a b hab => ?_) hf]
  · exact prob_le_one
  · exact Set.disjoint_left.2 fun x h1 h2 => hab (by
      rw [Set.mem_preimage, Set.mem_singleton_iff] at h1 h2
      exact h1.symm.trans h2)

/-- An event that depends on the first component only through countably many values. -/
theorem prod_discrete_le [Countable Z] (f : Ω → Z) (hf : ∀ z, MeasurableSet (f ⁻¹' {z})) (E : Z → X → Prop)
    (p : ENNReal) (h : ∀ z, ν {x | E z x} ≤ p) : (μ.prod ν) {x | E (f x.1) x.2} ≤ p := by
  have hsub : {x : Ω × X | E (f x.1) x.2} ⊆ ⋃ z, (f ⁻¹' {z}) ×ˢ {x | E z x} := by
    rintro ⟨ω, x⟩ hx
    exact Set.mem_iUnion.2 ⟨f ω, rfl, hx⟩
  refine (measure_mono hsub).trans ((measure_iUnion_le _).trans ?_)
  simp only [Measure.prod_prod]
  calc ∑' z, μ (f ⁻¹' {z}) * ν {x | E z x} ≤ ∑' z, μ (f ⁻¹' {z}) * p :=
        ENNReal.tsum_le_tsum fun z => by gcongr; exact h z
    _ = (∑' z, μ (f ⁻¹' {z})) * p := ENNReal.tsum_mul_right
    _ ≤ 1 * p := by gcongr; exact tsum_preimage_le f hf
    _ = p := one_mul p

/-- An event that depends on the second component only through countably many values. -/
theorem prod_discrete_le' [Countable Z] (f : X → Z) (hf : ∀ z, MeasurableSet (f ⁻¹' {z})) (E : Z → Ω → Prop)
    (p : ENNReal) (h : ∀ z, μ {x | E z x} ≤ p) : (μ.prod ν) {x | E (f x.2) x.1} ≤ p := by
  have hsub : {x : Ω × X | E (f x.2) x.1} ⊆ ⋃ z, {x | E z x} ×ˢ (f ⁻¹' {z}) := by
    rintro ⟨ω, x⟩ hx
    exact Set.mem_iUnion.2 ⟨f x, hx, rfl⟩
  refine (measure_mono hsub).trans ((measure_iUnion_le _).trans ?_)
  simp only [Measure.prod_prod]
  calc ∑' z, μ {x | E z x} * ν (f ⁻¹' {z}) ≤ ∑' z, p * ν (f ⁻¹' {z}) :=
        ENNReal.tsum_le_tsum fun z => by gcongr; exact h z
    _ = p * ∑' z, ν (f ⁻¹' {z}) := ENNReal.tsum_mul_left
    _ ≤ p * 1 := by gcongr; exact tsum_preimage_le f hf
    _ = p := mul_one p

theorem prod_fst_le (E : Ω → Prop) (p : ENNReal) (h : μ {x | E x} ≤ p) : (μ.prod ν) {x | E x.1} ≤ p := by
  have : {x : Ω × X | E x.1} = {x | E x} ×ˢ Set.univ := by ext x; simp
  rw [this, Measure.prod_prod, measure_univ, mul_one]
  exact h

theorem prod_snd_le (E : X → Prop) (p : ENNReal) (h : ν {x | E x} ≤ p) : (μ.prod ν) {x | E x.2} ≤ p := by
  have : {x : Ω × X | E x.2} = Set.univ ×ˢ {x | E x} := by ext x; simp
  rw [this, Measure.prod_prod, measure_univ, one_mul]
  exact h

end

theorem uprob_avg {X : Type*} [Fintype X] (E : X → Prop) [DecidablePred E] : uprob E = avg fun x => if E x then (1 : ℝ) else 0 := by
  unfold uprob avg
  rw [Set.ncard_eq_toFinset_card', sum_boole]
  congr 2
  congr 1
  ext x
  simp

/-- The uniform distribution as a measure. -/
theorem uniformOn_uprob {X : Type*} [Fintype X] [Nonempty X] [MeasurableSpace X] [MeasurableSingletonClass X] (E : X → Prop) :
    uniformOn (Set.univ : Set X) {x | E x} = ENNReal.ofReal (uprob E) := by
  rw [uniformOn_univ, Measure.count_apply_finite _ (Set.toFinite _)]
  unfold uprob
  rw [ENNReal.ofReal_div_of_pos (by exact_mod_cast Fintype.card_pos), ENNReal.ofReal_natCast, ENNReal.ofReal_natCast,
    Set.ncard_eq_toFinset_card _ (Set.toFinite _)]

theorem avg_pow_weight_eq (n : ℕ) (K : ℝ) : avg (fun s : Fin n → Bool => K ^ ∑ i, (s i).toNat) = ((1 + K) / 2) ^ n := by
  induction n with
  | zero => simp [avg]
  | succ n ih =>
    rw [avg_cons]
    simp only [Fin.sum_univ_succ, Fin.cons_zero, Fin.cons_succ]
    have : ∀ r : Fin n → Bool, avg (fun b : Bool => K ^ (b.toNat + ∑ i, (r i).toNat))
        = (1 + K) / 2 * K ^ ∑ i, (r i).toNat := by
      intro r
      rw [avg_bool, pow_add, pow_add]
      simp only [Bool.toNat_true, Bool.toNat_false, pow_one, pow_zero]
      ring
    simp only [this]
    rw [avg_mul_left, ih, pow_succ]
    ring

/-- The weight of a uniform key. -/
theorem weight_tail (n W : ℕ) (hn : 0 < n) (hW : n ≤ 2 * W) :
    uprob (fun s : Fin n → Bool => W < weight n (keyOf s)) ≤ Real.exp (-(2 * (W + 1 - n / 2 : ℝ) ^ 2 / n)) := by
  rw [uprob_avg]
  have hn' : (0 : ℝ) < n := by exact_mod_cast hn
  set t : ℝ := W + 1 - n / 2 with ht
  have ht0 : 0 ≤ t := by
    have : (n : ℝ) ≤ 2 * W := by exact_mod_cast hW
    rw [ht]; linarith
  set θ : ℝ := 4 * t / n with hθ
  have hθ0 : 0 ≤ θ := by positivity
  have h1 : avg (fun s : Fin n → Bool => if W < weight n (keyOf s) then (1 : ℝ) else 0)
      ≤ avg (fun s : Fin n → Bool => Real.exp (-(θ * (W + 1))) * Real.exp θ ^ ∑ i, (s i).toNat) := by
    refine avg_mono fun s => ?_
    rw [← Real.exp_nat_mul, ← Real.exp_add]
    split_ifs with h
    · rw [weight_keyOf] at h
      refine Real.one_le_exp ?_
      have : ((W : ℝ) + 1) ≤ ((∑ i, (s i).toNat : ℕ) : ℝ) := by exact_mod_cast h
      nlinarith
    · exact (Real.exp_pos _).le
  refine h1.trans ?_
  rw [avg_mul_left, avg_pow_weight_eq]
  have h2 : (1 + Real.exp θ) / 2 ≤ Real.exp (θ / 2 + θ ^ 2 / 8) := by
    have e1 : (1 + Real.exp θ) / 2 = Real.exp (θ / 2) * Real.cosh (θ / 2) := by
      rw [Real.cosh_eq, mul_div_assoc', mul_add, ← Real.exp_add, ← Real.exp_add, add_halves, add_neg_cancel, Real.exp_zero,
        add_comm]
    rw [e1, Real.exp_add]
    refine mul_le_mul_of_nonneg_left ((Real.cosh_le_exp_half_sq _).trans (le_of_eq ?_)) (Real.exp_pos _).le
    congr 1
    ring
  have h3 := pow_le_pow_left₀ (by positivity) h2 n
  rw [← Real.exp_nat_mul] at h3
  refine (mul_le_mul_of_nonneg_left h3 (Real.exp_pos _).le).trans (le_of_eq ?_)
  rw [← Real.exp_add]
  congr 1
  have e2 : (W : ℝ) + 1 = t + n / 2 := by rw [ht]; ring
  rw [e2, hθ]
  field_simp
  ring

end GoTfhe
