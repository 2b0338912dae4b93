import Verif.Lemmas.SubGauss
import Verif.Lemmas.CoinCount
import Mathlib.Analysis.SpecialFunctions.Gaussian.GaussianIntegral
import Mathlib.MeasureTheory.Integral.Bochner.Basic
import Mathlib.MeasureTheory.Group.LIntegral
import Mathlib.Probability.Independence.Integration
import Mathlib.Probability.UniformOn

/-!
# Sums of noise with random signs
-/

namespace GoTfhe

open MeasureTheory ProbabilityTheory

variable {ι Ω : Type*} [MeasurableSpace Ω] {μ : Measure Ω}

theorem lintegral_gauss {b : ℝ} (hb : 0 < b) :
    ∫⁻ x : ℝ, ENNReal.ofReal (Real.exp (-b * x ^ 2)) = ENNReal.ofReal (Real.sqrt (Real.pi / b)) := by
  rw [← integral_gaussian b, ofReal_integral_eq_lintegral_ofReal (integrable_exp_neg_mul_sq hb)
    (Filter.Eventually.of_forall fun x => (Real.exp_pos _).le)]

/-- The exponential moment of the square of a variable with the exponential moments of a normal one. -/
theorem mgf_sq [IsProbabilityMeasure μ] {z : Ω → ℝ} (hm : Measurable z) {s : ℝ}
    (hz : ∀ t : ℝ, ∫⁻ ω, ENNReal.ofReal (Real.exp (t * z ω)) ∂μ ≤ ENNReal.ofReal (Real.exp (t ^ 2 * s ^ 2 / 2)))
    {c : ℝ} (hc : 0 ≤ c) (hcs : 2 * c * s ^ 2 < 1) :
    ∫⁻ ω, ENNReal.ofReal (Real.exp (c * z ω ^ 2)) ∂μ ≤ ENNReal.ofReal (Real.sqrt (1 / (1 - 2 * c * s ^ 2))) := by
  set a := Real.sqrt (2 * c) with ha
  have ha2 : a ^ 2 = 2 * c := Real.sq_sqrt (by linarith)
  set G : ENNReal := ∫⁻ x : ℝ, ENNReal.ofReal (Real.exp (-(1 / 2) * x ^ 2)) with hG
  have hGe : G = ENNReal.ofReal (Real.sqrt (Real.pi / (1 / 2))) := lintegral_gauss (by norm_num)
  have hGp : 0 < Real.sqrt (Real.pi / (1 / 2)) := Real.sqrt_pos.2 (by have := Real.pi_pos; positivity)
  have h1 : ∀ ω, ENNReal.ofReal (Real.exp (c * z ω ^ 2)) * G
      = ∫⁻ x : ℝ, ENNReal.ofReal (Real.exp (a * x * z ω - x ^ 2 / 2)) := by
    intro ω
    rw [hG, ← lintegral_sub_right_eq_self (μ := volume) (fun x : ℝ => ENNReal.ofReal (Real.exp (-(1 / 2) * x ^ 2))) (a * z ω),
      ← lintegral_const_mul' _ _ ENNReal.ofReal_ne_top]
    refine lintegral_congr fun x => ?_
    rw [← ENNReal.ofReal_mul (Real.exp_pos _).le, ← Real.exp_add]
    congr 2
    linear_combination (-(z ω ^ 2) / 2) * ha2
  have h2 : (∫⁻ ω, ENNReal.ofReal (Real.exp (c * z ω ^ 2)) ∂μ) * G
      ≤ ENNReal.ofReal (Real.sqrt (Real.pi / (1 / 2 - c * s ^ 2))) := by
    rw [← lintegral_mul_const' _ _ (by rw [hGe]; exact ENNReal.ofReal_ne_top)]
    simp only [h1]
    have hmeas : Measurable (Function.uncurry fun (ω : Ω) (x : ℝ) => ENNReal.ofReal (Real.exp (a * x * z ω - x ^ 2 / 2))) := by
      refine (Real.measurable_exp.comp ?_).ennreal_ofReal
      exact ((measurable_snd.const_mul a).mul (hm.comp measurable_fst)).sub ((measurable_snd.pow_const 2).div_const 2)
    rw [lintegral_lintegral_swap hmeas.aemeasurable, ← lintegral_gauss (by linarith)]
    refine lintegral_mono fun x => ?_
    have e : ∀ ω, ENNReal.ofReal (Real.exp (a * x * z ω - x ^ 2 / 2))
        = ENNReal.ofReal (Real.exp (-(x ^ 2 / 2))) * ENNReal.ofReal (Real.exp (a * x * z ω)) := by
      intro ω
      rw [← ENNReal.ofReal_mul (Real.exp_pos _).le, ← Real.exp_add]
      congr 2
      ring
    simp only [e]
    rw [lintegral_const_mul' _ _ ENNReal.ofReal_ne_top]
    refine (mul_le_mul_right (hz (a * x)) _).trans (le_of_eq ?_)
    rw [← ENNReal.ofReal_mul (Real.exp_pos _).le, ← Real.exp_add]
    congr 2
    linear_combination (x ^ 2 * s ^ 2 / 2) * ha2
  rw [hGe] at h2
  have h3 : Real.sqrt (Real.pi / (1 / 2 - c * s ^ 2))
      = Real.sqrt (1 / (1 - 2 * c * s ^ 2)) * Real.sqrt (Real.pi / (1 / 2)) := by
    rw [← Real.sqrt_mul (by rw [one_div]; exact inv_nonneg.2 (by linarith))]
    congr 1
    have : 1 - 2 * c * s ^ 2 ≠ 0 := by linarith
    have h' : 1 / 2 - c * s ^ 2 ≠ 0 := by intro h; apply this; linarith
    field_simp
  rw [h3, ENNReal.ofReal_mul (Real.sqrt_nonneg _)] at h2
  exact (ENNReal.mul_le_mul_iff_left (by rw [Ne, ENNReal.ofReal_eq_zero, not_le]; exact hGp) ENNReal.ofReal_ne_top).1 h2

/-- Products of functions of independent variables. -/
theorem lintegral_prod_indep [IsProbabilityMeasure μ] [DecidableEq ι] {q : ι → Ω → ℚ} (hm : ∀ i, Measurable (q i))
    (hi : iIndepFun q μ) (f : ι → ℚ → ENNReal) (b : ι → ENNReal)
    (hf : ∀ i, ∫⁻ ω, f i (q i ω) ∂μ ≤ b i) (S : Finset ι) :
    ∫⁻ ω, ∏ i ∈ S, f i (q i ω) ∂μ ≤ ∏ i ∈ S, b i := by
  induction S using Finset.induction_on with
  | empty => simp
  | insert a S ha ih =>
    simp only [Finset.prod_insert ha]
    have hind : IndepFun (fun ω => f a (q a ω)) (fun ω => ∏ i ∈ S, f i (q i ω)) μ := by
      have h := (iIndepFun.indepFun_finset {a} S (by simpa using ha) hi hm).comp
        (φ := fun v : ({a} : Finset ι) → ℚ => f a (v ⟨a, Finset.mem_singleton_self a⟩))
        (ψ := fun v : S → ℚ => ∏ i : S, f i (v i)) .of_discrete .of_discrete
      have e : (fun ω => ∏ i ∈ S, f i (q i ω)) = (fun v : S → ℚ => ∏ i : S, f i (v i)) ∘ fun ω (i : S) => q i ω := by
        funext ω
        exact (Finset.prod_coe_sort S fun i => f i (q i ω)).symm
      rw [e]
      exact h
    have hfm : ∀ i, Measurable fun ω => f i (q i ω) := fun i => Measurable.comp (g := f i) .of_discrete (hm i)
    have := lintegral_mul_eq_lintegral_mul_lintegral_of_indepFun (hfm a) (Finset.measurable_prod S fun i _ => hfm i) hind
    simp only [Pi.mul_apply] at this
    rw [this]
    exact mul_le_mul' (hf a) ih

/-- The sum of the exponentials over all tapes. -/
theorem coin_mgf {κ : Type} [Fintype κ] [DecidableEq κ] (u : κ → ℤ) (t : ℝ) :
    ∑ a : CoinTape κ, Real.exp (t * (coinSum u a : ℝ))
      ≤ 4 ^ Fintype.card κ * Real.exp (t ^ 2 / 4 * ∑ i, (u i : ℝ) ^ 2) := by
  have h1 : ∀ a : CoinTape κ, Real.exp (t * (coinSum u a : ℝ)) = ∏ i, Real.exp (t * ((u i : ℝ) * (coinSign (a i) : ℝ))) := by
    intro a
    rw [← Real.exp_sum, ← Finset.mul_sum]
    unfold coinSum
    push_cast
    rfl
  have h2 : ∑ a : CoinTape κ, ∏ i, Real.exp (t * ((u i : ℝ) * (coinSign (a i) : ℝ)))
      = ∏ i, ∑ x, Real.exp (t * ((u i : ℝ) * (coinSign x : ℝ))) := by
    rw [Finset.prod_univ_sum, Fintype.piFinset_univ]
  have hM : ∀ i, ∑ x, Real.exp (t * ((u i : ℝ) * (coinSign x : ℝ))) ≤ 4 * Real.exp (t ^ 2 / 4 * (u i : ℝ) ^ 2) := by
    intro i
    rw [sum_coin (fun y => Real.exp (t * y))]
    set y := t * (u i : ℝ) / 2 with hy
    have hc := Real.cosh_le_exp_half_sq y
    have hc1 := Real.one_le_cosh y
    have hc0 : 0 ≤ Real.cosh y := by linarith
    have h3 : Real.cosh y ^ 2 ≤ Real.exp (y ^ 2 / 2) ^ 2 := pow_le_pow_left₀ hc0 hc 2
    rw [← Real.exp_nat_mul] at h3
    have e : (((2 : ℕ) : ℝ) * (y ^ 2 / 2)) = t ^ 2 / 4 * (u i : ℝ) ^ 2 := by rw [hy]; push_cast; ring
    rw [e] at h3
    have e2 : 2 * Real.exp (t * 0) + Real.exp (t * (u i : ℝ)) + Real.exp (t * -(u i : ℝ)) = 4 * Real.cosh y ^ 2 := by
      rw [Real.cosh_eq, mul_zero, Real.exp_zero, show t * (u i : ℝ) = y + y by rw [hy]; ring,
        show t * -(u i : ℝ) = -y + -y by rw [hy]; ring, Real.exp_add, Real.exp_add]
      have : Real.exp y * Real.exp (-y) = 1 := by rw [← Real.exp_add, add_neg_cancel, Real.exp_zero]
      linear_combination -2 * this
    rw [e2]
    linarith
  simp only [h1]
  rw [h2]
  refine (Finset.prod_le_prod (fun i _ => Finset.sum_nonneg fun x _ => (Real.exp_pos _).le) fun i _ => hM i).trans (le_of_eq ?_)
  rw [Finset.prod_mul_distrib, Finset.prod_const, Finset.card_univ, ← Real.exp_sum, ← Finset.mul_sum]

/-- The exponential moment of a sum of noise with random signs plus a sum of noise. The signs are uniform and independent
of the noise. -/
theorem joint_mgf [IsProbabilityMeasure μ] [DecidableEq ι] {q : ι → Ω → ℚ} (hm : ∀ i, Measurable (q i))
    (hi : iIndepFun q μ) (z : ℚ → ℝ) (s : ℝ)
    (hz : ∀ i (t : ℝ), ∫⁻ ω, ENNReal.ofReal (Real.exp (t * z (q i ω))) ∂μ ≤ ENNReal.ofReal (Real.exp (t ^ 2 * s ^ 2 / 2)))
    (A B : Finset ι) (hAB : Disjoint A B) (w : ι → ℝ) (hw : ∀ i, w i ^ 2 ≤ 1)
    {κ : Type} [Fintype κ] [DecidableEq κ] (u : Ω → κ → ℤ) (K : ℝ) (hK : 0 ≤ K)
    (huK : ∀ ω, ∑ k, (u ω k : ℝ) ^ 2 ≤ K * ∑ i ∈ A, z (q i ω) ^ 2)
    (t v : ℝ) (hv : t ^ 2 * K * s ^ 2 / 2 ≤ v) (hv1 : v < 1) :
    ∫⁻ ω, ∑ a : CoinTape κ, ENNReal.ofReal (Real.exp (t * ((coinSum (u ω) a : ℝ) + ∑ i ∈ B, w i * z (q i ω)))) ∂μ
      ≤ 4 ^ Fintype.card κ * ENNReal.ofReal (Real.sqrt (1 / (1 - v)) ^ A.card * Real.exp (t ^ 2 * s ^ 2 / 2) ^ B.card) := by
  have hzm : ∀ i, Measurable fun ω => z (q i ω) := fun i => Measurable.comp (g := z) .of_discrete (hm i)
  set f : CoinTape κ → Ω → ENNReal := fun a ω =>
    ENNReal.ofReal (Real.exp (t * ((coinSum (u ω) a : ℝ) + ∑ i ∈ B, w i * z (q i ω)))) with hf
  let F : ι → ℚ → ENNReal := fun i x =>
    if i ∈ A then ENNReal.ofReal (Real.exp (t ^ 2 * K / 4 * z x ^ 2)) else ENNReal.ofReal (Real.exp (t * w i * z x))
  let bd : ι → ENNReal := fun i =>
    if i ∈ A then ENNReal.ofReal (Real.sqrt (1 / (1 - v))) else ENNReal.ofReal (Real.exp (t ^ 2 * s ^ 2 / 2))
  have h3 : ∀ ω, ∑ a, f a ω ≤ 4 ^ Fintype.card κ * ∏ i ∈ A ∪ B, F i (q i ω) := by
    intro ω
    have e1 : ∑ a, f a ω = ENNReal.ofReal (Real.exp (t * ∑ i ∈ B, w i * z (q i ω))
        * ∑ a, Real.exp (t * (coinSum (u ω) a : ℝ))) := by
      rw [Finset.mul_sum, ENNReal.ofReal_sum_of_nonneg fun a _ => by positivity]
      refine Finset.sum_congr rfl fun a _ => ?_
      rw [hf, ← Real.exp_add]
      congr 2
      ring_nf
    have e2 : ∏ i ∈ A ∪ B, F i (q i ω) = ENNReal.ofReal (Real.exp (t ^ 2 * K / 4 * ∑ i ∈ A, z (q i ω) ^ 2)
        * Real.exp (t * ∑ i ∈ B, w i * z (q i ω))) := by
      rw [Finset.prod_union hAB, ENNReal.ofReal_mul (Real.exp_pos _).le, Finset.mul_sum, Finset.mul_sum, Real.exp_sum,
        Real.exp_sum, ENNReal.ofReal_prod_of_nonneg fun i _ => (Real.exp_pos _).le,
        ENNReal.ofReal_prod_of_nonneg fun i _ => (Real.exp_pos _).le]
      congr 1
      · exact Finset.prod_congr rfl fun i h => if_pos h
      · refine Finset.prod_congr rfl fun i h => ?_
        have : i ∉ A := fun h' => Finset.disjoint_left.1 hAB h' h
        simp only [F, if_neg this]
        congr 2
        ring
    have e3 : (4 : ENNReal) ^ Fintype.card κ = ENNReal.ofReal (4 ^ Fintype.card κ) := by
      rw [ENNReal.ofReal_pow (by norm_num)]; norm_num
    rw [e1, e2, e3, ← ENNReal.ofReal_mul (by positivity)]
    refine ENNReal.ofReal_le_ofReal ?_
    have h4 := coin_mgf (u ω) t
    have h5 : Real.exp (t ^ 2 / 4 * ∑ k, (u ω k : ℝ) ^ 2) ≤ Real.exp (t ^ 2 * K / 4 * ∑ i ∈ A, z (q i ω) ^ 2) := by
      refine Real.exp_le_exp.2 ?_
      have := mul_le_mul_of_nonneg_left (huK ω) (show 0 ≤ t ^ 2 / 4 by positivity)
      linarith
    have h6 := h4.trans (mul_le_mul_of_nonneg_left h5 (by positivity))
    have h7 := mul_le_mul_of_nonneg_left h6 (Real.exp_pos (t * ∑ i ∈ B, w i * z (q i ω))).le
    linarith
  have hFb : ∀ i, ∫⁻ ω, F i (q i ω) ∂μ ≤ bd i := by
    intro i
    by_cases h : i ∈ A
    · simp only [F, bd, if_pos h]
      refine (mgf_sq (hzm i) (hz i) (by positivity) (by linarith)).trans (ENNReal.ofReal_le_ofReal (Real.sqrt_le_sqrt ?_))
      exact one_div_le_one_div_of_le (by linarith) (by linarith)
    · simp only [F, bd, if_neg h]
      refine (hz i (t * w i)).trans (ENNReal.ofReal_le_ofReal (Real.exp_le_exp.2 ?_))
      have := mul_le_mul_of_nonneg_left (hw i) (show 0 ≤ t ^ 2 * s ^ 2 / 2 by positivity)
      nlinarith
  have h4 : ∫⁻ ω, ∑ a, f a ω ∂μ ≤ 4 ^ Fintype.card κ * ∏ i ∈ A ∪ B, bd i := by
    refine (lintegral_mono h3).trans ?_
    rw [lintegral_const_mul' _ _ (by finiteness)]
    exact mul_le_mul_right (lintegral_prod_indep hm hi F bd hFb _) _
  have e5 : ∏ i ∈ A ∪ B, bd i = ENNReal.ofReal (Real.sqrt (1 / (1 - v)) ^ A.card * Real.exp (t ^ 2 * s ^ 2 / 2) ^ B.card) := by
    rw [Finset.prod_union hAB, ENNReal.ofReal_mul (by positivity), ENNReal.ofReal_pow (Real.sqrt_nonneg _),
      ENNReal.ofReal_pow (Real.exp_pos _).le]
    congr 1
    · rw [← Finset.prod_const]
      exact Finset.prod_congr rfl fun i h => if_pos h
    · rw [← Finset.prod_const]
      exact Finset.prod_congr rfl fun i h => if_neg fun h' => Finset.disjoint_left.1 hAB h' h
  rw [e5] at h4
  exact h4

/-- Chernoff's bound for a sum of noise with random signs plus a sum of noise. The signs are uniform and independent of
the noise, so the probability is the average over the tapes. -/
theorem joint_tail [IsProbabilityMeasure μ] [DecidableEq ι] {q : ι → Ω → ℚ} (hm : ∀ i, Measurable (q i))
    (hi : iIndepFun q μ) (z : ℚ → ℝ) (s : ℝ)
    (hz : ∀ i (t : ℝ), ∫⁻ ω, ENNReal.ofReal (Real.exp (t * z (q i ω))) ∂μ ≤ ENNReal.ofReal (Real.exp (t ^ 2 * s ^ 2 / 2)))
    (A B : Finset ι) (hAB : Disjoint A B) (w : ι → ℝ) (hw : ∀ i, w i ^ 2 ≤ 1)
    {κ : Type} [Fintype κ] [DecidableEq κ] (u : Ω → κ → ℤ) (hu : ∀ k, Measurable fun ω => u ω k) (K : ℝ) (hK : 0 ≤ K)
    (huK : ∀ ω, ∑ k, (u ω k : ℝ) ^ 2 ≤ K * ∑ i ∈ A, z (q i ω) ^ 2)
    (t v T : ℝ) (ht : 0 ≤ t) (hv : t ^ 2 * K * s ^ 2 / 2 ≤ v) (hv1 : v < 1) :
    ∑ a : CoinTape κ, μ {ω | T ≤ (coinSum (u ω) a : ℝ) + ∑ i ∈ B, w i * z (q i ω)}
      ≤ 4 ^ Fintype.card κ * ENNReal.ofReal (Real.exp (-(t * T) + t ^ 2 * s ^ 2 * B.card / 2)
          * Real.sqrt (1 / (1 - v)) ^ A.card) := by
  have hzm : ∀ i, Measurable fun ω => z (q i ω) := fun i => Measurable.comp (g := z) .of_discrete (hm i)
  have hBm : Measurable fun ω => ∑ i ∈ B, w i * z (q i ω) := Finset.measurable_sum _ fun i _ => (hzm i).const_mul (w i)
  have hcm : ∀ a, Measurable fun ω => (coinSum (u ω) a : ℝ) := by
    intro a
    unfold coinSum
    push_cast
    refine Finset.measurable_sum _ fun k _ => Measurable.mul_const ?_ _
    exact Measurable.comp (g := fun x : ℤ => (x : ℝ)) .of_discrete (hu k)
  set f : CoinTape κ → Ω → ENNReal := fun a ω =>
    ENNReal.ofReal (Real.exp (t * ((coinSum (u ω) a : ℝ) + ∑ i ∈ B, w i * z (q i ω)))) with hf
  have hfm : ∀ a, Measurable (f a) := fun a =>
    (Real.measurable_exp.comp (((hcm a).add hBm).const_mul t)).ennreal_ofReal
  have hp : ENNReal.ofReal (Real.exp (t * T)) ≠ 0 := by
    rw [Ne, ENNReal.ofReal_eq_zero, not_le]; exact Real.exp_pos _
  have h1 : ∀ a, ENNReal.ofReal (Real.exp (t * T)) * μ {ω | T ≤ (coinSum (u ω) a : ℝ) + ∑ i ∈ B, w i * z (q i ω)}
      ≤ ∫⁻ ω, f a ω ∂μ := by
    intro a
    refine le_trans (mul_le_mul_right (measure_mono fun ω hω => ?_) _)
      (mul_meas_ge_le_lintegral (hfm a) (ENNReal.ofReal (Real.exp (t * T))))
    exact ENNReal.ofReal_le_ofReal (Real.exp_le_exp.2 (mul_le_mul_of_nonneg_left hω ht))
  have h2 : ENNReal.ofReal (Real.exp (t * T))
      * ∑ a : CoinTape κ, μ {ω | T ≤ (coinSum (u ω) a : ℝ) + ∑ i ∈ B, w i * z (q i ω)} ≤ ∫⁻ ω, ∑ a, f a ω ∂μ := by
    rw [Finset.mul_sum, lintegral_finset_sum _ fun a _ => hfm a]
    exact Finset.sum_le_sum fun a _ => h1 a
  have h4 := joint_mgf hm hi z s hz A B hAB w hw u K hK huK t v hv hv1
  have h6 := h2.trans h4
  have e6 : Real.exp (-(t * T) + t ^ 2 * s ^ 2 * B.card / 2) * Real.sqrt (1 / (1 - v)) ^ A.card
      = Real.exp (-(t * T)) * (Real.sqrt (1 / (1 - v)) ^ A.card * Real.exp (t ^ 2 * s ^ 2 / 2) ^ B.card) := by
    rw [← Real.exp_nat_mul, Real.exp_add, show (B.card : ℝ) * (t ^ 2 * s ^ 2 / 2) = t ^ 2 * s ^ 2 * B.card / 2 by ring]
    ring
  rw [e6, ENNReal.ofReal_mul (Real.exp_pos _).le, mul_left_comm]
  refine le_trans (le_of_eq ?_) (mul_le_mul_right h6 (ENNReal.ofReal (Real.exp (-(t * T)))))
  rw [← mul_assoc, ← ENNReal.ofReal_mul (Real.exp_pos _).le, ← Real.exp_add, neg_add_cancel, Real.exp_zero,
    ENNReal.ofReal_one, one_mul]

/-- From the average over the tapes to the product measure. -/
theorem prod_uniform_le [IsProbabilityMeasure μ] {κ : Type} [Fintype κ] [DecidableEq κ] (E : Ω → CoinTape κ → Prop)
    (p : ENNReal) (h : ∑ a : CoinTape κ, μ {ω | E ω a} ≤ 4 ^ Fintype.card κ * p) :
    (μ.prod (uniformOn (Set.univ : Set (CoinTape κ)))) {x | E x.1 x.2} ≤ p := by
  have hsub : {x : Ω × CoinTape κ | E x.1 x.2} ⊆ ⋃ a ∈ (Finset.univ : Finset (CoinTape κ)), {ω | E ω a} ×ˢ {a} := by
    rintro ⟨ω, a⟩ hx
    simp only [Set.mem_iUnion, Set.mem_prod, Set.mem_singleton_iff]
    exact ⟨a, Finset.mem_univ a, hx, rfl⟩
  have hone : ∀ a : CoinTape κ, uniformOn (Set.univ : Set (CoinTape κ)) {a} = (4 ^ Fintype.card κ)⁻¹ := by
    intro a
    rw [uniformOn_univ, Measure.count_singleton]
    have : Fintype.card (CoinTape κ) = 4 ^ Fintype.card κ := by
      unfold CoinTape
      rw [Fintype.card_fun, Fintype.card_prod, Fintype.card_bool]
    rw [this, one_div]
    norm_num
  have hc0 : (4 : ENNReal) ^ Fintype.card κ ≠ 0 := by simp
  have hct : (4 : ENNReal) ^ Fintype.card κ ≠ ⊤ := by finiteness
  refine (measure_mono hsub).trans ((measure_biUnion_finset_le _ _).trans ?_)
  simp only [Measure.prod_prod, hone]
  rw [← Finset.sum_mul, ← div_eq_mul_inv]
  exact ENNReal.div_le_of_le_mul' h

end GoTfhe
