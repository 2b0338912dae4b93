import Verif.Spec.Noise
import Mathlib.Data.Finset.Max
import Mathlib.MeasureTheory.Function.SpecialFunctions.Basic
import Mathlib.MeasureTheory.Measure.Prod
import Mathlib.MeasureTheory.Integral.Lebesgue.Markov
import Mathlib.Analysis.SpecialFunctions.Trigonometric.DerivHyp
import Mathlib.Probability.Independence.Basic

/-!
# Sums of noise whose coefficients depend on earlier noise
-/

namespace GoTfhe

open MeasureTheory ProbabilityTheory

variable {ι Ω : Type*} [MeasurableSpace Ω] {μ : Measure Ω}

theorem exp_add_exp_neg_mono {x y : ℝ} (h : |x| ≤ |y|) :
    Real.exp x + Real.exp (-x) ≤ Real.exp y + Real.exp (-y) := by
  have := Real.cosh_le_cosh.2 h
  rw [Real.cosh_eq, Real.cosh_eq] at this
  linarith

/-- An odd function of a symmetric variable that does not increase it by more than a factor keeps the bound on the
exponential moments. -/
theorem mgf_odd_of {E : Type*} [MeasurableSpace E] [Neg E] [MeasurableNeg E] {q : Ω → E} (hm : Measurable q)
    (hs : μ.map q = μ.map fun ω => -q ω) (v : E → ℝ) (hv : Measurable v) (hvo : ∀ x, v (-x) = -v x) {σ : ℝ}
    (hq : ∀ t : ℝ, ∫⁻ ω, ENNReal.ofReal (Real.exp (t * v (q ω))) ∂μ ≤ ENNReal.ofReal (Real.exp (t ^ 2 * σ ^ 2 / 2)))
    (z : E → ℝ) (hzm : Measurable z) (hz : ∀ x, z (-x) = -z x) (c : ℝ) (hc : ∀ x, |z x| ≤ |c * v x|) (t : ℝ) :
    ∫⁻ ω, ENNReal.ofReal (Real.exp (t * z (q ω))) ∂μ ≤ ENNReal.ofReal (Real.exp (t ^ 2 * (c * σ) ^ 2 / 2)) := by
  have hme : ∀ g : E → ℝ, Measurable g → Measurable fun x => ENNReal.ofReal (Real.exp (g x)) := fun g hg =>
    ENNReal.measurable_ofReal.comp (Real.measurable_exp.comp hg)
  have sym : ∀ f : E → ENNReal, Measurable f → ∫⁻ ω, f (q ω) ∂μ = ∫⁻ ω, f (-q ω) ∂μ := by
    intro f hf
    rw [← lintegral_map (f := f) (g := q) hf hm, hs, lintegral_map (f := f) (g := fun ω => -q ω) hf hm.neg]
  have dbl : ∀ g : E → ℝ, Measurable g → (∀ x, g (-x) = -g x) →
      2 * ∫⁻ ω, ENNReal.ofReal (Real.exp (g (q ω))) ∂μ
        = ∫⁻ ω, ENNReal.ofReal (Real.exp (g (q ω)) + Real.exp (-g (q ω))) ∂μ := by
    intro g hgm hg
    rw [two_mul]
    nth_rewrite 2 [sym (fun x => ENNReal.ofReal (Real.exp (g x))) (hme g hgm)]
    have hmg : Measurable fun ω => ENNReal.ofReal (Real.exp (g (q ω))) := (hme g hgm).comp hm
    rw [← lintegral_add_left hmg]
    refine lintegral_congr fun ω => ?_
    rw [hg, ENNReal.ofReal_add (Real.exp_pos _).le (Real.exp_pos _).le]
  have h1 := dbl (fun x => t * z x) (hzm.const_mul t) (fun x => by rw [hz]; ring)
  have h2 := dbl (fun x => t * c * v x) (hv.const_mul (t * c)) (fun x => by rw [hvo]; ring)
  have h3 : ∫⁻ ω, ENNReal.ofReal (Real.exp (t * z (q ω)) + Real.exp (-(t * z (q ω)))) ∂μ
      ≤ ∫⁻ ω, ENNReal.ofReal (Real.exp (t * c * v (q ω)) + Real.exp (-(t * c * v (q ω)))) ∂μ := by
    refine lintegral_mono fun ω => ENNReal.ofReal_le_ofReal (exp_add_exp_neg_mono ?_)
    rw [mul_assoc, abs_mul, abs_mul]
    exact mul_le_mul_of_nonneg_left (hc _) (abs_nonneg _)
  rw [← h1, ← h2, ENNReal.mul_le_mul_iff_right (by norm_num) (by norm_num)] at h3
  refine h3.trans ((hq (t * c)).trans (le_of_eq ?_))
  congr 2
  ring

theorem mgf_odd {q : Ω → ℚ} (hm : Measurable q) (hs : μ.map q = μ.map fun ω => -q ω) {σ : ℝ}
    (hq : ∀ t : ℝ, ∫⁻ ω, ENNReal.ofReal (Real.exp (t * q ω)) ∂μ ≤ ENNReal.ofReal (Real.exp (t ^ 2 * σ ^ 2 / 2)))
    (z : ℚ → ℝ) (hz : ∀ x, z (-x) = -z x) (c : ℝ) (hc : ∀ x : ℚ, |z x| ≤ |c * x|) (t : ℝ) :
    ∫⁻ ω, ENNReal.ofReal (Real.exp (t * z (q ω))) ∂μ ≤ ENNReal.ofReal (Real.exp (t ^ 2 * (c * σ) ^ 2 / 2)) :=
  mgf_odd_of hm hs (fun x => (x : ℝ)) .of_discrete (fun x => by push_cast; rfl) hq z .of_discrete hz c hc t

/-- The exponential supermartingale. The draws are ordered by `rank`; the coefficient of a draw may depend on draws of
smaller rank. -/
theorem adaptive_mgf [IsProbabilityMeasure μ] [DecidableEq ι] {q : ι → Ω → ℚ} (hm : ∀ i, Measurable (q i))
    (hi : iIndepFun q μ) (z : ι → ℚ → ℝ) (s : ι → ℝ)
    (hz : ∀ i (t : ℝ), ∫⁻ ω, ENNReal.ofReal (Real.exp (t * z i (q i ω))) ∂μ
      ≤ ENNReal.ofReal (Real.exp (t ^ 2 * s i ^ 2 / 2)))
    (rank : ι → ℕ) (B : Finset ι) (A : ι → (ι → ℚ) → ℝ)
    (hA : ∀ i ∈ B, ∀ y y' : ι → ℚ, (∀ j ∈ B, rank j < rank i → y j = y' j) → A i y = A i y') (t : ℝ)
    (S : Finset ι) : S ⊆ B →
    ∫⁻ ω, ENNReal.ofReal (Real.exp (∑ i ∈ S, (t * A i (fun j => q j ω) * z i (q i ω)
      - t ^ 2 * s i ^ 2 * A i (fun j => q j ω) ^ 2 / 2))) ∂μ ≤ 1 := by
  induction S using Finset.induction_on_max_value rank with
  | empty => intro _; simp
  | insert a S ha hmax ih =>
    intro hS
    have hSB : S ⊆ B := (Finset.subset_insert a S).trans hS
    have haB : a ∈ B := hS (Finset.mem_insert_self a S)
    set B' := B.erase a with hB'
    let U : Ω → (B' → ℚ) := fun ω j => q j ω
    let pad : (B' → ℚ) → ι → ℚ := fun u j => if h : j ∈ B' then u ⟨j, h⟩ else 0
    have hU : Measurable U := measurable_pi_lambda _ fun j => hm j
    have hpad : ∀ ω, ∀ j ∈ B', pad (U ω) j = q j ω := by
      intro ω j hj
      simp only [pad, dif_pos hj, U]
    have hAp : ∀ i ∈ insert a S, ∀ ω, A i (fun j => q j ω) = A i (pad (U ω)) := by
      intro i hi' ω
      refine hA i (hS hi') _ _ fun j hj hr => (hpad ω j ?_).symm
      rw [hB', Finset.mem_erase]
      refine ⟨?_, hj⟩
      rintro rfl
      rcases Finset.mem_insert.1 hi' with rfl | h
      · exact lt_irrefl _ hr
      · exact absurd (hmax i h) (not_le.2 hr)
    have hSB' : ∀ i ∈ S, i ∈ B' := fun i h => Finset.mem_erase.2 ⟨fun e => ha (e ▸ h), hSB h⟩
    let F : (B' → ℚ) → ENNReal := fun u => ENNReal.ofReal (Real.exp (∑ i ∈ S, (t * A i (pad u) * z i (pad u i)
      - t ^ 2 * s i ^ 2 * A i (pad u) ^ 2 / 2)))
    let H : (B' → ℚ) → ℚ → ENNReal := fun u v => ENNReal.ofReal (Real.exp (t * A a (pad u) * z a v
      - t ^ 2 * s a ^ 2 * A a (pad u) ^ 2 / 2))
    have hF : ∀ ω, ENNReal.ofReal (Real.exp (∑ i ∈ S, (t * A i (fun j => q j ω) * z i (q i ω)
      - t ^ 2 * s i ^ 2 * A i (fun j => q j ω) ^ 2 / 2))) = F (U ω) := by
      intro ω
      simp only [F]
      congr 2
      refine Finset.sum_congr rfl fun i h => ?_
      rw [hAp i (Finset.mem_insert_of_mem h) ω, hpad ω i (hSB' i h)]
    have hFH : ∀ ω, ENNReal.ofReal (Real.exp (∑ i ∈ insert a S, (t * A i (fun j => q j ω) * z i (q i ω)
      - t ^ 2 * s i ^ 2 * A i (fun j => q j ω) ^ 2 / 2))) = F (U ω) * H (U ω) (q a ω) := by
      intro ω
      rw [Finset.sum_insert ha, add_comm, Real.exp_add, ENNReal.ofReal_mul (Real.exp_pos _).le, hF ω,
        hAp a (Finset.mem_insert_self _ _) ω]
    simp only [hFH]
    have ind : IndepFun U (q a) μ := by
      have h := iIndepFun.indepFun_finset B' {a} (by rw [hB']; simp) hi hm
      exact h.comp (φ := id) (ψ := fun v : ({a} : Finset ι) → ℚ => v ⟨a, Finset.mem_singleton_self a⟩)
        measurable_id (measurable_pi_apply _)
    have key : ∫⁻ ω, F (U ω) * H (U ω) (q a ω) ∂μ
        = ∫⁻ u, F u * ∫⁻ v, H u v ∂(μ.map (q a)) ∂(μ.map U) := by
      have e1 : ∫⁻ ω, F (U ω) * H (U ω) (q a ω) ∂μ
          = ∫⁻ p, F p.1 * H p.1 p.2 ∂(μ.map fun ω => (U ω, q a ω)) :=
        (lintegral_map (f := fun p : (B' → ℚ) × ℚ => F p.1 * H p.1 p.2) .of_discrete (hU.prodMk (hm a))).symm
      rw [e1, (indepFun_iff_map_prod_eq_prod_map_map hU.aemeasurable (hm a).aemeasurable).1 ind,
        lintegral_prod _ (Measurable.of_discrete.aemeasurable)]
      refine lintegral_congr fun u => ?_
      exact lintegral_const_mul (F u) (f := H u) .of_discrete
    rw [key]
    have inner : ∀ u, ∫⁻ v, H u v ∂(μ.map (q a)) ≤ 1 := by
      intro u
      rw [lintegral_map (f := H u) .of_discrete (hm a)]
      have e : ∀ ω, H u (q a ω) = ENNReal.ofReal (Real.exp (-(t ^ 2 * s a ^ 2 * A a (pad u) ^ 2 / 2)))
          * ENNReal.ofReal (Real.exp (t * A a (pad u) * z a (q a ω))) := by
        intro ω
        simp only [H]
        rw [← ENNReal.ofReal_mul (Real.exp_pos _).le, ← Real.exp_add]
        congr 2
        ring
      simp only [e]
      have hmg : Measurable fun ω => ENNReal.ofReal (Real.exp (t * A a (pad u) * z a (q a ω))) :=
        Measurable.comp (g := fun x => ENNReal.ofReal (Real.exp (t * A a (pad u) * z a x))) .of_discrete (hm a)
      rw [lintegral_const_mul _ hmg]
      refine (mul_le_mul_right (hz a (t * A a (pad u))) _).trans (le_of_eq ?_)
      rw [← ENNReal.ofReal_mul (Real.exp_pos _).le, ← Real.exp_add]
      rw [show -(t ^ 2 * s a ^ 2 * A a (pad u) ^ 2 / 2) + (t * A a (pad u)) ^ 2 * s a ^ 2 / 2 = 0 by ring]
      simp
    calc ∫⁻ u, F u * ∫⁻ v, H u v ∂(μ.map (q a)) ∂(μ.map U)
        ≤ ∫⁻ u, F u ∂(μ.map U) := by
          refine lintegral_mono fun u => ?_
          exact (mul_le_mul_right (inner u) _).trans (by rw [mul_one])
      _ = ∫⁻ ω, F (U ω) ∂μ := lintegral_map (f := F) .of_discrete hU
      _ ≤ 1 := by
          have := ih hSB
          simp only [hF] at this
          exact this

/-- Tail of an adaptive sum: with the squares of the coefficients bounded along every path, the sum is rarely larger
than `T`. -/
theorem adaptive_tail [IsProbabilityMeasure μ] [DecidableEq ι] {q : ι → Ω → ℚ} (hm : ∀ i, Measurable (q i))
    (hi : iIndepFun q μ) (z : ι → ℚ → ℝ) (s : ι → ℝ)
    (hz : ∀ i (t : ℝ), ∫⁻ ω, ENNReal.ofReal (Real.exp (t * z i (q i ω))) ∂μ
      ≤ ENNReal.ofReal (Real.exp (t ^ 2 * s i ^ 2 / 2)))
    (rank : ι → ℕ) (B : Finset ι) (A : ι → (ι → ℚ) → ℝ)
    (hA : ∀ i ∈ B, ∀ y y' : ι → ℚ, (∀ j ∈ B, rank j < rank i → y j = y' j) → A i y = A i y')
    {V : ℝ} (hV : 0 < V) (hAV : ∀ y : ι → ℚ, ∑ i ∈ B, s i ^ 2 * A i y ^ 2 ≤ V) {T : ℝ} (hT : 0 ≤ T) :
    μ {ω | T ≤ |∑ i ∈ B, A i (fun j => q j ω) * z i (q i ω)|} ≤ ENNReal.ofReal (2 * Real.exp (-(T ^ 2 / (2 * V)))) := by
  have one : ∀ t : ℝ, |t| = T / V →
      μ {ω | T ^ 2 / V ≤ t * ∑ i ∈ B, A i (fun j => q j ω) * z i (q i ω)} ≤ ENNReal.ofReal (Real.exp (-(T ^ 2 / (2 * V)))) := by
    intro t ht
    have ht2 : t ^ 2 = (T / V) ^ 2 := by rw [← sq_abs, ht]
    have h := adaptive_mgf hm hi z s hz rank B A hA t B subset_rfl
    set X : Ω → ℝ := fun ω => ∑ i ∈ B, (t * A i (fun j => q j ω) * z i (q i ω)
      - t ^ 2 * s i ^ 2 * A i (fun j => q j ω) ^ 2 / 2) with hX
    have hmeas : Measurable fun ω => ENNReal.ofReal (Real.exp (X ω)) := by
      have hAm : ∀ i ∈ B, Measurable fun ω => A i (fun j => q j ω) := by
        intro i hiB
        let pad : (B → ℚ) → ι → ℚ := fun u j => if h : j ∈ B then u ⟨j, h⟩ else 0
        have e : (fun ω => A i (fun j => q j ω)) = fun ω => (fun u : B → ℚ => A i (pad u)) (fun j => q j ω) := by
          funext ω
          refine hA i hiB _ _ fun j hj _ => ?_
          simp only [pad, dif_pos hj]
        rw [e]
        exact Measurable.comp (g := fun u : B → ℚ => A i (pad u)) .of_discrete
          (measurable_pi_lambda _ fun j => hm j)
      refine (Real.measurable_exp.comp ?_).ennreal_ofReal
      refine Finset.measurable_sum _ fun i hiB => ?_
      exact (((hAm i hiB).const_mul t).mul (Measurable.comp (g := z i) .of_discrete (hm i))).sub
        ((((hAm i hiB).pow_const 2).const_mul _).div_const 2)
    have hsub : {ω | T ^ 2 / V ≤ t * ∑ i ∈ B, A i (fun j => q j ω) * z i (q i ω)}
        ⊆ {ω | ENNReal.ofReal (Real.exp (T ^ 2 / (2 * V))) ≤ ENNReal.ofReal (Real.exp (X ω))} := by
      intro ω hω
      simp only [Set.mem_setOf_eq] at hω ⊢
      refine ENNReal.ofReal_le_ofReal (Real.exp_le_exp.2 ?_)
      have h1 : X ω = t * ∑ i ∈ B, A i (fun j => q j ω) * z i (q i ω)
          - t ^ 2 / 2 * ∑ i ∈ B, s i ^ 2 * A i (fun j => q j ω) ^ 2 := by
        rw [hX, Finset.mul_sum, Finset.mul_sum, ← Finset.sum_sub_distrib]
        refine Finset.sum_congr rfl fun i _ => ?_
        ring
      have h2 := mul_le_mul_of_nonneg_left (hAV fun j => q j ω) (show 0 ≤ t ^ 2 / 2 by positivity)
      have h3 : t ^ 2 / 2 * V = T ^ 2 / (2 * V) := by rw [ht2]; field_simp
      have h4 : T ^ 2 / V = 2 * (T ^ 2 / (2 * V)) := by field_simp
      rw [h1]
      linarith
    have hmk := mul_meas_ge_le_lintegral hmeas (ENNReal.ofReal (Real.exp (T ^ 2 / (2 * V)))) (μ := μ)
    refine (measure_mono hsub).trans ?_
    have hp : ENNReal.ofReal (Real.exp (T ^ 2 / (2 * V))) ≠ 0 := by
      rw [Ne, ENNReal.ofReal_eq_zero, not_le]; exact Real.exp_pos _
    have h5 := (ENNReal.le_div_iff_mul_le (Or.inl hp) (Or.inl ENNReal.ofReal_ne_top)).2
      ((mul_comm _ _).trans_le (hmk.trans h))
    refine h5.trans (le_of_eq ?_)
    rw [one_div, ← ENNReal.ofReal_inv_of_pos (Real.exp_pos _), ← Real.exp_neg]
  have hcov : {ω | T ≤ |∑ i ∈ B, A i (fun j => q j ω) * z i (q i ω)|}
      ⊆ {ω | T ^ 2 / V ≤ T / V * ∑ i ∈ B, A i (fun j => q j ω) * z i (q i ω)}
        ∪ {ω | T ^ 2 / V ≤ -(T / V) * ∑ i ∈ B, A i (fun j => q j ω) * z i (q i ω)} := by
    intro ω hω
    simp only [Set.mem_setOf_eq] at hω
    have hTV : 0 ≤ T / V := by positivity
    have e : T ^ 2 / V = T / V * T := by ring
    rcases le_abs.1 hω with h | h
    · left
      simp only [Set.mem_setOf_eq]
      rw [e]
      exact mul_le_mul_of_nonneg_left h hTV
    · right
      simp only [Set.mem_setOf_eq]
      rw [e, neg_mul, ← mul_neg]
      exact mul_le_mul_of_nonneg_left h hTV
  refine (measure_mono hcov).trans ((measure_union_le _ _).trans ?_)
  have a1 := one (T / V) (abs_of_nonneg (by positivity))
  have a2 := one (-(T / V)) (by rw [abs_neg, abs_of_nonneg (by positivity)])
  rw [two_mul, ENNReal.ofReal_add (Real.exp_pos _).le (Real.exp_pos _).le]
  exact add_le_add a1 a2

end GoTfhe
