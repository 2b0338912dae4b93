import Verif.Lemmas.SubGauss
import Mathlib.Probability.Distributions.Gaussian.Real
import Mathlib.Probability.Independence.InfinitePi
import Mathlib.MeasureTheory.Function.Floor

/-!
# Normal numbers meet the assumption on the noise

Independent normal variables, cut off to finitely many binary places, are noise draws in the sense of `NoiseDraws`.
-/

namespace GoTfhe

open MeasureTheory ProbabilityTheory

/-- The integer next to `x` towards zero. -/
noncomputable def truncR (x : ℝ) : ℤ := if 0 ≤ x then ⌊x⌋ else ⌈x⌉

theorem truncR_neg (x : ℝ) : truncR (-x) = -truncR x := by
  unfold truncR
  rcases lt_trichotomy x 0 with h | h | h
  · rw [if_pos (by linarith), if_neg (by linarith), Int.floor_neg]
  · subst h; simp
  · rw [if_neg (by linarith), if_pos h.le, Int.ceil_neg]

theorem truncR_abs_le (x : ℝ) : |((truncR x : ℤ) : ℝ)| ≤ |x| := by
  have pos : ∀ x : ℝ, 0 ≤ x → |((truncR x : ℤ) : ℝ)| ≤ |x| := by
    intro x h
    unfold truncR
    rw [if_pos h, abs_of_nonneg h, abs_of_nonneg (by exact_mod_cast Int.floor_nonneg.2 h)]
    exact Int.floor_le x
  rcases le_total 0 x with h | h
  · exact pos x h
  · have := pos (-x) (by linarith)
    rwa [truncR_neg, Int.cast_neg, abs_neg, abs_neg] at this

theorem measurable_truncR : Measurable truncR :=
  Measurable.ite measurableSet_Ici Int.measurable_floor Int.measurable_ceil

variable {ι : Type*}

/-- Independent normal variables with standard deviations `σ`. -/
noncomputable def normals (σ : ι → ℝ) : Measure (ι → ℝ) :=
  Measure.infinitePi fun i => gaussianReal 0 (Real.toNNReal (σ i ^ 2))

instance (σ : ι → ℝ) : IsProbabilityMeasure (normals σ) := by unfold normals; infer_instance

/-- The variables cut off to `k` binary places. -/
noncomputable def cutNormal (k : ℕ) (i : ι) (ω : ι → ℝ) : ℚ := ((truncR (ω i * 2 ^ k) : ℤ) : ℚ) / 2 ^ k

/-- Normal variables with standard deviations `σ`, independent and cut off to `k` binary places, are noise draws with
standard deviations `σ`. -/
theorem noiseDraws_normal (σ : ι → ℝ) (k : ℕ) : NoiseDraws (normals σ) (cutNormal k) σ := by
  have hf : Measurable fun x : ℝ => ((truncR (x * 2 ^ k) : ℤ) : ℚ) / 2 ^ k :=
    Measurable.comp (g := fun z : ℤ => ((z : ℚ) / 2 ^ k)) .of_discrete (measurable_truncR.comp (measurable_id.mul_const _))
  have hev : ∀ i, (normals σ).map (fun ω => ω i) = gaussianReal 0 (Real.toNNReal (σ i ^ 2)) := fun i =>
    Measure.infinitePi_map_eval _ i
  have hme : ∀ i : ι, Measurable fun ω : ι → ℝ => ω i := fun i => measurable_pi_apply i
  have hsym : ∀ i, (normals σ).map (fun ω => ω i) = (normals σ).map fun ω => -ω i := by
    intro i
    have : (fun ω : ι → ℝ => -ω i) = (fun x : ℝ => -x) ∘ fun ω => ω i := rfl
    rw [this, ← Measure.map_map (g := fun x : ℝ => -x) measurable_neg (hme i), hev, gaussianReal_map_neg, neg_zero]
  refine ⟨fun i => hf.comp (hme i), iIndepFun_infinitePi fun _ => hf, fun i => ?_, fun i t => ?_⟩
  · have e1 : cutNormal k i = (fun x : ℝ => ((truncR (x * 2 ^ k) : ℤ) : ℚ) / 2 ^ k) ∘ fun ω : ι → ℝ => ω i := rfl
    have e2 : (fun ω : ι → ℝ => -cutNormal k i ω)
        = (fun x : ℝ => ((truncR (x * 2 ^ k) : ℤ) : ℚ) / 2 ^ k) ∘ fun ω : ι → ℝ => -ω i := by
      funext ω
      simp only [cutNormal, Function.comp_apply, neg_mul, truncR_neg, Int.cast_neg, neg_div]
    rw [e2, e1, ← Measure.map_map hf (hme i), ← Measure.map_map (f := fun ω : ι → ℝ => -ω i) hf (hme i).neg, hsym]
  · have hg : ∀ s : ℝ, ∫⁻ ω, ENNReal.ofReal (Real.exp (s * ω i)) ∂(normals σ)
        ≤ ENNReal.ofReal (Real.exp (s ^ 2 * σ i ^ 2 / 2)) := by
      intro s
      have hm : Measurable fun x : ℝ => ENNReal.ofReal (Real.exp (s * x)) :=
        ENNReal.measurable_ofReal.comp (Real.measurable_exp.comp (measurable_id.const_mul s))
      have e1 : ∫⁻ ω, ENNReal.ofReal (Real.exp (s * ω i)) ∂(normals σ)
          = ∫⁻ x, ENNReal.ofReal (Real.exp (s * x)) ∂(gaussianReal 0 (Real.toNNReal (σ i ^ 2))) := by
        rw [← hev, lintegral_map hm (hme i)]
      have e2 : mgf (fun x => x) (gaussianReal 0 (Real.toNNReal (σ i ^ 2))) s = Real.exp (s ^ 2 * σ i ^ 2 / 2) := by
        rw [mgf_fun_id_gaussianReal]
        simp only [zero_mul, zero_add, Real.coe_toNNReal _ (sq_nonneg (σ i))]
        ring_nf
      rw [e1, ← ofReal_integral_eq_lintegral_ofReal (integrable_exp_mul_gaussianReal s)
        (Filter.Eventually.of_forall fun _ => (Real.exp_pos _).le), ← e2]
      rfl
    have h := mgf_odd_of (hme i) (hsym i) (fun x => x) measurable_id (fun _ => rfl) hg
      (fun x => (((truncR (x * 2 ^ k) : ℤ) : ℝ) / 2 ^ k))
      ((Measurable.comp (g := fun z : ℤ => ((z : ℝ) / 2 ^ k)) .of_discrete
        (measurable_truncR.comp (measurable_id.mul_const _))))
      (fun x => by rw [neg_mul, truncR_neg, Int.cast_neg, neg_div]) 1
      (fun x => by
        rw [abs_div, one_mul, abs_of_pos (by positivity : (0 : ℝ) < 2 ^ k), div_le_iff₀ (by positivity)]
        refine (truncR_abs_le _).trans (le_of_eq ?_)
        rw [abs_mul, abs_of_pos (by positivity : (0 : ℝ) < 2 ^ k)]) t
    rw [one_mul] at h
    refine le_trans (le_of_eq ?_) h
    refine lintegral_congr fun ω => ?_
    congr 3
    simp only [cutNormal]
    push_cast
    rfl

end GoTfhe
