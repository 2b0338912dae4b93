import Verif.Props.LookupFailure

/-!
# C89: the numbers of the gate levels, and the programs
-/

namespace GoTfhe

open MeasureTheory ProbabilityTheory

/-- The exponent of the failure probability of a look-up on a fresh encryption, by level. -/
def lookupBits (level : ℤ) : ℕ := if level = 80 then 18 else if level = 110 then 25 else 27

theorem lookupFail_80 : lookupFail params80Bit 341 601 29792 42539535 (22 * 2 ^ 20) 0.000968 0.581768 0.131 ≤ 1 / 2 ^ 18 := by
  have t0 : Real.exp (-(2 * ((341 : ℕ) + 1 - (550 : ℕ) / 2 : ℝ) ^ 2 / (550 : ℕ))) ≤ 1 / 2 ^ (22 + 1) :=
    exp_le_neg (by norm_num)
  have t1 : Real.exp (-(2 * ((601 : ℕ) + 1 - (1024 : ℕ) / 2 : ℝ) ^ 2 / (1024 : ℕ))) ≤ 1 / 2 ^ (21 + 1) :=
    exp_le_neg (by norm_num)
  have t2 : 2 * Real.exp (-(((22 * 2 ^ 20 : ℕ) : ℝ) ^ 2 / (2 * (2 ^ 32 * ((kskAlpha params80Bit : ℚ) : ℝ)) ^ 2)))
      ≤ 1 / 2 ^ 99 := two_exp_le_neg (by
    norm_num [kskAlpha, params80Bit])
  have hv : keyVar params80Bit = _ := keyVar_cast _
  have t3 : 2 * Real.exp (-(((2 ^ 29 - lookupLimit params80Bit 341 601 29792 42539535 : ℕ) : ℝ) ^ 2 / (2 * keyVar params80Bit)))
      ≤ 1 / 2 ^ 20 := two_exp_le_neg (by
    rw [hv]
    norm_num [kskAlpha, bskAlpha, params80Bit, lookupLimit, roundRest, lostRest])
  have t4 : 2 * Real.exp (-(0.000968 * (29792 : ℕ)) + 0.000968 * (601 : ℕ) + biasExp 550 1024 0.000968 0.581768 0.131)
      ≤ 1 / 2 ^ 21 := two_exp_le_neg (by
    norm_num [biasExp])
  have t4 : 8 * Real.exp (-(0.000968 * (29792 : ℕ)) + 0.000968 * (601 : ℕ) + biasExp 550 1024 0.000968 0.581768 0.131)
      ≤ 1 / 2 ^ 19 := by
    rw [show (8 : ℝ) = 4 * 2 by norm_num, mul_assoc]
    exact (mul_le_mul_of_nonneg_left t4 (by norm_num)).trans (by norm_num)
  have t5 : 2 * Real.exp (-(((42539535 : ℕ) : ℝ) ^ 2 / (8 * 8320 ^ 2 * ((341 : ℕ) * (601 : ℕ))))) ≤ 1 / 2 ^ 22 :=
    two_exp_le_neg (by norm_num)
  have t6 : 2 * (((550 : ℕ) : ℝ) * (1 / 2) ^ 2 ^ 9) ≤ 1 / 2 ^ 99 := half_pow_le _ (by norm_num)
  show Real.exp (-(2 * ((341 : ℕ) + 1 - (550 : ℕ) / 2 : ℝ) ^ 2 / (550 : ℕ))) + Real.exp _ + 2 * Real.exp _
    + 2 * Real.exp _ + 8 * Real.exp _ + (2 * Real.exp _ + 2 * (((550 : ℕ) : ℝ) * (1 / 2) ^ 2 ^ 9)) ≤ _
  refine le_trans (add_le_add (add_le_add (add_le_add (add_le_add (add_le_add t0 t1) t2) t3) t4) (add_le_add t5 t6)) ?_
  norm_num

theorem lookupFail_110 : lookupFail params110Bit 396 615 36938 53019622 (22 * 2 ^ 20) 0.001004 0.61746 0.151 ≤ 1 / 2 ^ 25 := by
  have t0 : Real.exp (-(2 * ((396 : ℕ) + 1 - (630 : ℕ) / 2 : ℝ) ^ 2 / (630 : ℕ))) ≤ 1 / 2 ^ (29 + 1) :=
    exp_le_neg (by norm_num)
  have t1 : Real.exp (-(2 * ((615 : ℕ) + 1 - (1024 : ℕ) / 2 : ℝ) ^ 2 / (1024 : ℕ))) ≤ 1 / 2 ^ (29 + 1) :=
    exp_le_neg (by norm_num)
  have t2 : 2 * Real.exp (-(((22 * 2 ^ 20 : ℕ) : ℝ) ^ 2 / (2 * (2 ^ 32 * ((kskAlpha params110Bit : ℚ) : ℝ)) ^ 2)))
      ≤ 1 / 2 ^ 99 := two_exp_le_neg (by
    norm_num [kskAlpha, params110Bit])
  have hv : keyVar params110Bit = _ := keyVar_cast _
  have t3 : 2 * Real.exp (-(((2 ^ 29 - lookupLimit params110Bit 396 615 36938 53019622 : ℕ) : ℝ) ^ 2 / (2 * keyVar params110Bit)))
      ≤ 1 / 2 ^ 28 := two_exp_le_neg (by
    rw [hv]
    norm_num [kskAlpha, bskAlpha, params110Bit, lookupLimit, roundRest, lostRest])
  have t4 : 2 * Real.exp (-(0.001004 * (36938 : ℕ)) + 0.001004 * (615 : ℕ) + biasExp 630 1024 0.001004 0.61746 0.151)
      ≤ 1 / 2 ^ 28 := two_exp_le_neg (by
    norm_num [biasExp])
  have t4 : 8 * Real.exp (-(0.001004 * (36938 : ℕ)) + 0.001004 * (615 : ℕ) + biasExp 630 1024 0.001004 0.61746 0.151)
      ≤ 1 / 2 ^ 26 := by
    rw [show (8 : ℝ) = 4 * 2 by norm_num, mul_assoc]
    exact (mul_le_mul_of_nonneg_left t4 (by norm_num)).trans (by norm_num)
  have t5 : 2 * Real.exp (-(((53019622 : ℕ) : ℝ) ^ 2 / (8 * 8320 ^ 2 * ((396 : ℕ) * (615 : ℕ))))) ≤ 1 / 2 ^ 29 :=
    two_exp_le_neg (by norm_num)
  have t6 : 2 * (((630 : ℕ) : ℝ) * (1 / 2) ^ 2 ^ 9) ≤ 1 / 2 ^ 99 := half_pow_le _ (by norm_num)
  show Real.exp (-(2 * ((396 : ℕ) + 1 - (630 : ℕ) / 2 : ℝ) ^ 2 / (630 : ℕ))) + Real.exp _ + 2 * Real.exp _
    + 2 * Real.exp _ + 8 * Real.exp _ + (2 * Real.exp _ + 2 * (((630 : ℕ) : ℝ) * (1 / 2) ^ 2 ^ 9)) ≤ _
  refine le_trans (add_le_add (add_le_add (add_le_add (add_le_add (add_le_add t0 t1) t2) t3) t4) (add_le_add t5 t6)) ?_
  norm_num

theorem lookupFail_128 : lookupFail params128Bit 438 619 40309 57788876 (22 * 2 ^ 20) 0.000979 0.606001 0.157 ≤ 1 / 2 ^ 27 := by
  have t0 : Real.exp (-(2 * ((438 : ℕ) + 1 - (700 : ℕ) / 2 : ℝ) ^ 2 / (700 : ℕ))) ≤ 1 / 2 ^ (31 + 1) :=
    exp_le_neg (by norm_num)
  have t1 : Real.exp (-(2 * ((619 : ℕ) + 1 - (1024 : ℕ) / 2 : ℝ) ^ 2 / (1024 : ℕ))) ≤ 1 / 2 ^ (31 + 1) :=
    exp_le_neg (by norm_num)
  have t2 : 2 * Real.exp (-(((22 * 2 ^ 20 : ℕ) : ℝ) ^ 2 / (2 * (2 ^ 32 * ((kskAlpha params128Bit : ℚ) : ℝ)) ^ 2)))
      ≤ 1 / 2 ^ 99 := two_exp_le_neg (by
    norm_num [kskAlpha, params128Bit])
  have hv : keyVar params128Bit = _ := keyVar_cast _
  have t3 : 2 * Real.exp (-(((2 ^ 29 - lookupLimit params128Bit 438 619 40309 57788876 : ℕ) : ℝ) ^ 2 / (2 * keyVar params128Bit)))
      ≤ 1 / 2 ^ 30 := two_exp_le_neg (by
    rw [hv]
    norm_num [kskAlpha, bskAlpha, params128Bit, lookupLimit, roundRest, lostRest])
  have t4 : 2 * Real.exp (-(0.000979 * (40309 : ℕ)) + 0.000979 * (619 : ℕ) + biasExp 700 1024 0.000979 0.606001 0.157)
      ≤ 1 / 2 ^ 30 := two_exp_le_neg (by
    norm_num [biasExp])
  have t4 : 8 * Real.exp (-(0.000979 * (40309 : ℕ)) + 0.000979 * (619 : ℕ) + biasExp 700 1024 0.000979 0.606001 0.157)
      ≤ 1 / 2 ^ 28 := by
    rw [show (8 : ℝ) = 4 * 2 by norm_num, mul_assoc]
    exact (mul_le_mul_of_nonneg_left t4 (by norm_num)).trans (by norm_num)
  have t5 : 2 * Real.exp (-(((57788876 : ℕ) : ℝ) ^ 2 / (8 * 8320 ^ 2 * ((438 : ℕ) * (619 : ℕ))))) ≤ 1 / 2 ^ 31 :=
    two_exp_le_neg (by norm_num)
  have t6 : 2 * (((700 : ℕ) : ℝ) * (1 / 2) ^ 2 ^ 9) ≤ 1 / 2 ^ 99 := half_pow_le _ (by norm_num)
  show Real.exp (-(2 * ((438 : ℕ) + 1 - (700 : ℕ) / 2 : ℝ) ^ 2 / (700 : ℕ))) + Real.exp _ + 2 * Real.exp _
    + 2 * Real.exp _ + 8 * Real.exp _ + (2 * Real.exp _ + 2 * (((700 : ℕ) : ℝ) * (1 / 2) ^ 2 ^ 9)) ≤ _
  refine le_trans (add_le_add (add_le_add (add_le_add (add_le_add (add_le_add t0 t1) t2) t3) t4) (add_le_add t5 t6)) ?_
  norm_num

section

variable {Ω Ωe : Type*} [MeasurableSpace Ω] [MeasurableSpace Ωe] {μ : Measure Ω} [IsProbabilityMeasure μ]
  {μe : Measure Ωe} [IsProbabilityMeasure μe]
variable {fl : ℚ → ℚ} (hfl : IsRound fl) {fu : Fusing} {ce : ℚ → ℚ × ℚ} (hce : CexpAccurate ce (1 / 2 ^ 52))

include hfl hce

/-- The noise of one look-up, in numbers. -/
theorem lookup_noise_levels (level : SecurityLevel) (hlev : level ≤ 0 ∨ 9 ≤ level) {e : PolyEval ℚ}
    (he : newPolyEval (floatArith fl fu mathPi ce) ((paramsFor level).trgswLv1.N : ℤ) = some e)
    (L : FourierLaws (fftOps (floatArith fl fu mathPi ce) e)) (R : KeyGenRand)
    {q : DrawIx → Ω → ℚ} (hq : NoiseDraws μ q (drawStd (paramsFor level))) {M : ℕ}
    {qe : Fin M → Ωe → ℚ} (hqe : NoiseDraws μe qe fun _ => ((kskAlpha (paramsFor level) : ℚ) : ℝ))
    (schedK schedB : Ω → SessionDice (paramsFor level) M → List ℕ)
    (ck : Ω → SessionDice (paramsFor level) M → CloudKey (fftOps (floatArith fl fu mathPi ce) e))
    (hck : ∀ ω z, newCloudKey (paramsFor level) (fftOps (floatArith fl fu mathPi ce) e) (keyOf z.coins0) (keyOf z.coins1)
        ((R.withEntryMasks z.bsk).withDraws fun d => q d ω) (schedK ω z) (schedB ω z) = some (true, ck ω z))
    (i : Fin M) (f : ℤ → Option ℤ) (F : ℕ → ℤ) (hF : ∀ x < 2 ^ 1, f (x : ℕ) = some (F x)) (msg : ℤ) :
    ((μ.prod μe).prod (uniformOn (Set.univ : Set (SessionDice (paramsFor level) M))))
      {z | ¬ DemoNoise fl (paramsFor level) 1 L (ck z.1.1 z.2) (keyOf z.2.coins0) (keyOf z.2.coins1) f
        [(msg, (z.2.masks i).draw, qe i z.1.2)]}
      ≤ ENNReal.ofReal (1 / 2 ^ lookupBits level) := by
  have main := lookup_noise hfl hce level hlev he L R hq hqe schedK schedB ck hck i f F hF msg
  rcases paramsFor_cases level with ⟨rfl, h⟩ | ⟨rfl, h⟩ | ⟨rfl, h⟩ | ⟨rfl, h⟩ | ⟨rfl, h⟩ | ⟨rfl, h⟩ | ⟨rfl, h⟩ |
    ⟨rfl, h⟩ | ⟨rfl, h⟩ | ⟨rfl, h⟩ | ⟨hl, h⟩
  case inl =>
    refine (main 341 601 29792 42539535 (22 * 2 ^ 20) ?_ ?_ (by norm_num) ?_ (by norm_num) ?_ 0.000968 0.581768 0.131 (by norm_num) (by norm_num)
      (by norm_num) (by norm_num) ?_).trans (ENNReal.ofReal_le_ofReal (h ▸ lookupFail_80)) <;> rw [h] <;>
      norm_num [params80Bit, drift, lookupLimit, roundRest, lostRest]
  case inr.inl =>
    refine (main 396 615 36938 53019622 (22 * 2 ^ 20) ?_ ?_ (by norm_num) ?_ (by norm_num) ?_ 0.001004 0.61746 0.151 (by norm_num) (by norm_num)
      (by norm_num) (by norm_num) ?_).trans (ENNReal.ofReal_le_ofReal (h ▸ lookupFail_110)) <;> rw [h] <;>
      norm_num [params110Bit, drift, lookupLimit, roundRest, lostRest]
  case inr.inr.inr.inr.inr.inr.inr.inr.inr.inr =>
    have hb : lookupBits level = 27 := by
      unfold lookupBits
      simp only [Set.mem_insert_iff, Set.mem_singleton_iff, not_or] at hl
      rw [if_neg hl.1, if_neg hl.2.1]
    rw [hb]
    refine (main 438 619 40309 57788876 (22 * 2 ^ 20) ?_ ?_ (by norm_num) ?_ (by norm_num) ?_ 0.000979 0.606001 0.157 (by norm_num) (by norm_num)
      (by norm_num) (by norm_num) ?_).trans (ENNReal.ofReal_le_ofReal (h ▸ lookupFail_128)) <;> rw [h] <;>
      norm_num [params128Bit, drift, lookupLimit, roundRest, lostRest]
  all_goals exact absurd hlev (by norm_num)

end

end GoTfhe
