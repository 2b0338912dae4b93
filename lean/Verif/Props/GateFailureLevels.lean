import Verif.Props.GateFailure

/-!
# C87: the numbers of the gate levels
-/

namespace GoTfhe

open MeasureTheory ProbabilityTheory

theorem two_exp_le_neg {z : ℝ} {m : ℕ} (h : z ≤ -((m + 1) * 0.6931471808)) : 2 * Real.exp z ≤ 1 / 2 ^ m := by
  have := two_exp_le (x := -z) (m := m) (by linarith)
  rwa [neg_neg] at this

theorem exp_le_neg {z : ℝ} {m : ℕ} (h : z ≤ -((m + 1) * 0.6931471808)) : Real.exp z ≤ 1 / 2 ^ (m + 1) := by
  have := two_exp_le_neg h
  rw [pow_succ, ← div_div]
  linarith

theorem half_pow_le (n : ℕ) (hn : n ≤ 1000) : 2 * ((n : ℝ) * (1 / 2) ^ 2 ^ 9) ≤ 1 / 2 ^ 99 := by
  have h1 : ((1 : ℝ) / 2) ^ 2 ^ 9 ≤ (1 / 2) ^ 120 := pow_le_pow_of_le_one (by norm_num) (by norm_num) (by norm_num)
  have h2 : (n : ℝ) ≤ 1000 := by exact_mod_cast hn
  calc 2 * ((n : ℝ) * (1 / 2) ^ 2 ^ 9) ≤ 2 * (1000 * (1 / 2) ^ 120) := by gcongr
    _ ≤ 1 / 2 ^ 99 := by norm_num

/-- The exponent of the failure probability of a gate on fresh encryptions, by level. -/
def gateBits (level : ℤ) : ℕ := if level = 80 then 20 else if level = 110 then 27 else 30

theorem gateFail_80 : gateFail params80Bit 342 604 29601 43623268 (22 * 2 ^ 20) 0.000962 0.581048 0.12 ≤ 1 / 2 ^ 20 := by
  have t0 : Real.exp (-(2 * ((342 : ℕ) + 1 - (550 : ℕ) / 2 : ℝ) ^ 2 / (550 : ℕ))) ≤ 1 / 2 ^ (23 + 1) :=
    exp_le_neg (by norm_num)
  have t1 : Real.exp (-(2 * ((604 : ℕ) + 1 - (1024 : ℕ) / 2 : ℝ) ^ 2 / (1024 : ℕ))) ≤ 1 / 2 ^ (23 + 1) :=
    exp_le_neg (by norm_num)
  have t2 : 2 * Real.exp (-(((22 * 2 ^ 20 : ℕ) : ℝ) ^ 2 / (2 * (2 ^ 32 * ((kskAlpha params80Bit : ℚ) : ℝ)) ^ 2)))
      ≤ 1 / 2 ^ 99 := two_exp_le_neg (by
    norm_num [kskAlpha, params80Bit])
  have hv : keyVar params80Bit = _ := keyVar_cast _
  have t3 : 2 * Real.exp (-(((2 ^ 29 - roundLimit params80Bit 342 604 29601 43623268 : ℕ) : ℝ) ^ 2 / (2 * keyVar params80Bit)))
      ≤ 1 / 2 ^ 23 := two_exp_le_neg (by
    rw [hv]
    norm_num [kskAlpha, bskAlpha, params80Bit, roundLimit, roundRest, lostRest])
  have t4 : 2 * Real.exp (-(0.000962 * (29601 : ℕ)) + 0.000962 * (604 : ℕ) + biasExp 550 1024 0.000962 0.581048 0.12)
      ≤ 1 / 2 ^ 21 := two_exp_le_neg (by
    norm_num [biasExp])
  have t5 : 2 * Real.exp (-(((43623268 : ℕ) : ℝ) ^ 2 / (8 * 8320 ^ 2 * ((342 : ℕ) * (604 : ℕ))))) ≤ 1 / 2 ^ 23 :=
    two_exp_le_neg (by norm_num)
  have t6 : 2 * (((550 : ℕ) : ℝ) * (1 / 2) ^ 2 ^ 9) ≤ 1 / 2 ^ 99 := half_pow_le _ (by norm_num)
  show Real.exp (-(2 * ((342 : ℕ) + 1 - (550 : ℕ) / 2 : ℝ) ^ 2 / (550 : ℕ))) + Real.exp _ + 2 * (2 * Real.exp _)
    + 2 * Real.exp _ + 2 * Real.exp _ + (2 * Real.exp _ + 2 * (((550 : ℕ) : ℝ) * (1 / 2) ^ 2 ^ 9)) ≤ _
  refine le_trans (add_le_add (add_le_add (add_le_add (add_le_add (add_le_add t0 t1) (mul_le_mul_of_nonneg_left t2 zero_le_two))
    t3) t4) (add_le_add t5 t6)) ?_
  norm_num

theorem gateFail_110 : gateFail params110Bit 397 616 37000 53944542 (22 * 2 ^ 20) 0.001012 0.6234 0.15 ≤ 1 / 2 ^ 27 := by
  have t0 : Real.exp (-(2 * ((397 : ℕ) + 1 - (630 : ℕ) / 2 : ℝ) ^ 2 / (630 : ℕ))) ≤ 1 / 2 ^ (30 + 1) :=
    exp_le_neg (by norm_num)
  have t1 : Real.exp (-(2 * ((616 : ℕ) + 1 - (1024 : ℕ) / 2 : ℝ) ^ 2 / (1024 : ℕ))) ≤ 1 / 2 ^ (30 + 1) :=
    exp_le_neg (by norm_num)
  have t2 : 2 * Real.exp (-(((22 * 2 ^ 20 : ℕ) : ℝ) ^ 2 / (2 * (2 ^ 32 * ((kskAlpha params110Bit : ℚ) : ℝ)) ^ 2)))
      ≤ 1 / 2 ^ 99 := two_exp_le_neg (by
    norm_num [kskAlpha, params110Bit])
  have hv : keyVar params110Bit = _ := keyVar_cast _
  have t3 : 2 * Real.exp (-(((2 ^ 29 - roundLimit params110Bit 397 616 37000 53944542 : ℕ) : ℝ) ^ 2 / (2 * keyVar params110Bit)))
      ≤ 1 / 2 ^ 30 := two_exp_le_neg (by
    rw [hv]
    norm_num [kskAlpha, bskAlpha, params110Bit, roundLimit, roundRest, lostRest])
  have t4 : 2 * Real.exp (-(0.001012 * (37000 : ℕ)) + 0.001012 * (616 : ℕ) + biasExp 630 1024 0.001012 0.6234 0.15)
      ≤ 1 / 2 ^ 28 := two_exp_le_neg (by
    norm_num [biasExp])
  have t5 : 2 * Real.exp (-(((53944542 : ℕ) : ℝ) ^ 2 / (8 * 8320 ^ 2 * ((397 : ℕ) * (616 : ℕ))))) ≤ 1 / 2 ^ 30 :=
    two_exp_le_neg (by norm_num)
  have t6 : 2 * (((630 : ℕ) : ℝ) * (1 / 2) ^ 2 ^ 9) ≤ 1 / 2 ^ 99 := half_pow_le _ (by norm_num)
  show Real.exp (-(2 * ((397 : ℕ) + 1 - (630 : ℕ) / 2 : ℝ) ^ 2 / (630 : ℕ))) + Real.exp _ + 2 * (2 * Real.exp _)
    + 2 * Real.exp _ + 2 * Real.exp _ + (2 * Real.exp _ + 2 * (((630 : ℕ) : ℝ) * (1 / 2) ^ 2 ^ 9)) ≤ _
  refine le_trans (add_le_add (add_le_add (add_le_add (add_le_add (add_le_add t0 t1) (mul_le_mul_of_nonneg_left t2 zero_le_two))
    t3) t4) (add_le_add t5 t6)) ?_
  norm_num

theorem gateFail_128 : gateFail params128Bit 440 621 40811 59716267 (22 * 2 ^ 20) 0.000985 0.611685 0.15 ≤ 1 / 2 ^ 30 := by
  have t0 : Real.exp (-(2 * ((440 : ℕ) + 1 - (700 : ℕ) / 2 : ℝ) ^ 2 / (700 : ℕ))) ≤ 1 / 2 ^ (33 + 1) :=
    exp_le_neg (by norm_num)
  have t1 : Real.exp (-(2 * ((621 : ℕ) + 1 - (1024 : ℕ) / 2 : ℝ) ^ 2 / (1024 : ℕ))) ≤ 1 / 2 ^ (33 + 1) :=
    exp_le_neg (by norm_num)
  have t2 : 2 * Real.exp (-(((22 * 2 ^ 20 : ℕ) : ℝ) ^ 2 / (2 * (2 ^ 32 * ((kskAlpha params128Bit : ℚ) : ℝ)) ^ 2)))
      ≤ 1 / 2 ^ 99 := two_exp_le_neg (by
    norm_num [kskAlpha, params128Bit])
  have hv : keyVar params128Bit = _ := keyVar_cast _
  have t3 : 2 * Real.exp (-(((2 ^ 29 - roundLimit params128Bit 440 621 40811 59716267 : ℕ) : ℝ) ^ 2 / (2 * keyVar params128Bit)))
      ≤ 1 / 2 ^ 33 := two_exp_le_neg (by
    rw [hv]
    norm_num [kskAlpha, bskAlpha, params128Bit, roundLimit, roundRest, lostRest])
  have t4 : 2 * Real.exp (-(0.000985 * (40811 : ℕ)) + 0.000985 * (621 : ℕ) + biasExp 700 1024 0.000985 0.611685 0.15)
      ≤ 1 / 2 ^ 31 := two_exp_le_neg (by
    norm_num [biasExp])
  have t5 : 2 * Real.exp (-(((59716267 : ℕ) : ℝ) ^ 2 / (8 * 8320 ^ 2 * ((440 : ℕ) * (621 : ℕ))))) ≤ 1 / 2 ^ 33 :=
    two_exp_le_neg (by norm_num)
  have t6 : 2 * (((700 : ℕ) : ℝ) * (1 / 2) ^ 2 ^ 9) ≤ 1 / 2 ^ 99 := half_pow_le _ (by norm_num)
  show Real.exp (-(2 * ((440 : ℕ) + 1 - (700 : ℕ) / 2 : ℝ) ^ 2 / (700 : ℕ))) + Real.exp _ + 2 * (2 * Real.exp _)
    + 2 * Real.exp _ + 2 * Real.exp _ + (2 * Real.exp _ + 2 * (((700 : ℕ) : ℝ) * (1 / 2) ^ 2 ^ 9)) ≤ _
  refine le_trans (add_le_add (add_le_add (add_le_add (add_le_add (add_le_add t0 t1) (mul_le_mul_of_nonneg_left t2 zero_le_two))
    t3) t4) (add_le_add t5 t6)) ?_
  norm_num

section

variable {Ω Ωe : Type*} [MeasurableSpace Ω] [MeasurableSpace Ωe] {μ : Measure Ω} [IsProbabilityMeasure μ]
  {μe : Measure Ωe} [IsProbabilityMeasure μe]
variable {fl : ℚ → ℚ} (hfl : IsRound fl) {fu : Fusing} {ce : ℚ → ℚ × ℚ} (hce : CexpAccurate ce (1 / 2 ^ 52))

include hfl hce

/-- **C87**: key generation, two encryptions, any gate and decryption at the 80, 110 and 128-bit levels, in `float64`
arithmetic. The bit is wrong with probability at most `2^-20`, `2^-27` and `2^-30`. -/
theorem C87_gate_levels (level : SecurityLevel) (hlev : level ≤ 0 ∨ 9 ≤ level) {e : PolyEval ℚ}
    (he : newPolyEval (floatArith fl fu mathPi ce) ((paramsFor level).trgswLv1.N : ℤ) = some e) (R : KeyGenRand)
    {q : DrawIx → Ω → ℚ} (hq : NoiseDraws μ q (drawStd (paramsFor level)))
    {qe : Bool → Ωe → ℚ} (hqe : NoiseDraws μe qe fun _ => ((kskAlpha (paramsFor level) : ℚ) : ℝ))
    (schedK schedB : Ω → GateDice (paramsFor level) → List ℕ)
    (hsched : ∀ ω x, ∃ sk ck, newSecretKey (paramsFor level) (keyCoins x.coins0) (keyCoins x.coins1) = some sk ∧
      newCloudKey (paramsFor level) (fftOps (floatArith fl fu mathPi ce) e) sk.keyLv0 sk.keyLv1
        ((R.withEntryMasks x.bsk).withDraws fun d => q d ω) (schedK ω x) (schedB ω x) = some (true, ck))
    (g : Gate2) (xa xb : Bool) (tr0 : TRef → Trlwe) (lw0 : LRef → List Torus) :
    ((μ.prod μe).prod (uniformOn (Set.univ : Set (GateDice (paramsFor level)))))
      {z | gateRun (paramsFor level) (fftOps (floatArith fl fu mathPi ce) e) g R tr0 lw0 (schedK z.1.1 z.2) (schedB z.1.1 z.2)
        xa xb (fun d => q d z.1.1) (qe true z.1.2) (qe false z.1.2) z.2 ≠ some (g.eval xa xb)}
      ≤ ENNReal.ofReal (1 / 2 ^ gateBits level) := by
  have main := C87_gate hfl hce level hlev he R hq hqe schedK schedB hsched g xa xb tr0 lw0
  rcases paramsFor_cases level with ⟨rfl, h⟩ | ⟨rfl, h⟩ | ⟨rfl, h⟩ | ⟨rfl, h⟩ | ⟨rfl, h⟩ | ⟨rfl, h⟩ | ⟨rfl, h⟩ |
    ⟨rfl, h⟩ | ⟨rfl, h⟩ | ⟨rfl, h⟩ | ⟨hl, h⟩
  case inl =>
    refine (main 342 604 29601 43623268 (22 * 2 ^ 20) ?_ ?_ (by norm_num) ?_ ?_ 0.000962 0.581048 0.12 (by norm_num) (by norm_num)
      (by norm_num) (by norm_num) ?_).trans (ENNReal.ofReal_le_ofReal (h ▸ gateFail_80)) <;> rw [h] <;>
      norm_num [params80Bit, drift, roundLimit, roundRest, lostRest]
  case inr.inl =>
    refine (main 397 616 37000 53944542 (22 * 2 ^ 20) ?_ ?_ (by norm_num) ?_ ?_ 0.001012 0.6234 0.15 (by norm_num) (by norm_num)
      (by norm_num) (by norm_num) ?_).trans (ENNReal.ofReal_le_ofReal (h ▸ gateFail_110)) <;> rw [h] <;>
      norm_num [params110Bit, drift, roundLimit, roundRest, lostRest]
  case inr.inr.inr.inr.inr.inr.inr.inr.inr.inr =>
    have hb : gateBits level = 30 := by
      unfold gateBits
      simp only [Set.mem_insert_iff, Set.mem_singleton_iff, not_or] at hl
      rw [if_neg hl.1, if_neg hl.2.1]
    rw [hb]
    refine (main 440 621 40811 59716267 (22 * 2 ^ 20) ?_ ?_ (by norm_num) ?_ ?_ 0.000985 0.611685 0.15 (by norm_num) (by norm_num)
      (by norm_num) (by norm_num) ?_).trans (ENNReal.ofReal_le_ofReal (h ▸ gateFail_128)) <;> rw [h] <;>
      norm_num [params128Bit, drift, roundLimit, roundRest, lostRest]
  all_goals exact absurd hlev (by norm_num)

/-- **C86** in numbers: the rounding errors of the bootstrapping of a gate use less than 78, 83 and 88 percent of the margin
`2^29`, except with probability `2^-20`, `2^-27` and `2^-30`. The noise is fixed; keys, masks and inputs are uniform. -/
theorem C86_rounding_levels (level : SecurityLevel) (hlev : level ≤ 0 ∨ 9 ≤ level) {e : PolyEval ℚ}
    (he : newPolyEval (floatArith fl fu mathPi ce) ((paramsFor level).trgswLv1.N : ℤ) = some e)
    (L : FourierLaws (fftOps (floatArith fl fu mathPi ce) e)) (R : KeyGenRand) (y : DrawIx → ℚ)
    (sk : GateDice (paramsFor level) → SecretKey)
    (hsk : ∀ x, newSecretKey (paramsFor level) (keyCoins x.coins0) (keyCoins x.coins1) = some (sk x))
    (schedK schedB : GateDice (paramsFor level) → List ℕ)
    (ck : GateDice (paramsFor level) → CloudKey (fftOps (floatArith fl fu mathPi ce) e))
    (hck : ∀ x, newCloudKey (paramsFor level) _ (sk x).keyLv0 (sk x).keyLv1 ((R.withEntryMasks x.bsk).withDraws y)
      (schedK x) (schedB x) = some (true, ck x))
    (g : Gate2) (xa xb : Bool) (u v : ℚ) (a b prep : GateDice (paramsFor level) → List Torus)
    (ha : ∀ x, tlwe0EncryptBool (paramsFor level) (newTLWELv0 (paramsFor level)) xa (sk x).keyLv0 x.maskA.draw u = some (a x))
    (hb : ∀ x, tlwe0EncryptBool (paramsFor level) (newTLWELv0 (paramsFor level)) xb (sk x).keyLv0 x.maskB.draw v = some (b x))
    (hp : ∀ x, gatePrepare (paramsFor level) g (a x) (b x) = some (prep x)) :
    uprob (fun x : GateDice (paramsFor level) =>
        2 ^ 29 * (if level = 80 then 78 else if level = 110 then 83 else 88)
        ≤ 100 * nrm (bootRound (paramsFor level) L (ck x) (sk x).keyLv0 (sk x).keyLv1 (gateTestvec (paramsFor level)) (prep x) y))
      ≤ 1 / 2 ^ gateBits level := by
  have main := C86_rounding hfl hce level hlev he L R y sk hsk schedK schedB ck hck g xa xb u v a b prep ha hb hp
  have mono : ∀ E F : GateDice (paramsFor level) → Prop, (∀ x, E x → F x) → uprob E ≤ uprob F := by
    intro E F h
    unfold uprob
    exact div_le_div_of_nonneg_right (Nat.cast_le.2 (Set.ncard_le_ncard (fun x hx => h x hx) (Set.toFinite _)))
      (Nat.cast_nonneg _)
  have drop : ∀ a b c d e f : ℝ, 0 ≤ c → 0 ≤ d → a + b + e + f ≤ a + b + 2 * (2 * c) + 2 * d + e + f := by
    intros; linarith
  rcases paramsFor_cases level with ⟨rfl, h⟩ | ⟨rfl, h⟩ | ⟨rfl, h⟩ | ⟨rfl, h⟩ | ⟨rfl, h⟩ | ⟨rfl, h⟩ | ⟨rfl, h⟩ |
    ⟨rfl, h⟩ | ⟨rfl, h⟩ | ⟨rfl, h⟩ | ⟨hl, h⟩
  case inl =>
    refine (mono _ _ fun x hx => ?_).trans ((main 342 604 29601 43623268 (by rw [h]; decide) (by rw [h]; decide)
      (by norm_num) 0.000962 0.581048 0.12 (by norm_num) (by norm_num) (by norm_num) (by norm_num) (by
        rw [h]; norm_num [params80Bit])).trans ((drop _ _ _ _ _ _ (Real.exp_pos _).le (Real.exp_pos _).le).trans
        (show gateFail (paramsFor 80) 342 604 29601 43623268 (22 * 2 ^ 20) 0.000962 0.581048 0.12 ≤ _ from h ▸ gateFail_80)))
    have e1 : 100 * (8192 * 29601 + (43623268 + 8192 * 604 + 160 * (342 * 604)) + roundRest (paramsFor 80) 29 342 604)
        ≤ 2 ^ 29 * 78 := by
      rw [h]; norm_num [params80Bit, roundRest, lostRest]
    simp only [if_true] at hx
    omega
  case inr.inl =>
    refine (mono _ _ fun x hx => ?_).trans ((main 397 616 37000 53944542 (by rw [h]; decide) (by rw [h]; decide)
      (by norm_num) 0.001012 0.6234 0.15 (by norm_num) (by norm_num) (by norm_num) (by norm_num) (by
        rw [h]; norm_num [params110Bit])).trans ((drop _ _ _ _ _ _ (Real.exp_pos _).le (Real.exp_pos _).le).trans
        (show gateFail (paramsFor 110) 397 616 37000 53944542 (22 * 2 ^ 20) 0.001012 0.6234 0.15 ≤ _ from h ▸ gateFail_110)))
    have e1 : 100 * (8192 * 37000 + (53944542 + 8192 * 616 + 160 * (397 * 616)) + roundRest (paramsFor 110) 29 397 616)
        ≤ 2 ^ 29 * 83 := by
      rw [h]; norm_num [params110Bit, roundRest, lostRest]
    rw [if_neg (by norm_num : ¬ ((110 : ℤ) = 80)), if_pos rfl] at hx
    omega
  case inr.inr.inr.inr.inr.inr.inr.inr.inr.inr =>
    simp only [Set.mem_insert_iff, Set.mem_singleton_iff, not_or] at hl
    have hb : gateBits level = 30 := by
      unfold gateBits
      rw [if_neg hl.1, if_neg hl.2.1]
    rw [hb]
    refine (mono _ _ fun x hx => ?_).trans ((main 440 621 40811 59716267 (by rw [h]; decide) (by rw [h]; decide)
      (by norm_num) 0.000985 0.611685 0.15 (by norm_num) (by norm_num) (by norm_num) (by norm_num) (by
        rw [h]; norm_num [params128Bit])).trans ((drop _ _ _ _ _ _ (Real.exp_pos _).le (Real.exp_pos _).le).trans
        (show gateFail (paramsFor level) 440 621 40811 59716267 (22 * 2 ^ 20) 0.000985 0.611685 0.15 ≤ _ from h ▸ gateFail_128)))
    have e1 : 100 * (8192 * 40811 + (59716267 + 8192 * 621 + 160 * (440 * 621)) + roundRest (paramsFor level) 29 440 621)
        ≤ 2 ^ 29 * 88 := by
      rw [h]; norm_num [params128Bit, roundRest, lostRest]
    rw [if_neg hl.1, if_neg hl.2.1] at hx
    omega
  all_goals exact absurd hlev (by norm_num)

end

/-- Key generation can finish, for every outcome of the random numbers. -/
theorem exists_schedules {fl : ℚ → ℚ} {fu : Fusing} {ce : ℚ → ℚ × ℚ} (level : SecurityLevel) {e : PolyEval ℚ}
    (he : newPolyEval (floatArith fl fu mathPi ce) ((paramsFor level).trgswLv1.N : ℤ) = some e) (R : KeyGenRand) {Ω : Type*}
    (q : DrawIx → Ω → ℚ) : ∃ schedK schedB : Ω → GateDice (paramsFor level) → List ℕ,
      ∀ ω x, ∃ sk ck, newSecretKey (paramsFor level) (keyCoins x.coins0) (keyCoins x.coins1) = some sk ∧
      newCloudKey (paramsFor level) (fftOps (floatArith fl fu mathPi ce) e) sk.keyLv0 sk.keyLv1
        ((R.withEntryMasks x.bsk).withDraws fun d => q d ω) (schedK ω x) (schedB ω x) = some (true, ck) := by
  have W := C63_wellFormed level
  have hk := fun (ω : Ω) (x : GateDice (paramsFor level)) => exists_float_cloudKey level he (keyOf x.coins0)
    (keyOf x.coins1) ((R.withEntryMasks x.bsk).withDraws fun d => q d ω) (by simp [keyOf]) (by simp [keyOf])
    (isBinary_keyOf _)
  choose sK sB ck hck using hk
  exact ⟨sK, sB, fun ω x => ⟨⟨keyOf x.coins0, keyOf x.coins1⟩, ck ω x, newSecretKey_keyOf W x.coins0 x.coins1, hck ω x⟩⟩

/-- Non-vacuity of C87: independent normal noise cut off to 60 binary places, the nearest-even rounding of `float64`, any
masks of the key-switching key; 128 bits, a NAND. -/
example (fu : Fusing) (x y : Bool) (R : KeyGenRand) : ∃ (fl : ℚ → ℚ) (ce : ℚ → ℚ × ℚ) (e : PolyEval ℚ)
    (sK sB : (DrawIx → ℝ) → GateDice (paramsFor 128) → List ℕ),
    (((normals (drawStd (paramsFor 128))).prod (normals fun _ : Bool => ((kskAlpha (paramsFor 128) : ℚ) : ℝ))).prod
        (uniformOn (Set.univ : Set (GateDice (paramsFor 128)))))
      {z | gateRun (paramsFor 128) (fftOps (floatArith fl fu mathPi ce) e) .nand R
        (fun _ => ⟨[], []⟩) (fun _ => []) (sK z.1.1 z.2) (sB z.1.1 z.2) x y (fun d => cutNormal 60 d z.1.1)
        (cutNormal 60 true z.1.2) (cutNormal 60 false z.1.2) z.2 ≠ some (!(x && y))}
      ≤ ENNReal.ofReal (1 / 2 ^ 30) := by
  obtain ⟨ce, hce⟩ := exists_cexp (1 / 2 ^ 52) (by norm_num)
  have he : newPolyEval (floatArith rne fu mathPi ce) ((paramsFor 128).trgswLv1.N : ℤ) = some (pev (floatArith rne fu mathPi ce) 9) :=
    (newPolyEval_some _ 1024 _).2 ⟨9, by norm_num, by norm_num, rfl⟩
  obtain ⟨sK, sB, h⟩ := exists_schedules 128 he R (cutNormal 60 : DrawIx → (DrawIx → ℝ) → ℚ)
  refine ⟨rne, ce, pev (floatArith rne fu mathPi ce) 9, sK, sB, ?_⟩
  exact C87_gate_levels isRound_rne hce 128 (by norm_num) he R (noiseDraws_normal (drawStd (paramsFor 128)) 60)
    (noiseDraws_normal (fun _ : Bool => ((kskAlpha (paramsFor 128) : ℚ) : ℝ)) 60) sK sB h .nand x y _ _

theorem encrypt_dice {P : Params} (W : WellFormed P) (z : GateDice P) (sk : SecretKey)
    (h : newSecretKey P (keyCoins z.coins0) (keyCoins z.coins1) = some sk) (b : Bool) (a : Mask P.tlweLv0.N) (u : ℚ) :
    tlwe0EncryptBool P (newTLWELv0 P) b sk.keyLv0 a.draw u = some (bitCt z.coins0 a b u) := by
  rw [newSecretKey_keyOf W] at h
  obtain rfl := Option.some.inj h
  exact encryptBool_bitCt P b z.coins0 a u

/-- Non-vacuity of C86: no noise, the first row of schedules that finish; 128 bits, a XOR. -/
example (fu : Fusing) (x y : Bool) (R : KeyGenRand) : ∃ (fl : ℚ → ℚ) (ce : ℚ → ℚ × ℚ) (e : PolyEval ℚ)
    (L : FourierLaws (fftOps (floatArith fl fu mathPi ce) e)) (sk : GateDice (paramsFor 128) → SecretKey)
    (ck : GateDice (paramsFor 128) → CloudKey (fftOps (floatArith fl fu mathPi ce) e))
    (prep : GateDice (paramsFor 128) → List Torus),
    (∀ z, newSecretKey (paramsFor 128) (keyCoins z.coins0) (keyCoins z.coins1) = some (sk z)) ∧
    uprob (fun z : GateDice (paramsFor 128) => 2 ^ 29 * 88 ≤ 100 * nrm (bootRound (paramsFor 128) L (ck z) (sk z).keyLv0
      (sk z).keyLv1 (gateTestvec (paramsFor 128)) (prep z) fun _ => 0)) ≤ 1 / 2 ^ 30 := by
  obtain ⟨ce, hce⟩ := exists_cexp (1 / 2 ^ 52) (by norm_num)
  have he : newPolyEval (floatArith rne fu mathPi ce) ((paramsFor 128).trgswLv1.N : ℤ) = some (pev (floatArith rne fu mathPi ce) 9) :=
    (newPolyEval_some _ 1024 _).2 ⟨9, by norm_num, by norm_num, rfl⟩
  obtain ⟨sK, sB, h⟩ := exists_schedules 128 he R (fun _ (_ : Unit) => 0)
  choose sk ck h1 h2 using h ()
  obtain ⟨⟨L, -⟩, -⟩ := C67_errors isRound_rne hce 128 he
  refine ⟨rne, ce, pev (floatArith rne fu mathPi ce) 9, L, sk, ck, fun z => prepOf (paramsFor 128) .xor x y 0 0 z, h1, ?_⟩
  exact C86_rounding_levels isRound_rne hce 128 (by norm_num) he L R (fun _ => 0) sk h1 (sK ()) (sB ()) ck h2 .xor x y 0 0
    (fun z => bitCt z.coins0 z.maskA x 0) (fun z => bitCt z.coins0 z.maskB y 0) _
    (fun z => encrypt_dice (C63_wellFormed 128) z (sk z) (h1 z) x z.maskA 0)
    (fun z => encrypt_dice (C63_wellFormed 128) z (sk z) (h1 z) y z.maskB 0)
    (fun z => gatePrepare_prepOf _ _ _ _ _ _ _)

/-- Non-vacuity of C85: both keys all ones, no noise, any input; 128 bits. The rounding errors stay within `2^27` of what
the mean predicts, up to a small rest, except with probability `2^-60`; their worst case is larger than the torus. -/
example (fu : Fusing) (R : KeyGenRand) (c : List Torus) : ∃ (fl : ℚ → ℚ) (ce : ℚ → ℚ × ℚ) (e : PolyEval ℚ)
    (L : FourierLaws (fftOps (floatArith fl fu mathPi ce) e))
    (ck : KeyMasks (paramsFor 128) → CloudKey (fftOps (floatArith fl fu mathPi ce) e)),
    (∀ m, ∃ sK sB, newCloudKey (paramsFor 128) _ (mkSlice 700 1) (mkSlice 1024 1) ((R.withEntryMasks m).withDraws fun _ => 0)
      sK sB = some (true, ck m)) ∧
    uprob (fun m : KeyMasks (paramsFor 128) => 8192 * (lostBias (paramsFor 128) c (mkSlice 700 1) (mkSlice 1024 1)).natAbs
        + 2 ^ 27 + 8192 * 1024 + 160 * (700 * 1024) + roundRest (paramsFor 128) 29 700 1024
      ≤ nrm (bootRound (paramsFor 128) L (ck m) (mkSlice 700 1) (mkSlice 1024 1) (gateTestvec (paramsFor 128)) c fun _ => 0))
      ≤ 1 / 2 ^ 60 := by
  obtain ⟨ce, hce⟩ := exists_cexp (1 / 2 ^ 52) (by norm_num)
  have he : newPolyEval (floatArith rne fu mathPi ce) ((paramsFor 128).trgswLv1.N : ℤ) = some (pev (floatArith rne fu mathPi ce) 9) :=
    (newPolyEval_some _ 1024 _).2 ⟨9, by norm_num, by norm_num, rfl⟩
  have hbin : ∀ n, IsBinary (mkSlice n (1 : Torus)) := fun n x hx => Or.inr (List.eq_of_mem_replicate hx)
  have l0 : (paramsFor 128).tlweLv0.N ≤ (mkSlice 700 (1 : Torus)).length := by simp; exact le_rfl
  have l1 : (mkSlice 1024 (1 : Torus)).length = (paramsFor 128).trgswLv1.N := by simp; rfl
  have hk := fun m : KeyMasks (paramsFor 128) => exists_float_cloudKey 128 he (mkSlice 700 1) (mkSlice 1024 1)
    ((R.withEntryMasks m).withDraws fun _ => 0) l0 l1 (hbin _)
  choose sK sB ck hck using hk
  obtain ⟨⟨L, -⟩, -⟩ := C67_errors isRound_rne hce 128 he
  refine ⟨rne, ce, pev (floatArith rne fu mathPi ce) 9, L, ck, fun m => ⟨sK m, sB m, hck m⟩, ?_⟩
  refine (C85_rounding isRound_rne hce 128 (by norm_num) he L (mkSlice 700 1) (mkSlice 1024 1) l0 l1 (hbin _) (hbin _) R
    (fun _ => 0) sK sB ck hck c 700 1024 (weight_le _ _ (hbin _)) (weight_le _ _ (hbin _)) (by norm_num) (2 ^ 27)
    (by norm_num)).trans ?_
  have t5 : 2 * Real.exp (-(((2 ^ 27 : ℕ) : ℝ) ^ 2 / (8 * 8320 ^ 2 * ((700 : ℕ) * (1024 : ℕ))))) ≤ 1 / 2 ^ 61 :=
    two_exp_le_neg (by norm_num)
  refine (add_le_add t5 (half_pow_le 700 (by norm_num))).trans ?_
  norm_num

end GoTfhe
