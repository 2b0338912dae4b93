import Verif.Props.KeyNoise
import Verif.Lemmas.NormalNoise
import Verif.Props.FloatPbs
import Mathlib.Analysis.SpecialFunctions.Log.Deriv
import Mathlib.Analysis.Complex.ExponentialBounds

/-!
# C78 at the security levels of the library
-/

namespace GoTfhe

open MeasureTheory ProbabilityTheory

/-- Bits of the messages a level is made for: one for the levels of the gates, `k` for `Uint k`. -/
def msgBits (level : ℤ) : ℕ := if 1 ≤ level ∧ level ≤ 8 then level.toNat else 1

theorem msgBits_gate (level : ℤ) (h : level ≤ 0 ∨ 9 ≤ level) : level ≠ 1 ∧ msgBits level = 1 := by
  refine ⟨by omega, ?_⟩
  unfold msgBits
  exact if_neg (by omega)

theorem msgBits_uint (n : ℕ) (h : 1 ≤ n ∧ n ≤ 8) : msgBits (n : ℤ) = n := by
  unfold msgBits
  rw [if_pos (by omega)]
  rfl

theorem two_exp_le {x : ℝ} {m : ℕ} (h : (m + 1 : ℝ) * 0.6931471808 ≤ x) : 2 * Real.exp (-x) ≤ 1 / 2 ^ m := by
  have h2 : Real.exp (-x) ≤ 1 / 2 ^ (m + 1) := by
    rw [Real.exp_neg, ← one_div]
    refine one_div_le_one_div_of_le (by positivity) ?_
    have : (2 : ℝ) ^ (m + 1) = Real.exp ((m + 1 : ℝ) * Real.log 2) := by
      rw [mul_comm, Real.exp_mul, Real.exp_log (by norm_num)]
      exact_mod_cast rfl
    rw [this]
    refine Real.exp_le_exp.2 (le_trans ?_ h)
    exact mul_le_mul_of_nonneg_left Real.log_two_lt_d9.le (by positivity)
  calc 2 * Real.exp (-x) ≤ 2 * (1 / 2 ^ (m + 1)) := by linarith
    _ = 1 / 2 ^ m := by rw [pow_succ]; field_simp

theorem keyVar_cast (P : Params) : keyVar P = (((2 ^ 32) ^ 2 * (P.tlweLv0.N * (P.trgswLv1.L * 2) * P.trgswLv1.N
    * (2 ^ (P.trgswLv1.BGBIT - 1)) ^ 2 * bskAlpha P ^ 2 + P.trgswLv1.N * P.trgswLv1.IKS_T * kskAlpha P ^ 2) : ℚ) : ℝ) := by
  unfold keyVar
  push_cast
  rfl

theorem other_level (level : ℤ) (hl : level ∉ ({80, 110, 1, 2, 3, 4, 5, 6, 7, 8} : Set ℤ)) : level ≤ 0 ∨ 9 ≤ level := by
  simp only [Set.mem_insert_iff, Set.mem_singleton_iff] at hl
  omega

/-- The variances of the levels, against half a message step. -/
theorem keyVar_levels (level : SecurityLevel) :
    0 < keyVar (paramsFor level) ∧
    (level ≠ 1 → 121 * 0.6931471808 * (2 * keyVar (paramsFor level)) ≤ (2 ^ (29 - msgBits level)) ^ 2) ∧
    (level = 1 → 20 * 0.6931471808 * (2 * keyVar (paramsFor level)) ≤ (3 * 2 ^ 27) ^ 2) := by
  rw [keyVar_cast]
  rcases paramsFor_cases level with ⟨rfl, h⟩ | ⟨rfl, h⟩ | ⟨rfl, h⟩ | ⟨rfl, h⟩ | ⟨rfl, h⟩ | ⟨rfl, h⟩ | ⟨rfl, h⟩ |
    ⟨rfl, h⟩ | ⟨rfl, h⟩ | ⟨rfl, h⟩ | ⟨hl, h⟩ <;> rw [h]
  case inr.inr.inr.inr.inr.inr.inr.inr.inr.inr =>
    obtain ⟨h1, hb⟩ := msgBits_gate level (other_level level hl)
    rw [hb]
    refine ⟨?_, fun _ => ?_, fun h => absurd h h1⟩ <;> norm_num [bskAlpha, kskAlpha, params128Bit]
  all_goals
    have e80 : msgBits 80 = 1 := rfl
    have e110 : msgBits 110 = 1 := rfl
    have e2 : msgBits 2 = 2 := rfl
    have e3 : msgBits 3 = 3 := rfl
    have e4 : msgBits 4 = 4 := rfl
    have e5 : msgBits 5 = 5 := rfl
    have e6 : msgBits 6 = 6 := rfl
    have e7 : msgBits 7 = 7 := rfl
    have e8 : msgBits 8 = 8 := rfl
    norm_num [bskAlpha, kskAlpha, params80Bit, params110Bit, params128Bit, paramsUint1, paramsUint2, paramsUint3,
      paramsUint4, paramsUint5, paramsUint6, paramsUint7, paramsUint8, e80, e110, e2, e3, e4, e5, e6, e7, e8]

/-- **C78**, numbers: half of half a message step is exceeded with probability at most `2^-120` at every level but
Uint1; there three quarters of half a message step are exceeded with probability at most `2^-19`. -/
theorem C78_levels (level : SecurityLevel) :
    (level ≠ 1 → ∀ T : ℝ, 2 ^ (29 - msgBits level) ≤ T →
      2 * Real.exp (-(T ^ 2 / (2 * keyVar (paramsFor level)))) ≤ 1 / 2 ^ 120) ∧
    (level = 1 → ∀ T : ℝ, 3 * 2 ^ 27 ≤ T →
      2 * Real.exp (-(T ^ 2 / (2 * keyVar (paramsFor level)))) ≤ 1 / 2 ^ 19) := by
  obtain ⟨hV, h1, h2⟩ := keyVar_levels level
  constructor
  · intro hl T hT
    refine two_exp_le ?_
    rw [le_div_iff₀ (by linarith)]
    refine le_trans ?_ ((h1 hl).trans (pow_le_pow_left₀ (by positivity) hT 2))
    norm_num
  · intro hl T hT
    refine two_exp_le ?_
    rw [le_div_iff₀ (by linarith)]
    refine le_trans ?_ ((h2 hl).trans (pow_le_pow_left₀ (by positivity) hT 2))
    norm_num

/-- **C78**, numbers for the key switching: `2^27` is exceeded with probability at most `2^-38` at every level. -/
theorem C78_levels_keySwitching (level : SecurityLevel) :
    2 * Real.exp (-(((2 ^ 27 : ℕ) : ℝ) ^ 2 / (2 * ((2 ^ 32) ^ 2 * ((paramsFor level).trgswLv1.N
      * (paramsFor level).trgswLv1.IKS_T * ((kskAlpha (paramsFor level) : ℚ) : ℝ) ^ 2))))) ≤ 1 / 2 ^ 38 := by
  refine two_exp_le ?_
  have key : (0 : ℚ) < 2 * ((2 ^ 32) ^ 2 * ((paramsFor level).trgswLv1.N * (paramsFor level).trgswLv1.IKS_T
        * kskAlpha (paramsFor level) ^ 2)) ∧
      39 * 0.6931471808 * (2 * ((2 ^ 32) ^ 2 * ((paramsFor level).trgswLv1.N * (paramsFor level).trgswLv1.IKS_T
        * kskAlpha (paramsFor level) ^ 2))) ≤ (2 ^ 27) ^ 2 := by
    rcases paramsFor_cases level with ⟨-, h⟩ | ⟨-, h⟩ | ⟨-, h⟩ | ⟨-, h⟩ | ⟨-, h⟩ | ⟨-, h⟩ | ⟨-, h⟩ |
      ⟨-, h⟩ | ⟨-, h⟩ | ⟨-, h⟩ | ⟨-, h⟩ <;> rw [h] <;>
      norm_num [kskAlpha, params80Bit, params110Bit, params128Bit, paramsUint1, paramsUint2, paramsUint3,
        paramsUint4, paramsUint5, paramsUint6, paramsUint7, paramsUint8]
  have key1 : (0 : ℝ) < 2 * ((2 ^ 32) ^ 2 * ((paramsFor level).trgswLv1.N * (paramsFor level).trgswLv1.IKS_T
        * ((kskAlpha (paramsFor level) : ℚ) : ℝ) ^ 2)) := by exact_mod_cast key.1
  have key2 : (39 * 0.6931471808 * (2 * ((2 ^ 32) ^ 2 * ((paramsFor level).trgswLv1.N
      * (paramsFor level).trgswLv1.IKS_T * ((kskAlpha (paramsFor level) : ℚ) : ℝ) ^ 2))) : ℝ) ≤ (2 ^ 27) ^ 2 := by
    have : (((39 * 0.6931471808 * (2 * ((2 ^ 32) ^ 2 * ((paramsFor level).trgswLv1.N * (paramsFor level).trgswLv1.IKS_T
        * kskAlpha (paramsFor level) ^ 2))) : ℚ)) : ℝ) ≤ (((2 ^ 27) ^ 2 : ℚ) : ℝ) := by exact_mod_cast key.2
    push_cast at this
    linarith
  rw [le_div_iff₀ key1]
  push_cast at key2 ⊢
  linarith

section

variable {Ω : Type*} [MeasurableSpace Ω] {μ : Measure Ω} [IsProbabilityMeasure μ]
variable {fl : ℚ → ℚ} (hfl : IsRound fl) {fu : Fusing} {ce : ℚ → ℚ × ℚ} (hce : CexpAccurate ce (1 / 2 ^ 52))

include hfl hce

/-- **C78**, one gate in `float64` arithmetic. The keys, the masks and the two input ciphertexts are fixed, the noise
of the cloud key is random. The probability that the gate decrypts wrongly although the rounding errors stayed below
`ρ` is at most `2 exp (-(2^29-ρ)²/2V)`. -/
theorem C78_gate (level : SecurityLevel) {e : PolyEval ℚ}
    (he : newPolyEval (floatArith fl fu mathPi ce) ((paramsFor level).trgswLv1.N : ℤ) = some e)
    (k0 k1 : List Torus) (h0 : (paramsFor level).tlweLv0.N ≤ k0.length) (h1 : k1.length = (paramsFor level).trgswLv1.N)
    (hb0 : IsBinary k0) (hb1 : IsBinary k1) (R : KeyGenRand)
    {q : DrawIx → Ω → ℚ} (hq : NoiseDraws μ q (drawStd (paramsFor level))) (schedK schedB : Ω → List ℕ)
    (ck : Ω → CloudKey (fftOps (floatArith fl fu mathPi ce) e))
    (hck : ∀ ω, newCloudKey (paramsFor level) _ k0 k1 (R.withDraws fun d => q d ω) (schedK ω) (schedB ω)
      = some (true, ck ω))
    (g : Gate2) (a b : List Torus) (x y : Bool) (ea eb : Torus)
    (hx : Enc (paramsFor level).tlweLv0.N a k0 x ea) (hy : Enc (paramsFor level).tlweLv0.N b k0 y eb)
    (hm : nrm ea + g.mult * nrm eb + drift (paramsFor level) (weight (paramsFor level).tlweLv0.N k0) < 2 ^ 29)
    (tr0 : TRef → Trlwe) (lw0 : LRef → List Torus) :
    ∃ st prep, ∃ out : Ω → List Torus,
      newEvaluator (paramsFor level) (fftOps (floatArith fl fu mathPi ce) e) tr0 lw0 = some st ∧
      gatePrepare (paramsFor level) g a b = some prep ∧
      (∀ ω, ∃ st', gate2 (paramsFor level) g st a b (ck ω) = some (st', out ω)) ∧
      ∀ (L : FourierLaws (fftOps (floatArith fl fu mathPi ce) e)) (ρ : ℕ), ρ ≤ 2 ^ 29 →
        μ {ω | tlwe0DecryptBool (paramsFor level) (out ω) k0 ≠ some (g.eval x y) ∧
          nrm (bootRound (paramsFor level) L (ck ω) k0 k1 (gateTestvec (paramsFor level)) prep fun d => q d ω) ≤ ρ}
        ≤ ENNReal.ofReal (2 * Real.exp (-(((2 ^ 29 - ρ : ℕ) : ℝ) ^ 2 / (2 * keyVar (paramsFor level))))) := by
  have W := C63_wellFormed level
  obtain ⟨⟨L0, -⟩, hd, hacc⟩ := C67_errors hfl hce level he
  obtain ⟨st, es, -, -⟩ := newEvaluator_good W L0 hd tr0 lw0
  have K := fun ω => float_keys hfl hce level he k0 k1 (R.withDraws fun d => q d ω) h0 h1 hb0 hb1
    (fun _ _ _ _ _ _ => nrm_le _) (fun _ _ _ _ _ _ => nrm_le _) (schedK ω) (schedB ω) (ck ω) (hck ω)
  have G : ∀ (L : FourierLaws (fftOps (floatArith fl fu mathPi ce) e)) ω, ∃ prep st' out,
      gatePrepare (paramsFor level) g a b = some prep ∧ gate2 (paramsFor level) g st a b (ck ω) = some (st', out) ∧
      (nrm (bootNoise (paramsFor level) L (ck ω) k0 k1 (gateTestvec (paramsFor level)) prep) < 2 ^ 29 →
          tlwe0DecryptBool (paramsFor level) out k0 = some (g.eval x y)) := by
    intro L ω
    obtain ⟨st2, es2, hst2, -⟩ := newEvaluator_good W L hd tr0 lw0
    obtain rfl := Option.some.inj (es.symm.trans es2)
    obtain ⟨prep, st', out, e1, e2, -, -, h⟩ := C43_gate W L hd ((K ω).2.2.1 L) (K ω).2.2.2 h0 st hst2 g a b hx.1 hy.1
    exact ⟨prep, st', out, e1, e2, (h x y ea eb hx hy hm).2⟩
  have hP : ∃ prep, gatePrepare (paramsFor level) g a b = some prep := by
    have : Nonempty Ω := nonempty_of_isProbabilityMeasure μ
    obtain ⟨prep, -, -, e1, -⟩ := G L0 (Classical.arbitrary Ω)
    exact ⟨prep, e1⟩
  obtain ⟨prep, ep⟩ := hP
  choose P1 S1 out E1 E2 _ using G L0
  refine ⟨st, prep, out, es, ep, fun ω => ⟨S1 ω, E2 ω⟩, fun L ρ hρ => ?_⟩
  have hV := (keyVar_levels level).1
  refine le_trans (measure_mono ?_) (C78_tail W L hd (hacc L).1 (hacc L).2 k0 k1 h0 h1 hb0 hb1 R hq schedK schedB ck hck
    hV (gateTestvec (paramsFor level)) prep (2 ^ 29 - ρ))
  rintro ω ⟨hw, hr⟩
  obtain ⟨prep', st', out', e1, e2, h⟩ := G L ω
  obtain rfl := Option.some.inj (ep.symm.trans e1)
  have ho : out ω = out' := (Prod.mk.injEq _ _ _ _ ▸ Option.some.inj ((E2 ω).symm.trans e2)).2
  rw [ho] at hw
  have : ¬ nrm (bootNoise (paramsFor level) L (ck ω) k0 k1 (gateTestvec (paramsFor level)) prep) < 2 ^ 29 :=
    fun hlt => hw (h hlt)
  show nrm (bootRound (paramsFor level) L (ck ω) k0 k1 (gateTestvec (paramsFor level)) prep fun d => q d ω) + (2 ^ 29 - ρ)
    ≤ nrm (bootNoise (paramsFor level) L (ck ω) k0 k1 (gateTestvec (paramsFor level)) prep)
  omega

/-- **C78**, one gate at the 80, 110 and 128-bit levels: the probability that the noise of the cloud key spoils it,
with rounding errors below half the margin, is at most `2^-120`. -/
theorem C78_gate_levels (level : SecurityLevel) (hlev : level ≤ 0 ∨ 9 ≤ level) {e : PolyEval ℚ}
    (he : newPolyEval (floatArith fl fu mathPi ce) ((paramsFor level).trgswLv1.N : ℤ) = some e)
    (k0 k1 : List Torus) (h0 : (paramsFor level).tlweLv0.N ≤ k0.length) (h1 : k1.length = (paramsFor level).trgswLv1.N)
    (hb0 : IsBinary k0) (hb1 : IsBinary k1) (R : KeyGenRand)
    {q : DrawIx → Ω → ℚ} (hq : NoiseDraws μ q (drawStd (paramsFor level))) (schedK schedB : Ω → List ℕ)
    (ck : Ω → CloudKey (fftOps (floatArith fl fu mathPi ce) e))
    (hck : ∀ ω, newCloudKey (paramsFor level) _ k0 k1 (R.withDraws fun d => q d ω) (schedK ω) (schedB ω)
      = some (true, ck ω))
    (g : Gate2) (a b : List Torus) (x y : Bool) (ea eb : Torus)
    (hx : Enc (paramsFor level).tlweLv0.N a k0 x ea) (hy : Enc (paramsFor level).tlweLv0.N b k0 y eb)
    (hm : nrm ea + g.mult * nrm eb + drift (paramsFor level) (weight (paramsFor level).tlweLv0.N k0) < 2 ^ 29)
    (tr0 : TRef → Trlwe) (lw0 : LRef → List Torus) :
    ∃ st prep, ∃ out : Ω → List Torus,
      newEvaluator (paramsFor level) (fftOps (floatArith fl fu mathPi ce) e) tr0 lw0 = some st ∧
      gatePrepare (paramsFor level) g a b = some prep ∧
      (∀ ω, ∃ st', gate2 (paramsFor level) g st a b (ck ω) = some (st', out ω)) ∧
      ∀ (L : FourierLaws (fftOps (floatArith fl fu mathPi ce) e)),
        μ {ω | tlwe0DecryptBool (paramsFor level) (out ω) k0 ≠ some (g.eval x y) ∧
          nrm (bootRound (paramsFor level) L (ck ω) k0 k1 (gateTestvec (paramsFor level)) prep fun d => q d ω) ≤ 2 ^ 28}
        ≤ ENNReal.ofReal (1 / 2 ^ 120) := by
  obtain ⟨st, prep, out, h1', h2', h3', h4'⟩ := C78_gate hfl hce level he k0 k1 h0 h1 hb0 hb1 R hq schedK schedB ck hck g
    a b x y ea eb hx hy hm tr0 lw0
  refine ⟨st, prep, out, h1', h2', h3', fun L => (h4' L (2 ^ 28) (by norm_num)).trans (ENNReal.ofReal_le_ofReal ?_)⟩
  obtain ⟨hne, hbits⟩ := msgBits_gate level hlev
  refine (C78_levels level).1 hne _ ?_
  rw [hbits]
  norm_num

/-- **C78**, one programmable bootstrapping in `float64` arithmetic, with the message modulus `2^k`. -/
theorem C78_pbs (level : SecurityLevel) {e : PolyEval ℚ}
    (he : newPolyEval (floatArith fl fu mathPi ce) ((paramsFor level).trgswLv1.N : ℤ) = some e)
    (k0 k1 : List Torus) (h0 : (paramsFor level).tlweLv0.N ≤ k0.length) (h1 : k1.length = (paramsFor level).trgswLv1.N)
    (hb0 : IsBinary k0) (hb1 : IsBinary k1) (R : KeyGenRand)
    {q : DrawIx → Ω → ℚ} (hq : NoiseDraws μ q (drawStd (paramsFor level))) (schedK schedB : Ω → List ℕ)
    (ck : Ω → CloudKey (fftOps (floatArith fl fu mathPi ce) e))
    (hck : ∀ ω, newCloudKey (paramsFor level) _ k0 k1 (R.withDraws fun d => q d ω) (schedK ω) (schedB ω)
      = some (true, ck ω))
    (k : ℕ) (hk : k ≤ 29) (hN : 2 * 2 ^ k ∣ (paramsFor level).trgswLv1.N)
    (f : ℤ → Option ℤ) (F : ℕ → ℤ) (hf : ∀ x : ℕ, x < 2 ^ k → f x = some (F x))
    (msg : ℤ) (draw : ℕ → Torus) (sample : ℚ)
    (hnoise : nrm (f64ToTorus sample) + drift (paramsFor level) (weight (paramsFor level).tlweLv0.N k0)
      < 2 ^ 30 / 2 ^ k)
    (tr0 : TRef → Trlwe) (lw0 : LRef → List Torus) :
    ∃ st c t, ∃ out : Ω → List Torus,
      newEvaluator (paramsFor level) (fftOps (floatArith fl fu mathPi ce) e) tr0 lw0 = some st ∧
      encryptLWEMessage fl (paramsFor level) (newTLWELv0 (paramsFor level)) msg ((2 ^ k : ℕ) : ℤ) k0 draw sample
        = some c ∧
      (newGenerator fl (paramsFor level) ((2 ^ k : ℕ) : ℤ)).genLookUpTable fl (paramsFor level) f = some t ∧
      (∀ ω, ∃ st', bootstrapFunc fl (paramsFor level) (st.setLw (.user 0) c) (.user 0) f ((2 ^ k : ℕ) : ℤ)
        (ck ω).bootstrappingKey (ck ω).keySwitchingKey (ck ω).decompositionOffset = some (st', out ω)) ∧
      ∀ (L : FourierLaws (fftOps (floatArith fl fu mathPi ce) e)) (ρ : ℕ), ρ ≤ 2 ^ 30 / 2 ^ k →
        μ {ω | decryptLWEMessage (paramsFor level) (out ω) ((2 ^ k : ℕ) : ℤ) k0
            ≠ some (F (msg % ((2 ^ k : ℕ) : ℤ)).toNat % ((2 ^ k : ℕ) : ℤ)) ∧
          nrm (bootRound (paramsFor level) L (ck ω) k0 k1 t c fun d => q d ω) ≤ ρ}
        ≤ ENNReal.ofReal (2 * Real.exp (-(((2 ^ 30 / 2 ^ k - ρ : ℕ) : ℝ) ^ 2 / (2 * keyVar (paramsFor level))))) := by
  have W := C63_wellFormed level
  obtain ⟨⟨L0, -⟩, hd, hacc⟩ := C67_errors hfl hce level he
  have G := fun ω => C68_pbs hfl hce level he k0 k1 (R.withDraws fun d => q d ω) h0 h1 hb0 hb1 (schedK ω) (schedB ω)
    (ck ω) (hck ω) k hk hN f F hf msg draw sample hnoise tr0 lw0
  have : Nonempty Ω := nonempty_of_isProbabilityMeasure μ
  obtain ⟨st, c, t, -, -, es, ec, et, -⟩ := G (Classical.arbitrary Ω)
  choose S C T S' out E1 E2 E3 E4 E5 using G
  have hS : ∀ ω, S ω = st := fun ω => Option.some.inj ((E1 ω).symm.trans es)
  have hC : ∀ ω, C ω = c := fun ω => Option.some.inj ((E2 ω).symm.trans ec)
  have hT : ∀ ω, T ω = t := fun ω => Option.some.inj ((E3 ω).symm.trans et)
  refine ⟨st, c, t, out, es, ec, et, fun ω => ⟨S' ω, ?_⟩, fun L ρ hρ => ?_⟩
  · have := E4 ω
    rw [hS, hC] at this
    exact this
  have hV := (keyVar_levels level).1
  refine le_trans (measure_mono ?_) (C78_tail W L hd (hacc L).1 (hacc L).2 k0 k1 h0 h1 hb0 hb1 R hq schedK schedB ck hck
    hV t c (2 ^ 30 / 2 ^ k - ρ))
  rintro ω ⟨hw, hr⟩
  have h := E5 ω L
  rw [hT, hC] at h
  have : ¬ nrm (bootNoise (paramsFor level) L (ck ω) k0 k1 t c) < 2 ^ 30 / 2 ^ k := fun hlt => hw (h hlt)
  show nrm (bootRound (paramsFor level) L (ck ω) k0 k1 t c fun d => q d ω) + (2 ^ 30 / 2 ^ k - ρ)
    ≤ nrm (bootNoise (paramsFor level) L (ck ω) k0 k1 t c)
  omega

/-- **C78**, one programmable bootstrapping with messages of the size the level is made for: at every level but Uint1
the noise of the cloud key spoils it, with rounding errors below a quarter of a message step, with probability at
most `2^-120`. -/
theorem C78_pbs_levels (level : SecurityLevel) (hlev : level ≠ 1) {e : PolyEval ℚ}
    (he : newPolyEval (floatArith fl fu mathPi ce) ((paramsFor level).trgswLv1.N : ℤ) = some e)
    (k0 k1 : List Torus) (h0 : (paramsFor level).tlweLv0.N ≤ k0.length) (h1 : k1.length = (paramsFor level).trgswLv1.N)
    (hb0 : IsBinary k0) (hb1 : IsBinary k1) (R : KeyGenRand)
    {q : DrawIx → Ω → ℚ} (hq : NoiseDraws μ q (drawStd (paramsFor level))) (schedK schedB : Ω → List ℕ)
    (ck : Ω → CloudKey (fftOps (floatArith fl fu mathPi ce) e))
    (hck : ∀ ω, newCloudKey (paramsFor level) _ k0 k1 (R.withDraws fun d => q d ω) (schedK ω) (schedB ω)
      = some (true, ck ω))
    (k : ℕ) (hk : k ≤ msgBits level) (hN : 2 * 2 ^ k ∣ (paramsFor level).trgswLv1.N)
    (f : ℤ → Option ℤ) (F : ℕ → ℤ) (hf : ∀ x : ℕ, x < 2 ^ k → f x = some (F x))
    (msg : ℤ) (draw : ℕ → Torus) (sample : ℚ)
    (hnoise : nrm (f64ToTorus sample) + drift (paramsFor level) (weight (paramsFor level).tlweLv0.N k0)
      < 2 ^ 30 / 2 ^ k)
    (tr0 : TRef → Trlwe) (lw0 : LRef → List Torus) :
    ∃ st c t, ∃ out : Ω → List Torus,
      newEvaluator (paramsFor level) (fftOps (floatArith fl fu mathPi ce) e) tr0 lw0 = some st ∧
      encryptLWEMessage fl (paramsFor level) (newTLWELv0 (paramsFor level)) msg ((2 ^ k : ℕ) : ℤ) k0 draw sample
        = some c ∧
      (newGenerator fl (paramsFor level) ((2 ^ k : ℕ) : ℤ)).genLookUpTable fl (paramsFor level) f = some t ∧
      (∀ ω, ∃ st', bootstrapFunc fl (paramsFor level) (st.setLw (.user 0) c) (.user 0) f ((2 ^ k : ℕ) : ℤ)
        (ck ω).bootstrappingKey (ck ω).keySwitchingKey (ck ω).decompositionOffset = some (st', out ω)) ∧
      ∀ L : FourierLaws (fftOps (floatArith fl fu mathPi ce) e),
        μ {ω | decryptLWEMessage (paramsFor level) (out ω) ((2 ^ k : ℕ) : ℤ) k0
            ≠ some (F (msg % ((2 ^ k : ℕ) : ℤ)).toNat % ((2 ^ k : ℕ) : ℤ)) ∧
          nrm (bootRound (paramsFor level) L (ck ω) k0 k1 t c fun d => q d ω) ≤ 2 ^ (29 - k)}
        ≤ ENNReal.ofReal (1 / 2 ^ 120) := by
  have hb : msgBits level ≤ 8 := by
    have : ∀ z : ℤ, msgBits z ≤ 8 := by
      intro z
      unfold msgBits
      split_ifs <;> omega
    exact this level
  obtain ⟨st, c, t, out, e1, e2, e3, e4, e5⟩ := C78_pbs hfl hce level he k0 k1 h0 h1 hb0 hb1 R hq schedK schedB ck hck k
    (by omega) hN f F hf msg draw sample hnoise tr0 lw0
  have hdiv : 2 ^ 30 / 2 ^ k = 2 ^ (29 - k) + 2 ^ (29 - k) := by
    rw [Nat.pow_div (by omega) (by norm_num), ← two_mul, ← pow_succ']
    congr 1
    omega
  refine ⟨st, c, t, out, e1, e2, e3, e4, fun L => (e5 L (2 ^ (29 - k)) (by omega)).trans (ENNReal.ofReal_le_ofReal ?_)⟩
  refine (C78_levels level).1 hlev _ ?_
  rw [hdiv, Nat.add_sub_cancel]
  push_cast
  exact pow_le_pow_right₀ (by norm_num) (by omega)

/-- **C78**, without a condition on the rounding errors: when the worst case of the rounding errors, which depends only
on the weights of the secret keys, stays below `ρ`. -/
theorem C78_gate_light (level : SecurityLevel) {e : PolyEval ℚ}
    (he : newPolyEval (floatArith fl fu mathPi ce) ((paramsFor level).trgswLv1.N : ℤ) = some e)
    (k0 k1 : List Torus) (h0 : (paramsFor level).tlweLv0.N ≤ k0.length) (h1 : k1.length = (paramsFor level).trgswLv1.N)
    (hb0 : IsBinary k0) (hb1 : IsBinary k1) (R : KeyGenRand)
    {q : DrawIx → Ω → ℚ} (hq : NoiseDraws μ q (drawStd (paramsFor level))) (schedK schedB : Ω → List ℕ)
    (ck : Ω → CloudKey (fftOps (floatArith fl fu mathPi ce) e))
    (hck : ∀ ω, newCloudKey (paramsFor level) _ k0 k1 (R.withDraws fun d => q d ω) (schedK ω) (schedB ω)
      = some (true, ck ω))
    (g : Gate2) (a b : List Torus) (x y : Bool) (ea eb : Torus)
    (hx : Enc (paramsFor level).tlweLv0.N a k0 x ea) (hy : Enc (paramsFor level).tlweLv0.N b k0 y eb)
    (hm : nrm ea + g.mult * nrm eb + drift (paramsFor level) (weight (paramsFor level).tlweLv0.N k0) < 2 ^ 29)
    (ρ : ℕ) (hρ : ρ ≤ 2 ^ 29) (hB : bootBound (paramsFor level) (fftErr (paramsFor level)) 0 0
      (weight (paramsFor level).tlweLv0.N k0) (weight (paramsFor level).trgswLv1.N k1) ≤ ρ)
    (tr0 : TRef → Trlwe) (lw0 : LRef → List Torus) :
    ∃ st, ∃ out : Ω → List Torus,
      newEvaluator (paramsFor level) (fftOps (floatArith fl fu mathPi ce) e) tr0 lw0 = some st ∧
      (∀ ω, ∃ st', gate2 (paramsFor level) g st a b (ck ω) = some (st', out ω)) ∧
      μ {ω | tlwe0DecryptBool (paramsFor level) (out ω) k0 ≠ some (g.eval x y)}
        ≤ ENNReal.ofReal (2 * Real.exp (-(((2 ^ 29 - ρ : ℕ) : ℝ) ^ 2 / (2 * keyVar (paramsFor level))))) := by
  obtain ⟨st, prep, out, e1, -, e3, e4⟩ := C78_gate hfl hce level he k0 k1 h0 h1 hb0 hb1 R hq schedK schedB ck hck g
    a b x y ea eb hx hy hm tr0 lw0
  obtain ⟨⟨L, -⟩, hd, hacc⟩ := C67_errors hfl hce level he
  refine ⟨st, out, e1, e3, le_trans (measure_mono ?_) (e4 L ρ hρ)⟩
  intro ω hω
  refine ⟨hω, ((C78_keyNoise (C63_wellFormed level) L hd (hacc L).1 (hacc L).2 k0 k1 h0 h1 hb0 hb1 R hq schedK schedB ck
    hck (keyVar_levels level).1 (gateTestvec (paramsFor level)) prep).1 ω).trans hB⟩

end

/-- Non-vacuity of C78: independent normal noise cut off to 60 binary places, the nearest-even rounding of `float64`,
128 bits, unit keys. A NAND of two encryptions goes wrong with probability at most `2^-120`. -/
example (fu : Fusing) (x y : Bool) : ∃ (fl : ℚ → ℚ) (ce : ℚ → ℚ × ℚ) (e : PolyEval ℚ)
    (ck : (DrawIx → ℝ) → CloudKey (fftOps (floatArith fl fu mathPi ce) e)) (a b : List Torus)
    (st : EvState (fftOps (floatArith fl fu mathPi ce) e)) (out : (DrawIx → ℝ) → List Torus),
    (∀ ω, ∃ schedK schedB R, newCloudKey (paramsFor 128) _ (unitKey 700) (unitKey 1024) R schedK schedB
      = some (true, ck ω) ∧ ∀ i j k, R.bskSample i j k = cutNormal 60 (.inl (i, j, k)) ω) ∧
    tlwe0DecryptBool (paramsFor 128) a (unitKey 700) = some x ∧
    tlwe0DecryptBool (paramsFor 128) b (unitKey 700) = some y ∧
    (∀ ω, ∃ st', gate2 (paramsFor 128) .nand st a b (ck ω) = some (st', out ω)) ∧
    normals (drawStd (paramsFor 128)) {ω | tlwe0DecryptBool (paramsFor 128) (out ω) (unitKey 700) ≠ some (!(x && y))}
      ≤ ENNReal.ofReal (1 / 2 ^ 120) := by
  obtain ⟨ce, hce⟩ := exists_cexp (1 / 2 ^ 52) (by norm_num)
  have he : newPolyEval (floatArith rne fu mathPi ce) 1024 = some (pev (floatArith rne fu mathPi ce) 9) :=
    (newPolyEval_some _ 1024 _).2 ⟨9, by norm_num, by norm_num, rfl⟩
  let R : KeyGenRand := ⟨fun i j k l => BitVec.ofNat 32 (i + 7 * j + 31 * k + 97 * l), fun _ _ _ => 0,
    fun i j k => BitVec.ofNat 32 (5 * i + 77 * j + 1001 * k), fun _ _ _ => 0⟩
  have l0 : (paramsFor 128).tlweLv0.N ≤ (unitKey 700).length := by simp [unitKey]; exact le_rfl
  have l1 : (unitKey 1024).length = (paramsFor 128).trgswLv1.N := by simp [unitKey]; rfl
  have hk := fun ω : DrawIx → ℝ => exists_float_cloudKey 128 he (unitKey 700) (unitKey 1024)
    (R.withDraws fun d => cutNormal 60 d ω) l0 l1 (isBinary_unitKey _)
  choose sK sB ck hck using hk
  have w0 : weight (paramsFor 128).tlweLv0.N (unitKey 700) = 1 := weight_unitKey 700 (by norm_num)
  have w1 : weight (paramsFor 128).trgswLv1.N (unitKey 1024) = 1 := weight_unitKey 1024 (by norm_num)
  have hz : nrm (f64ToTorus 0) = 0 := by
    have := f64ToTorus_int_div 0 (by norm_num) (by norm_num)
    rw [show (0 : ℚ) = ((0 : ℤ) : ℚ) / 2 ^ 32 by norm_num, this]
    rfl
  obtain ⟨a, -, ha⟩ := enc_of_encryptBool (paramsFor 128) (newTLWELv0 (paramsFor 128)) (unitKey 700) x
    (fun i => BitVec.ofNat 32 (i * 12345)) 0 l0 (by simp [newTLWELv0])
  obtain ⟨b, -, hb⟩ := enc_of_encryptBool (paramsFor 128) (newTLWELv0 (paramsFor 128)) (unitKey 700) y
    (fun i => BitVec.ofNat 32 (i * 54321)) 0 l0 (by simp [newTLWELv0])
  obtain ⟨st, out, -, e2, e3⟩ := C78_gate_light isRound_rne hce 128 he (unitKey 700) (unitKey 1024) l0 l1
    (isBinary_unitKey _) (isBinary_unitKey _) R (noiseDraws_normal (drawStd (paramsFor 128)) 60) sK sB ck hck .nand a b x y _
    _ ha hb (by
      rw [hz, w0]
      show 0 + Gate2.mult .nand * 0 + (1 + 1) * 2 ^ (30 - 10) < 2 ^ 29
      norm_num) (2 ^ 28) (by norm_num) (by
      rw [w0, w1]
      show (1 + 1) * (1 + 1 * (1 + 2 ^ (32 - 3 * 6))) + 700 * (2 * 3 * 1024 * 2 ^ (6 - 1) * 0 + 29 * (1 + 1)) + 1
        + (1 * 2 ^ (31 - 2 * 9) + 1024 * (9 * 0)) ≤ 2 ^ 28
      norm_num) (fun _ => ⟨[], []⟩) (fun _ => [])
  refine ⟨rne, ce, _, ck, a, b, st, out, fun ω => ⟨_, _, _, hck ω, fun _ _ _ => rfl⟩, ?_, ?_, e2,
    e3.trans (ENNReal.ofReal_le_ofReal ((C78_levels 128).1 (by norm_num) _ ?_))⟩
  · exact ha.decrypts l0 (by rw [hz]; norm_num)
  · exact hb.decrypts l0 (by rw [hz]; norm_num)
  · rw [show msgBits 128 = 1 from rfl]
    norm_num

end GoTfhe
