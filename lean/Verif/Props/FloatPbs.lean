import Verif.Props.FloatGates
import Verif.Props.Pbs

/-!
# C68: programmable bootstrapping with the floating-point transform
-/

namespace GoTfhe

section

variable {fl : ℚ → ℚ} (hfl : IsRound fl) {fu : Fusing} {ce : ℚ → ℚ × ℚ} (hce : CexpAccurate ce (1 / 2 ^ 52))

include hfl hce

/-- **C68.** At every level, for every function and every message modulo `2^k`: generate the keys under any schedules,
create the evaluator, encrypt the message, bootstrap with the function, decrypt; table generation and transform in
`float64` arithmetic. The result is the function of the message when the noise that this bootstrapping has (errors of
the transform included) is below half a message step. -/
theorem C68_pbs (level : SecurityLevel) {e : PolyEval ℚ}
    (he : newPolyEval (floatArith fl fu mathPi ce) ((paramsFor level).trgswLv1.N : ℤ) = some e)
    (k0 k1 : List Torus) (R : KeyGenRand)
    (h0 : (paramsFor level).tlweLv0.N ≤ k0.length) (h1 : k1.length = (paramsFor level).trgswLv1.N)
    (hb0 : IsBinary k0) (hb1 : IsBinary k1)
    (schedK schedB : List ℕ) (ck : CloudKey (fftOps (floatArith fl fu mathPi ce) e))
    (hck : newCloudKey (paramsFor level) _ k0 k1 R schedK schedB = some (true, ck))
    (k : ℕ) (hk : k ≤ 29) (hN : 2 * 2 ^ k ∣ (paramsFor level).trgswLv1.N)
    (f : ℤ → Option ℤ) (F : ℕ → ℤ) (hf : ∀ x : ℕ, x < 2 ^ k → f x = some (F x))
    (msg : ℤ) (draw : ℕ → Torus) (sample : ℚ)
    (hnoise : nrm (f64ToTorus sample) + drift (paramsFor level) (weight (paramsFor level).tlweLv0.N k0)
      < 2 ^ 30 / 2 ^ k)
    (tr0 : TRef → Trlwe) (lw0 : LRef → List Torus) :
    ∃ st c t st' out,
      newEvaluator (paramsFor level) (fftOps (floatArith fl fu mathPi ce) e) tr0 lw0 = some st ∧
      encryptLWEMessage fl (paramsFor level) (newTLWELv0 (paramsFor level)) msg ((2 ^ k : ℕ) : ℤ) k0 draw sample
        = some c ∧
      (newGenerator fl (paramsFor level) ((2 ^ k : ℕ) : ℤ)).genLookUpTable fl (paramsFor level) f = some t ∧
      bootstrapFunc fl (paramsFor level) (st.setLw (.user 0) c) (.user 0) f ((2 ^ k : ℕ) : ℤ) ck.bootstrappingKey
        ck.keySwitchingKey ck.decompositionOffset = some (st', out) ∧
      ∀ L : FourierLaws (fftOps (floatArith fl fu mathPi ce) e),
        nrm (bootNoise (paramsFor level) L ck k0 k1 t c) < 2 ^ 30 / 2 ^ k →
        decryptLWEMessage (paramsFor level) out ((2 ^ k : ℕ) : ℤ) k0
          = some (F (msg % ((2 ^ k : ℕ) : ℤ)).toNat % ((2 ^ k : ℕ) : ℤ)) := by
  obtain ⟨⟨L, -⟩, hd, K, -⟩ := float_keys hfl hce level he k0 k1 R h0 h1 hb0 hb1
    (fun _ _ _ _ _ _ => nrm_le _) (fun _ _ _ _ _ _ => nrm_le _) schedK schedB ck hck
  have W := C63_wellFormed level
  obtain ⟨st, es, hst, -⟩ := newEvaluator_good W L hd tr0 lw0
  obtain ⟨c, t, st', out, e1, e2, e3, -, -⟩ := C56_end_to_end_realised W L hd (K L) h0 fl hfl k hk hN f F hf msg draw
    sample st hst hnoise
  refine ⟨st, c, t, st', out, es, e1, e2, e3, fun L' hn => ?_⟩
  obtain ⟨st2, es2, hst2, -⟩ := newEvaluator_good W L' hd tr0 lw0
  obtain rfl := Option.some.inj (es.symm.trans es2)
  obtain ⟨c2, t2, st2', out2, f1, f2, f3, -, hdec⟩ := C56_end_to_end_realised W L' hd (K L') h0 fl hfl k hk hN f F hf msg
    draw sample st hst2 hnoise
  obtain rfl := Option.some.inj (e1.symm.trans f1)
  obtain rfl := Option.some.inj (e2.symm.trans f2)
  have h := Option.some.inj (e3.symm.trans f3)
  rw [Prod.mk.injEq] at h
  rw [h.2]
  exact hdec hn

/-- **C68**, worst case: when the worst-case noise of the level with the worst-case error of the transform is below
half a message step, decryption gives the function of the message whatever the randomness was. -/
theorem C68_pbs_worst_case (level : SecurityLevel) {e : PolyEval ℚ}
    (he : newPolyEval (floatArith fl fu mathPi ce) ((paramsFor level).trgswLv1.N : ℤ) = some e)
    (k0 k1 : List Torus) (R : KeyGenRand)
    (h0 : (paramsFor level).tlweLv0.N ≤ k0.length) (h1 : k1.length = (paramsFor level).trgswLv1.N)
    (hb0 : IsBinary k0) (hb1 : IsBinary k1) {β κ : ℕ}
    (hβ : ∀ i < (paramsFor level).tlweLv0.N, ∀ j < 2 * (paramsFor level).trgswLv1.L,
      ∀ k < (paramsFor level).trgswLv1.N, nrm (f64ToTorus (R.bskSample i j k)) ≤ β)
    (hκ : ∀ i < (paramsFor level).trgswLv1.N, ∀ j < (paramsFor level).trgswLv1.IKS_T,
      ∀ k < 2 ^ (paramsFor level).trgswLv1.BASEBIT, nrm (f64ToTorus (R.kskSample i j k)) ≤ κ)
    (schedK schedB : List ℕ) (ck : CloudKey (fftOps (floatArith fl fu mathPi ce) e))
    (hck : newCloudKey (paramsFor level) _ k0 k1 R schedK schedB = some (true, ck))
    (k : ℕ) (hk : k ≤ 29) (hN : 2 * 2 ^ k ∣ (paramsFor level).trgswLv1.N)
    (f : ℤ → Option ℤ) (F : ℕ → ℤ) (hf : ∀ x : ℕ, x < 2 ^ k → f x = some (F x))
    (msg : ℤ) (draw : ℕ → Torus) (sample : ℚ)
    (hnoise : nrm (f64ToTorus sample) + drift (paramsFor level) (weight (paramsFor level).tlweLv0.N k0)
      < 2 ^ 30 / 2 ^ k)
    (hboot : bootBound (paramsFor level) (fftErr (paramsFor level)) β κ
      (weight (paramsFor level).tlweLv0.N k0) (weight (paramsFor level).trgswLv1.N k1) < 2 ^ 30 / 2 ^ k)
    (tr0 : TRef → Trlwe) (lw0 : LRef → List Torus) :
    ∃ st c st' out,
      newEvaluator (paramsFor level) (fftOps (floatArith fl fu mathPi ce) e) tr0 lw0 = some st ∧
      encryptLWEMessage fl (paramsFor level) (newTLWELv0 (paramsFor level)) msg ((2 ^ k : ℕ) : ℤ) k0 draw sample
        = some c ∧
      bootstrapFunc fl (paramsFor level) (st.setLw (.user 0) c) (.user 0) f ((2 ^ k : ℕ) : ℤ) ck.bootstrappingKey
        ck.keySwitchingKey ck.decompositionOffset = some (st', out) ∧
      decryptLWEMessage (paramsFor level) out ((2 ^ k : ℕ) : ℤ) k0
        = some (F (msg % ((2 ^ k : ℕ) : ℤ)).toNat % ((2 ^ k : ℕ) : ℤ)) := by
  obtain ⟨⟨L, -⟩, hd, K, -⟩ := float_keys hfl hce level he k0 k1 R h0 h1 hb0 hb1 hβ hκ schedK schedB ck hck
  obtain ⟨st, es, hst, -⟩ := newEvaluator_good (C63_wellFormed level) L hd tr0 lw0
  obtain ⟨c, st', out, a, b, -, d⟩ := C56_end_to_end (C63_wellFormed level) L hd (K L) h0 fl hfl k hk hN f F hf msg draw
    sample st hst hnoise hboot
  exact ⟨st, c, st', out, es, a, b, d⟩

end

/-- Non-vacuity of C68: at 128 bits with unit keys and noise one in every sample of the bootstrapping key, the bounds
hold for messages modulo 4. -/
example : bootBound (paramsFor 128) (fftErr (paramsFor 128)) 1 0
      (weight 700 (unitKey 700)) (weight 1024 (unitKey 1024)) < 2 ^ 30 / 2 ^ 2 ∧
    2 ^ 20 + drift (paramsFor 128) (weight 700 (unitKey 700)) < 2 ^ 30 / 2 ^ 2 ∧
    2 * 2 ^ 2 ∣ (paramsFor 128).trgswLv1.N := by
  refine ⟨?_, ?_, by show 2 * 2 ^ 2 ∣ 1024; norm_num⟩
  · rw [weight_unitKey 700 (by norm_num), weight_unitKey 1024 (by norm_num)]
    show (1 + 1) * (1 + 1 * (1 + 2 ^ (32 - 3 * 6))) + 700 * (2 * 3 * 1024 * 2 ^ (6 - 1) * 1 + 29 * (1 + 1)) + 1
      + (1 * 2 ^ (31 - 2 * 9) + 1024 * (9 * 0)) < 2 ^ 30 / 2 ^ 2
    norm_num
  · rw [weight_unitKey 700 (by norm_num)]
    show 2 ^ 20 + (1 + 1) * 2 ^ (30 - 10) < 2 ^ 30 / 2 ^ 2
    norm_num

end GoTfhe
