import Verif.Lemmas.GateProb
import Verif.Props.FloatGates
import Verif.Props.KeyNoiseLevels

/-!
# C85, C86: the rounding errors of a bootstrapping are random

The gadget decomposition drops the low 14 bits of every coefficient. The worst case of what is lost this way exceeds the
margin of a gate. Here: over the uniform masks of the bootstrapping key what is lost is close to its mean (C85), and over
uniform keys and a uniform input the mean is small (C86).
-/

namespace GoTfhe

open Finset

/-- The parameters of the gate levels: three digits of six bits, and the float error fits. -/
theorem gate_digits (level : ℤ) (h : level ≤ 0 ∨ 9 ≤ level) : (paramsFor level).trgswLv1.L = 3 ∧
    (paramsFor level).trgswLv1.BGBIT = 6 ∧ (paramsFor level).trgswLv1.NBIT = 10 ∧ fftErr (paramsFor level) = 29 := by
  rcases paramsFor_cases level with ⟨rfl, e⟩ | ⟨rfl, e⟩ | ⟨rfl, e⟩ | ⟨rfl, e⟩ | ⟨rfl, e⟩ | ⟨rfl, e⟩ | ⟨rfl, e⟩ |
    ⟨rfl, e⟩ | ⟨rfl, e⟩ | ⟨rfl, e⟩ | ⟨hl, e⟩
  all_goals first
    | (exfalso; revert h; norm_num; done)
    | (rw [e]; exact ⟨rfl, rfl, rfl, rfl⟩)

section

variable {fl : ℚ → ℚ} (hfl : IsRound fl) {fu : Fusing} {ce : ℚ → ℚ × ℚ} (hce : CexpAccurate ce (1 / 2 ^ 52))

include hfl hce

/-- A sum of products with zero polynomials is exactly zero in `float64` arithmetic. -/
theorem float_accurate0 (level : SecurityLevel) {e : PolyEval ℚ}
    (he : newPolyEval (floatArith fl fu mathPi ce) ((paramsFor level).trgswLv1.N : ℤ) = some e)
    (L : FourierLaws (fftOps (floatArith fl fu mathPi ce) e)) : L.Accurate ((paramsFor level).trgswLv1.L * 2) 0 0 := by
  obtain ⟨k, hk, hN, rfl⟩ := (newPolyEval_some _ _ e).1 he
  have hN' : (paramsFor level).trgswLv1.N = 2 ^ (k + 1) := by exact_mod_cast hN
  have W := C63_wellFormed level
  have hk30 : k ≤ 30 := by
    have h1 := W.pow2
    rw [hN'] at h1
    have h2 := Nat.pow_right_injective (le_refl 2) h1
    have h3 := W.nbit_le
    omega
  have hl : (paramsFor level).trgswLv1.L * 2 ≤ 2 ^ 20 := by
    have h1 := W.gadget_fits
    have h2 := W.bgbit_pos
    have : (paramsFor level).trgswLv1.L ≤ (paramsFor level).trgswLv1.L * (paramsFor level).trgswLv1.BGBIT :=
      Nat.le_mul_of_pos_right _ h2
    omega
  refine FourierLaws.Accurate.unique (L := fftLaws (floatArith fl fu mathPi ce) k hk) ?_ L
  exact C21_accurate hfl hce k hk hk30 _ _ _ hl (by norm_num)

open Classical in
/-- **C85**: fixed keys, noise and input; uniform masks of the bootstrapping key. The rounding errors of a gate
bootstrapping exceed `8192 |bias| + T + …` with probability at most `2 exp (-T²/8·8320²·w0·w1)` and a term below
`2^-500`. Their worst case is about `8192·w0·w1`. -/
theorem C85_rounding (level : SecurityLevel) (hlev : level ≤ 0 ∨ 9 ≤ level) {e : PolyEval ℚ}
    (he : newPolyEval (floatArith fl fu mathPi ce) ((paramsFor level).trgswLv1.N : ℤ) = some e)
    (L : FourierLaws (fftOps (floatArith fl fu mathPi ce) e))
    (k0 k1 : List Torus) (h0 : (paramsFor level).tlweLv0.N ≤ k0.length) (h1 : k1.length = (paramsFor level).trgswLv1.N)
    (hb0 : IsBinary k0) (hb1 : IsBinary k1) (R : KeyGenRand) (y : DrawIx → ℚ)
    (schedK schedB : KeyMasks (paramsFor level) → List ℕ)
    (ck : KeyMasks (paramsFor level) → CloudKey (fftOps (floatArith fl fu mathPi ce) e))
    (hck : ∀ m, newCloudKey (paramsFor level) _ k0 k1 ((R.withEntryMasks m).withDraws y) (schedK m) (schedB m)
      = some (true, ck m))
    (c : List Torus) (w0 w1 : ℕ) (hw0 : weight (paramsFor level).tlweLv0.N k0 ≤ w0)
    (hw1 : weight (paramsFor level).trgswLv1.N k1 ≤ w1) (hv : 0 < w0 * w1) (T : ℕ) (hT : T ≤ 16640 * (w0 * w1)) :
    uprob (fun m : KeyMasks (paramsFor level) =>
        8192 * (lostBias (paramsFor level) c k0 k1).natAbs + T + 8192 * w1 + 160 * (w0 * w1)
          + roundRest (paramsFor level) 29 w0 w1
        ≤ nrm (bootRound (paramsFor level) L (ck m) k0 k1 (gateTestvec (paramsFor level)) c y))
      ≤ 2 * Real.exp (-((T : ℝ) ^ 2 / (8 * 8320 ^ 2 * (w0 * w1))))
        + 2 * ((paramsFor level).tlweLv0.N * (1 / 2) ^ 2 ^ ((paramsFor level).trgswLv1.NBIT - 1)) := by
  obtain ⟨hL, hb, -, hfe⟩ := gate_digits level hlev
  obtain ⟨-, hd, hacc⟩ := C67_errors hfl hce level he
  have hacc0 := float_accurate0 hfl hce level he L
  have hA := hacc L
  have W := C63_wellFormed level
  rw [hfe] at hA
  generalize paramsFor level = P at *
  rw [uprob_avg]
  refine le_trans (avg_mono fun m => ?_) (lostFluct_tail W L hd hacc0 (by norm_num : 29 ≤ 32) hA.1 hL hb k0 k1 hb0 hb1
    (R.withDraws y) c w0 w1 hw0 hw1 hv (T : ℝ) (Nat.cast_nonneg T) (by exact_mod_cast hT))
  by_cases h : 8192 * (lostBias P c k0 k1).natAbs + T + 8192 * w1 + 160 * (w0 * w1) + roundRest P 29 w0 w1
      ≤ nrm (bootRound P L (ck m) k0 k1 (gateTestvec P) c y)
  · have h2 := h.trans (bootRound_le W L hd hA.1 hA.2 hL hb k0 k1 h0 h1 hb0 hb1 R y m _ _ _ (hck m) (gateTestvec P) c)
    have h3 := roundRest_mono P 29 hw0 hw1
    have h4 : T + 8192 * w1 + 160 * (w0 * w1) ≤ (lostFluct P L k0 k1 (R.withDraws y) (gateTv P) c m).natAbs := by
      have : gateTv P = gateTestvec P := rfl
      rw [this]
      omega
    have h5 : (T : ℝ) + 8192 * w1 + 160 * (w0 * w1) ≤ |(lostFluct P L k0 k1 (R.withDraws y) (gateTv P) c m : ℝ)| := by
      rw [← Int.cast_abs, ← Int.natCast_natAbs]
      exact_mod_cast h4
    rw [if_pos h5]
    split_ifs <;> norm_num
  · rw [if_neg h]
    split_ifs <;> norm_num

open Classical in
/-- **C86**: fixed noise; uniform coins of both secret keys, uniform masks of the bootstrapping key and of the two input
ciphertexts. The rounding errors of the bootstrapping of a gate stay below `ρ` except with a small probability. -/
theorem C86_rounding (level : SecurityLevel) (hlev : level ≤ 0 ∨ 9 ≤ level) {e : PolyEval ℚ}
    (he : newPolyEval (floatArith fl fu mathPi ce) ((paramsFor level).trgswLv1.N : ℤ) = some e)
    (L : FourierLaws (fftOps (floatArith fl fu mathPi ce) e)) (R : KeyGenRand) (y : DrawIx → ℚ)
    (sk : GateDice (paramsFor level) → SecretKey)
    (hsk : ∀ x, newSecretKey (paramsFor level) (keyCoins x.coins0) (keyCoins x.coins1) = some (sk x))
    (schedK schedB : GateDice (paramsFor level) → List ℕ)
    (ck : GateDice (paramsFor level) → CloudKey (fftOps (floatArith fl fu mathPi ce) e))
    (hck : ∀ x, newCloudKey (paramsFor level) _ (sk x).keyLv0 (sk x).keyLv1 ((R.withEntryMasks x.bsk).withDraws y)
      (schedK x) (schedB x) = some (true, ck x))
    (g : Gate2) (xa xb : Bool) (u v : ℚ) (a b prep : GateDice (paramsFor level) → List Torus)
    (ha : ∀ x, tlwe0EncryptBool (paramsFor level) (newTLWELv0 (paramsFor level)) xa (sk x).keyLv0 x.maskA.draw u = some (a x))
    (hb : ∀ x, tlwe0EncryptBool (paramsFor level) (newTLWELv0 (paramsFor level)) xb (sk x).keyLv0 x.maskB.draw v = some (b x))
    (hp : ∀ x, gatePrepare (paramsFor level) g (a x) (b x) = some (prep x))
    (W0 W1 B T : ℕ) (hw0 : (paramsFor level).tlweLv0.N ≤ 2 * W0) (hw1 : (paramsFor level).trgswLv1.N ≤ 2 * W1)
    (hT : T ≤ 16640 * (W0 * W1)) (lam X η : ℝ) (hl : 0 ≤ lam) (hX : lam * W1 ≤ X) (hX1 : X ≤ 1) (hη : 0 < η)
    (hs : 2 * (1 + 1 / η) * (paramsFor level).trgswLv1.N
      * ((paramsFor level).tlweLv0.N * (1 + 5 / 48 * X ^ 2) * lam ^ 2 / 4 / 4) < 1) :
    uprob (fun x : GateDice (paramsFor level) =>
        8192 * B + (T + 8192 * W1 + 160 * (W0 * W1)) + roundRest (paramsFor level) 29 W0 W1
        ≤ nrm (bootRound (paramsFor level) L (ck x) (sk x).keyLv0 (sk x).keyLv1 (gateTestvec (paramsFor level)) (prep x) y))
      ≤ Real.exp (-(2 * (W0 + 1 - (paramsFor level).tlweLv0.N / 2 : ℝ) ^ 2 / (paramsFor level).tlweLv0.N))
        + Real.exp (-(2 * (W1 + 1 - (paramsFor level).trgswLv1.N / 2 : ℝ) ^ 2 / (paramsFor level).trgswLv1.N))
        + 2 * Real.exp (-(lam * B) + lam * W1 + biasExp (paramsFor level).tlweLv0.N (paramsFor level).trgswLv1.N lam X η)
        + (2 * Real.exp (-((T : ℝ) ^ 2 / (8 * 8320 ^ 2 * (W0 * W1))))
          + 2 * ((paramsFor level).tlweLv0.N * (1 / 2) ^ 2 ^ ((paramsFor level).trgswLv1.NBIT - 1))) := by
  obtain ⟨hL, hb6, -, hfe⟩ := gate_digits level hlev
  obtain ⟨-, hd, hacc⟩ := C67_errors hfl hce level he
  have hacc0 := float_accurate0 hfl hce level he L
  have hA := hacc L
  have W := C63_wellFormed level
  rw [hfe] at hA
  generalize paramsFor level = P at *
  have esk : ∀ x, sk x = ⟨keyOf x.coins0, keyOf x.coins1⟩ := fun x =>
    (Option.some.inj ((newSecretKey_keyOf W x.coins0 x.coins1).symm.trans (hsk x))).symm
  have ea : ∀ x, a x = bitCt x.coins0 x.maskA xa u := fun x => by
    have := ha x
    rw [esk x] at this
    exact (Option.some.inj ((encryptBool_bitCt P xa x.coins0 x.maskA u).symm.trans this)).symm
  have eb : ∀ x, b x = bitCt x.coins0 x.maskB xb v := fun x => by
    have := hb x
    rw [esk x] at this
    exact (Option.some.inj ((encryptBool_bitCt P xb x.coins0 x.maskB v).symm.trans this)).symm
  have ep : ∀ x, prep x = prepOf P g xa xb u v x := fun x => by
    have := hp x
    rw [ea x, eb x] at this
    exact (Option.some.inj ((gatePrepare_prepOf P g xa xb u v x).symm.trans this)).symm
  have hN : 0 < P.trgswLv1.N := by have := W.min_degree; omega
  have h0 := W.lv0_pos
  have t0 := dice_weight0 P h0 W0 hw0
  have t1 := dice_weight1 P hN W1 hw1
  have t2 := dice_bias W g xa xb u v lam X η hl W1 hX hX1 hη hs B
  have t3 := dice_fluct W L hd hacc0 (by norm_num : 29 ≤ 32) hA.1 hL hb6 (R.withDraws y) g xa xb u v W0 W1
    (Nat.mul_pos (by omega) (by omega)) (T : ℝ) (Nat.cast_nonneg T) (by exact_mod_cast hT)
  refine le_trans ?_ (add_le_add (add_le_add (add_le_add t0 t1) t2) t3)
  rw [uprob_avg, uprob_avg, uprob_avg, uprob_avg, uprob_avg, ← avg_add, ← avg_add, ← avg_add]
  refine avg_mono fun x => ?_
  have n1 : ∀ (p : Prop) [Decidable p], (0 : ℝ) ≤ if p then 1 else 0 := fun p _ => by split_ifs <;> norm_num
  rw [esk x, ep x]
  by_cases h : 8192 * B + (T + 8192 * W1 + 160 * (W0 * W1)) + roundRest P 29 W0 W1
      ≤ nrm (bootRound P L (ck x) (keyOf x.coins0) (keyOf x.coins1) (gateTestvec P) (prepOf P g xa xb u v x) y)
  swap
  · rw [if_neg h]
    exact add_nonneg (add_nonneg (add_nonneg (n1 _) (n1 _)) (n1 _)) (n1 _)
  rw [if_pos h]
  by_cases hx0 : W0 < weight P.tlweLv0.N (keyOf x.coins0)
  · rw [if_pos hx0]
    exact le_add_of_le_of_nonneg (le_add_of_le_of_nonneg (le_add_of_nonneg_right (n1 _)) (n1 _)) (n1 _)
  rw [if_neg hx0, zero_add]
  by_cases hx1 : W1 < weight P.trgswLv1.N (keyOf x.coins1)
  · rw [if_pos hx1]
    exact le_add_of_le_of_nonneg (le_add_of_nonneg_right (n1 _)) (n1 _)
  rw [if_neg hx1, zero_add]
  have hk := hck x
  rw [esk x] at hk
  have h2 := h.trans (bootRound_le W L hd hA.1 hA.2 hL hb6 (keyOf x.coins0) (keyOf x.coins1) (by simp [keyOf])
    (by simp [keyOf]) (isBinary_keyOf _) (isBinary_keyOf _) R y x.bsk _ _ _ hk (gateTestvec P) (prepOf P g xa xb u v x))
  have h3 := roundRest_mono P 29 (not_lt.1 hx0) (not_lt.1 hx1)
  by_cases h4 : B ≤ (lostBias P (prepOf P g xa xb u v x) (keyOf x.coins0) (keyOf x.coins1)).natAbs
  · have h5 : weight P.trgswLv1.N (keyOf x.coins1) ≤ W1 ∧
        (B : ℝ) ≤ |((lostBias P (prepOf P g xa xb u v x) (keyOf x.coins0) (keyOf x.coins1) : ℤ) : ℝ)| := by
      refine ⟨not_lt.1 hx1, ?_⟩
      rw [← Int.cast_abs, ← Int.natCast_natAbs]
      exact_mod_cast h4
    rw [if_pos h5]
    exact le_add_of_nonneg_right (n1 _)
  · have h6 : T + 8192 * W1 + 160 * (W0 * W1)
        ≤ (lostFluct P L (keyOf x.coins0) (keyOf x.coins1) (R.withDraws y) (gateTv P) (prepOf P g xa xb u v x) x.bsk).natAbs := by
      have : gateTv P = gateTestvec P := rfl
      rw [this]
      omega
    have h7 : weight P.tlweLv0.N (keyOf x.coins0) ≤ W0 ∧ weight P.trgswLv1.N (keyOf x.coins1) ≤ W1 ∧
        (T : ℝ) + 8192 * W1 + 160 * (W0 * W1) ≤ |(lostFluct P L (keyOf x.coins0) (keyOf x.coins1) (R.withDraws y) (gateTv P)
          (prepOf P g xa xb u v x) x.bsk : ℝ)| := by
      refine ⟨not_lt.1 hx0, not_lt.1 hx1, ?_⟩
      rw [← Int.cast_abs, ← Int.natCast_natAbs]
      exact_mod_cast h6
    rw [if_pos h7]
    exact le_add_of_nonneg_left (n1 _)

end

end GoTfhe
