import Verif.Lemmas.DriftCount
import Verif.Props.Gates
import Verif.Props.Pbs
import Verif.Props.ProxyReenc
import Mathlib.Analysis.SpecialFunctions.Log.Deriv
import Mathlib.Analysis.Complex.ExponentialBounds

/-!
# C72: how likely a bootstrapping of a fresh ciphertext picks the wrong table entry

Before the blind rotation every coefficient is rounded to a multiple of `2^32 / 2N`. Worst-case bounds on the sum of the
rounding errors are too large for the small windows of programmable bootstrapping. For a fresh ciphertext the mask is
uniform, and the sum is small for all but few masks.
-/

namespace GoTfhe

variable {O : FourierOps}

theorem maskProb_of_bad {n : ℕ} (E : Mask n → Prop) (δ : ℝ)
    (h : ∀ bad : Finset (Mask n), (∀ a ∈ bad, E a) → (bad.card : ℝ) ≤ δ * (2 ^ 32) ^ n) : MaskProbLe E δ := by
  classical
  unfold MaskProbLe
  have hf : {a | E a}.Finite := Set.toFinite _
  rw [Set.ncard_eq_toFinset_card _ hf]
  exact h _ fun a ha => by simpa using ha

/-- **C72**, rounding. For every binary key of weight at most `w` and every body, rounding moves the phase of a
ciphertext with a uniform mask by more than `d` with probability at most `driftTail P w d`. -/
theorem C72_rounding {P : Params} (W : WellFormed P) (s : List Torus) (hs : IsBinary s) (w d : ℕ) (hw0 : 0 < w)
    (hw : weight P.tlweLv0.N s ≤ w) (hd : 2 ^ (30 - P.trgswLv1.NBIT) + w ≤ d) (body : Mask P.tlweLv0.N → Torus) :
    MaskProbLe (fun a => ¬ Near P ((tab P.tlweLv0.N a.draw) ++ [body a]) s d) (driftTail P w d) := by
  refine maskProb_of_bad _ _ fun bad hb => card_not_near W s hs w d hw0 hw hd _ (fun _ => toFinEquiv.symm) ?_ bad hb
  intro a i
  have hi : (i : ℕ) < (tab P.tlweLv0.N a.draw).length := by simp
  unfold at'
  rw [List.getD_eq_getElem?_getD, List.getElem?_append_left hi]
  have := at'_tab P.tlweLv0.N a.draw i i.2
  unfold at' at this
  rw [List.getD_eq_getElem?_getD] at this
  rw [this]
  unfold Mask.draw
  rw [dif_pos i.2]
  rfl

/-- Encrypting `msg` modulo `2^k` with this mask, bootstrapping with `f` and decrypting goes through, and gives `F msg`
unless the noise of this bootstrapping exceeds half a message step. -/
def PbsRight (P : Params) (L : FourierLaws O) (ck : CloudKey O) (s0 s1 : List Torus) (fl : ℚ → ℚ) (k : ℕ)
    (f : ℤ → Option ℤ) (F : ℕ → ℤ) (msg : ℤ) (sample : ℚ) (st : EvState O) (a : Mask P.tlweLv0.N) : Prop :=
  ∃ c t st' out,
    encryptLWEMessage fl P (newTLWELv0 P) msg ((2 ^ k : ℕ) : ℤ) s0 a.draw sample = some c ∧
    (newGenerator fl P ((2 ^ k : ℕ) : ℤ)).genLookUpTable fl P f = some t ∧
    bootstrapFunc fl P (st.setLw (.user 0) c) (.user 0) f ((2 ^ k : ℕ) : ℤ) ck.bootstrappingKey
      ck.keySwitchingKey ck.decompositionOffset = some (st', out) ∧ EvGood P L st' ∧
    (nrm (bootNoise P L ck s0 s1 t c) < 2 ^ 30 / 2 ^ k → decryptLWEMessage P out ((2 ^ k : ℕ) : ℤ) s0
      = some (F (msg % ((2 ^ k : ℕ) : ℤ)).toNat % ((2 ^ k : ℕ) : ℤ)))

/-- **C72**, programmable bootstrapping with modulus `2^k`: encrypt `msg` with a uniform mask, bootstrap with `f`,
decrypt. For every key, message, function and noise sample, the probability that the outcome is not `f` of the message
(provided the noise of this bootstrapping is below half a message step) is at most `driftTail P w d`, where `d` is what
the sample leaves of half a message step. -/
theorem C72_pbs {P : Params} (W : WellFormed P) (L : FourierLaws O) (hd : O.deg = P.trgswLv1.N)
    {D β κ : ℕ} {ck : CloudKey O} {s0 s1 : List Torus} (K : KeysOK P L D β κ ck s0 s1)
    (hs0 : P.tlweLv0.N ≤ s0.length) (fl : ℚ → ℚ) (hfl : IsRound fl) (k : ℕ) (hk : k ≤ 29)
    (hN : 2 * 2 ^ k ∣ P.trgswLv1.N) (f : ℤ → Option ℤ) (F : ℕ → ℤ) (hf : ∀ x : ℕ, x < 2 ^ k → f x = some (F x))
    (msg : ℤ) (sample : ℚ) (st : EvState O) (hst : EvGood P L st)
    (w d : ℕ) (hw0 : 0 < w) (hw : weight P.tlweLv0.N s0 ≤ w) (hwd : 2 ^ (30 - P.trgswLv1.NBIT) + w ≤ d)
    (hnoise : nrm (f64ToTorus sample) + d < 2 ^ 30 / 2 ^ k) :
    MaskProbLe (fun a => ¬ PbsRight P L ck s0 s1 fl k f F msg sample st a) (driftTail P w d) := by
  have key := fun a : Mask P.tlweLv0.N =>
    encryptLWEMessage_eq fl P (newTLWELv0 P) s0 msg (2 ^ k) Nat.one_le_two_pow a.draw sample hs0 (by simp [newTLWELv0])
  choose c hc using key
  refine maskProb_of_bad _ _ fun bad hb => card_not_near W s0 K.bin0 w d hw0 hw hwd c (fun _ => toFinEquiv.symm) ?_ bad ?_
  · intro a i
    rw [(hc a).2.2.1 i i.2]
    unfold Mask.draw
    rw [dif_pos i.2]
    rfl
  · intro a ha hnear
    refine hb a ha ?_
    obtain ⟨c', t, h1, h2, h⟩ := pbs_near W L hd K hs0 fl hfl k hk hN f F hf msg a.draw sample st hst d hnoise
    obtain rfl : c a = c' := Option.some.inj ((hc a).1.symm.trans h1)
    obtain ⟨st', out, h3, h4, h5⟩ := h hnear
    exact ⟨c a, t, st', out, h1, h2, h3, h4, h5⟩

theorem coef_sq (g : Gate2) : g.coef.1 * g.coef.1 = 1 := by cases g <;> decide

/-- Encrypting the bit `x` with this mask and applying the gate to it and `b` goes through and gives an encryption of
the truth table's value, with the noise of this bootstrapping. -/
def GateRight (P : Params) (L : FourierLaws O) (ck : CloudKey O) (s0 s1 : List Torus) (st : EvState O) (g : Gate2)
    (x y : Bool) (sample : ℚ) (b : List Torus) (m : Mask P.tlweLv0.N) : Prop :=
  ∃ a prep st' out,
    tlwe0EncryptBool P (newTLWELv0 P) x s0 m.draw sample = some a ∧ gatePrepare P g a b = some prep ∧
    gate2 P g st a b ck = some (st', out) ∧ EvGood P L st' ∧
    Enc P.tlweLv0.N out s0 (g.eval x y) (bootNoise P L ck s0 s1 (gateTestvec P) prep) ∧
    (nrm (bootNoise P L ck s0 s1 (gateTestvec P) prep) < 2 ^ 29 → tlwe0DecryptBool P out s0 = some (g.eval x y))

/-- **C72**, gates: encrypt the first input with a uniform mask; the second is any ciphertext of the bit `y`, fresh or
not. The probability that the gate does not return an encryption of its truth table (with the noise of this
bootstrapping) is at most `driftTail P w d`. -/
theorem C72_gate {P : Params} (W : WellFormed P) (L : FourierLaws O) (hd : O.deg = P.trgswLv1.N)
    {D β κ : ℕ} {ck : CloudKey O} {s0 s1 : List Torus} (K : KeysOK P L D β κ ck s0 s1)
    (htv : ck.blindRotateTestvec = gateTestvec P) (h0 : P.tlweLv0.N ≤ s0.length)
    (st : EvState O) (hst : EvGood P L st) (g : Gate2) (x y : Bool) (sample : ℚ) (b : List Torus) (eb : Torus)
    (hb : Enc P.tlweLv0.N b s0 y eb)
    (w d : ℕ) (hw0 : 0 < w) (hw : weight P.tlweLv0.N s0 ≤ w) (hwd : 2 ^ (30 - P.trgswLv1.NBIT) + w ≤ d)
    (hnoise : nrm (f64ToTorus sample) + g.mult * nrm eb + d < 2 ^ 29) :
    MaskProbLe (fun m => ¬ GateRight P L ck s0 s1 st g x y sample b m) (driftTail P w d) := by
  have key := fun m : Mask P.tlweLv0.N =>
    tlwe0EncryptF64_eq P (newTLWELv0 P) s0 (if x then 0.125 else -0.125) m.draw sample h0 (by simp [newTLWELv0])
  choose c hc using key
  have hl : ∀ m, (c m).length = P.tlweLv0.N + 1 := fun m => by rw [(hc m).2.1]; simp [newTLWELv0]
  have hE : ∀ m, Enc P.tlweLv0.N (c m) s0 x (f64ToTorus sample) := by
    intro m
    refine ⟨hl m, ?_⟩
    rw [(hc m).2.2.2, f64ToTorus_bool]
    cases x <;> rfl
  let σ : ℕ → Fin (2 ^ 32) ≃ Torus := fun i => toFinEquiv.symm.trans
    ⟨fun v => g.coef.1 * v + g.coef.2.1 * at' b i, fun v => g.coef.1 * (v - g.coef.2.1 * at' b i),
      fun v => by
        show g.coef.1 * (g.coef.1 * v + g.coef.2.1 * at' b i - g.coef.2.1 * at' b i) = v
        rw [add_sub_cancel_right, ← mul_assoc, coef_sq, one_mul],
      fun v => by
        show g.coef.1 * (g.coef.1 * (v - g.coef.2.1 * at' b i)) + g.coef.2.1 * at' b i = v
        rw [← mul_assoc, coef_sq, one_mul, sub_add_cancel]⟩
  refine maskProb_of_bad _ _ fun bad hbad => card_not_near W s0 K.bin0 w d hw0 hw hwd
    (fun m => lin P.tlweLv0.N g.coef.1 g.coef.2.1 g.coef.2.2 (c m) b) σ ?_ bad ?_
  · intro m i
    unfold lin
    rw [at'_tab _ _ _ (by omega), if_neg (by omega), (hc m).2.2.1 i i.2, add_zero]
    unfold Mask.draw
    rw [dif_pos i.2]
    rfl
  · intro m hm hnear
    refine hbad m hm ?_
    obtain ⟨prep, st', out, h1, h2, h3, -, h5⟩ := gate_near W L hd K htv h0 st hst g (c m) b (hl m) hb.1
    rw [gatePrepare_eq P g (c m) b (hl m) hb.1] at h1
    obtain rfl := Option.some.inj h1
    obtain ⟨h6, h7⟩ := h5 x y _ eb d (hE m) hb hnear hnoise
    exact ⟨c m, _, st', out, (hc m).1, gatePrepare_eq P g (c m) b (hl m) hb.1, h2, h3, h6, h7⟩

theorem MaskProbLe.mono {n : ℕ} {E : Mask n → Prop} {δ ε : ℝ} (h : MaskProbLe E δ) (hle : δ ≤ ε) : MaskProbLe E ε :=
  le_trans h (mul_le_mul_of_nonneg_right hle (by positivity))

/-- Evaluating the bound: with `h` half a rounding step, `2 exp(-3 T^2 / (2 w h^2)) ≤ 2^-m`. -/
theorem driftTail_le (P : Params) (w d m h : ℕ) (hh : 2 ^ (30 - P.trgswLv1.NBIT) = h) (hw : 0 < w)
    (hnum : ((m + 1 : ℕ) : ℚ) * 0.6931471808 * (2 * w * h ^ 2) ≤ 3 * ((d : ℚ) - h - w / 2) ^ 2) :
    driftTail P w d ≤ (2 ^ m)⁻¹ := by
  have hhR : (2 : ℝ) ^ (30 - P.trgswLv1.NBIT) = h := by rw [← hh]; push_cast; rfl
  have hpos : (0 : ℝ) < h := by rw [← hhR]; positivity
  have hwR : (0 : ℝ) < w := by exact_mod_cast hw
  unfold driftTail
  rw [hhR]
  have hR : ((m + 1 : ℕ) : ℝ) * 0.6931471808 * (2 * w * h ^ 2) ≤ 3 * ((d : ℝ) - h - w / 2) ^ 2 := by
    have := (Rat.cast_le (K := ℝ)).mpr hnum
    push_cast at this ⊢
    norm_num at this ⊢
    linarith
  have h1 : ((m + 1 : ℕ) : ℝ) * 0.6931471808 ≤ 3 * ((d : ℝ) - h - w / 2) ^ 2 / (2 * w * h ^ 2) := by
    rw [le_div_iff₀ (by positivity)]
    exact hR
  have h2 : Real.exp (-(3 * ((d : ℝ) - h - w / 2) ^ 2 / (2 * w * h ^ 2))) ≤ (2 ^ (m + 1))⁻¹ := by
    have : ((2 : ℝ) ^ (m + 1))⁻¹ = Real.exp (-(((m + 1 : ℕ) : ℝ) * Real.log 2)) := by
      rw [Real.exp_neg, mul_comm, Real.exp_mul, Real.exp_log (by norm_num), Real.rpow_natCast]
    rw [this]
    refine Real.exp_le_exp.mpr (neg_le_neg (le_trans ?_ h1))
    exact mul_le_mul_of_nonneg_left (le_of_lt Real.log_two_lt_d9) (Nat.cast_nonneg _)
  calc _ ≤ 2 * ((2 : ℝ) ^ (m + 1))⁻¹ := by gcongr
    _ = _ := by rw [pow_succ]; field_simp

/-- The levels at which the bound is useful, with the modulus the level is meant for: level, `k`, bound on the noise
of the encryption (more than eleven standard deviations), bound on the key weight, and `-log2` of the probability. The weight
bounds at Uint1-Uint4 and the first one at Uint5 are the dimensions, so every binary key qualifies. -/
def driftTable : List (ℤ × ℕ × ℕ × ℕ × ℕ) :=
  [(1, 1, 2 ^ 27, 700, 450), (2, 2, 2 ^ 20, 687, 49), (3, 3, 2 ^ 17, 820, 41), (4, 4, 2 ^ 17, 820, 41),
    (5, 5, 2 ^ 12, 1071, 7), (5, 5, 2 ^ 12, 620, 12)]

/-- **C72** at the Uint levels: with the modulus the level is meant for, a programmable bootstrapping of a fresh
ciphertext picks a wrong table entry with probability at most `2^-m`. -/
theorem C72_pbs_levels (level : SecurityLevel) (k E w m : ℕ) (hrow : (level, k, E, w, m) ∈ driftTable)
    (L : FourierLaws O) (hd : O.deg = (paramsFor level).trgswLv1.N)
    {D β κ : ℕ} {ck : CloudKey O} {s0 s1 : List Torus} (K : KeysOK (paramsFor level) L D β κ ck s0 s1)
    (hs0 : (paramsFor level).tlweLv0.N ≤ s0.length) (fl : ℚ → ℚ) (hfl : IsRound fl)
    (f : ℤ → Option ℤ) (F : ℕ → ℤ) (hf : ∀ x : ℕ, x < 2 ^ k → f x = some (F x))
    (msg : ℤ) (sample : ℚ) (st : EvState O) (hst : EvGood (paramsFor level) L st)
    (hw : weight (paramsFor level).tlweLv0.N s0 ≤ w) (hnoise : nrm (f64ToTorus sample) ≤ E) :
    MaskProbLe (fun a => ¬ PbsRight (paramsFor level) L ck s0 s1 fl k f F msg sample st a) (2 ^ m)⁻¹ := by
  have main : ∀ h : ℕ, 2 ^ (30 - (paramsFor level).trgswLv1.NBIT) = h → 0 < w → k ≤ 29 →
      2 * 2 ^ k ∣ (paramsFor level).trgswLv1.N → h + w + E + 1 ≤ 2 ^ 30 / 2 ^ k →
      ((m + 1 : ℕ) : ℚ) * 0.6931471808 * (2 * w * h ^ 2) ≤ 3 * (((2 ^ 30 / 2 ^ k - E - 1 : ℕ) : ℚ) - h - w / 2) ^ 2 →
      MaskProbLe (fun a => ¬ PbsRight (paramsFor level) L ck s0 s1 fl k f F msg sample st a) (2 ^ m)⁻¹ := by
    intro h hh hw0 hk hN hfit hnum
    refine (C72_pbs (C63_wellFormed level) L hd K hs0 fl hfl k hk hN f F hf msg sample st hst w (2 ^ 30 / 2 ^ k - E - 1)
      hw0 hw (by omega) (by omega)).mono (driftTail_le _ w _ m h hh hw0 hnum)
  unfold driftTable at hrow
  simp only [List.mem_cons, Prod.mk.injEq, List.not_mem_nil, or_false] at hrow
  rcases hrow with ⟨rfl, rfl, rfl, rfl, rfl⟩ | ⟨rfl, rfl, rfl, rfl, rfl⟩ | ⟨rfl, rfl, rfl, rfl, rfl⟩ | ⟨rfl, rfl, rfl, rfl, rfl⟩ |
    ⟨rfl, rfl, rfl, rfl, rfl⟩ | ⟨rfl, rfl, rfl, rfl, rfl⟩
  · exact main (2 ^ 20) rfl (by norm_num) (by norm_num) (by show 2 * 2 ^ 1 ∣ 1024; norm_num) (by norm_num) (by norm_num)
  · exact main (2 ^ 21) rfl (by norm_num) (by norm_num) (by show 2 * 2 ^ 2 ∣ 512; norm_num) (by norm_num) (by norm_num)
  · exact main (2 ^ 20) rfl (by norm_num) (by norm_num) (by show 2 * 2 ^ 3 ∣ 1024; norm_num) (by norm_num) (by norm_num)
  · exact main (2 ^ 19) rfl (by norm_num) (by norm_num) (by show 2 * 2 ^ 4 ∣ 2048; norm_num) (by norm_num) (by norm_num)
  · exact main (2 ^ 19) rfl (by norm_num) (by norm_num) (by show 2 * 2 ^ 5 ∣ 2048; norm_num) (by norm_num) (by norm_num)
  · exact main (2 ^ 19) rfl (by norm_num) (by norm_num) (by show 2 * 2 ^ 5 ∣ 2048; norm_num) (by norm_num) (by norm_num)

theorem weight_le (n : ℕ) (s : List Torus) (hs : IsBinary s) : weight n s ≤ n := by
  unfold weight
  calc _ ≤ ∑ _i ∈ Finset.range n, 1 := Finset.sum_le_sum fun i _ => by rcases isBinary_at' hs i with h | h <;> rw [h] <;> decide
    _ = n := by simp

/-- **C72** at the gate levels: with total input noise at most `2^27`, a gate on a fresh ciphertext rounds into the
wrong half with probability at most `2^-450`, for every binary key. -/
theorem C72_gate_levels (level : SecurityLevel) (hlev : level = 80 ∨ level = 110 ∨ level = 128 ∨ level = 1)
    (L : FourierLaws O) (hd : O.deg = (paramsFor level).trgswLv1.N)
    {D β κ : ℕ} {ck : CloudKey O} {s0 s1 : List Torus} (K : KeysOK (paramsFor level) L D β κ ck s0 s1)
    (htv : ck.blindRotateTestvec = gateTestvec (paramsFor level)) (h0 : (paramsFor level).tlweLv0.N ≤ s0.length)
    (st : EvState O) (hst : EvGood (paramsFor level) L st) (g : Gate2) (x y : Bool) (sample : ℚ) (b : List Torus)
    (eb : Torus) (hb : Enc (paramsFor level).tlweLv0.N b s0 y eb)
    (hnoise : nrm (f64ToTorus sample) + g.mult * nrm eb ≤ 2 ^ 27) :
    MaskProbLe (fun m => ¬ GateRight (paramsFor level) L ck s0 s1 st g x y sample b m) (2 ^ 450)⁻¹ := by
  have main : ∀ w : ℕ, (paramsFor level).tlweLv0.N = w → 2 ^ (30 - (paramsFor level).trgswLv1.NBIT) = 2 ^ 20 → 0 < w →
      2 ^ 20 + w ≤ 2 ^ 29 - 2 ^ 27 - 1 →
      ((450 + 1 : ℕ) : ℚ) * 0.6931471808 * (2 * w * ((2 ^ 20 : ℕ) : ℚ) ^ 2)
        ≤ 3 * (((2 ^ 29 - 2 ^ 27 - 1 : ℕ) : ℚ) - ((2 ^ 20 : ℕ) : ℚ) - w / 2) ^ 2 →
      MaskProbLe (fun m => ¬ GateRight (paramsFor level) L ck s0 s1 st g x y sample b m) (2 ^ 450)⁻¹ := by
    intro w hw hh hw0 hfit hnum
    have hwt : weight (paramsFor level).tlweLv0.N s0 ≤ w := by
      rw [hw]
      exact weight_le _ _ K.bin0
    refine (C72_gate (C63_wellFormed level) L hd K htv h0 st hst g x y sample b eb hb w (2 ^ 29 - 2 ^ 27 - 1)
      hw0 hwt (by rw [hh]; exact hfit) (by norm_num at hnoise ⊢; omega)).mono (driftTail_le _ w _ 450 (2 ^ 20) hh hw0 hnum)
  rcases hlev with rfl | rfl | rfl | rfl
  · exact main 550 rfl rfl (by norm_num) (by norm_num) (by norm_num)
  · exact main 630 rfl rfl (by norm_num) (by norm_num) (by norm_num)
  · exact main 700 rfl rfl (by norm_num) (by norm_num) (by norm_num)
  · exact main 700 rfl rfl (by norm_num) (by norm_num) (by norm_num)

/-- A key with every bit set. -/
def onesKey (n : ℕ) : List Torus := tab n fun _ => 1

theorem length_onesKey (n : ℕ) : (onesKey n).length = n := length_tab _ _

theorem isBinary_onesKey (n : ℕ) : IsBinary (onesKey n) := by
  intro x hx
  unfold onesKey tab at hx
  obtain ⟨-, -, rfl⟩ := List.mem_map.mp hx
  exact Or.inr rfl

theorem weight_onesKey (n : ℕ) : weight n (onesKey n) = n := by
  unfold weight onesKey
  rw [Finset.sum_congr rfl fun i hi => by rw [at'_tab _ _ _ (Finset.mem_range.mp hi)]]
  simp

/-- Every hypothesis holds together: Uint4, a key with every bit set, any message, the function `x^3`, noise 0, the
exact transform. The worst-case bound of C56 does not apply here: the drift of this key can exceed half a step. -/
example (msg : ℤ) : ∃ (ck : CloudKey (exactOps 2048)) (st : EvState (exactOps 2048)) (s0 s1 : List Torus),
    weight (paramsFor 4).tlweLv0.N s0 = 820 ∧ ¬ drift (paramsFor 4) (weight (paramsFor 4).tlweLv0.N s0) < 2 ^ 30 / 2 ^ 4 ∧
    MaskProbLe (fun a => ¬ PbsRight (paramsFor 4) (exL (C63_wellFormed 4)) ck s0 s1 rne 4 (fun x => some (x ^ 3))
      (fun x => (x : ℤ) ^ 3) msg 0 st a) (2 ^ 41)⁻¹ := by
  have W := C63_wellFormed 4
  have hw : weight (paramsFor 4).tlweLv0.N (onesKey 820) = 820 := weight_onesKey 820
  obtain ⟨ck, K, -⟩ := exists_keysOK W (onesKey 820) (unitKey 2048) (length_tab _ _) (isBinary_onesKey _)
    (isBinary_unitKey _)
  obtain ⟨st, -, hst, -⟩ := newEvaluator_good W (exL W) rfl (fun _ => ⟨[], []⟩) (fun _ => [])
  have hn : (paramsFor 4).tlweLv0.N ≤ (onesKey 820).length := le_of_eq (length_onesKey 820).symm
  have hz : nrm (f64ToTorus 0) ≤ 2 ^ 17 := by
    rw [f64ToTorus_zero', nrm_zero]
    positivity
  have hrow : ((4 : ℤ), 4, 2 ^ 17, 820, 41) ∈ driftTable := by unfold driftTable; simp
  have hd : (exactOps (paramsFor 4).trgswLv1.N).deg = (paramsFor 4).trgswLv1.N := rfl
  have main := C72_pbs_levels 4 4 (2 ^ 17) 820 41 hrow (exL W) hd K hn rne isRound_rne (fun x => some (x ^ 3))
    (fun x => (x : ℤ) ^ 3) (fun x _ => rfl) msg 0 st hst (le_of_eq hw) hz
  refine ⟨ck, st, _, _, hw, ?_, main⟩
  rw [hw]
  show ¬ (1 + 820) * 2 ^ (30 - 11) < 2 ^ 30 / 2 ^ 4
  norm_num

/-- The same for a gate at 128 bits with the second input a trivial ciphertext. -/
example (g : Gate2) (x : Bool) : ∃ (ck : CloudKey (exactOps 1024)) (st : EvState (exactOps 1024)) (s0 s1 b : List Torus),
    weight (paramsFor 128).tlweLv0.N s0 = 700 ∧
    MaskProbLe (fun m => ¬ GateRight (paramsFor 128) (exL (C63_wellFormed 128)) ck s0 s1 st g x true 0 b m) (2 ^ 450)⁻¹ := by
  have W := C63_wellFormed 128
  have hw : weight (paramsFor 128).tlweLv0.N (onesKey 700) = 700 := weight_onesKey 700
  obtain ⟨ck, K, htv⟩ := exists_keysOK W (onesKey 700) (unitKey 1024) (length_tab _ _) (isBinary_onesKey _)
    (isBinary_unitKey _)
  obtain ⟨st, -, hst, -⟩ := newEvaluator_good W (exL W) rfl (fun _ => ⟨[], []⟩) (fun _ => [])
  have hz : f64ToTorus 0 = 0 := f64ToTorus_zero'
  obtain ⟨b, -, hb⟩ := enc_of_encryptBool (paramsFor 128) (newTLWELv0 (paramsFor 128)) (onesKey 700) true (fun _ => 0) 0
    (le_of_eq (length_onesKey 700).symm) (by simp [newTLWELv0])
  rw [hz] at hb
  refine ⟨ck, st, _, _, b, hw, C72_gate_levels 128 (by simp) (exL W) rfl K htv
    (le_of_eq (length_onesKey 700).symm) st hst g x true 0 b 0 hb ?_⟩
  rw [hz, nrm_zero, Nat.mul_zero]
  positivity

end GoTfhe
