import Verif.Props.Rewrite

/-!
# C98: gates on a ciphertext and its negation return a constant, whatever the ciphertext is
-/

namespace GoTfhe

variable {O : FourierOps}

/-- The trivial ciphertext with phase `v`: no mask -/
def trivialCt (n : ℕ) (v : Torus) : List Torus := tab (n + 1) fun i => if i = n then v else 0

theorem phase_trivialCt (n : ℕ) (v : Torus) (s : List Torus) : phase n (trivialCt n v) s = v := by
  unfold trivialCt
  rw [phase_tab, if_pos rfl, Finset.sum_eq_zero, sub_zero]
  intro i hi
  rw [if_neg (Finset.mem_range.1 hi).ne, zero_mul]

theorem msPhase_trivialCt (N n : ℕ) (v : Torus) (s : List Torus) :
    msPhase N n (trivialCt n v) s = nearest2N N v.toNat := by
  unfold msPhase trivialCt
  rw [at'_tab _ _ _ (by omega), if_pos rfl, Finset.sum_eq_zero, sub_zero]
  intro i hi
  have := Finset.mem_range.1 hi
  rw [at'_tab _ _ _ (by omega), if_neg this.ne]
  simp [nearest2N]

/-- Without a mask only the body is rounded. -/
theorem near_trivialCt {P : Params} (W : WellFormed P) (v : Torus) (s : List Torus) :
    Near P (trivialCt P.tlweLv0.N v) s (2 ^ (30 - P.trgswLv1.NBIT)) := by
  have h := msPhase_near W (trivialCt P.tlweLv0.N v) []
  have hw : drift P (weight P.tlweLv0.N []) = 2 ^ (30 - P.trgswLv1.NBIT) := by
    simp [drift, weight, at']
  rw [hw] at h
  unfold Near at h ⊢
  rw [msPhase_trivialCt, phase_trivialCt] at h ⊢
  exact h

theorem half_step_le {P : Params} (W : WellFormed P) : (2 : ℤ) ^ (30 - P.trgswLv1.NBIT) ≤ 2 ^ 26 := by
  have h4 : 4 ≤ P.trgswLv1.NBIT := by
    have := W.min_degree
    rw [W.pow2] at this
    exact (Nat.pow_le_pow_iff_right (a := 2) (by norm_num)).1 this
  exact pow_le_pow_right₀ (by norm_num) (by omega)

/-- Bootstrapping the trivial ciphertext of a bit -/
theorem boot_trivialBit {P : Params} (W : WellFormed P) (L : FourierLaws O) (ck : CloudKey O) (s0 s1 : List Torus)
    (b : Bool) : Enc P.tlweLv0.N (bootOut P L ck (gateTestvec P) (trivialCt P.tlweLv0.N (bval b))) s0 b
      (bootNoise P L ck s0 s1 (gateTestvec P) (trivialCt P.tlweLv0.N (bval b))) := by
  refine ⟨length_bootPure _ _ _ _ _ _ _, boot_bool W L ck s0 s1 _ b (near_trivialCt W (bval b) s0) ?_⟩
  have h := half_step_le W
  rw [phase_trivialCt]
  cases b
  · rw [show (bval false).toInt = -536870912 by decide]
    simp only [Bool.false_eq_true, if_false]
    push_cast
    omega
  · rw [show (bval true).toInt = 536870912 by decide]
    simp only [if_true]
    push_cast
    omega

/-- The gates that combine their inputs with equal weight -/
def Gate2.opposite : Gate2 → Bool
  | .and | .or | .nand | .nor => true
  | _ => false

/-- The gates that negate one input -/
def Gate2.mixed : Gate2 → Bool
  | .andny | .andyn | .orny | .oryn => true
  | _ => false

/-- **C98**: AND, OR, NAND and NOR of a ciphertext and its negation, and ANDNY, ANDYN, ORNY and ORYN of a ciphertext with
itself, return a ciphertext that does not depend on the input at all: it is the same for all inputs, encryptions of bits
or not, with any noise, and for all states of the evaluator. It encrypts what the truth table says, with the noise of one
bootstrapping. -/
theorem C98_constant {P : Params} (W : WellFormed P) (L : FourierLaws O) (hd : O.deg = P.trgswLv1.N)
    {D β κ : ℕ} {ck : CloudKey O} {s0 s1 : List Torus} (K : KeysOK P L D β κ ck s0 s1)
    (htv : ck.blindRotateTestvec = gateTestvec P) (h0 : P.tlweLv0.N ≤ s0.length) (b : Bool) :
    ∃ (out : List Torus) (e : Torus), Enc P.tlweLv0.N out s0 b e ∧
      nrm e ≤ bootBound P D β κ (weight P.tlweLv0.N s0) (weight P.trgswLv1.N s1) ∧
      (nrm e < 2 ^ 29 → tlwe0DecryptBool P out s0 = some b) ∧
      (∀ g : Gate2, g.opposite = true → (∀ x, g.eval x (!x) = b) → ∀ (st : EvState O) (_ : EvGood P L st) (a : List Torus)
        (_ : a.length = P.tlweLv0.N + 1), ∃ na st', gateNOT P a = some na ∧ gate2 P g st a na ck = some (st', out) ∧
          EvGood P L st') ∧
      (∀ g : Gate2, g.mixed = true → (∀ x, g.eval x x = b) → ∀ (st : EvState O) (_ : EvGood P L st) (a : List Torus)
        (_ : a.length = P.tlweLv0.N + 1), ∃ st', gate2 P g st a a ck = some (st', out) ∧ EvGood P L st') := by
  have hE := boot_trivialBit W L ck s0 s1 b
  have hck := ckGood L hd K htv
  refine ⟨_, _, hE, nrm_bootNoise W L hd K _ _, fun h => hE.decrypts h0 h, ?_, ?_⟩
  · intro g hg hb st hst a ha
    obtain ⟨st', e, hs⟩ := gate2_val W L hd hck hst g a (notVal P.tlweLv0.N a) ha (length_notVal _ _)
    refine ⟨_, st', gateNOT_eq P a ha, ?_, hs⟩
    rw [e, gateVal, htv]
    congr 3
    unfold lin trivialCt
    apply tab_congr
    intro i hi
    have key : g.coef.1 = g.coef.2.1 ∧ g.coef.2.2 = bval (g.eval true (!true)) := by
      revert hg; cases g <;> decide
    rw [notVal, at'_tab _ _ _ hi, ← hb true, key.1, key.2]
    ring
  · intro g hg hb st hst a ha
    obtain ⟨st', e, hs⟩ := gate2_val W L hd hck hst g a a ha ha
    refine ⟨st', ?_, hs⟩
    rw [e, gateVal, htv]
    congr 3
    unfold lin trivialCt
    apply tab_congr
    intro i hi
    have key : g.coef.1 = -g.coef.2.1 ∧ g.coef.2.2 = bval (g.eval true true) := by
      revert hg; cases g <;> decide
    rw [← hb true, key.1, key.2]
    ring

/-- **C98**, the exception: XOR of a ciphertext with itself depends on its noise. There is a ciphertext, with noise 1/16,
that decrypts to `false`, and its XOR with itself encrypts `true`. -/
theorem C98_xor {P : Params} (W : WellFormed P) (L : FourierLaws O) (hd : O.deg = P.trgswLv1.N)
    {D β κ : ℕ} {ck : CloudKey O} {s0 s1 : List Torus} (K : KeysOK P L D β κ ck s0 s1)
    (htv : ck.blindRotateTestvec = gateTestvec P) (h0 : P.tlweLv0.N ≤ s0.length) :
    ∃ (a : List Torus) (ea : Torus), Enc P.tlweLv0.N a s0 false ea ∧ nrm ea = 2 ^ 28 ∧
      tlwe0DecryptBool P a s0 = some false ∧
      ∀ (st : EvState O) (_ : EvGood P L st), ∃ st' out e, gateXOR P st a a ck = some (st', out) ∧
        Enc P.tlweLv0.N out s0 true e ∧ nrm e ≤ bootBound P D β κ (weight P.tlweLv0.N s0) (weight P.trgswLv1.N s1) := by
  have hE : Enc P.tlweLv0.N (trivialCt P.tlweLv0.N (-268435456#32)) s0 false (268435456#32) :=
    ⟨by simp [trivialCt], by rw [phase_trivialCt]; decide⟩
  have hn : nrm (268435456#32 : Torus) = 2 ^ 28 := by decide
  refine ⟨_, _, hE, hn, hE.decrypts h0 (by rw [hn]; norm_num), fun st hst => ?_⟩
  obtain ⟨st', e, -⟩ := gate2_val W L hd (ckGood L hd K htv) hst .xor _ _ hE.1 hE.1
  refine ⟨st', _, bootNoise P L ck s0 s1 (gateTestvec P) (trivialCt P.tlweLv0.N (268435456#32)), e, ?_,
    nrm_bootNoise W L hd K _ _⟩
  have hl : lin P.tlweLv0.N Gate2.xor.coef.1 Gate2.xor.coef.2.1 Gate2.xor.coef.2.2
      (trivialCt P.tlweLv0.N (-268435456#32)) (trivialCt P.tlweLv0.N (-268435456#32))
      = trivialCt P.tlweLv0.N (268435456#32) := by
    unfold lin trivialCt
    apply tab_congr
    intro i hi
    rw [at'_tab _ _ _ hi]
    split_ifs <;> decide
  unfold gateVal
  rw [hl, htv]
  refine ⟨length_bootPure _ _ _ _ _ _ _, boot_bool W L ck s0 s1 _ true (near_trivialCt W _ s0) ?_⟩
  have h := half_step_le W
  rw [phase_trivialCt, show (268435456#32 : Torus).toInt = 268435456 by decide]
  simp only [if_true]
  push_cast
  omega

/-- **C98** in `float64` arithmetic at every level, from key generation on. -/
theorem C98_float {fl : ℚ → ℚ} (hfl : IsRound fl) {fu : Fusing} {ce : ℚ → ℚ × ℚ} (hce : CexpAccurate ce (1 / 2 ^ 52))
    (level : SecurityLevel) {e : PolyEval ℚ}
    (he : newPolyEval (floatArith fl fu mathPi ce) ((paramsFor level).trgswLv1.N : ℤ) = some e) (k0 k1 : List Torus)
    (R : KeyGenRand) (h0 : (paramsFor level).tlweLv0.N ≤ k0.length) (h1 : k1.length = (paramsFor level).trgswLv1.N)
    (hb0 : IsBinary k0) (hb1 : IsBinary k1) (schedK schedB : List ℕ)
    (ck : CloudKey (fftOps (floatArith fl fu mathPi ce) e))
    (hck : newCloudKey (paramsFor level) _ k0 k1 R schedK schedB = some (true, ck))
    (tr0 : TRef → Trlwe) (lw0 : LRef → List Torus) (b : Bool) :
    ∃ st, newEvaluator (paramsFor level) (fftOps (floatArith fl fu mathPi ce) e) tr0 lw0 = some st ∧
      ∃ (out : List Torus) (ε : Torus), Enc (paramsFor level).tlweLv0.N out k0 b ε ∧
        (nrm ε < 2 ^ 29 → tlwe0DecryptBool (paramsFor level) out k0 = some b) ∧
        (∀ g : Gate2, g.opposite = true → (∀ x, g.eval x (!x) = b) → ∀ a : List Torus,
          a.length = (paramsFor level).tlweLv0.N + 1 → ∃ na st', gateNOT (paramsFor level) a = some na ∧
            gate2 (paramsFor level) g st a na ck = some (st', out)) ∧
        (∀ g : Gate2, g.mixed = true → (∀ x, g.eval x x = b) → ∀ a : List Torus,
          a.length = (paramsFor level).tlweLv0.N + 1 → ∃ st', gate2 (paramsFor level) g st a a ck = some (st', out)) := by
  obtain ⟨⟨L, -⟩, hd, K, htv⟩ := float_keys hfl hce level he k0 k1 R h0 h1 hb0 hb1
    (fun _ _ _ _ _ _ => nrm_le _) (fun _ _ _ _ _ _ => nrm_le _) schedK schedB ck hck
  have W := C63_wellFormed level
  obtain ⟨st, es, hst, -⟩ := newEvaluator_good W L hd tr0 lw0
  obtain ⟨out, ε, hE, -, hdec, h1, h2⟩ := C98_constant W L hd (K L) htv h0 b
  refine ⟨st, es, out, ε, hE, hdec, fun g hg hb a ha => ?_, fun g hg hb a ha => ?_⟩
  · obtain ⟨na, st', x, y, -⟩ := h1 g hg hb st hst a ha
    exact ⟨na, st', x, y⟩
  · obtain ⟨st', y, -⟩ := h2 g hg hb st hst a ha
    exact ⟨st', y⟩

/-- The hypotheses are met at 128 bits, and the noise is small enough: AND of anything with its negation decrypts to
`false`. -/
example : ∃ (ck : CloudKey (exactOps 1024)) (st : EvState (exactOps 1024)), ∀ a : List Torus, a.length = 701 →
    ∃ na st' out, gateNOT (paramsFor 128) a = some na ∧ gateAND (paramsFor 128) st a na ck = some (st', out) ∧
      tlwe0DecryptBool (paramsFor 128) out (unitKey 700) = some false := by
  have W := C63_wellFormed 128
  obtain ⟨ck, K, htv⟩ := exists_keysOK W (unitKey 700) (unitKey 1024) (by simp [unitKey]; rfl)
    (isBinary_unitKey _) (isBinary_unitKey _)
  obtain ⟨st, -, hst, -⟩ := newEvaluator_good W (exL W) rfl (fun _ => ⟨[], []⟩) (fun _ => [])
  have w0 : weight (paramsFor 128).tlweLv0.N (unitKey 700) = 1 := weight_unitKey 700 (by norm_num)
  have w1 : weight (paramsFor 128).trgswLv1.N (unitKey 1024) = 1 := weight_unitKey 1024 (by norm_num)
  have hB : bootBound (paramsFor 128) 0 1 0 (weight (paramsFor 128).tlweLv0.N (unitKey 700))
      (weight (paramsFor 128).trgswLv1.N (unitKey 1024)) ≤ 150000000 := by
    rw [w0, w1]
    show (1 + 1) * (1 + 1 * (1 + 2 ^ (32 - 3 * 6))) + 700 * (2 * 3 * 1024 * 2 ^ (6 - 1) * 1 + 0 * (1 + 1)) + 1
      + (1 * 2 ^ (31 - 2 * 9) + 1024 * (9 * 0)) ≤ 150000000
    norm_num
  have h0 : (paramsFor 128).tlweLv0.N ≤ (unitKey 700).length := show 700 ≤ (unitKey 700).length by simp [unitKey]
  obtain ⟨out, ε, -, hn, hdec, h1, -⟩ := C98_constant W (exL W) rfl K htv h0 false
  refine ⟨ck, st, fun a ha => ?_⟩
  obtain ⟨na, st', x, y, -⟩ := h1 .and rfl (by decide) st hst a ha
  exact ⟨na, st', out, x, y, hdec (by omega)⟩

end GoTfhe
