import Verif.Props.Circuits
import Verif.Props.FftFloat

/-!
# C67: the library with its own floating-point transform

The theorems on gates and circuits hold for every lawful Fourier backend. Here the backend is the transform of
`/repo/poly` in rounded arithmetic, and the statements run from key generation to decryption without any
hypothesis on the backend.
-/

namespace GoTfhe

/-- Largest error of an external product caused by the floating-point transform, in units of `2^-32`, by parameter
set: 80, 110 and 128 bits, Uint1, Uint2, Uint3, and Uint4 to Uint8. -/
def fftErr (P : Params) : ℕ :=
  if P.trgswLv1.BGBIT = 6 then 29
  else if P.trgswLv1.BGBIT = 10 then 304
  else if P.trgswLv1.BGBIT = 18 then 17216
  else if P.trgswLv1.BGBIT = 23 then 1236992
  else 1372160

/-! ### The accuracy of a backend does not depend on how its laws are presented -/

namespace FourierLaws

variable {O : FourierOps} (L L' : FourierLaws O)

theorem Z_unique : L.Z = L'.Z := Option.some.inj (L.newF_eq.symm.trans L'.newF_eq)

theorem T_unique (p : List Torus) (hp : p.length = O.deg) : L.T p = L'.T p :=
  Option.some.inj ((L.toFourier_eq p L.Z hp L.ok_Z).symm.trans (L'.toFourier_eq p L.Z hp (L.Z_unique L' ▸ L'.ok_Z)))

theorem R_unique (f : O.F) (h : L.ok f) (h' : L'.ok f) : L.R f = L'.R f := by
  obtain ⟨f1, e1, -⟩ := L.toPoly_eq f (mkSlice O.deg 0) h (by simp)
  obtain ⟨f2, e2, -⟩ := L'.toPoly_eq f (mkSlice O.deg 0) h' (by simp)
  have := e1.symm.trans e2
  simp only [Option.some.injEq, Prod.mk.injEq] at this
  exact this.2

theorem accum_unique (l : List (List Torus × List Torus)) (hl : ∀ p ∈ l, p.1.length = O.deg ∧ p.2.length = O.deg) :
    L.accum l = L'.accum l ∧ L.ok (L.accum l) ∧ L'.ok (L'.accum l) := by
  induction l using List.reverseRecOn with
  | nil => exact ⟨L.Z_unique L', L.ok_Z, L'.ok_Z⟩
  | append_singleton l q ih =>
    obtain ⟨e, o, o'⟩ := ih fun p hp => hl p (List.mem_append_left _ hp)
    obtain ⟨h1, h2⟩ := hl q (by simp)
    have a1 : L.accum (l ++ [q]) = L.MulAdd (L.T q.1) (L.T q.2) (L.accum l) := by simp [accum]
    have a2 : L'.accum (l ++ [q]) = L'.MulAdd (L'.T q.1) (L'.T q.2) (L'.accum l) := by simp [accum]
    have m1 := L.mulAdd_eq _ _ _ (L.ok_T _ h1) (L.ok_T _ h2) o
    have m2 := L'.mulAdd_eq _ _ _ (L'.ok_T _ h1) (L'.ok_T _ h2) o'
    rw [a1, a2]
    refine ⟨?_, L.ok_MulAdd _ _ _ (L.ok_T _ h1) (L.ok_T _ h2) o, L'.ok_MulAdd _ _ _ (L'.ok_T _ h1) (L'.ok_T _ h2) o'⟩
    rw [L.T_unique L' _ h1, L.T_unique L' _ h2, e] at m1 ⊢
    exact Option.some.inj (m1.symm.trans m2)

theorem Accurate.unique {L : FourierLaws O} {cnt bnd D : ℕ} (h : L.Accurate cnt bnd D) (L' : FourierLaws O) :
    L'.Accurate cnt bnd D := by
  intro l hl hb k hk
  obtain ⟨e, o, o'⟩ := L.accum_unique L' l fun p hp => ⟨(hb p hp).1, (hb p hp).2.1⟩
  have := h l hl hb k hk
  rwa [L.R_unique L' _ o (e ▸ o'), e] at this

theorem MulAccurate.unique {L : FourierLaws O} {bnd D : ℕ} (h : L.MulAccurate bnd D) (L' : FourierLaws O) :
    L'.MulAccurate bnd D := by
  intro a b ha hb hn k hk
  have := h a b ha hb hn k hk
  have oa := L.ok_T a ha
  have ob := L.ok_T b hb
  have oa' := L'.ok_T a ha
  have ob' := L'.ok_T b hb
  have m1 := L.mulInto_eq _ _ oa ob
  have m2 := L'.mulInto_eq _ _ oa' ob'
  have o1 := L.ok_Mul _ _ oa ob
  have o2 := L'.ok_Mul _ _ oa' ob'
  have e : L.Mul (L.T a) (L.T b) = L'.Mul (L'.T a) (L'.T b) := by
    rw [L.T_unique L' a ha, L.T_unique L' b hb] at m1 ⊢
    exact Option.some.inj (m1.symm.trans m2)
  rwa [L.R_unique L' _ o1 (e ▸ o2), e] at this

end FourierLaws

section

variable {fl : ℚ → ℚ} (hfl : IsRound fl) {fu : Fusing} {ce : ℚ → ℚ × ℚ} (hce : CexpAccurate ce (1 / 2 ^ 52))

include hfl hce

/-- **C67**, the error of the transform at every level: an external product is off by at most `fftErr`, a product with
a binary key is exact. -/
theorem C67_errors (level : SecurityLevel) {e : PolyEval ℚ}
    (he : newPolyEval (floatArith fl fu mathPi ce) ((paramsFor level).trgswLv1.N : ℤ) = some e) :
    (∃ _ : FourierLaws (fftOps (floatArith fl fu mathPi ce) e), True) ∧
    (fftOps (floatArith fl fu mathPi ce) e).deg = (paramsFor level).trgswLv1.N ∧
    ∀ L : FourierLaws (fftOps (floatArith fl fu mathPi ce) e),
      L.Accurate ((paramsFor level).trgswLv1.L * 2) (2 ^ ((paramsFor level).trgswLv1.BGBIT - 1))
        (fftErr (paramsFor level)) ∧
      L.MulAccurate 1 0 := by
  obtain ⟨k, hk, hN, rfl⟩ := (newPolyEval_some _ _ e).1 he
  have hN' : (paramsFor level).trgswLv1.N = 2 ^ (k + 1) := by exact_mod_cast hN
  refine ⟨⟨fftLaws (floatArith fl fu mathPi ce) k hk, trivial⟩, ?_, ?_⟩
  · rw [hN']; rfl
  clear he hN
  have kk : ∀ n, 2 ^ (k + 1) = 2 ^ (n + 1) → k = n := fun n h => by
    have := Nat.pow_right_injective (le_refl 2) h
    omega
  have key : (∃ L : FourierLaws (fftOps (floatArith fl fu mathPi ce) (pev (floatArith fl fu mathPi ce) k)),
      L.Accurate ((paramsFor level).trgswLv1.L * 2) (2 ^ ((paramsFor level).trgswLv1.BGBIT - 1))
        (fftErr (paramsFor level)) ∧ L.MulAccurate 1 0) := by
    refine ⟨fftLaws (floatArith fl fu mathPi ce) k hk, ?_⟩
    rcases paramsFor_cases level with ⟨-, h⟩ | ⟨-, h⟩ | ⟨-, h⟩ | ⟨-, h⟩ | ⟨-, h⟩ | ⟨-, h⟩ | ⟨-, h⟩ |
      ⟨-, h⟩ | ⟨-, h⟩ | ⟨-, h⟩ | ⟨-, h⟩ <;> rw [h] at hN' ⊢
    all_goals
      first
        | obtain rfl : k = 8 := kk 8 (hN'.symm.trans rfl)
        | obtain rfl : k = 9 := kk 9 (hN'.symm.trans rfl)
        | obtain rfl : k = 10 := kk 10 (hN'.symm.trans rfl)
    all_goals
      refine ⟨?_, ?_⟩
      · apply C21_accurate hfl hce _ hk (by norm_num) _ _ _ (by decide)
        norm_num [fftErr, params80Bit, params110Bit, params128Bit, paramsUint1, paramsUint2, paramsUint3, paramsUint4,
          paramsUint5, paramsUint6, paramsUint7, paramsUint8]
      · exact C21_backend_binary hfl hce _ hk (by norm_num)
  obtain ⟨L0, h1, h2⟩ := key
  exact fun L => ⟨h1.unique L, h2.unique L⟩

/-- Cloud keys generated with the floating-point transform are correct. -/
theorem float_keys (level : SecurityLevel) {e : PolyEval ℚ}
    (he : newPolyEval (floatArith fl fu mathPi ce) ((paramsFor level).trgswLv1.N : ℤ) = some e)
    (k0 k1 : List Torus) (R : KeyGenRand)
    (h0 : (paramsFor level).tlweLv0.N ≤ k0.length) (h1 : k1.length = (paramsFor level).trgswLv1.N)
    (hb0 : IsBinary k0) (hb1 : IsBinary k1) {β κ : ℕ}
    (hβ : ∀ i < (paramsFor level).tlweLv0.N, ∀ j < 2 * (paramsFor level).trgswLv1.L,
      ∀ k < (paramsFor level).trgswLv1.N, nrm (f64ToTorus (R.bskSample i j k)) ≤ β)
    (hκ : ∀ i < (paramsFor level).trgswLv1.N, ∀ j < (paramsFor level).trgswLv1.IKS_T,
      ∀ k < 2 ^ (paramsFor level).trgswLv1.BASEBIT, nrm (f64ToTorus (R.kskSample i j k)) ≤ κ)
    (schedK schedB : List ℕ) (ck : CloudKey (fftOps (floatArith fl fu mathPi ce) e))
    (hck : newCloudKey (paramsFor level) _ k0 k1 R schedK schedB = some (true, ck)) :
    (∃ _ : FourierLaws (fftOps (floatArith fl fu mathPi ce) e), True) ∧
      (fftOps (floatArith fl fu mathPi ce) e).deg = (paramsFor level).trgswLv1.N ∧
      (∀ L : FourierLaws (fftOps (floatArith fl fu mathPi ce) e),
        KeysOK (paramsFor level) L (fftErr (paramsFor level)) β κ ck k0 k1) ∧
      ck.blindRotateTestvec = gateTestvec (paramsFor level) := by
  obtain ⟨⟨L, -⟩, hd, hacc⟩ := C67_errors hfl hce level he
  have key := fun L : FourierLaws (fftOps (floatArith fl fu mathPi ce) e) =>
    keysOK_of_newCloudKey (C63_wellFormed level) L hd (hacc L).1 (hacc L).2 k0 k1 R h0 h1 hb0 hb1 hβ hκ schedK schedB ck
      hck
  exact ⟨⟨L, trivial⟩, hd, fun L => (key L).1, (key L).2⟩

/-- **C67**, one gate: generate the keys under any schedules, create the evaluator, encrypt two bits, apply a gate,
decrypt; everything in `float64` arithmetic. -/
theorem C67_gate (level : SecurityLevel) {e : PolyEval ℚ}
    (he : newPolyEval (floatArith fl fu mathPi ce) ((paramsFor level).trgswLv1.N : ℤ) = some e) (k0 k1 : List Torus) (R : KeyGenRand)
    (h0 : (paramsFor level).tlweLv0.N ≤ k0.length) (h1 : k1.length = (paramsFor level).trgswLv1.N)
    (hb0 : IsBinary k0) (hb1 : IsBinary k1) {β κ : ℕ}
    (hβ : ∀ i < (paramsFor level).tlweLv0.N, ∀ j < 2 * (paramsFor level).trgswLv1.L,
      ∀ k < (paramsFor level).trgswLv1.N, nrm (f64ToTorus (R.bskSample i j k)) ≤ β)
    (hκ : ∀ i < (paramsFor level).trgswLv1.N, ∀ j < (paramsFor level).trgswLv1.IKS_T,
      ∀ k < 2 ^ (paramsFor level).trgswLv1.BASEBIT, nrm (f64ToTorus (R.kskSample i j k)) ≤ κ)
    (schedK schedB : List ℕ) (ck : CloudKey (fftOps (floatArith fl fu mathPi ce) e))
    (hck : newCloudKey (paramsFor level) _ k0 k1 R schedK schedB = some (true, ck))
    (g : Gate2) (x y : Bool) (dx dy : ℕ → Torus) (sx sy : ℚ)
    (hm : nrm (f64ToTorus sx) + g.mult * nrm (f64ToTorus sy)
      + drift (paramsFor level) (weight (paramsFor level).tlweLv0.N k0) < 2 ^ 29)
    (hB : bootBound (paramsFor level) (fftErr (paramsFor level)) β κ (weight (paramsFor level).tlweLv0.N k0)
      (weight (paramsFor level).trgswLv1.N k1) < 2 ^ 29)
    (tr0 : TRef → Trlwe) (lw0 : LRef → List Torus) :
    ∃ st a b st' out, newEvaluator (paramsFor level) (fftOps (floatArith fl fu mathPi ce) e) tr0 lw0 = some st ∧
      tlwe0EncryptBool (paramsFor level) (newTLWELv0 (paramsFor level)) x k0 dx sx = some a ∧
      tlwe0EncryptBool (paramsFor level) (newTLWELv0 (paramsFor level)) y k0 dy sy = some b ∧
      gate2 (paramsFor level) g st a b ck = some (st', out) ∧
      tlwe0DecryptBool (paramsFor level) out k0 = some (g.eval x y) := by
  obtain ⟨⟨L, -⟩, hd, K, htv⟩ := float_keys hfl hce level he k0 k1 R h0 h1 hb0 hb1 hβ hκ schedK schedB ck hck
  have K := K L
  obtain ⟨st, es, hst, -⟩ := newEvaluator_good (C63_wellFormed level) L hd tr0 lw0
  obtain ⟨a, ea, ha⟩ := enc_of_encryptBool (paramsFor level) (newTLWELv0 (paramsFor level)) k0 x dx sx h0 (by simp [newTLWELv0])
  obtain ⟨b, eb, hb⟩ := enc_of_encryptBool (paramsFor level) (newTLWELv0 (paramsFor level)) k0 y dy sy h0 (by simp [newTLWELv0])
  obtain ⟨st', out, e, -, hdec⟩ := C43_gate_worst_case (C63_wellFormed level) L hd K htv h0 hB st hst g a b x y _ _ ha
    hb hm
  exact ⟨st, a, b, st', out, es, ea, eb, e, hdec⟩

omit hfl hce in
/-- Fresh encryptions of a list of bits. -/
theorem encAll_of_encrypt (P : Params) (k0 : List Torus) (h0 : P.tlweLv0.N ≤ k0.length) {η : ℕ}
    (inputs : List (Bool × (ℕ → Torus) × ℚ)) (hin : ∀ x ∈ inputs, nrm (f64ToTorus x.2.2) ≤ η) :
    ∃ ws, (inputs.mapM fun x => tlwe0EncryptBool P (newTLWELv0 P) x.1 k0 x.2.1 x.2.2) = some ws ∧
      EncAll P.tlweLv0.N k0 η ws (inputs.map Prod.fst) := by
  induction inputs with
  | nil => exact ⟨[], rfl, List.Forall₂.nil⟩
  | cons x xs ih =>
    obtain ⟨ws, h, hE⟩ := ih fun y hy => hin y (List.mem_cons_of_mem _ hy)
    obtain ⟨a, ea, ha⟩ := enc_of_encryptBool P (newTLWELv0 P) k0 x.1 x.2.1 x.2.2 h0 (by simp [newTLWELv0])
    refine ⟨a :: ws, ?_, List.Forall₂.cons ⟨_, ha, hin x List.mem_cons_self⟩ hE⟩
    rw [List.mapM_cons, ea, h]; rfl

omit hfl hce in
theorem mapM_decrypt {P : Params} {k0 : List Torus} {ws : List (List Torus)} {bs : List Bool}
    (h : List.Forall₂ (fun w b => tlwe0DecryptBool P w k0 = some b) ws bs) :
    (ws.mapM fun w => tlwe0DecryptBool P w k0) = some bs := by
  induction h with
  | nil => rfl
  | cons h _ ih => rw [List.mapM_cons, h, ih]; rfl

/-- **C67**, circuits of any size: generate the keys under any schedules, create the evaluator, encrypt any list of
bits, run any circuit, decrypt all wires; everything in `float64` arithmetic. Whatever the randomness, if the
worst-case noise fits the margin then every wire decrypts to its Boolean value. -/
theorem C67_circuit_worst_case (level : SecurityLevel) {e : PolyEval ℚ}
    (he : newPolyEval (floatArith fl fu mathPi ce) ((paramsFor level).trgswLv1.N : ℤ) = some e) (k0 k1 : List Torus) (R : KeyGenRand)
    (h0 : (paramsFor level).tlweLv0.N ≤ k0.length) (h1 : k1.length = (paramsFor level).trgswLv1.N)
    (hb0 : IsBinary k0) (hb1 : IsBinary k1) {β κ η : ℕ}
    (hβ : ∀ i < (paramsFor level).tlweLv0.N, ∀ j < 2 * (paramsFor level).trgswLv1.L,
      ∀ k < (paramsFor level).trgswLv1.N, nrm (f64ToTorus (R.bskSample i j k)) ≤ β)
    (hκ : ∀ i < (paramsFor level).trgswLv1.N, ∀ j < (paramsFor level).trgswLv1.IKS_T,
      ∀ k < 2 ^ (paramsFor level).trgswLv1.BASEBIT, nrm (f64ToTorus (R.kskSample i j k)) ≤ κ)
    (schedK schedB : List ℕ) (ck : CloudKey (fftOps (floatArith fl fu mathPi ce) e))
    (hck : newCloudKey (paramsFor level) _ k0 k1 R schedK schedB = some (true, ck))
    (hB : bootBound (paramsFor level) (fftErr (paramsFor level)) β κ (weight (paramsFor level).tlweLv0.N k0)
      (weight (paramsFor level).trgswLv1.N k1) ≤ η)
    (hη : 3 * η + drift (paramsFor level) (weight (paramsFor level).tlweLv0.N k0) < 2 ^ 29)
    (inputs : List (Bool × (ℕ → Torus) × ℚ)) (hin : ∀ x ∈ inputs, nrm (f64ToTorus x.2.2) ≤ η)
    (prog : List Instr) (bs : List Bool) (hbs : evalCircuit (inputs.map Prod.fst) prog = some bs)
    (tr0 : TRef → Trlwe) (lw0 : LRef → List Torus) :
    ∃ st ws st' ws', newEvaluator (paramsFor level) (fftOps (floatArith fl fu mathPi ce) e) tr0 lw0 = some st ∧
      (inputs.mapM fun x =>
        tlwe0EncryptBool (paramsFor level) (newTLWELv0 (paramsFor level)) x.1 k0 x.2.1 x.2.2) = some ws ∧
      runCircuit (paramsFor level) ck st ws prog = some (st', ws') ∧
      (ws'.mapM fun w => tlwe0DecryptBool (paramsFor level) w k0) = some bs := by
  obtain ⟨⟨L, -⟩, hd, K, htv⟩ := float_keys hfl hce level he k0 k1 R h0 h1 hb0 hb1 hβ hκ schedK schedB ck hck
  have K := K L
  obtain ⟨st, es, hst, -⟩ := newEvaluator_good (C63_wellFormed level) L hd tr0 lw0
  have hη1 : 1 ≤ η := by
    refine le_trans ?_ hB
    unfold bootBound rotBound
    have : 1 ≤ (1 + weight (paramsFor level).trgswLv1.N k1) * (1 + weight (paramsFor level).tlweLv0.N k0
        * (1 + 2 ^ (32 - (paramsFor level).trgswLv1.L * (paramsFor level).trgswLv1.BGBIT))) :=
      Nat.one_le_iff_ne_zero.2 (Nat.mul_ne_zero (by omega) (by omega))
    exact le_trans this (le_trans (le_trans (Nat.le_add_right _ _) (Nat.le_add_right _ _)) (Nat.le_add_right _ _))
  obtain ⟨ws, hws, hE⟩ := encAll_of_encrypt (paramsFor level) k0 h0 inputs hin
  obtain ⟨st', ws', hr, -, -, hdec⟩ := C46_circuit_worst_case (C63_wellFormed level) L hd K htv h0 hη1 hB hη prog st hst
    ws _ bs hE hbs
  exact ⟨st, ws, st', ws', es, hws, hr, mapM_decrypt hdec⟩

/-- **C67**, circuits of any size, with the noise each bootstrapping really has: no assumption on the size of the keys'
noise or on the weight of the keys beyond the rounding drift. `RunNoise` bounds, for this very run, the difference
between the phase of each bootstrapped ciphertext and the table value selected by the rounded phase; that difference
includes every error of the floating-point transform. -/
theorem C67_circuit (level : SecurityLevel) {e : PolyEval ℚ}
    (he : newPolyEval (floatArith fl fu mathPi ce) ((paramsFor level).trgswLv1.N : ℤ) = some e) (k0 k1 : List Torus) (R : KeyGenRand)
    (h0 : (paramsFor level).tlweLv0.N ≤ k0.length) (h1 : k1.length = (paramsFor level).trgswLv1.N)
    (hb0 : IsBinary k0) (hb1 : IsBinary k1) {η : ℕ}
    (schedK schedB : List ℕ) (ck : CloudKey (fftOps (floatArith fl fu mathPi ce) e))
    (hck : newCloudKey (paramsFor level) _ k0 k1 R schedK schedB = some (true, ck)) (hη1 : 1 ≤ η)
    (hη : 3 * η + drift (paramsFor level) (weight (paramsFor level).tlweLv0.N k0) < 2 ^ 29)
    (inputs : List (Bool × (ℕ → Torus) × ℚ)) (hin : ∀ x ∈ inputs, nrm (f64ToTorus x.2.2) ≤ η)
    (tr0 : TRef → Trlwe) (lw0 : LRef → List Torus) :
    ∃ st ws,
      newEvaluator (paramsFor level) (fftOps (floatArith fl fu mathPi ce) e) tr0 lw0 = some st ∧
      (inputs.mapM fun x =>
        tlwe0EncryptBool (paramsFor level) (newTLWELv0 (paramsFor level)) x.1 k0 x.2.1 x.2.2) = some ws ∧
      ∀ (L : FourierLaws (fftOps (floatArith fl fu mathPi ce) e)) (prog : List Instr) (bs : List Bool),
        evalCircuit (inputs.map Prod.fst) prog = some bs →
        RunNoise (paramsFor level) L ck k0 k1 η st ws prog →
        ∃ st' ws', runCircuit (paramsFor level) ck st ws prog = some (st', ws') ∧
          (ws'.mapM fun w => tlwe0DecryptBool (paramsFor level) w k0) = some bs := by
  obtain ⟨⟨L, -⟩, hd, K, htv⟩ := float_keys hfl hce level he k0 k1 R h0 h1 hb0 hb1
    (fun _ _ _ _ _ _ => nrm_le _) (fun _ _ _ _ _ _ => nrm_le _) schedK schedB ck hck
  obtain ⟨st, es, -⟩ := newEvaluator_good (C63_wellFormed level) L hd tr0 lw0
  obtain ⟨ws, hws, hE⟩ := encAll_of_encrypt (paramsFor level) k0 h0 inputs hin
  refine ⟨st, ws, es, hws, fun L' prog bs hbs hn => ?_⟩
  obtain ⟨st2, es2, hst, -⟩ := newEvaluator_good (C63_wellFormed level) L' hd tr0 lw0
  obtain rfl := Option.some.inj (es.symm.trans es2)
  obtain ⟨st', ws', hr, -, -, hdec⟩ := C46_circuit (C63_wellFormed level) L' hd (K L') htv h0 hη1 hη prog st hst
    ws _ bs hE hbs hn
  exact ⟨st', ws', hr, mapM_decrypt hdec⟩

omit hfl hce in
/-- A finished key generation exists for all keys and all randomness: every schedule can be continued to one. -/
theorem exists_float_cloudKey (level : SecurityLevel) {e : PolyEval ℚ}
    (he : newPolyEval (floatArith fl fu mathPi ce) ((paramsFor level).trgswLv1.N : ℤ) = some e) (k0 k1 : List Torus) (R : KeyGenRand)
    (h0 : (paramsFor level).tlweLv0.N ≤ k0.length) (h1 : k1.length = (paramsFor level).trgswLv1.N)
    (hb1 : IsBinary k1) :
    ∃ schedK schedB ck,
      newCloudKey (paramsFor level) (fftOps (floatArith fl fu mathPi ce) e) k0 k1 R schedK schedB = some (true, ck) := by
  obtain ⟨k, hk, hN, rfl⟩ := (newPolyEval_some _ _ e).1 he
  have hd : (fftOps (floatArith fl fu mathPi ce) (pev (floatArith fl fu mathPi ce) k)).deg
      = (paramsFor level).trgswLv1.N := by
    have : (paramsFor level).trgswLv1.N = 2 ^ (k + 1) := by exact_mod_cast hN
    rw [this]; rfl
  have W := C63_wellFormed level
  obtain ⟨mk, tk, rk, ek, dk⟩ := C36_keySwitchingKey_progress W k0 k1 R h0 h1.ge hb1 []
  obtain ⟨mb, tb, rb, eb, db⟩ := C36_bootstrappingKey_progress W (fftLaws (floatArith fl fu mathPi ce) k hk) hd k0 k1 R h0 h1
    []
  refine ⟨[] ++ mk, [] ++ mb, ⟨gadgetOffset (paramsFor level).trgswLv1.BGBIT (paramsFor level).trgswLv1.L,
    gateTestvec (paramsFor level), rk, rb⟩, ?_⟩
  unfold newCloudKey
  rw [genDecompositionOffset_eq _ W.bg W.bgbit_pos W.gadget_fits, genTestvec_eq W, ek, eb]
  simp only [Option.bind_eq_bind, Option.bind_some, Option.pure_def, dk, db, Bool.and_self, gateTestvec]

end

/-- Non-vacuity of C67: with the nearest-even rounding of `float64`, at 128 bits, unit keys and noise one in every
sample of the bootstrapping key, all hypotheses hold at once with `η = 150000000`. -/
example (fu : Fusing) : ∃ (fl : ℚ → ℚ) (ce : ℚ → ℚ × ℚ) (e : PolyEval ℚ) (R : KeyGenRand) (schedK schedB : List ℕ)
    (ck : CloudKey (fftOps (floatArith fl fu mathPi ce) e)),
    IsRound fl ∧ CexpAccurate ce (1 / 2 ^ 52) ∧ newPolyEval (floatArith fl fu mathPi ce) 1024 = some e ∧
    newCloudKey (paramsFor 128) _ (unitKey 700) (unitKey 1024) R schedK schedB = some (true, ck) ∧
    (∀ i j k, nrm (f64ToTorus (R.bskSample i j k)) = 1) ∧ (∀ i j k, nrm (f64ToTorus (R.kskSample i j k)) = 0) ∧
    bootBound (paramsFor 128) (fftErr (paramsFor 128)) 1 0 (weight 700 (unitKey 700)) (weight 1024 (unitKey 1024)) ≤ 150000000 ∧
    3 * 150000000 + drift (paramsFor 128) (weight 700 (unitKey 700)) < 2 ^ 29 := by
  obtain ⟨ce, hce⟩ := exists_cexp (1 / 2 ^ 52) (by norm_num)
  have he : newPolyEval (floatArith rne fu mathPi ce) 1024 = some (pev (floatArith rne fu mathPi ce) 9) :=
    (newPolyEval_some _ 1024 _).2 ⟨9, by norm_num, by norm_num, rfl⟩
  let R : KeyGenRand := ⟨fun i j k l => BitVec.ofNat 32 (i + 7 * j + 31 * k + 97 * l), fun _ _ _ => 0,
    fun i j k => BitVec.ofNat 32 (5 * i + 77 * j + 1001 * k), fun _ _ _ => 1 / 2 ^ 32⟩
  obtain ⟨sK, sB, ck, hck⟩ := exists_float_cloudKey 128 he (unitKey 700)
    (unitKey 1024) R (show 700 ≤ (unitKey 700).length by simp [unitKey]) (show (unitKey 1024).length = 1024 by
      simp [unitKey]) (isBinary_unitKey _)
  refine ⟨rne, ce, _, R, sK, sB, ck, isRound_rne, hce, he, hck, ?_, ?_, ?_, ?_⟩
  · intro i j k
    show nrm (f64ToTorus (1 / 2 ^ 32)) = 1
    have := f64ToTorus_int_div 1 (by norm_num) (by norm_num)
    rw [show ((1 : ℚ) / 2 ^ 32) = ((1 : ℤ) : ℚ) / 2 ^ 32 by norm_num, this]
    rfl
  · intro i j k
    show nrm (f64ToTorus 0) = 0
    have := f64ToTorus_int_div 0 (by norm_num) (by norm_num)
    rw [show (0 : ℚ) = ((0 : ℤ) : ℚ) / 2 ^ 32 by norm_num, this]
    rfl
  · rw [weight_unitKey 700 (by norm_num), weight_unitKey 1024 (by norm_num)]
    show (1 + 1) * (1 + 1 * (1 + 2 ^ (32 - 3 * 6))) + 700 * (2 * 3 * 1024 * 2 ^ (6 - 1) * 1 + 29 * (1 + 1)) + 1
      + (1 * 2 ^ (31 - 2 * 9) + 1024 * (9 * 0)) ≤ 150000000
    norm_num
  · rw [weight_unitKey 700 (by norm_num)]
    show 3 * 150000000 + (1 + 1) * 2 ^ (30 - 10) < 2 ^ 29
    norm_num

end GoTfhe
