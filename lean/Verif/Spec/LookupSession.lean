import Verif.Spec.Session
import Verif.Model.PbsMain

/-!
# Several table look-ups under one key

Key generation, any number of encryptions of messages modulo 2, then any sequence of programmable bootstrappings on these
ciphertexts with one evaluator, each result decrypted.
-/

namespace GoTfhe

variable {O : FourierOps}

/-- The look-ups, one after the other, with the function and the place of the input in the list of ciphertexts. -/
def sessionLookups (fl : ℚ → ℚ) (P : Params) (ck : CloudKey O) (keyLv0 : List Torus) (cts : List (List Torus)) :
    EvState O → List ((ℤ → Option ℤ) × ℕ) → Option (List ℤ)
  | _, [] => some []
  | st, (f, i) :: jobs => do
    let ct ← rd cts i
    let (st, result) ← bootstrapFunc fl P (st.setLw (.user 0) ct) (.user 0) f 2 ck.bootstrappingKey
      ck.keySwitchingKey ck.decompositionOffset
    let output ← decryptLWEMessage P result 2 keyLv0
    let out ← sessionLookups fl P ck keyLv0 cts st jobs
    pure (output :: out)

/-- Key generation, the encryptions of the messages `x` and the look-ups `jobs`. `y` are the Gaussian draws of the cloud key,
`u` those of the encryptions. -/
def lookupRun (fl : ℚ → ℚ) (P : Params) (O : FourierOps) (R : KeyGenRand) (tr0 : TRef → Trlwe) (lw0 : LRef → List Torus)
    (schedK schedB : List ℕ) {M : ℕ} (x : Fin M → ℤ) (jobs : List ((ℤ → Option ℤ) × ℕ)) (y : DrawIx → ℚ) (u : Fin M → ℚ)
    (z : SessionDice P M) : Option (List ℤ) := do
  let sk ← newSecretKey P (keyCoins z.coins0) (keyCoins z.coins1)
  let (_, ck) ← newCloudKey P O sk.keyLv0 sk.keyLv1 ((R.withEntryMasks z.bsk).withDraws y) schedK schedB
  let st ← newEvaluator P O tr0 lw0
  let cts ← (List.finRange M).mapM fun i => encryptLWEMessage fl P (newTLWELv0 P) (x i) 2 sk.keyLv0 (z.masks i).draw (u i)
  sessionLookups fl P ck sk.keyLv0 cts st jobs

/-- The value of a function on a message modulo 2, modulo 2. -/
def applyBit (f : ℤ → Option ℤ) (x : ℤ) : ℤ := (f (x % 2)).getD 0 % 2

/-- The number of an encryption of `programmable_bootstrap`: two in each of the first four demos, five in the fifth, four in
the last. -/
def demoIx (d i : ℕ) : Fin 17 := Fin.ofNat 17 (if d < 5 then 2 * d + i else 13 + i)

end GoTfhe
