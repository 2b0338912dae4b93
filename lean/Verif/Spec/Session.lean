import Verif.Spec.GateRun
import Verif.Model.SimpleGates

/-!
# Several gates under one key

Key generation, any number of encryptions, then any sequence of gates on these ciphertexts with one evaluator, each result
decrypted.
-/

namespace GoTfhe

variable {O : FourierOps}

/-- The uniform random numbers of the run, with `M` encryptions. -/
structure SessionDice (P : Params) (M : ℕ) where
  /-- The coins of `key.NewSecretKey`, level 0. -/
  coins0 : Fin P.tlweLv0.N → Bool
  /-- The coins of `key.NewSecretKey`, level 1. -/
  coins1 : Fin P.trgswLv1.N → Bool
  /-- The masks of the bootstrapping key. -/
  bsk : KeyMasks P
  /-- The masks of the ciphertexts. -/
  masks : Fin M → Mask P.tlweLv0.N

/-- A dice throw as a tuple. -/
def SessionDice.equiv (P : Params) (M : ℕ) : SessionDice P M ≃
    ((Fin P.tlweLv0.N → Bool) × (Fin P.trgswLv1.N → Bool)) × KeyMasks P × (Fin M → Mask P.tlweLv0.N) where
  toFun x := ((x.coins0, x.coins1), x.bsk, x.masks)
  invFun t := ⟨t.1.1, t.1.2, t.2.1, t.2.2⟩
  left_inv _ := rfl
  right_inv _ := rfl

noncomputable instance (P : Params) (M : ℕ) : Fintype (SessionDice P M) :=
  open Classical in Fintype.ofEquiv _ (SessionDice.equiv P M).symm

instance (P : Params) (M : ℕ) : Nonempty (SessionDice P M) :=
  ⟨⟨fun _ => false, fun _ => false, fun _ _ _ => 0, fun _ _ => 0⟩⟩

instance (P : Params) (M : ℕ) : MeasurableSpace (SessionDice P M) := ⊤

instance (P : Params) (M : ℕ) : MeasurableSingletonClass (SessionDice P M) := ⟨fun _ => trivial⟩

/-- The gates, one after the other, with the places of their inputs in the list of ciphertexts. -/
def sessionGates (P : Params) (ck : CloudKey O) (keyLv0 : List Torus) (cts : List (List Torus)) :
    EvState O → List (Gate2 × ℕ × ℕ) → Option (List Bool)
  | _, [] => some []
  | st, (g, i, j) :: jobs => do
    let a ← rd cts i
    let b ← rd cts j
    let (st, result) ← gate2 P g st a b ck
    let decrypted ← tlwe0DecryptBool P result keyLv0
    let out ← sessionGates P ck keyLv0 cts st jobs
    pure (decrypted :: out)

/-- Key generation, the encryptions of the bits `x` and the gates `jobs`. `y` are the Gaussian draws of the cloud key, `u`
those of the encryptions. -/
def sessionRun (P : Params) (O : FourierOps) (R : KeyGenRand) (tr0 : TRef → Trlwe) (lw0 : LRef → List Torus)
    (schedK schedB : List ℕ) {M : ℕ} (x : Fin M → Bool) (jobs : List (Gate2 × ℕ × ℕ)) (y : DrawIx → ℚ) (u : Fin M → ℚ)
    (z : SessionDice P M) : Option (List Bool) := do
  let st ← newEvaluator P O tr0 lw0
  let sk ← newSecretKey P (keyCoins z.coins0) (keyCoins z.coins1)
  let (_, ck) ← newCloudKey P O sk.keyLv0 sk.keyLv1 ((R.withEntryMasks z.bsk).withDraws y) schedK schedB
  let cts ← (List.finRange M).mapM fun i => tlwe0EncryptBool P (newTLWELv0 P) (x i) sk.keyLv0 (z.masks i).draw (u i)
  sessionGates P ck sk.keyLv0 cts st jobs

end GoTfhe
