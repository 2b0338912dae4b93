import Verif.Spec.KeyMasks
import Verif.Spec.Mask
import Verif.Spec.Game
import Verif.Model.Gates
import Verif.Lemmas.FinTorus
import Mathlib.MeasureTheory.MeasurableSpace.Defs

/-!
# One gate from key generation to decryption

The calls of `/repo/examples/simple_gates/main.go:28-52` for one gate and one pair of bits, with all their random numbers:
the coins of the secret keys, the masks of the bootstrapping key and of the two ciphertexts, and the Gaussian draws.
-/

namespace GoTfhe

/-- The uniform random numbers of the run. -/
structure GateDice (P : Params) where
  /-- The coins of `key.NewSecretKey`, level 0. -/
  coins0 : Fin P.tlweLv0.N → Bool
  /-- The coins of `key.NewSecretKey`, level 1. -/
  coins1 : Fin P.trgswLv1.N → Bool
  /-- The masks of the bootstrapping key. -/
  bsk : KeyMasks P
  /-- The mask of the first ciphertext. -/
  maskA : Mask P.tlweLv0.N
  /-- The mask of the second ciphertext. -/
  maskB : Mask P.tlweLv0.N

/-- A dice throw as a tuple. -/
def GateDice.equiv (P : Params) : GateDice P ≃ ((Fin P.tlweLv0.N → Bool) × (Fin P.trgswLv1.N → Bool)) × KeyMasks P
    × (Mask P.tlweLv0.N × Mask P.tlweLv0.N) where
  toFun x := ((x.coins0, x.coins1), x.bsk, (x.maskA, x.maskB))
  invFun t := ⟨t.1.1, t.1.2, t.2.1, t.2.2.1, t.2.2.2⟩
  left_inv _ := rfl
  right_inv _ := rfl

noncomputable instance (P : Params) : Fintype (GateDice P) :=
  open Classical in Fintype.ofEquiv _ (GateDice.equiv P).symm

instance (P : Params) : Nonempty (GateDice P) := ⟨⟨fun _ => false, fun _ => false, fun _ _ _ => 0, fun _ => 0, fun _ => 0⟩⟩

instance (P : Params) : MeasurableSpace (GateDice P) := ⊤

instance (P : Params) : MeasurableSingletonClass (GateDice P) := ⟨fun _ => trivial⟩

/-- Key generation, two encryptions, one gate and decryption (`/repo/examples/simple_gates/main.go:28-52`). `y` are the
Gaussian draws of the cloud key, `u` and `v` those of the two encryptions. The masks of the key-switching key are those of
`R`. The schedules are those of the two parallel loops of `NewCloudKey`. -/
def gateRun (P : Params) (O : FourierOps) (g : Gate2) (R : KeyGenRand) (tr0 : TRef → Trlwe) (lw0 : LRef → List Torus)
    (schedK schedB : List ℕ) (xa xb : Bool) (y : DrawIx → ℚ) (u v : ℚ) (x : GateDice P) : Option Bool := do
  let sk ← newSecretKey P (keyCoins x.coins0) (keyCoins x.coins1)
  let (_, ck) ← newCloudKey P O sk.keyLv0 sk.keyLv1 ((R.withEntryMasks x.bsk).withDraws y) schedK schedB
  let ctA ← tlwe0EncryptBool P (newTLWELv0 P) xa sk.keyLv0 x.maskA.draw u
  let ctB ← tlwe0EncryptBool P (newTLWELv0 P) xb sk.keyLv0 x.maskB.draw v
  let st ← newEvaluator P O tr0 lw0
  let (_, result) ← gate2 P g st ctA ctB ck
  tlwe0DecryptBool P result sk.keyLv0

end GoTfhe
