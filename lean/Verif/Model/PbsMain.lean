import Verif.Model.MsgProgram
import Verif.Model.Key

/-!
# `/repo/examples/programmable_bootstrap/main.go`: `main`
-/

namespace GoTfhe

/-- `main` (`/repo/examples/programmable_bootstrap/main.go:15-66`) without the printing: the decrypted messages, demo by
demo. `r d i` is the mask and the noise of the `i`-th encryption of demo `d`. The program sets the 80-bit level. -/
def pbsMain (fl : ℚ → ℚ) (P : Params) (O : FourierOps) (coin0 coin1 : ℕ → ℕ) (R : KeyGenRand) (schedK schedB : List ℕ)
    (tr0 : TRef → Trlwe) (lw0 : LRef → List Torus) (r : ℕ → ℕ → (ℕ → Torus) × ℚ) : Option (List (List ℤ)) := do
  let secretKey ← newSecretKey P coin0 coin1
  let (_, ck) ← newCloudKey P O secretKey.keyLv0 secretKey.keyLv1 R schedK schedB
  let st ← newEvaluator P O tr0 lw0
  let (_, out) ← pbsDemo fl P ck secretKey.keyLv0 st r
  pure out

end GoTfhe
