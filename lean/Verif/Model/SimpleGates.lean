import Verif.Model.Gates
import Verif.Model.Key

/-!
# `/repo/examples/simple_gates/main.go`: every gate on every pair of bits
-/

namespace GoTfhe

variable {O : FourierOps}

/-- `testGate` for a list of gates on one pair of ciphertexts (`/repo/examples/simple_gates/main.go:50-65`): what is
decrypted, gate by gate. Printing is left out. -/
def testGates (P : Params) (ck : CloudKey O) (keyLv0 ctA ctB : List Torus) :
    EvState O → List Gate2 → Option (EvState O × List Bool)
  | st, [] => some (st, [])
  | st, g :: gs => do
    let (st, result) ← gate2 P g st ctA ctB ck
    let decrypted ← tlwe0DecryptBool P result keyLv0
    let (st, out) ← testGates P ck keyLv0 ctA ctB st gs
    pure (st, decrypted :: out)

/-- The gates in the order of `/repo/examples/simple_gates/main.go:60-65`. -/
def simpleGateList : List Gate2 := [.and, .or, .nand, .nor, .xor, .xnor]

/-- The loop over the test cases (`/repo/examples/simple_gates/main.go:41-68`). A test case is the two bits and, for
each, the mask and noise of its encryption. -/
def simpleGatesLoop (P : Params) (ck : CloudKey O) (keyLv0 : List Torus) :
    EvState O → List ((Bool × (ℕ → Torus) × ℚ) × (Bool × (ℕ → Torus) × ℚ)) → Option (EvState O × List (List Bool))
  | st, [] => some (st, [])
  | st, (a, b) :: rest => do
    let ctA ← tlwe0EncryptBool P (newTLWELv0 P) a.1 keyLv0 a.2.1 a.2.2
    let ctB ← tlwe0EncryptBool P (newTLWELv0 P) b.1 keyLv0 b.2.1 b.2.2
    let (st, row) ← testGates P ck keyLv0 ctA ctB st simpleGateList
    let (st, out) ← simpleGatesLoop P ck keyLv0 st rest
    pure (st, row :: out)

/-- The loop over the bits for `NOT` (`/repo/examples/simple_gates/main.go:73-83`). -/
def simpleNotLoop (P : Params) (keyLv0 : List Torus) : List (Bool × (ℕ → Torus) × ℚ) → Option (List Bool)
  | [] => some []
  | a :: rest => do
    let ct ← tlwe0EncryptBool P (newTLWELv0 P) a.1 keyLv0 a.2.1 a.2.2
    let notCt ← gateNOT P ct
    let decrypted ← tlwe0DecryptBool P notCt keyLv0
    let out ← simpleNotLoop P keyLv0 rest
    pure (decrypted :: out)

/-- `main` (`/repo/examples/simple_gates/main.go:22-87`) without the printing: the decrypted bits, test case by test case,
and those of the `NOT` loop. `r i` is the mask and the noise of the `i`-th call of `encrypt`. `globalEval` is created when the
program starts. -/
def simpleGatesMain (P : Params) (O : FourierOps) (coin0 coin1 : ℕ → ℕ) (R : KeyGenRand) (schedK schedB : List ℕ)
    (tr0 : TRef → Trlwe) (lw0 : LRef → List Torus) (r : ℕ → (ℕ → Torus) × ℚ) : Option (List (List Bool) × List Bool) := do
  let st ← newEvaluator P O tr0 lw0
  let secretKey ← newSecretKey P coin0 coin1
  let (_, ck) ← newCloudKey P O secretKey.keyLv0 secretKey.keyLv1 R schedK schedB
  let (_, rows) ← simpleGatesLoop P ck secretKey.keyLv0 st
    [((false, r 0), (false, r 1)), ((false, r 2), (true, r 3)), ((true, r 4), (false, r 5)), ((true, r 6), (true, r 7))]
  let nots ← simpleNotLoop P secretKey.keyLv0 [(false, r 8), (true, r 9)]
  pure (rows, nots)

end GoTfhe
