import Verif.Model.Lut
import Verif.Model.LweMessage
import Verif.Model.CloudKey
import Verif.Spec.MsgProgram

/-!
# Programs that bootstrap with tables

`runProgram` is a client program computing on encrypted messages with one evaluator, one cloud key and tables generated
once and used many times. The demos of `/repo/examples/programmable_bootstrap/main.go` follow.
-/

namespace GoTfhe

variable {O : FourierOps}

/-- The tables of a program (`gen.GenLookUpTable` for each function, as in
`/repo/examples/programmable_bootstrap/main.go:104-109`). -/
def genTables (fl : ℚ → ℚ) (P : Params) (M : ℤ) (fs : List (ℤ → Option ℤ)) : Option (List Trlwe) :=
  fs.mapM fun f => (newGenerator fl P M).genLookUpTable fl P f

/-- The tables are the caller's TRLWE objects `1, 2, ...`; object `0` is the one `BootstrapFunc` makes. -/
def EvState.setTables (st : EvState O) (ts : List Trlwe) : EvState O :=
  { st with tr := fun r => match r with
      | .user (t + 1) => ts.getD t (st.tr (.user (t + 1)))
      | r => st.tr r }

/-- One call on the ciphertexts computed so far: `TLWELv0.Add`, `Sub`, `AddMul`, `SubMul`
(`/repo/tlwe/tlwe.go`), `Evaluator.BootstrapLUT`, `BootstrapFunc`. The input of a bootstrapping is the caller's LWE
object `0`. -/
def MInstr.run (fl : ℚ → ℚ) (P : Params) (M : ℤ) (ck : CloudKey O) (st : EvState O) (ws : List (List Torus)) :
    MInstr → Option (EvState O × List Torus)
  | .add i j => do
    let x ← ws[i]?
    let y ← ws[j]?
    let r ← tlwe0Add P x y
    pure (st, r)
  | .sub i j => do
    let x ← ws[i]?
    let y ← ws[j]?
    let r ← tlwe0Sub P x y
    pure (st, r)
  | .addMul i j c => do
    let x ← ws[i]?
    let y ← ws[j]?
    let r ← tlwe0AddMul P x y c
    pure (st, r)
  | .subMul i j c => do
    let x ← ws[i]?
    let y ← ws[j]?
    let r ← tlwe0SubMul P x y c
    pure (st, r)
  | .lut t i => do
    let x ← ws[i]?
    bootstrapLUT P (st.setLw (.user 0) x) (.user 0) (.user (t + 1)) ck.bootstrappingKey ck.keySwitchingKey
      ck.decompositionOffset
  | .func f i => do
    let x ← ws[i]?
    bootstrapFunc fl P (st.setLw (.user 0) x) (.user 0) f M ck.bootstrappingKey ck.keySwitchingKey
      ck.decompositionOffset

/-- A sequence of calls. -/
def runProgram (fl : ℚ → ℚ) (P : Params) (M : ℤ) (ck : CloudKey O) (st : EvState O) (ws : List (List Torus)) :
    List MInstr → Option (EvState O × List (List Torus))
  | [] => some (st, ws)
  | c :: cs => do
    let (st, w) ← c.run fl P M ck st ws
    runProgram fl P M ck st (ws ++ [w]) cs

/-- `demoFunction` (`/repo/examples/programmable_bootstrap/main.go:74-100`): for each input, encrypt it, bootstrap with
`f`, decrypt; returns what is printed. `draw i`, `sample i`: randomness of the `i`-th encryption. `demoMultiBit`
(lines 142-182) is the same loop with modulus 4. Timing and printing are left out. -/
def demoFunction (fl : ℚ → ℚ) (P : Params) (M : ℤ) (ck : CloudKey O) (keyLv0 : List Torus) (f : ℤ → Option ℤ) :
    EvState O → List (ℤ × (ℕ → Torus) × ℚ) → Option (EvState O × List ℤ)
  | st, [] => some (st, [])
  | st, (input, draw, sample) :: rest => do
    let ct ← encryptLWEMessage fl P (newTLWELv0 P) input M keyLv0 draw sample
    let (st, result) ← bootstrapFunc fl P (st.setLw (.user 0) ct) (.user 0) f M ck.bootstrappingKey
      ck.keySwitchingKey ck.decompositionOffset
    let output ← decryptLWEMessage P result M keyLv0
    let (st, out) ← demoFunction fl P M ck keyLv0 f st rest
    pure (st, output :: out)

/-- The loop of `demoLUTReuse` (`/repo/examples/programmable_bootstrap/main.go:112-134`) with the table in the caller's
TRLWE object `1`. -/
def demoLUTLoop (fl : ℚ → ℚ) (P : Params) (M : ℤ) (ck : CloudKey O) (keyLv0 : List Torus) :
    EvState O → List (ℤ × (ℕ → Torus) × ℚ) → Option (EvState O × List ℤ)
  | st, [] => some (st, [])
  | st, (input, draw, sample) :: rest => do
    let ct ← encryptLWEMessage fl P (newTLWELv0 P) input M keyLv0 draw sample
    let (st, result) ← bootstrapLUT P (st.setLw (.user 0) ct) (.user 0) (.user 1) ck.bootstrappingKey
      ck.keySwitchingKey ck.decompositionOffset
    let output ← decryptLWEMessage P result M keyLv0
    let (st, out) ← demoLUTLoop fl P M ck keyLv0 st rest
    pure (st, output :: out)

/-- `demoLUTReuse` (`/repo/examples/programmable_bootstrap/main.go:102-140`), for any function and inputs. -/
def demoLUTReuse (fl : ℚ → ℚ) (P : Params) (M : ℤ) (ck : CloudKey O) (keyLv0 : List Torus) (f : ℤ → Option ℤ)
    (st : EvState O) (inputs : List (ℤ × (ℕ → Torus) × ℚ)) : Option (EvState O × List ℤ) := do
  let lookupTable ← (newGenerator fl P M).genLookUpTable fl P f
  demoLUTLoop fl P M ck keyLv0 (st.setTr (.user 1) lookupTable) inputs

/-- The six demos of `main` (`/repo/examples/programmable_bootstrap/main.go:36-66`), one after the other with one evaluator.
`r` are the masks and noises of the encryptions, demo by demo. -/
def pbsDemo (fl : ℚ → ℚ) (P : Params) (ck : CloudKey O) (keyLv0 : List Torus) (st : EvState O)
    (r : ℕ → ℕ → (ℕ → Torus) × ℚ) : Option (EvState O × List (List ℤ)) := do
  let (st, o1) ← demoFunction fl P 2 ck keyLv0 (fun x => some x) st [(0, r 0 0), (1, r 0 1)]
  let (st, o2) ← demoFunction fl P 2 ck keyLv0 (fun x => some (1 - x)) st [(0, r 1 0), (1, r 1 1)]
  let (st, o3) ← demoFunction fl P 2 ck keyLv0 (fun _ => some 1) st [(0, r 2 0), (1, r 2 1)]
  let (st, o4) ← demoFunction fl P 2 ck keyLv0 (fun _ => some 0) st [(0, r 3 0), (1, r 3 1)]
  let (st, o5) ← demoLUTReuse fl P 2 ck keyLv0 (fun x => some (1 - x)) st
    [(0, r 4 0), (1, r 4 1), (0, r 4 2), (1, r 4 3), (0, r 4 4)]
  let (st, o6) ← demoFunction fl P 4 ck keyLv0 (fun x => goMod (x + 1) 4) st
    [(0, r 5 0), (1, r 5 1), (2, r 5 2), (3, r 5 3)]
  pure (st, [o1, o2, o3, o4, o5, o6])

end GoTfhe
