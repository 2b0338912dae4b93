import Verif.Model.Evaluator
import Verif.Model.CloudKey
import Verif.Spec.Bootstrap

/-!
# `/repo/gates/gates.go`, `/repo/evaluator/gates_helper.go`

The package-level evaluator `globalEval` is the state `EvState` that every gate takes and returns. It is
created once, under the parameters in force when the program starts; the gates read the parameters `P` in
force when they are called. Gates take and return ciphertext values: every result is a new object
(`bootstrap` copies it out of the evaluator's pool), and arguments are only read.
-/

namespace GoTfhe

variable {O : FourierOps}

/-- `PrepareNAND` (`/repo/evaluator/gates_helper.go:10-21`) -/
def prepareNAND (P : Params) (a b : List Torus) : Option (List Torus) := do
  let n := P.tlweLv0.N
  let result ← forRange 0 n (newTLWELv0 P) fun i r => do
    let x ← rd a i
    let y ← rd b i
    wr r i (-(x + y))
  let x ← rd a n
  let y ← rd b n
  wr result n (-(x + y) + f64ToTorus 0.125)

/-- `PrepareAND` (`/repo/evaluator/gates_helper.go:24-35`) -/
def prepareAND (P : Params) (a b : List Torus) : Option (List Torus) := do
  let n := P.tlweLv0.N
  let result ← forRange 0 n (newTLWELv0 P) fun i r => do
    let x ← rd a i
    let y ← rd b i
    wr r i (x + y)
  let x ← rd a n
  let y ← rd b n
  wr result n (x + y + f64ToTorus (-0.125))

/-- `PrepareOR` (`/repo/evaluator/gates_helper.go:38-49`) -/
def prepareOR (P : Params) (a b : List Torus) : Option (List Torus) := do
  let n := P.tlweLv0.N
  let result ← forRange 0 n (newTLWELv0 P) fun i r => do
    let x ← rd a i
    let y ← rd b i
    wr r i (x + y)
  let x ← rd a n
  let y ← rd b n
  wr result n (x + y + f64ToTorus 0.125)

/-- `PrepareXOR` (`/repo/evaluator/gates_helper.go:52-63`) -/
def prepareXOR (P : Params) (a b : List Torus) : Option (List Torus) := do
  let n := P.tlweLv0.N
  let result ← forRange 0 n (newTLWELv0 P) fun i r => do
    let x ← rd a i
    let y ← rd b i
    wr r i (x + 2 * y)
  let x ← rd a n
  let y ← rd b n
  wr result n (x + 2 * y + f64ToTorus 0.25)

/-- `t.SetB(t.B() + utils.F64ToTorus(d))`, used by most gates. -/
def shiftB (P : Params) (t : List Torus) (d : ℚ) : Option (List Torus) := do
  let b ← tlwe0B P t
  tlwe0SetB P t (b + f64ToTorus d)

/-- `bootstrap` (`/repo/gates/gates.go:136-142`). The prepared ciphertext and the test vector are the
caller's objects `0`. -/
def gateBootstrap (P : Params) (st : EvState O) (ctxt : List Torus) (ck : CloudKey O) :
    Option (EvState O × List Torus) := do
  let st := (st.setLw (.user 0) ctxt).setTr (.user 0) ck.blindRotateTestvec
  let (st, bootstrapped) ← bootstrapPooled P st (.user 0) (.user 0) ck.bootstrappingKey
    ck.keySwitchingKey ck.decompositionOffset
  let result := copySlice (newTLWELv0 P) (st.lw bootstrapped)
  let b ← tlwe0B P (st.lw bootstrapped)
  let result ← tlwe0SetB P result b
  pure (st, result)

/-- `NAND` (`/repo/gates/gates.go:26-31`) -/
def gateNAND (P : Params) (st : EvState O) (a b : List Torus) (ck : CloudKey O) :
    Option (EvState O × List Torus) := do
  let prepared ← prepareNAND P a b
  gateBootstrap P st prepared ck

/-- `OR` (`/repo/gates/gates.go:34-37`) -/
def gateOR (P : Params) (st : EvState O) (a b : List Torus) (ck : CloudKey O) :
    Option (EvState O × List Torus) := do
  let prepared ← prepareOR P a b
  gateBootstrap P st prepared ck

/-- `AND` (`/repo/gates/gates.go:40-43`) -/
def gateAND (P : Params) (st : EvState O) (a b : List Torus) (ck : CloudKey O) :
    Option (EvState O × List Torus) := do
  let prepared ← prepareAND P a b
  gateBootstrap P st prepared ck

/-- `XOR` (`/repo/gates/gates.go:46-49`) -/
def gateXOR (P : Params) (st : EvState O) (a b : List Torus) (ck : CloudKey O) :
    Option (EvState O × List Torus) := do
  let prepared ← prepareXOR P a b
  gateBootstrap P st prepared ck

/-- The preparation in `XNOR` (`/repo/gates/gates.go:53-56`) -/
def prepareXNOR (P : Params) (a b : List Torus) : Option (List Torus) := do
  let t ← tlwe0SubMul P a b 2
  shiftB P t 0.25

/-- `XNOR` (`/repo/gates/gates.go:52-58`) -/
def gateXNOR (P : Params) (st : EvState O) (a b : List Torus) (ck : CloudKey O) :
    Option (EvState O × List Torus) := do
  let t ← prepareXNOR P a b
  gateBootstrap P st t ck

/-- `Constant` (`/repo/gates/gates.go:61-69`) -/
def gateConstant (P : Params) (value : Bool) : Option (List Torus) :=
  let mu := f64ToTorus 0.125
  let mu := if !value then 1 - mu else mu
  tlwe0SetB P (newTLWELv0 P) mu

/-- The preparation in `NOR` (`/repo/gates/gates.go:73-74`) -/
def prepareNOR (P : Params) (a b : List Torus) : Option (List Torus) := do
  let t ← tlwe0Add P a b
  let t ← tlwe0Neg P t
  shiftB P t (-0.125)

/-- `NOR` (`/repo/gates/gates.go:72-76`) -/
def gateNOR (P : Params) (st : EvState O) (a b : List Torus) (ck : CloudKey O) :
    Option (EvState O × List Torus) := do
  let t ← prepareNOR P a b
  gateBootstrap P st t ck

/-- The preparation in `ANDNY` (`/repo/gates/gates.go:80-81`) -/
def prepareANDNY (P : Params) (a b : List Torus) : Option (List Torus) := do
  let t ← tlwe0Neg P a
  let t ← tlwe0Add P t b
  shiftB P t (-0.125)

/-- `ANDNY` (`/repo/gates/gates.go:79-83`) -/
def gateANDNY (P : Params) (st : EvState O) (a b : List Torus) (ck : CloudKey O) :
    Option (EvState O × List Torus) := do
  let t ← prepareANDNY P a b
  gateBootstrap P st t ck

/-- The preparation in `ANDYN` (`/repo/gates/gates.go:87-88`) -/
def prepareANDYN (P : Params) (a b : List Torus) : Option (List Torus) := do
  let t ← tlwe0Sub P a b
  shiftB P t (-0.125)

/-- `ANDYN` (`/repo/gates/gates.go:86-90`) -/
def gateANDYN (P : Params) (st : EvState O) (a b : List Torus) (ck : CloudKey O) :
    Option (EvState O × List Torus) := do
  let t ← prepareANDYN P a b
  gateBootstrap P st t ck

/-- The preparation in `ORNY` (`/repo/gates/gates.go:94-95`) -/
def prepareORNY (P : Params) (a b : List Torus) : Option (List Torus) := do
  let t ← tlwe0Neg P a
  let t ← tlwe0Add P t b
  shiftB P t 0.125

/-- `ORNY` (`/repo/gates/gates.go:93-97`) -/
def gateORNY (P : Params) (st : EvState O) (a b : List Torus) (ck : CloudKey O) :
    Option (EvState O × List Torus) := do
  let t ← prepareORNY P a b
  gateBootstrap P st t ck

/-- The preparation in `ORYN` (`/repo/gates/gates.go:101-102`) -/
def prepareORYN (P : Params) (a b : List Torus) : Option (List Torus) := do
  let t ← tlwe0Sub P a b
  shiftB P t 0.125

/-- `ORYN` (`/repo/gates/gates.go:100-104`) -/
def gateORYN (P : Params) (st : EvState O) (a b : List Torus) (ck : CloudKey O) :
    Option (EvState O × List Torus) := do
  let t ← prepareORYN P a b
  gateBootstrap P st t ck

/-- `NOT` (`/repo/gates/gates.go:117-119`) -/
def gateNOT (P : Params) (a : List Torus) : Option (List Torus) := tlwe0Neg P a

/-- `Copy` (`/repo/gates/gates.go:122-126`) -/
def gateCopy (P : Params) (a : List Torus) : List Torus := copySlice (newTLWELv0 P) a

/-- `MUX` (`/repo/gates/gates.go:107-114`) -/
def gateMUX (P : Params) (st : EvState O) (a b c : List Torus) (ck : CloudKey O) :
    Option (EvState O × List Torus) := do
  let (st, andAB) ← gateAND P st a b ck
  let notA ← gateNOT P a
  let (st, andNotAC) ← gateAND P st notA c ck
  gateOR P st andAB andNotAC ck

/-- `bootstrapWithoutKeySwitch` (`/repo/gates/gates.go:145-149`) -/
def bootstrapWithoutKeySwitch (P : Params) (st : EvState O) (ctxt : List Torus) (ck : CloudKey O) :
    Option (EvState O × List Torus) := do
  let st := ((st.setLw (.user 0) ctxt).setTr (.user 0) ck.blindRotateTestvec).setTr (.user 1) (newTRLWELv1 P)
  let st ← blindRotateAssign P st (.user 0) (.user 0) ck.bootstrappingKey ck.decompositionOffset (.user 1)
  let r ← sampleExtractIndex2 P (st.tr (.user 1)) 0
  pure (st, r)

/-- Dispatch on the gate; only names the preparation functions above. -/
def gatePrepare (P : Params) (g : Gate2) (a b : List Torus) : Option (List Torus) :=
  match g with
  | .nand => prepareNAND P a b
  | .and => prepareAND P a b
  | .or => prepareOR P a b
  | .xor => prepareXOR P a b
  | .xnor => prepareXNOR P a b
  | .nor => prepareNOR P a b
  | .andny => prepareANDNY P a b
  | .andyn => prepareANDYN P a b
  | .orny => prepareORNY P a b
  | .oryn => prepareORYN P a b

/-- Dispatch on the gate; only names the functions above. -/
def gate2 (P : Params) (g : Gate2) (st : EvState O) (a b : List Torus) (ck : CloudKey O) :
    Option (EvState O × List Torus) :=
  match g with
  | .nand => gateNAND P st a b ck
  | .and => gateAND P st a b ck
  | .or => gateOR P st a b ck
  | .xor => gateXOR P st a b ck
  | .xnor => gateXNOR P st a b ck
  | .nor => gateNOR P st a b ck
  | .andny => gateANDNY P st a b ck
  | .andyn => gateANDYN P st a b ck
  | .orny => gateORNY P st a b ck
  | .oryn => gateORYN P st a b ck

end GoTfhe
