import Verif.Model.Gates
import Verif.Spec.Circuit

/-!
# Programs that call the gates

`runCircuit` is a client program applying gates to ciphertexts one after another; `fullAdder` and
`rippleAdd` are the homomorphic adder of `/repo/README.md:78-108`.
-/

namespace GoTfhe

variable {O : FourierOps}

/-- One gate call on the ciphertexts computed so far. -/
def Instr.run (P : Params) (ck : CloudKey O) (st : EvState O) (ws : List (List Torus)) :
    Instr → Option (EvState O × List Torus)
  | .gate g i j => do
    let a ← ws[i]?
    let b ← ws[j]?
    gate2 P g st a b ck
  | .mux i j k => do
    let a ← ws[i]?
    let b ← ws[j]?
    let c ← ws[k]?
    gateMUX P st a b c ck
  | .not i => do
    let a ← ws[i]?
    let r ← gateNOT P a
    pure (st, r)
  | .copy i => do
    let a ← ws[i]?
    pure (st, gateCopy P a)
  | .const b => do
    let r ← gateConstant P b
    pure (st, r)

/-- A sequence of gate calls. -/
def runCircuit (P : Params) (ck : CloudKey O) (st : EvState O) (ws : List (List Torus)) :
    List Instr → Option (EvState O × List (List Torus))
  | [] => some (st, ws)
  | c :: cs => do
    let (st, w) ← c.run P ck st ws
    runCircuit P ck st (ws ++ [w]) cs

/-- `FullAdder` (`/repo/README.md:78-87`); returns `(sum, carry)`. -/
def fullAdder (P : Params) (ck : CloudKey O) (st : EvState O) (a b cin : List Torus) :
    Option (EvState O × List Torus × List Torus) := do
  let (st, aXorB) ← gateXOR P st a b ck
  let (st, aAndB) ← gateAND P st a b ck
  let (st, aXorBAndC) ← gateAND P st aXorB cin ck
  let (st, sum) ← gateXOR P st aXorB cin ck
  let (st, carry) ← gateOR P st aAndB aXorBAndC ck
  pure (st, sum, carry)

/-- The addition loop (`/repo/README.md:104-108`) on any number of bit pairs; returns the sum ciphertexts and
the last carry. -/
def rippleLoop (P : Params) (ck : CloudKey O) :
    EvState O → List (List Torus × List Torus) → List Torus →
      Option (EvState O × List (List Torus) × List Torus)
  | st, [], carry => some (st, [], carry)
  | st, (a, b) :: rest, carry => do
    let (st, s, carry) ← fullAdder P ck st a b carry
    let (st, out, carry) ← rippleLoop P ck st rest carry
    pure (st, s :: out, carry)

/-- The whole addition: the carry starts as `Constant(false)`. -/
def rippleAdd (P : Params) (ck : CloudKey O) (st : EvState O) (ab : List (List Torus × List Torus)) :
    Option (EvState O × List (List Torus) × List Torus) := do
  let carry ← gateConstant P false
  rippleLoop P ck st ab carry

end GoTfhe
