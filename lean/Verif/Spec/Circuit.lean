import Verif.Spec.Bootstrap

/-!
# Boolean circuits

A circuit is a straight-line program: each instruction reads earlier wires and appends one wire. Wires may
be read any number of times.
-/

namespace GoTfhe

inductive Instr
  | gate (g : Gate2) (i j : ℕ)
  | mux (i j k : ℕ)
  | not (i : ℕ)
  | copy (i : ℕ)
  | const (b : Bool)

/-- Boolean meaning of an instruction on the wires so far; `none` if it reads a wire that does not exist. -/
def Instr.eval (ws : List Bool) : Instr → Option Bool
  | .gate g i j => do
    let x ← ws[i]?
    let y ← ws[j]?
    pure (g.eval x y)
  | .mux i j k => do
    let x ← ws[i]?
    let y ← ws[j]?
    let z ← ws[k]?
    pure (if x then y else z)
  | .not i => do
    let x ← ws[i]?
    pure (!x)
  | .copy i => ws[i]?
  | .const b => some b

/-- Boolean meaning of a circuit: all wires after running it. -/
def evalCircuit (ws : List Bool) : List Instr → Option (List Bool)
  | [] => some ws
  | c :: cs => do
    let w ← c.eval ws
    evalCircuit (ws ++ [w]) cs

/-- Number denoted by a list of bits, least significant first. -/
def bitsVal : List Bool → ℕ
  | [] => 0
  | b :: bs => b.toNat + 2 * bitsVal bs

end GoTfhe
