import Verif.Spec.Circuit

/-!
# Rewriting circuits into AND, OR, XOR and NOT
-/

namespace GoTfhe

/-- Every gate as AND, OR or XOR of possibly negated inputs: whether the first and the second input are negated, and the
gate. -/
def Gate2.basic : Gate2 → Bool × Bool × Gate2
  | .nand => (true, true, .or)
  | .and => (false, false, .and)
  | .or => (false, false, .or)
  | .xor => (false, false, .xor)
  | .xnor => (false, true, .xor)
  | .nor => (true, true, .and)
  | .andny => (true, false, .and)
  | .andyn => (false, true, .and)
  | .orny => (true, false, .or)
  | .oryn => (false, true, .or)

/-- AND, OR, XOR, NOT, Copy and Constant -/
def Instr.isBasic : Instr → Prop
  | .gate g _ _ => g = .and ∨ g = .or ∨ g = .xor
  | .mux _ _ _ => False
  | _ => True

/-- One instruction, where wire `i` has become wire `σ[i]` and `n` wires exist: the last of the new instructions computes
the result. -/
def Instr.lower (σ : List ℕ) (n : ℕ) : Instr → List Instr
  | .gate g i j =>
    let i := σ.getD i 0
    let j := σ.getD j 0
    match g.basic with
    | (false, false, h) => [.gate h i j]
    | (true, false, h) => [.not i, .gate h n j]
    | (false, true, h) => [.not j, .gate h i n]
    | (true, true, h) => [.not i, .not j, .gate h n (n + 1)]
  | .mux i j k =>
    let i := σ.getD i 0
    [.gate .and i (σ.getD j 0), .not i, .gate .and (n + 1) (σ.getD k 0), .gate .or n (n + 2)]
  | .not i => [.not (σ.getD i 0)]
  | .copy i => [.copy (σ.getD i 0)]
  | .const b => [.const b]

/-- A whole circuit; also returns where the wires are after it. -/
def lowerCircuit (σ : List ℕ) (n : ℕ) : List Instr → List Instr × List ℕ
  | [] => ([], σ)
  | c :: cs =>
    let is := c.lower σ n
    let (rest, σ') := lowerCircuit (σ ++ [n + is.length - 1]) (n + is.length) cs
    (is ++ rest, σ')

end GoTfhe
