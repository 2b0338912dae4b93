import Mathlib.Data.Int.Init

/-!
# Programs of linear operations
-/

namespace GoTfhe

/-- One linear operation on earlier values, named by their positions. Multipliers are 32-bit words. -/
inductive LinInstr where
  | add (i j : ℕ)
  | sub (i j : ℕ)
  | neg (i : ℕ)
  | addMul (i j : ℕ) (c : BitVec 32)
  | subMul (i j : ℕ) (c : BitVec 32)

/-- The operation on integers; a multiplier counts as a signed word. -/
def LinInstr.val (vs : List ℤ) : LinInstr → Option ℤ
  | .add i j => do return (← vs[i]?) + (← vs[j]?)
  | .sub i j => do return (← vs[i]?) - (← vs[j]?)
  | .neg i => do return -(← vs[i]?)
  | .addMul i j c => do return (← vs[i]?) + c.toInt * (← vs[j]?)
  | .subMul i j c => do return (← vs[i]?) - c.toInt * (← vs[j]?)

/-- How far the noise of the result can be from zero, from the same numbers for the operands. -/
def LinInstr.bound (bs : List ℕ) : LinInstr → Option ℕ
  | .add i j => do return (← bs[i]?) + (← bs[j]?)
  | .sub i j => do return (← bs[i]?) + (← bs[j]?)
  | .neg i => bs[i]?
  | .addMul i j c => do return (← bs[i]?) + c.toInt.natAbs * (← bs[j]?)
  | .subMul i j c => do return (← bs[i]?) + c.toInt.natAbs * (← bs[j]?)

/-- Run a program: every operation adds its result at the end. -/
def runLin {α : Type*} (step : List α → LinInstr → Option α) : List LinInstr → List α → Option (List α)
  | [], vs => some vs
  | p :: ps, vs => do runLin step ps (vs ++ [← step vs p])

end GoTfhe
