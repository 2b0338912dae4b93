import Mathlib.Data.Int.ModEq
import Mathlib.Data.List.Basic

/-!
# Programs on encrypted messages

A program on messages modulo `M` is a list of instructions; each reads earlier values and appends one: sums and
differences (with a small factor), functions of one value, and functions given by tables prepared before. Beside each
value the meaning counts how many fresh noises it can carry.
-/

namespace GoTfhe

/-- An instruction. `lut t i` applies the prepared table number `t`, `func f i` the function `f` (the Go closure,
`none` for a panic). -/
inductive MInstr
  | add (i j : ℕ)
  | sub (i j : ℕ)
  | addMul (i j c : ℕ)
  | subMul (i j c : ℕ)
  | lut (t i : ℕ)
  | func (f : ℤ → Option ℤ) (i : ℕ)

/-- What a function does on the messages `0 .. M - 1`: its value, reduced modulo `M`. -/
def msgApply (M : ℕ) (f : ℤ → Option ℤ) (x : ℕ) : Option ℕ := (f x).map fun y : ℤ => (y % (M : ℤ)).toNat

/-- A value is the message and the number of noises it may have accumulated; it is meaningful below the modulus and
within the budget `B`. -/
def msgVal (M B x c : ℕ) : Option (ℕ × ℕ) := if x < M ∧ c ≤ B then some (x, c) else none

/-- Meaning of an instruction on the values so far: `none` for a missing wire or table, a sum that reaches the modulus, a
difference below zero, or too much noise. Functions start again with one noise. -/
def MInstr.eval (M B : ℕ) (tabs : List (ℤ → Option ℤ)) (ws : List (ℕ × ℕ)) : MInstr → Option (ℕ × ℕ)
  | .add i j => do
    let x ← ws[i]?
    let y ← ws[j]?
    msgVal M B (x.1 + y.1) (x.2 + y.2)
  | .sub i j => do
    let x ← ws[i]?
    let y ← ws[j]?
    if y.1 ≤ x.1 then msgVal M B (x.1 - y.1) (x.2 + y.2) else none
  | .addMul i j c => do
    let x ← ws[i]?
    let y ← ws[j]?
    msgVal M B (x.1 + c * y.1) (x.2 + c * y.2)
  | .subMul i j c => do
    let x ← ws[i]?
    let y ← ws[j]?
    if c * y.1 ≤ x.1 then msgVal M B (x.1 - c * y.1) (x.2 + c * y.2) else none
  | .lut t i => do
    let f ← tabs[t]?
    let x ← ws[i]?
    let y ← msgApply M f x.1
    pure (y, 1)
  | .func f i => do
    let x ← ws[i]?
    let y ← msgApply M f x.1
    pure (y, 1)

/-- Meaning of a program: all values after running it. -/
def evalProgram (M B : ℕ) (tabs : List (ℤ → Option ℤ)) (ws : List (ℕ × ℕ)) : List MInstr → Option (List (ℕ × ℕ))
  | [] => some ws
  | c :: cs => do
    let w ← c.eval M B tabs ws
    evalProgram M B tabs (ws ++ [w]) cs

/-- The functions a program uses go through on all messages (a Go closure that panics on a message nobody encrypted
still stops the table generation). -/
def MInstr.Total (M : ℕ) : MInstr → Prop
  | .func f _ => ∀ x < M, (f (x : ℕ)).isSome
  | _ => True

end GoTfhe
