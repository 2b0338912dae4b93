import Verif.Model.Fft

/-!
# Programs over Fourier polynomials

A client program that keeps Fourier polynomials in registers and applies the operations of
`/repo/poly/fourier_ops.go`, `/repo/poly/fourier_transform.go` and `/repo/poly/poly.go` to them. Any register may be
used as output and as operand of the same call.
-/

namespace GoTfhe

/-- One call. In `scale` and `scaleAdd` the `float64` constant is an integer. -/
inductive FInstr
  /-- `ToFourierPolyAssign(p, d)` -/
  | load (d : ℕ) (p : List Torus)
  /-- `AddFourierPolyAssign(a, b, d)` -/
  | add (d a b : ℕ)
  /-- `SubFourierPolyAssign(a, b, d)` -/
  | sub (d a b : ℕ)
  /-- `MulFourierPolyAssign(a, b, d)` -/
  | mul (d a b : ℕ)
  /-- `MulAddFourierPolyAssign(a, b, d)` -/
  | mulAdd (d a b : ℕ)
  /-- `MulSubFourierPolyAssign(a, b, d)` -/
  | mulSub (d a b : ℕ)
  /-- `FloatMulFourierPolyAssign(a, c, d)` -/
  | scale (d a : ℕ) (c : ℤ)
  /-- `FloatMulAddFourierPolyAssign(a, c, d)` -/
  | scaleAdd (d a : ℕ) (c : ℤ)
  /-- `d.CopyFrom(a)` -/
  | copy (d a : ℕ)
  /-- `d.Clear()` -/
  | clear (d : ℕ)
  /-- `d = ToFourierPoly(p)` -/
  | newLoad (d : ℕ) (p : List Torus)
  /-- `d = AddFourierPoly(a, b)` -/
  | newAdd (d a b : ℕ)
  /-- `d = SubFourierPoly(a, b)` -/
  | newSub (d a b : ℕ)
  /-- `d = MulFourierPoly(a, b)` -/
  | newMul (d a b : ℕ)
  /-- `d = a.Copy()` -/
  | dup (d a : ℕ)

section

variable {R : Type} (A : Arith R)

/-- Register `a` as an operand of a call with output `d`. -/
def fOpnd (regs : ℕ → List R) (d a : ℕ) : Option (List R) := if a = d then none else some (regs a)

/-- `AddFourierPoly` (`/repo/poly/fourier_ops.go:6-10`) -/
def addFourierPoly (e : PolyEval R) (fp0 fp1 : List R) : Option (List R) := do
  let fpOut ← newFourierPoly A.zero e.degree
  addFourierAssign A (some fp0) (some fp1) fpOut

/-- `SubFourierPoly` (`/repo/poly/fourier_ops.go:18-22`) -/
def subFourierPoly (e : PolyEval R) (fp0 fp1 : List R) : Option (List R) := do
  let fpOut ← newFourierPoly A.zero e.degree
  subFourierAssign A (some fp0) (some fp1) fpOut

/-- `MulFourierPoly` (`/repo/poly/fourier_ops.go:30-34`) -/
def mulFourierPoly (e : PolyEval R) (fp0 fp1 : List R) : Option (List R) := do
  let fpOut ← newFourierPoly A.zero e.degree
  mulFourierAssign A (some fp0) (some fp1) fpOut

/-- `FourierPoly.Copy` (`/repo/poly/poly.go:81-85`) -/
def copyFourierPoly (fp : List R) : List R := copySlice (mkSlice fp.length A.zero) fp

/-- The new contents of the output register, and which register it is. `CopyFrom` and `Clear` are
`/repo/poly/poly.go:88-97`. -/
def FInstr.out (e : PolyEval R) (regs : ℕ → List R) : FInstr → ℕ × Option (List R)
  | .load d p => (d, toFourierPolyAssign A e p (regs d))
  | .add d a b => (d, addFourierAssign A (fOpnd regs d a) (fOpnd regs d b) (regs d))
  | .sub d a b => (d, subFourierAssign A (fOpnd regs d a) (fOpnd regs d b) (regs d))
  | .mul d a b => (d, mulFourierAssign A (fOpnd regs d a) (fOpnd regs d b) (regs d))
  | .mulAdd d a b => (d, mulAddFourierAssign A (fOpnd regs d a) (fOpnd regs d b) (regs d))
  | .mulSub d a b => (d, mulSubFourierAssign A (fOpnd regs d a) (fOpnd regs d b) (regs d))
  | .scale d a c => (d, floatMulFourierAssign A (fOpnd regs d a) (A.ofInt c) (regs d))
  | .scaleAdd d a c => (d, floatMulAddFourierAssign A (fOpnd regs d a) (A.ofInt c) (regs d))
  | .copy d a => (d, some (copySlice (regs d) (regs a)))
  | .clear d => (d, some ((regs d).map fun _ => A.zero))
  | .newLoad d p => (d, toFourierPoly A e p)
  | .newAdd d a b => (d, addFourierPoly A e (regs a) (regs b))
  | .newSub d a b => (d, subFourierPoly A e (regs a) (regs b))
  | .newMul d a b => (d, mulFourierPoly A e (regs a) (regs b))
  | .dup d a => (d, some (copyFourierPoly A (regs a)))

/-- A sequence of calls. -/
def runFourier (e : PolyEval R) : List FInstr → (ℕ → List R) → Option (ℕ → List R)
  | [], regs => some regs
  | c :: cs, regs => do
    let f ← (c.out A e regs).2
    runFourier e cs (Function.update regs (c.out A e regs).1 f)

end

end GoTfhe
