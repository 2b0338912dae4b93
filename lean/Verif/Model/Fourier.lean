import Verif.Model.Poly

/-!
# The interface between ciphertext code and the Fourier transform

The ciphertext code (`trlwe`, `trgsw`, `evaluator`, `cloudkey`) uses `poly.Evaluator` only through
the operations below. They are a parameter of the ciphertext model, so that everything proved about
it holds for the exact transform and for the floating-point one alike.
-/

namespace GoTfhe

/-- The operations of a `*poly.Evaluator` used by ciphertext code. `F` is the type of
`poly.FourierPoly` values; an operation writing into a buffer takes the old contents and returns the
new ones. -/
structure FourierOps where
  /-- `degree` (`/repo/poly/poly_evaluator.go:14`, `226-228`) -/
  deg : ℕ
  /-- `poly.FourierPoly` (`/repo/poly/poly.go:60-62`) -/
  F : Type
  /-- `e.NewFourierPoly()` (`/repo/poly/poly_evaluator.go:236-238`) -/
  newF : Option F
  /-- `FourierPoly.Clear` (`/repo/poly/poly.go:93-97`) -/
  clear : F → F
  /-- `e.ToFourierPolyAssign(p, fpOut)` (`/repo/poly/fourier_transform.go:18-21`) -/
  toFourierAssign : List Torus → F → Option F
  /-- `e.MulFourierPolyAssign(fp0, fp1, fp0)`, output equal to the first operand
  (`/repo/poly/fourier_ops.go`, called at `/repo/poly/poly_mul.go:18`) -/
  mulInto : F → F → Option F
  /-- `e.MulAddFourierPolyAssign(fp0, fp1, fpOut)`, `fpOut` different from the operands
  (`/repo/poly/fourier_ops.go`) -/
  mulAddAssign : F → F → F → Option F
  /-- `e.ToPolyAssignUnsafe(fp, pOut)` (`/repo/poly/fourier_transform.go:40-44`): new contents of
  `fp` and of `pOut` -/
  toPolyUnsafe : F → List Torus → Option (F × List Torus)

namespace FourierOps

variable (O : FourierOps)

/-- `e.ToFourierPoly(p)` (`/repo/poly/fourier_transform.go:11-15`) -/
def toFourier (p : List Torus) : Option O.F := do
  let fpOut ← O.newF
  O.toFourierAssign p fpOut

/-- `e.MulPoly(p0, p1)` with `MulPolyAssign` inlined (`/repo/poly/poly_mul.go:4-23`) -/
def mulPoly (p0 p1 : List Torus) : Option (List Torus) := do
  let pOut ← newPoly O.deg
  let fp0 ← O.toFourier p0
  let fp1 ← O.toFourier p1
  let fp0 ← O.mulInto fp0 fp1
  let r ← O.toPolyUnsafe fp0 pOut
  pure r.2

end FourierOps

end GoTfhe
