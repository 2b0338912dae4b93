import Verif.Model.Fft

/-!
# The monomial tables of `poly.Evaluator` (`/repo/poly/poly_evaluator.go:89-100`)

Written by `NewEvaluator`, copied by `ShallowCopy` and read nowhere.
-/

namespace GoTfhe

variable {R : Type} (A : Arith R)

/-- The angle `-math.Pi * float64(i) / float64(N)` (`/repo/poly/poly_evaluator.go:91`) -/
def monoAngle (N i : ℕ) : R := A.div (A.mul (A.neg A.pi) (A.ofInt i)) (A.ofInt N)

/-- `twMono` (`/repo/poly/poly_evaluator.go:89-93`). The slice is filled by index in the code. -/
def newTwMono (N : ℕ) : List (R × R) := (List.range (2 * N)).map fun i => A.cexp (monoAngle A N i)

/-- `twMonoIdx` (`/repo/poly/poly_evaluator.go:95-100`) -/
def newTwMonoIdx (N : ℕ) : Option (List ℤ) := do
  let idx := mkSlice (N / 2) (0 : ℤ)
  let idx ← wr idx 0 (2 * N - 1)
  let idx ← forRange 1 (N / 2) idx fun i idx => wr idx i (4 * i - 1)
  bitReverseInPlace idx

/-- The monomial tables of `NewEvaluator(N)` with its two panics (`/repo/poly/poly_evaluator.go:76-111`) -/
def newMonoTables (N : ℤ) : Option (List (R × R) × List ℤ) :=
  if isPowerOfTwo N = false then none
  else if N < minDegree then none
  else do
    let idx ← newTwMonoIdx N.toNat
    pure (newTwMono A N.toNat, idx)

end GoTfhe
