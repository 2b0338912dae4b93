import Verif.Model.Prelude

/-!
# Polynomial constructors (`/repo/poly/poly.go`, `/repo/poly/aligned.go`)
-/

namespace GoTfhe

/-- `MinDegree = 1 << 4` (`/repo/poly/poly.go:12`). -/
def minDegree : ℤ := ((1 <<< 4 : ℕ) : ℤ)

/-- `isPowerOfTwo` (`/repo/poly/poly.go:100-102`); `&&` is short-circuit, so the mask is only
computed for positive `n`. -/
def isPowerOfTwo (n : ℤ) : Bool := decide (n > 0) && decide (n.toNat &&& (n.toNat - 1) = 0)

/-- `NewPoly` (`/repo/poly/poly.go:25-33`) -/
def newPoly (N : ℤ) : Option (List Torus) :=
  if isPowerOfTwo N = false then none
  else if N < minDegree then none
  else some (mkSlice N.toNat 0)

/-- `NewFourierPoly` (`/repo/poly/poly.go:65-73`); `z` is the float zero. -/
def newFourierPoly {R : Type} (z : R) (N : ℤ) : Option (List R) :=
  if isPowerOfTwo N = false then none
  else if N < minDegree then none
  else some (mkSlice N.toNat z)

/-- The slice expression `l[lo:hi]`, panicking unless `lo <= hi <= cap`; the slices it is used on
here have `cap = len` (they come from `make`). -/
def goSlice {α : Type*} (l : List α) (lo hi : ℕ) : Option (List α) :=
  if lo ≤ hi ∧ hi ≤ l.length then some ((l.take hi).drop lo) else none

/-- A slice in memory: the address of its first element, the number of elements of the allocation it is cut from, and
its elements -/
structure Placed (α : Type) where
  addr : ℕ
  allocated : ℕ
  coeffs : List α

/-- The common text of `NewPolyAligned` (`/repo/poly/aligned.go:9-34`, `line = 16`, elements of 4 bytes) and
`NewFourierPolyAligned` (`/repo/poly/aligned.go:37-62`, `line = 8`, elements of 8 bytes). `base` is the address that
`make` returns. What the code calls `addr` is computed from the length of the slice, not from its address. -/
def newAlignedAt {α : Type} (line elem base : ℕ) (z : α) (N : ℤ) : Option (Placed α) :=
  if isPowerOfTwo N = false then none
  else if N < minDegree then none
  else
    let N := N.toNat
    let coeffs := mkSlice (N + line) z
    let offset :=
      if coeffs.length > 0 then
        let addr := coeffs.length % line
        if addr ≠ 0 then line - addr else 0
      else 0
    (goSlice coeffs offset (offset + N)).map fun l => ⟨base + elem * offset, coeffs.length, l⟩

/-- `NewPolyAligned` (`/repo/poly/aligned.go:9-34`) -/
def newPolyAlignedAt (base : ℕ) (N : ℤ) : Option (Placed Torus) := newAlignedAt 16 4 base 0 N

/-- `NewFourierPolyAligned` (`/repo/poly/aligned.go:37-62`) -/
def newFourierPolyAlignedAt {R : Type} (base : ℕ) (z : R) (N : ℤ) : Option (Placed R) := newAlignedAt 8 8 base z N

/-- `NewPolyAligned` (`/repo/poly/aligned.go:9-34`), only the elements -/
def newPolyAligned (N : ℤ) : Option (List Torus) := (newPolyAlignedAt 0 N).map Placed.coeffs

/-- `NewFourierPolyAligned` (`/repo/poly/aligned.go:37-62`), only the elements -/
def newFourierPolyAligned {R : Type} (z : R) (N : ℤ) : Option (List R) := (newFourierPolyAlignedAt 0 z N).map Placed.coeffs

end GoTfhe
