import Verif.Model.Params
import Verif.Model.Poly
import Verif.Model.Rotate

/-!
# Small helpers of `/repo/params` and `/repo/poly`
-/

namespace GoTfhe

/-- `SecurityInfo` (`/repo/params/params.go:639-666`) -/
def securityInfo (level : SecurityLevel) : String :=
  if level = 80 then "80-bit security (performance-optimized)"
  else if level = 110 then "110-bit security (balanced, original TFHE)"
  else if level = 1 then "Uint1 parameters (1-bit binary/boolean, messageModulus=2, N=1024)"
  else if level = 2 then "Uint2 parameters (2-bit messages, messageModulus=4, N=512)"
  else if level = 3 then "Uint3 parameters (3-bit messages, messageModulus=8, N=1024)"
  else if level = 4 then "Uint4 parameters (4-bit messages, messageModulus=16, N=2048)"
  else if level = 5 then "Uint5 parameters (5-bit messages, messageModulus=32, N=2048)"
  else if level = 6 then "Uint6 parameters (6-bit messages, messageModulus=64, N=2048)"
  else if level = 7 then "Uint7 parameters (7-bit messages, messageModulus=128, N=2048)"
  else if level = 8 then "Uint8 parameters (8-bit messages, messageModulus=256, N=2048)"
  else "128-bit security (high security, quantum-resistant)"

/-- The loop of `log2` (`/repo/poly/poly.go:110-113`): `n >>= 1; log++` while `n > 1`. -/
def log2Loop (n log : ℕ) : ℕ := if 1 < n then log2Loop (n >>> 1) (log + 1) else log
termination_by n
decreasing_by rw [Nat.shiftRight_one]; omega

/-- `log2` (`/repo/poly/poly.go:105-115`) -/
def log2Go (n : ℤ) : Option ℕ := if n ≤ 0 then none else some (log2Loop n.toNat 0)

/-- `Poly.Copy` (`/repo/poly/poly.go:41-45`); the result is a new slice. -/
def copyPoly (p : List Torus) : List Torus := copySlice (mkSlice p.length 0) p

/-- `Poly.Clear` (`/repo/poly/poly.go:48-52`) -/
def clearPoly (p : List Torus) : Option (List Torus) := forRange 0 p.length p fun i p => wr p i 0

/-- `ClearTRLWEBuffer` (`/repo/poly/buffer_methods.go:189-194`) on two different slices. -/
def clearTRLWEBuffer (a b : List Torus) : Option (List Torus × List Torus) :=
  forRange 0 a.length (a, b) fun i s => do
    let a ← wr s.1 i 0
    let b ← wr s.2 i 0
    pure (a, b)

/-- `CopyToDecompBuffer` (`/repo/poly/buffer_methods.go:99-104`) -/
def copyToDecompBuffer (bufs : List (List Torus)) (src : List Torus) (bufferIdx : ℕ) :
    Option (List (List Torus)) :=
  if bufferIdx ≥ bufs.length then none
  else do
    let b ← rd bufs bufferIdx
    wr bufs bufferIdx (copySlice b src)

end GoTfhe
