import Verif.Model.Prelude

/-!
# Multiplication by `X^k` (`/repo/poly/buffer_methods.go`)
-/

namespace GoTfhe

/-- Go's `copy(dst, src)`: the first `min(len dst, len src)` entries. -/
def copySlice {α : Type*} (dst src : List α) : List α :=
  src.take dst.length ++ dst.drop src.length

/-- `PolyMulWithXKInPlace(a, k, result)` (`/repo/poly/buffer_methods.go:133-164`) for `result` that
does not share memory with `a`. `^params.Torus(0)` is `BitVec.allOnes 32`. An empty `a` panics
(modulo by zero). The private copy of package `trgsw` is in `Model/RotatePrivate`. -/
def polyMulWithXK (a : List Torus) (k : ℤ) (result : List Torus) : Option (List Torus) := do
  let n := a.length
  let k ← goMod k (2 * n)
  if k = 0 then
    pure (copySlice result a)
  else
    let k := if k < 0 then k + 2 * n else k
    if k < n then
      let k := k.toNat
      let result ← forRange 0 (n - k) result fun i r => do
        let x ← rd a i
        wr r (i + k) x
      forRange (n - k) n result fun i r => do
        let x ← rd a i
        wr r (i + k - n) (BitVec.allOnes 32 - x)
    else
      let k := (k - n).toNat
      let result ← forRange 0 (n - k) result fun i r => do
        let x ← rd a i
        wr r (i + k) (BitVec.allOnes 32 - x)
      forRange (n - k) n result fun i r => do
        let x ← rd a i
        wr r (i + k - n) x

/-- The same function when `result` is the same slice as `a`: every read sees the writes made so
far (`/repo/poly/buffer_methods.go:133-164`). -/
def polyMulWithXKAliased (a : List Torus) (k : ℤ) : Option (List Torus) := do
  let n := a.length
  let k ← goMod k (2 * n)
  if k = 0 then
    pure a
  else
    let k := if k < 0 then k + 2 * n else k
    if k < n then
      let k := k.toNat
      let a ← forRange 0 (n - k) a fun i r => do
        let x ← rd r i
        wr r (i + k) x
      forRange (n - k) n a fun i r => do
        let x ← rd r i
        wr r (i + k - n) (BitVec.allOnes 32 - x)
    else
      let k := (k - n).toNat
      let a ← forRange 0 (n - k) a fun i r => do
        let x ← rd r i
        wr r (i + k) (BitVec.allOnes 32 - x)
      forRange (n - k) n a fun i r => do
        let x ← rd r i
        wr r (i + k - n) x

end GoTfhe
