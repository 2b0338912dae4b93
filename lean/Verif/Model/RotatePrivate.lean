import Verif.Model.Rotate

/-!
# The private rotation of package `trgsw` (`/repo/trgsw/trgsw.go:254-282`, not called anywhere)
-/

namespace GoTfhe

/-- `r[i] = x` with an `int` index: a negative one panics. -/
def wrInt {α : Type*} (r : List α) (i : ℤ) (x : α) : Option (List α) :=
  if i < 0 then none else wr r i.toNat x

/-- `polyMulWithXKInPlace(a, k, result)` of `/repo/trgsw/trgsw.go:255-282` for `result` that does not share memory
with `a`. It lacks the step `if k < 0 { k += 2 * n }` of the exported function (`/repo/poly/buffer_methods.go:141-143`),
so the loops have `int` bounds and indices. -/
def polyMulWithXKPrivate (a : List Torus) (k : ℤ) (result : List Torus) : Option (List Torus) := do
  let n := a.length
  let k ← goMod k (2 * n)
  if k = 0 then
    pure (copySlice result a)
  else if k < n then
    let result ← forRange 0 (n - k).toNat result fun i r => do
      let x ← rd a i
      wrInt r (i + k) x
    forRange (n - k).toNat n result fun i r => do
      let x ← rd a i
      wrInt r (i + k - n) (BitVec.allOnes 32 - x)
  else
    let k := k - n
    let result ← forRange 0 (n - k).toNat result fun i r => do
      let x ← rd a i
      wrInt r (i + k) (BitVec.allOnes 32 - x)
    forRange (n - k).toNat n result fun i r => do
      let x ← rd a i
      wrInt r (i + k - n) x

end GoTfhe
