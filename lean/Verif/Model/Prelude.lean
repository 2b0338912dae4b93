import Mathlib.Data.BitVec

/-!
# Conventions for modelling Go code

`params.Torus` is Go's `uint32` (`/repo/params/params.go:27`), modelled by `BitVec 32`.
A slice is a `List`. A computation that may panic is an `Option`, `none` meaning a panic.
-/

namespace GoTfhe

/-- `type Torus uint32` (`/repo/params/params.go:27`). -/
abbrev Torus := BitVec 32

/-- Slice read `l[i]`; out of range panics. -/
def rd {α : Type*} (l : List α) (i : ℕ) : Option α := l[i]?

/-- Slice write `l[i] = v`; out of range panics. -/
def wr {α : Type*} (l : List α) (i : ℕ) (v : α) : Option (List α) :=
  if i < l.length then some (l.set i v) else none

/-- `for i := lo; i < hi; i++ { body }` -/
def forRange {σ : Type*} (lo hi : ℕ) (s : σ) (body : ℕ → σ → Option σ) : Option σ :=
  (List.range' lo (hi - lo)).foldlM (fun s i => body i s) s

/-- `for i := n-1; i >= 0; i-- { body }` -/
def forDown {σ : Type*} (n : ℕ) (s : σ) (body : ℕ → σ → Option σ) : Option σ :=
  (List.range n).reverse.foldlM (fun s i => body i s) s

/-- `make([]T, n)` for `n ≥ 0`, `z` being the zero value. -/
def mkSlice {α : Type*} (n : ℕ) (z : α) : List α := List.replicate n z

/-- Go's `%` on ints: the sign follows the dividend, a zero divisor panics. -/
def goMod (a b : ℤ) : Option ℤ := if b = 0 then none else some (Int.tmod a b)

/-- Go's `/` on ints: truncates toward zero, a zero divisor panics. -/
def goDiv (a b : ℤ) : Option ℤ := if b = 0 then none else some (Int.tdiv a b)

end GoTfhe
