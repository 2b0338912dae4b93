import Verif.Spec.Negacyclic
import Verif.Model.Lut

/-!
# What a look-up table should contain
-/

namespace GoTfhe

/-- `x * N / m` rounded to the nearest integer, halves upward. -/
def lutStart (N m x : ℕ) : ℕ := (2 * (x * N) + m) / (2 * m)

/-- Rotation `p` lies in the slot of message `x`: a half-open interval of length about `N/m` around
`x * N / m`. -/
def InSlot (N m x : ℕ) (p : ℤ) : Prop :=
  (lutStart N m x : ℤ) ≤ p + lutStart N (2 * m) 1 ∧ p + lutStart N (2 * m) 1 < lutStart N m (x + 1)

/-- The table stores `v x` for message `x`: after multiplication by `X^-p` its constant coefficient is `v x`
for every `p` in the slot of `x`, and everything is negated when `p` grows by `N`. -/
def TableFor (N m : ℕ) (B : ℕ → Torus) (v : ℕ → Torus) : Prop :=
  (∀ x < m, ∀ p : ℤ, InSlot N m x p → ext N B p = v x) ∧ ∀ p, ext N B (p + N) = -ext N B p

/-- The slices an operation on tables may write. -/
def LutOp.writes : LutOp → List ℕ
  | .newLut => []
  | .copy _ => []
  | .copyFrom dst _ => [dst.A, dst.B]
  | .clear r => [r.A, r.B]
  | .writeA r _ _ => [r.A]
  | .writeB r _ _ => [r.B]

/-- Run a program of table operations. -/
def LutOp.runAll (P : Params) (h : LutHeap) : List LutOp → Option LutHeap
  | [] => some h
  | o :: os => (o.run P h).bind fun h => LutOp.runAll P h os

end GoTfhe
