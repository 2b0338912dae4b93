import Mathlib.Data.Int.Init

/-!
# What a table look-up returns outside the message range
-/

namespace GoTfhe

/-- The antiperiodic extension of `F` from `0 .. m - 1` to all integers: period `2 m`, negated in the upper half. -/
def antiValue (m : ℕ) (F : ℕ → ℤ) (z : ℤ) : ℤ :=
  if z % (2 * m) < m then F (z % (2 * m)).toNat else -F (z % (2 * m) - m).toNat

end GoTfhe
