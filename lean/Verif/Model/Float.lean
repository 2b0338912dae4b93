import Verif.Model.Utils
import Mathlib.Data.Int.Log
import Mathlib.Algebra.Order.Round

/-!
# Floating-point rounding

An operation that is not exact in IEEE-754 double arithmetic is modelled as the exact rational result
passed through a rounding function. The theorems hold for every rounding function that satisfies
`IsRound`; `rne` below (round to nearest with 53 significant bits and gradual underflow) is one.

Nothing is assumed about the result of an operation beyond `2^1023`: there the hardware may overflow to an
infinity, which no rational number is, and every theorem that uses `IsRound` therefore also says that no
operation on the way leaves that range.
-/

namespace GoTfhe

/-- Rounding of binary64 (IEEE 754-2019, 4.3.1). In the normal range the relative error is at most `2^-53`, below it
the absolute error is at most half of the smallest subnormal number `2^-1074`, and numbers with at most 53 significant
bits and no bit below `2^-1074` are kept. -/
structure IsRound (fl : ℚ → ℚ) : Prop where
  normal : ∀ x, 1 / 2 ^ 1022 ≤ |x| → |x| ≤ 2 ^ 1023 → |fl x - x| ≤ |x| / 2 ^ 53
  tiny : ∀ x, |x| ≤ 1 / 2 ^ 1022 → |fl x - x| ≤ 1 / 2 ^ 1075
  exact : ∀ (m e : ℤ), |m| ≤ 2 ^ 53 → -1074 ≤ e → e ≤ 970 → fl (m * 2 ^ e) = m * 2 ^ e

/-- Round to nearest with 53 significant bits, none below `2^-1074` (ties upward, which is irrelevant here). -/
def rne (x : ℚ) : ℚ :=
  if x = 0 then 0
  else
    let e : ℤ := max (Int.log 2 |x| - 52) (-1074)
    (round (x / 2 ^ e) : ℤ) * 2 ^ e

end GoTfhe
