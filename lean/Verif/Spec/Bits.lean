import Mathlib.Data.Nat.Notation

/-! # Little-endian bit strings -/

namespace GoTfhe

/-- Value of a little-endian bit string. -/
def valLE : List Bool → ℕ
  | [] => 0
  | b :: bs => b.toNat + 2 * valLE bs

end GoTfhe
