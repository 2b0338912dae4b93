import Verif.Model.Params
import Verif.Spec.Keys
import Verif.Spec.Negacyclic

/-!
# What bootstrapping and the Boolean gates should compute
-/

namespace GoTfhe

/-- The nearest integer to `x * 2N / 2^32` (ties upward). -/
def nearest2N (N x : ℕ) : ℤ := ((x * (2 * N) + 2 ^ 31) / 2 ^ 32 : ℕ)

/-- The phase of `c` under the binary key `s` after every coefficient has been rounded to a multiple of
`2^32 / 2N`; an integer modulo `2N`. -/
def msPhase (N n : ℕ) (c s : List Torus) : ℤ :=
  nearest2N N (at' c n).toNat
    - ∑ i ∈ Finset.range n, ((at' s i).toNat : ℤ) * nearest2N N (at' c i).toNat

/-- Rounding has moved the phase of `c` by at most `d`: some representative modulo `2N` of the rounded phase, scaled
back to the torus, is within `d` of the phase. -/
def Near (P : Params) (c s : List Torus) (d : ℕ) : Prop :=
  ∃ ρ : ℤ, (2 * P.trgswLv1.N : ℤ) ∣ msPhase P.trgswLv1.N P.tlweLv0.N c s - ρ ∧
    |ρ * 2 ^ (31 - P.trgswLv1.NBIT) - (phase P.tlweLv0.N c s).toInt| ≤ d

/-- The encoding of a bit: `±1/8`. -/
def bval (b : Bool) : Torus := if b then 536870912#32 else -536870912#32

/-- `c` encrypts the bit `b` under `s` with noise `e`. -/
def Enc (n : ℕ) (c s : List Torus) (b : Bool) (e : Torus) : Prop :=
  c.length = n + 1 ∧ phase n c s = bval b + e

/-- The two-input gates. -/
inductive Gate2
  | nand | and | or | xor | xnor | nor | andny | andyn | orny | oryn
deriving DecidableEq

/-- Their truth tables. -/
def Gate2.eval : Gate2 → Bool → Bool → Bool
  | .nand, a, b => !(a && b)
  | .and, a, b => a && b
  | .or, a, b => a || b
  | .xor, a, b => a != b
  | .xnor, a, b => a == b
  | .nor, a, b => !(a || b)
  | .andny, a, b => !a && b
  | .andyn, a, b => a && !b
  | .orny, a, b => !a || b
  | .oryn, a, b => a || !b

/-- How much the noise of the second input counts. -/
def Gate2.mult : Gate2 → ℕ
  | .xor => 2
  | .xnor => 2
  | _ => 1

end GoTfhe
