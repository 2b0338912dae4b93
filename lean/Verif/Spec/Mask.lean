import Verif.Model.Params
import Mathlib.Analysis.SpecialFunctions.Exp

/-!
# Uniformly random masks

A fresh encryption draws one uniform 32-bit word per dimension. The probability of an event is the number of masks in
it divided by the number `(2^32)^n` of all masks.
-/

namespace GoTfhe

/-- A mask: `n` words of 32 bits. -/
abbrev Mask (n : ℕ) := Fin n → Fin (2 ^ 32)

/-- The draws of an encryption with this mask. -/
def Mask.draw {n : ℕ} (a : Mask n) : ℕ → Torus := fun i => if h : i < n then BitVec.ofFin (a ⟨i, h⟩) else 0

/-- The event `E` has probability at most `δ` over a uniform mask. -/
def MaskProbLe {n : ℕ} (E : Mask n → Prop) (δ : ℝ) : Prop := ((Set.ncard {a | E a} : ℕ) : ℝ) ≤ δ * (2 ^ 32) ^ n

/-- The event `E` has probability at least `δ` over a uniform mask. -/
def MaskProbGe {n : ℕ} (E : Mask n → Prop) (δ : ℝ) : Prop := δ * (2 ^ 32) ^ n ≤ ((Set.ncard {a | E a} : ℕ) : ℝ)

/-- The bound for rounding: `2 exp(-3 T^2 / (2 w h^2))` with `h = 2^32 / 4N` half a rounding step, `w` a bound on the
weight of the key and `T = d - h - w/2`. -/
noncomputable def driftTail (P : Params) (w d : ℕ) : ℝ :=
  2 * Real.exp (-(3 * ((d : ℝ) - 2 ^ (30 - P.trgswLv1.NBIT) - w / 2) ^ 2 / (2 * w * (2 ^ (30 - P.trgswLv1.NBIT)) ^ 2)))

end GoTfhe
