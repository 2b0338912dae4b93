import Verif.Model.Tlwe

/-!
# Functions whose arguments may be the same object

Ciphertexts live in a heap indexed by references; two arguments may be the same reference.
-/

namespace GoTfhe

/-- A heap of LWE ciphertexts. -/
abbrev LHeap := ℕ → List Torus

/-- `(*TLWELv0).AddAssign` (`/repo/tlwe/tlwe.go:85-89`) on references: reads and writes go through
the heap, so the operands change while the loop runs if they alias the output. -/
def tlwe0AddAssignH (h : LHeap) (t other output : ℕ) : Option LHeap :=
  forRange 0 (h output).length h fun i h => do
    let x ← rd (h t) i
    let y ← rd (h other) i
    let o ← wr (h output) i (x + y)
    pure (Function.update h output o)

end GoTfhe
