import Verif.Model.Prelude
import Mathlib.Algebra.BigOperators.Group.Finset.Basic

/-!
# Basic specification vocabulary

Nothing in this file refers to a model function.
-/

namespace GoTfhe

/-- The slice whose `i`-th entry is `g i`. -/
def tab {α : Type*} (n : ℕ) (g : ℕ → α) : List α := (List.range n).map g

/-- Entry `i` of a slice of words, `0` outside (used in statements under length hypotheses). -/
def at' (l : List Torus) (i : ℕ) : Torus := l.getD i 0

/-- LWE phase `b - ⟨a, s⟩` of the ciphertext `c = (a_0, …, a_{n-1}, b)` under the key `s`. -/
def phase (n : ℕ) (c key : List Torus) : Torus :=
  at' c n - ∑ i ∈ Finset.range n, at' c i * at' key i

/-- Size of a torus word as a signed 32-bit error: distance to `0` on the discrete circle. -/
def nrm (x : Torus) : ℕ := x.toInt.natAbs

/-- All entries of a key are `0` or `1`. -/
def IsBinary (key : List Torus) : Prop := ∀ x ∈ key, x = 0 ∨ x = 1

end GoTfhe
