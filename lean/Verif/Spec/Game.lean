import Verif.Model.Key
import Verif.Model.Tlwe
import Verif.Spec.Mask
import Mathlib.Data.Set.Card
import Mathlib.Data.Fintype.Card

/-!
# The game of a reader of ciphertexts

A key is drawn, then a number of plaintexts is encrypted one after the other; each plaintext may be chosen from the
ciphertexts seen so far. The reader sees all the ciphertexts.
-/

namespace GoTfhe

/-- The probability of `E` over a uniform element of a finite type. -/
noncomputable def uprob {Ω : Type*} [Fintype Ω] (E : Ω → Prop) : ℝ := (Set.ncard {x | E x} : ℝ) / Fintype.card Ω

/-- The results of `rng.Intn(2)` in the key loop. -/
def keyCoins {n : ℕ} (s : Fin n → Bool) : ℕ → ℕ := fun i => if h : i < n then (s ⟨i, h⟩).toNat else 0

/-- `k` encryptions at level 0 under one key. `choose` and `noise` give the next plaintext and the next Gaussian draw
from the ciphertexts so far. -/
def session (P : Params) (key : List Torus) (choose noise : List (List Torus) → ℚ) :
    (k : ℕ) → List (List Torus) → (Fin k → Mask P.tlweLv0.N) → Option (List (List Torus))
  | 0, seen, _ => some seen
  | k + 1, seen, a => do
    let c ← tlwe0EncryptF64 P (newTLWELv0 P) (choose seen) key (a 0).draw (noise seen)
    session P key choose noise k (seen ++ [c]) (Fin.tail a)

/-- Key generation followed by a session: what the reader sees. -/
def game (P : Params) (choose noise : List (List Torus) → ℚ) (coin1 : ℕ → ℕ) (k : ℕ)
    (r : (Fin P.tlweLv0.N → Bool) × (Fin k → Mask P.tlweLv0.N)) : Option (List (List Torus)) := do
  let sk ← newSecretKey P (keyCoins r.1) coin1
  session P sk.keyLv0 choose noise k [] r.2

end GoTfhe
