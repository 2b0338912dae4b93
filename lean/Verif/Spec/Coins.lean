import Mathlib.Data.Set.Card
import Mathlib.Data.Real.Basic
import Verif.Model.ProxyReenc

/-!
# Random coins

Public-key encryption throws for each zero encryption a fair coin (use it or not) and, if it is used, a second one (add
or subtract). A tape holds both coins for every throw, whether or not the second one is looked at. The probability of an
event is the number of tapes in it divided by the number of all tapes.
-/

namespace GoTfhe

/-- Two coins for every throw. -/
abbrev CoinTape (ι : Type) := ι → Bool × Bool

/-- The event `E` has probability at most `δ` over a uniform tape. -/
def CoinProbLe {ι : Type} [Fintype ι] (E : CoinTape ι → Prop) (δ : ℝ) : Prop :=
  ((Set.ncard {a | E a} : ℕ) : ℝ) ≤ δ * 4 ^ Fintype.card ι

/-- The event `E` has probability at least `δ` over a uniform tape. -/
def CoinProbGe {ι : Type} [Fintype ι] (E : CoinTape ι → Prop) (δ : ℝ) : Prop :=
  δ * 4 ^ Fintype.card ι ≤ ((Set.ncard {a | E a} : ℕ) : ℝ)

/-- The coins of one public-key encryption with a key of `S` zero encryptions. -/
def CoinTape.coins {S : ℕ} (a : CoinTape (Fin S)) : Coins where
  sel e := if h : e < S then (a ⟨e, h⟩).1 else false
  add e := if h : e < S then (a ⟨e, h⟩).2 else false

/-- The throws of one asymmetric re-encryption key: source dimension `n`, `t` digit places, `B` digits, `S` zero
encryptions. -/
abbrev ReencThrow (n t B S : ℕ) := Fin n × Fin t × Fin B × Fin S

/-- The coins of the encryption at `(i, j, k)`. -/
def CoinTape.reencCoins {n t B S : ℕ} (a : CoinTape (ReencThrow n t B S)) (i j k : ℕ) : Coins where
  sel e := if h : i < n ∧ j < t ∧ k < B ∧ e < S then (a (⟨i, h.1⟩, ⟨j, h.2.1⟩, ⟨k, h.2.2.1⟩, ⟨e, h.2.2.2⟩)).1 else false
  add e := if h : i < n ∧ j < t ∧ k < B ∧ e < S then (a (⟨i, h.1⟩, ⟨j, h.2.1⟩, ⟨k, h.2.2.1⟩, ⟨e, h.2.2.2⟩)).2 else false

end GoTfhe
