import Verif.Spec.Basic

/-!
# What evaluation keys should contain
-/

namespace GoTfhe

/-- Entry `idx` of a table of ciphertexts. -/
def entry (t : List (List Torus)) (idx : ℕ) : List Torus := t.getD idx []

/-- `ksk` is a key-switching key from `s1` (dimension `n1`) to `s0` (dimension `n0`) with digits of
`b` bits and `T` levels: the entry for coefficient `i`, level `j`, digit `k` encrypts
`k * s1_i * 2^(32-(j+1)b)` with error `err i j k`. -/
def IsKsk (n0 n1 b T : ℕ) (ksk : List (List Torus)) (s0 s1 : List Torus)
    (err : ℕ → ℕ → ℕ → Torus) : Prop :=
  ∀ i < n1, ∀ j < T, ∀ k, 1 ≤ k → k < 2 ^ b →
    phase n0 (entry ksk (2 ^ b * T * i + 2 ^ b * j + k)) s0
      = ((k * 2 ^ (32 - (j + 1) * b) : ℕ) : Torus) * at' s1 i + err i j k

/-- Number of ones of a binary key, as the sum of its first `n` entries. -/
def weight (n : ℕ) (s : List Torus) : ℕ := ∑ i ∈ Finset.range n, (at' s i).toNat

end GoTfhe
