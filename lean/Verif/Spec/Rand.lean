import Verif.Model.Rand

/-!
# Seeds of `math/rand`, and programs that try them all
-/

namespace GoTfhe

/-- The number of different sequences a generator of `math/rand` can produce. -/
def seedClasses : ℕ := 2147483647

/-- The documentation of `rand.Source.Seed` (Go standard library): seed values that have the same remainder when divided
by 2^31 - 1 generate the same sequence. -/
def SeedLaw (G : RandSource) : Prop :=
  ∀ r r' : ℤ, 0 ≤ r → 0 ≤ r' → r % (seedClasses : ℤ) = r' % (seedClasses : ℤ) → G.newSource r = G.newSource r'

/-- The values of `rand.Int63()`. -/
abbrev Int63 := Fin (2 ^ 63)

/-- A program that tries all seeds below 2^31 - 1: is `c` one of the ciphertexts of `encrypt`? -/
def searchSeeds (encrypt : ℤ → Option (List Torus)) (c : List Torus) : Bool :=
  (List.range seedClasses).any fun r : ℕ => decide (encrypt (r : ℤ) = some c)

/-- A program that reads ciphertexts made with a public key, from the public key alone. -/
def readWithoutKey (G : RandSource) (P : Params) (pk : List (List Torus)) (alpha : ℚ) (c : List Torus) : Bool :=
  searchSeeds (pkEncryptBoolR G P pk true alpha) c

/-- A program that computes the key of the delegator from an asymmetric re-encryption key and the public key of the
delegatee: bit `i` is 1 if the entry for level 0 and digit 1 is an encryption of `2^-basebit`. -/
def stealDelegator (G : RandSource) (P : Params) (pk : List (List Torus)) (alpha : ℚ) (basebit : ℕ) (rk : ReencKey) :
    List Torus :=
  (List.range P.tlweLv0.N).map fun i =>
    if searchSeeds (pkEncryptF64R G P pk (1 / 2 ^ basebit) alpha)
      (rk.keyEncryptions.getD (rk.base * rk.t * i + 1) []) then 1 else 0

/-- All secret keys a program can be given, computed by trying all seeds. -/
def allSecretKeys (G : RandSource) (P : Params) : List SecretKey :=
  (List.range seedClasses).filterMap fun r : ℕ => newSecretKeyR G P (r : ℤ)

/-- A generator that hands out the entries of prepared sequences: the call number `n` after `rand.NewSource(r)`, whatever
the method, reads entry `n` of the sequence of that method for the seed `r`. -/
abbrev tapeSource (words : ℤ → ℕ → Torus) (bits : ℤ → ℕ → ℕ) (gauss : ℤ → ℕ → ℚ) : RandSource where
  State := ℤ × ℕ
  newSource r := (r, 0)
  uint32 s := (words s.1 s.2, (s.1, s.2 + 1))
  intn2 s := (bits s.1 s.2, (s.1, s.2 + 1))
  gauss stddev s := (gauss s.1 s.2 * stddev, (s.1, s.2 + 1))

/-- Where the calls for the encryption of zero number `e` start, if the first call decides whether there is a second. -/
def coinPos (bits : ℕ → ℕ) : ℕ → ℕ
  | 0 => 0
  | e + 1 => if bits (coinPos bits e) = 1 then coinPos bits e + 2 else coinPos bits e + 1

end GoTfhe
