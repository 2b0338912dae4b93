import Verif.Model.CloudKey

/-!
# The random numbers of key generation as finite families
-/

namespace GoTfhe

/-- A polynomial as a function on all indices. -/
def polyOf {N : ℕ} (u : Fin N → Torus) (k : ℕ) : Torus := if h : k < N then u ⟨k, h⟩ else 0

/-- The masks of one entry of the bootstrapping key. -/
abbrev EntryMask (P : Params) := Fin (P.trgswLv1.L * 2) → Fin P.trgswLv1.N → Torus

/-- The masks of the bootstrapping key. -/
abbrev KeyMasks (P : Params) := Fin P.tlweLv0.N → EntryMask P

/-- The masks as draws of key generation. -/
def maskDraw {P : Params} (ω : KeyMasks P) (i j k : ℕ) : Torus :=
  if hi : i < P.tlweLv0.N then if hj : j < P.trgswLv1.L * 2 then polyOf (ω ⟨i, hi⟩ ⟨j, hj⟩) k else 0 else 0

/-- Key generation with the masks `ω`. -/
def KeyGenRand.withEntryMasks {P : Params} (R : KeyGenRand) (ω : KeyMasks P) : KeyGenRand :=
  { R with bskDraw := maskDraw ω }

/-- Names of the normal numbers drawn by key generation: `inl (i, j, k)` is coefficient `k` of row `j` of entry `i` of
the bootstrapping key, `inr (i, j, k)` the number for entry `(i, j, k)` of the key-switching key. -/
abbrev DrawIx := (ℕ × ℕ × ℕ) ⊕ (ℕ × ℕ × ℕ)

/-- The masks of `R` with the normal numbers `y`. -/
def KeyGenRand.withDraws (R : KeyGenRand) (y : DrawIx → ℚ) : KeyGenRand :=
  { R with bskSample := fun i j k => y (.inl (i, j, k)), kskSample := fun i j k => y (.inr (i, j, k)) }

end GoTfhe
