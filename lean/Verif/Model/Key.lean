import Verif.Model.Params

/-!
# `/repo/key/key.go`
-/

namespace GoTfhe

/-- `SecretKey` (`/repo/key/key.go:10-13`) -/
structure SecretKey where
  keyLv0 : List Torus
  keyLv1 : List Torus

/-- One of the two sampling loops of `NewSecretKey` (`/repo/key/key.go:25-31`, `33-39`); `coin i` is the
`i`-th value of `rng.Intn(2)`. -/
def keyLoop (n : ℕ) (coin : ℕ → ℕ) : Option (List Torus) :=
  forRange 0 n (mkSlice n (0 : Torus)) fun i k =>
    if coin i = 1 then wr k i 1 else wr k i 0

/-- `NewSecretKey` (`/repo/key/key.go:16-45`) -/
def newSecretKey (P : Params) (coin0 coin1 : ℕ → ℕ) : Option SecretKey := do
  let k0 ← keyLoop P.tlweLv0.N coin0
  let k1 ← keyLoop P.tlweLv1.N coin1
  pure ⟨k0, k1⟩

end GoTfhe
