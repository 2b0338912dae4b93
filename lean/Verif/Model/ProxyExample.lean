import Verif.Model.ProxyReenc

/-!
# `/repo/examples/proxy_reencryption/main.go`: delegation to Bob, and on to Carol
-/

namespace GoTfhe

/-- What a public key and a re-encryption key made with it draw: masks and noise of the public key, coins and noise of the
re-encryption key, and the values that Go leaves to the implementation (see `reencPlain`). -/
structure ProxyRand where
  pdraw : ℕ → ℕ → Torus
  psample : ℕ → ℚ
  coins : ℕ → ℕ → ℕ → Coins
  sample : ℕ → ℕ → ℕ → ℚ
  undef : ℕ → ℕ → ℕ → ℚ

/-- What the program prints, apart from times. -/
structure ProxyOut where
  decrypted : List Bool
  correct : ℕ
  bob : Bool
  carol : Bool
  deriving DecidableEq

/-- `main` (`/repo/examples/proxy_reencryption/main.go:21-156`). `messages` and `test` are the bits to be encrypted with the
mask and noise of each encryption; the program has `true, false, true, true, false` (`:43`) and `true` (`:120`). Left out:
generating the secret keys, which are arguments; printing; the times; and `accuracy`, which is `correct` over the number
of messages as a percentage. -/
def proxyExample (P : Params) (alice bob carol : List Torus) (messages : List (Bool × (ℕ → Torus) × ℚ))
    (test : Bool × (ℕ → Torus) × ℚ) (ab bc : ProxyRand) : Option ProxyOut := do
  -- `:35`
  let bobPublicKey ← newPublicKeyLv0 P bob ab.pdraw ab.psample
  -- `:43-50`
  let aliceCts ← messages.mapM fun m => tlwe0EncryptBool P (newTLWELv0 P) m.1 alice m.2.1 m.2.2
  -- `:62`
  let reencKey ← newReencKeyAsymDefault P alice bobPublicKey ab.coins ab.sample ab.undef
  -- `:71-74`
  let bobCts ← aliceCts.mapM fun ct => reencrypt P ct reencKey
  -- `:82-86`
  let decrypted ← bobCts.mapM fun ct => tlwe0DecryptBool P ct bob
  -- `:81`, `:89-97`
  let correct ← forRange 0 messages.length 0 fun i correct => do
    let original ← rd messages i
    let d ← rd decrypted i
    pure (if original.1 = d then correct + 1 else correct)
  -- `:114-117`
  let carolPublicKey ← newPublicKeyLv0 P carol bc.pdraw bc.psample
  let reencKeyBC ← newReencKeyAsymDefault P bob carolPublicKey bc.coins bc.sample bc.undef
  -- `:120-127`
  let aliceCt ← tlwe0EncryptBool P (newTLWELv0 P) test.1 alice test.2.1 test.2.2
  let bobCt ← reencrypt P aliceCt reencKey
  let bobDecrypted ← tlwe0DecryptBool P bobCt bob
  -- `:134-136`
  let carolCt ← reencrypt P bobCt reencKeyBC
  let carolDecrypted ← tlwe0DecryptBool P carolCt carol
  pure ⟨decrypted, correct, bobDecrypted, carolDecrypted⟩

end GoTfhe
