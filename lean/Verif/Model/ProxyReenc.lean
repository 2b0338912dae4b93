import Verif.Model.Tlwe
import Verif.Model.Alias

/-!
# `/repo/proxyreenc/proxyreenc.go`

Pointers to ciphertexts are the ciphertexts themselves, except in `reencryptH`, where they are references
into a heap.
-/

namespace GoTfhe

/-- `NewPublicKeyLv0WithParams` (`/repo/proxyreenc/proxyreenc.go:79-92`): `draw e` and `sample e` are the
mask draws and the Gaussian draw of encryption `e`. `make([]*TLWELv0, size)` followed by one assignment per
index is an append per index here. -/
def newPublicKeyLv0WithParams (P : Params) (secretKey : List Torus) (size : ℕ) (draw : ℕ → ℕ → Torus)
    (sample : ℕ → ℚ) : Option (List (List Torus)) :=
  forRange 0 size [] fun i encs => do
    let ct ← tlwe0EncryptF64 P (newTLWELv0 P) 0 secretKey (draw i) (sample i)
    pure (encs ++ [ct])

/-- `NewPublicKeyLv0` (`/repo/proxyreenc/proxyreenc.go:69-71`) -/
def newPublicKeyLv0 (P : Params) (secretKey : List Torus) (draw : ℕ → ℕ → Torus) (sample : ℕ → ℚ) :
    Option (List (List Torus)) :=
  newPublicKeyLv0WithParams P secretKey (P.tlweLv0.N * 2) draw sample

/-- The coins of one `PublicKeyLv0.EncryptF64` call: for encryption `e`, `sel e` is the outcome of
`rng.Intn(2) == 1` deciding whether it is used and `add e` the outcome of the second `rng.Intn(2) == 1`,
which is only drawn if it is. -/
structure Coins where
  sel : ℕ → Bool
  add : ℕ → Bool

/-- `(*PublicKeyLv0).EncryptF64` (`/repo/proxyreenc/proxyreenc.go:104-135`); `sample` is the fresh Gaussian
draw. -/
def pkEncryptF64 (P : Params) (pk : List (List Torus)) (plaintext : ℚ) (coins : Coins) (sample : ℚ) :
    Option (List Torus) := do
  let result ← tlwe0SetB P (newTLWELv0 P) (f64ToTorus plaintext)
  let n := P.tlweLv0.N
  let result ← forRange 0 pk.length result fun e result => do
    let enc ← rd pk e
    if coins.sel e then
      if coins.add e then
        forRange 0 (n + 1) result fun i result => do
          let r ← rd result i
          let c ← rd enc i
          wr result i (r + c)
      else
        forRange 0 (n + 1) result fun i result => do
          let r ← rd result i
          let c ← rd enc i
          wr result i (r - c)
    else pure result
  let noise := gaussianF64 0 sample
  let b ← tlwe0B P result
  tlwe0SetB P result (b + noise)

/-- `(*PublicKeyLv0).EncryptBool` (`/repo/proxyreenc/proxyreenc.go:144-152`) -/
def pkEncryptBool (P : Params) (pk : List (List Torus)) (plaintext : Bool) (coins : Coins) (sample : ℚ) :
    Option (List Torus) :=
  let p : ℚ := if plaintext then 0.125 else -0.125
  pkEncryptF64 P pk p coins sample

/-- `ProxyReencryptionKey` (`/repo/proxyreenc/proxyreenc.go:159-163`) -/
structure ReencKey where
  keyEncryptions : List (List Torus)
  base : ℕ
  t : ℕ

/-- `p := (float64(k) * float64(keyFrom[i])) / float64(uint32(1)<<shiftAmount)`
(`/repo/proxyreenc/proxyreenc.go:216`, `285`). For binary keys and `shiftAmount ≤ 31` the doubles are exact.
From 32 on `uint32(1)<<shiftAmount` is `0` and `p` an infinity or NaN, whose conversion to an integer Go
leaves to the implementation: `undef` is a number with the same conversion. -/
def reencPlain (k shiftAmount : ℕ) (s : Torus) (undef : ℚ) : ℚ :=
  if shiftAmount < 32 then ((k : ℚ) * (s.toNat : ℚ)) / 2 ^ shiftAmount else undef

/-- The loop nest of both constructors (`/repo/proxyreenc/proxyreenc.go:205-225`, `274-293`); `mk` computes
the ciphertext stored at `(i, j, k)` from the plaintext. -/
def reencFill (n base basebit t : ℕ) (keyFrom : List Torus) (undef : ℕ → ℕ → ℕ → ℚ)
    (mk : ℕ → ℕ → ℕ → ℚ → Option (List Torus)) (enc : List (List Torus)) : Option (List (List Torus)) :=
  forRange 0 n enc fun i enc =>
    forRange 0 t enc fun j enc =>
      forRange 0 base enc fun k enc =>
        if k = 0 then some enc
        else do
          let shiftAmount := (j + 1) * basebit
          let s ← rd keyFrom i
          let p := reencPlain k shiftAmount s (undef i j k)
          let idx := (base * t * i) + (base * j) + k
          let c ← mk i j k p
          wr enc idx c

/-- `NewProxyReencryptionKeyAsymmetricWithParams` (`/repo/proxyreenc/proxyreenc.go:190-232`) -/
def newReencKeyAsym (P : Params) (keyFrom : List Torus) (pkTo : List (List Torus)) (basebit t : ℕ)
    (coins : ℕ → ℕ → ℕ → Coins) (sample : ℕ → ℕ → ℕ → ℚ) (undef : ℕ → ℕ → ℕ → ℚ) : Option ReencKey := do
  let base := 1 <<< basebit
  let n := P.tlweLv0.N
  let enc := mkSlice (base * t * n) (newTLWELv0 P)
  let enc ← reencFill n base basebit t keyFrom undef
    (fun i j k p => pkEncryptF64 P pkTo p (coins i j k) (sample i j k)) enc
  pure ⟨enc, base, t⟩

/-- `NewProxyReencryptionKeySymmetricWithParams` (`/repo/proxyreenc/proxyreenc.go:259-300`): the ciphertext
encrypted in place is the fresh zero one made for that index. -/
def newReencKeySym (P : Params) (keyFrom keyTo : List Torus) (basebit t : ℕ)
    (draw : ℕ → ℕ → ℕ → ℕ → Torus) (sample : ℕ → ℕ → ℕ → ℚ) (undef : ℕ → ℕ → ℕ → ℚ) : Option ReencKey := do
  let base := 1 <<< basebit
  let n := P.tlweLv0.N
  let enc := mkSlice (base * t * n) (newTLWELv0 P)
  let enc ← reencFill n base basebit t keyFrom undef
    (fun i j k p => tlwe0EncryptF64 P (newTLWELv0 P) p keyTo (draw i j k) (sample i j k)) enc
  pure ⟨enc, base, t⟩

/-- `NewProxyReencryptionKeyAsymmetric` (`/repo/proxyreenc/proxyreenc.go:180-188`) -/
def newReencKeyAsymDefault (P : Params) (keyFrom : List Torus) (pkTo : List (List Torus))
    (coins : ℕ → ℕ → ℕ → Coins) (sample : ℕ → ℕ → ℕ → ℚ) (undef : ℕ → ℕ → ℕ → ℚ) : Option ReencKey :=
  newReencKeyAsym P keyFrom pkTo P.trgswLv1.BASEBIT P.trgswLv1.IKS_T coins sample undef

/-- `NewProxyReencryptionKeySymmetric` (`/repo/proxyreenc/proxyreenc.go:249-257`) -/
def newReencKeySymDefault (P : Params) (keyFrom keyTo : List Torus) (draw : ℕ → ℕ → ℕ → ℕ → Torus)
    (sample : ℕ → ℕ → ℕ → ℚ) (undef : ℕ → ℕ → ℕ → ℚ) : Option ReencKey :=
  newReencKeySym P keyFrom keyTo P.trgswLv1.BASEBIT P.trgswLv1.IKS_T draw sample undef

/-- `for (1 << basebit) < reencKey.Base { basebit++ }` (`/repo/proxyreenc/proxyreenc.go:325-328`). `1 << 62` is
the largest power of two in an `int`; for a larger `Base` the loop does not end (`none`). -/
def basebitLoop (base : ℕ) : ℕ → ℕ → Option ℕ
  | 0, _ => none
  | fuel + 1, b => if 1 <<< b < base then basebitLoop base fuel (b + 1) else some b

/-- `ReencryptTLWELv0` (`/repo/proxyreenc/proxyreenc.go:321-366`); a negative shift count panics. -/
def reencrypt (P : Params) (ctFrom : List Torus) (rk : ReencKey) : Option (List Torus) := do
  let n := P.tlweLv0.N
  let basebit ← basebitLoop rk.base 63 0
  let base := rk.base
  let t := rk.t
  let b ← tlwe0B P ctFrom
  let result ← tlwe0SetB P (newTLWELv0 P) b
  if 32 < 1 + basebit * t then none else
  let precOffset : Torus := 1#32 <<< (32 - (1 + basebit * t))
  forRange 0 n result fun i result => do
    let a ← rd ctFrom i
    let aBar := a + precOffset
    forRange 0 t result fun j result =>
      if 32 < (j + 1) * basebit then none else
      let shift := 32 - (j + 1) * basebit
      let mask : Torus := (1#32 <<< basebit) - 1
      let k := (aBar >>> shift) &&& mask
      if k ≠ 0 then
        let idx := (base * t * i) + (base * j) + k.toNat
        forRange 0 (n + 1) result fun x result => do
          let r ← rd result x
          let e ← rd rk.keyEncryptions idx
          let c ← rd e x
          wr result x (r - c)
      else some result

/-- `ReencryptTLWELv0` (`/repo/proxyreenc/proxyreenc.go:321-366`) with every ciphertext in a heap: `ct` and the
elements of `keys` are references, any of which may coincide, and `fresh` is the reference returned by
`NewTLWELv0`. -/
def reencryptH (P : Params) (h : LHeap) (fresh ct : ℕ) (keys : List ℕ) (rbase t : ℕ) : Option LHeap := do
  let n := P.tlweLv0.N
  let basebit ← basebitLoop rbase 63 0
  let h := Function.update h fresh (newTLWELv0 P)
  let b ← tlwe0B P (h ct)
  let r ← tlwe0SetB P (h fresh) b
  let h := Function.update h fresh r
  if 32 < 1 + basebit * t then none else
  let precOffset : Torus := 1#32 <<< (32 - (1 + basebit * t))
  forRange 0 n h fun i h => do
    let a ← rd (h ct) i
    let aBar := a + precOffset
    forRange 0 t h fun j h =>
      if 32 < (j + 1) * basebit then none else
      let shift := 32 - (j + 1) * basebit
      let mask : Torus := (1#32 <<< basebit) - 1
      let k := (aBar >>> shift) &&& mask
      if k ≠ 0 then
        let idx := (rbase * t * i) + (rbase * j) + k.toNat
        forRange 0 (n + 1) h fun x h => do
          let r ← rd (h fresh) x
          let e ← rd keys idx
          let c ← rd (h e) x
          let r' ← wr (h fresh) x (r - c)
          pure (Function.update h fresh r')
      else some h

/-- Re-encryption along a chain of keys: the loop a client writes around `ReencryptTLWELv0`
(two hops in `/repo/examples/proxy_reencryption/main.go:125-134`). -/
def reencryptChain (P : Params) (ct : List Torus) (rks : List ReencKey) : Option (List Torus) :=
  rks.foldlM (reencrypt P) ct

end GoTfhe
