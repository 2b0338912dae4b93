import Verif.Model.CloudKey
import Verif.Model.ProxyReenc

/-!
# The generators of `math/rand`

`NewSecretKey` and every encryption make a generator of their own, `rng := rand.New(rand.NewSource(rand.Int63()))`
(`/repo/key/key.go:17`, `/repo/tlwe/tlwe.go:37`, `157`, `/repo/trlwe/trlwe.go:29`, `/repo/proxyreenc/proxyreenc.go:105`),
and take all their random values from it. The functions here are the same functions as in `Verif.Model.Key`,
`Verif.Model.Tlwe`, `Verif.Model.Trlwe` and `Verif.Model.ProxyReenc`, with the values that those take as arguments
read from such a generator; `r` is the value of `rand.Int63()`.

The generator itself is not in `/repo`. It is any state machine with the methods the library calls.
-/

namespace GoTfhe

/-- `rand.NewSource` and the methods of `*rand.Rand` that `/repo` calls. `gauss stddev` is the double
`rng.NormFloat64() * stddev` (`/repo/utils/utils.go:32`). -/
structure RandSource where
  State : Type
  newSource : ℤ → State
  uint32 : State → Torus × State
  intn2 : State → ℕ × State
  gauss : ℚ → State → ℚ × State

/-- The state after `i` calls of the method `f`. -/
def afterCalls {σ α : Type} (f : σ → α × σ) (i : ℕ) (s : σ) : σ := (fun s => (f s).2)^[i] s

/-- The result of call number `i` of the method `f`. -/
def callAt {σ α : Type} (f : σ → α × σ) (s : σ) (i : ℕ) : α := (f (afterCalls f i s)).1

/-- `NewSecretKey` (`/repo/key/key.go:16-45`): the second loop goes on with the same generator. -/
def newSecretKeyR (G : RandSource) (P : Params) (r : ℤ) : Option SecretKey :=
  let s := G.newSource r
  newSecretKey P (callAt G.intn2 s) (callAt G.intn2 (afterCalls G.intn2 P.tlweLv0.N s))

/-- `(*TLWELv0).EncryptF64` (`/repo/tlwe/tlwe.go:36-50`): one word per dimension, then one Gaussian draw. -/
def tlwe0EncryptF64R (G : RandSource) (P : Params) (t : List Torus) (p alpha : ℚ) (key : List Torus) (r : ℤ) :
    Option (List Torus) :=
  let s := G.newSource r
  tlwe0EncryptF64 P t p key (callAt G.uint32 s) (G.gauss alpha (afterCalls G.uint32 P.tlweLv0.N s)).1

/-- `(*TLWELv1).EncryptF64` (`/repo/tlwe/tlwe.go:156-170`) -/
def tlwe1EncryptF64R (G : RandSource) (P : Params) (t : List Torus) (p alpha : ℚ) (key : List Torus) (r : ℤ) :
    Option (List Torus) :=
  let s := G.newSource r
  tlwe1EncryptF64 P t p key (callAt G.uint32 s) (G.gauss alpha (afterCalls G.uint32 P.tlweLv1.N s)).1

/-- `(*TRLWELv1).EncryptF64` (`/repo/trlwe/trlwe.go:28-50`): one word per coefficient, then one Gaussian draw per
coefficient. -/
def trlweEncryptF64R (G : RandSource) (P : Params) (O : FourierOps) (t : Trlwe) (p : List ℚ) (alpha : ℚ)
    (key : List Torus) (r : ℤ) : Option Trlwe :=
  let s := G.newSource r
  trlweEncryptF64 P O t p key (callAt G.uint32 s) (callAt (G.gauss alpha) (afterCalls G.uint32 P.trlweLv1.N s))

/-- The draws for one encryption of zero of the public key (`/repo/proxyreenc/proxyreenc.go:116-118`): the second
`rng.Intn(2)` is only called if the first gives 1. -/
def pkCoin (G : RandSource) (s : G.State) : (Bool × Bool) × G.State :=
  let x := G.intn2 s
  if x.1 = 1 then
    let y := G.intn2 x.2
    ((true, decide (y.1 = 1)), y.2)
  else ((false, false), x.2)

/-- `(*PublicKeyLv0).EncryptF64` (`/repo/proxyreenc/proxyreenc.go:104-135`) -/
def pkEncryptF64R (G : RandSource) (P : Params) (pk : List (List Torus)) (plaintext alpha : ℚ) (r : ℤ) :
    Option (List Torus) :=
  let s := G.newSource r
  pkEncryptF64 P pk plaintext ⟨fun e => (callAt (pkCoin G) s e).1, fun e => (callAt (pkCoin G) s e).2⟩
    (G.gauss alpha (afterCalls (pkCoin G) pk.length s)).1

/-- `(*PublicKeyLv0).EncryptBool` (`/repo/proxyreenc/proxyreenc.go:144-152`) -/
def pkEncryptBoolR (G : RandSource) (P : Params) (pk : List (List Torus)) (plaintext : Bool) (alpha : ℚ) (r : ℤ) :
    Option (List Torus) :=
  let p : ℚ := if plaintext then 0.125 else -0.125
  pkEncryptF64R G P pk p alpha r

/-- The randomness of `NewCloudKey` (`/repo/cloudkey/cloudkey.go:24-31`): the entry `(i, j, k)` of the key-switching key
has its own generator, and row `row` of the entry `i` of the bootstrapping key has one. -/
def keyGenRandR (G : RandSource) (P : Params) (rK : ℕ → ℕ → ℕ → ℤ) (rB : ℕ → ℕ → ℤ) : KeyGenRand where
  kskDraw i j k := callAt G.uint32 (G.newSource (rK i j k))
  kskSample i j k := (G.gauss (kskAlpha P) (afterCalls G.uint32 P.tlweLv0.N (G.newSource (rK i j k)))).1
  bskDraw i row := callAt G.uint32 (G.newSource (rB i row))
  bskSample i row := callAt (G.gauss (bskAlpha P)) (afterCalls G.uint32 P.trlweLv1.N (G.newSource (rB i row)))

/-- `NewProxyReencryptionKeyAsymmetricWithParams` (`/repo/proxyreenc/proxyreenc.go:190-233`): one generator per entry. -/
def newReencKeyAsymR (G : RandSource) (P : Params) (keyFrom : List Torus) (pkTo : List (List Torus)) (alpha : ℚ)
    (basebit t : ℕ) (r : ℕ → ℕ → ℕ → ℤ) (undef : ℕ → ℕ → ℕ → ℚ) : Option ReencKey :=
  newReencKeyAsym P keyFrom pkTo basebit t
    (fun i j k => ⟨fun e => (callAt (pkCoin G) (G.newSource (r i j k)) e).1,
      fun e => (callAt (pkCoin G) (G.newSource (r i j k)) e).2⟩)
    (fun i j k => (G.gauss alpha (afterCalls (pkCoin G) pkTo.length (G.newSource (r i j k)))).1) undef

end GoTfhe
