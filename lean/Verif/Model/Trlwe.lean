import Verif.Model.Tlwe
import Verif.Model.Fourier

/-!
# `/repo/trlwe/trlwe.go`, `/repo/trlwe/trlwe_ops.go`
-/

namespace GoTfhe

/-- `TRLWELv1` (`/repo/trlwe/trlwe.go:13-16`) -/
structure Trlwe where
  A : List Torus
  B : List Torus
deriving DecidableEq

/-- `NewTRLWELv1` (`/repo/trlwe/trlwe.go:19-25`) -/
def newTRLWELv1 (P : Params) : Trlwe := ⟨mkSlice P.trlweLv1.N 0, mkSlice P.trlweLv1.N 0⟩

/-- `for i := 0; i < n; i++ { b[i] += x[i] }` (`/repo/trlwe/trlwe.go:45-47` and elsewhere) -/
def addInto (n : ℕ) (b x : List Torus) : Option (List Torus) :=
  forRange 0 n b fun i b => do
    let v ← rd b i
    let w ← rd x i
    wr b i (v + w)

/-- `(*TRLWELv1).EncryptF64` (`/repo/trlwe/trlwe.go:28-50`). `draw i` is the `i`-th `rng.Uint32()`,
`samples i` the `i`-th Gaussian draw. -/
def trlweEncryptF64 (P : Params) (O : FourierOps) (t : Trlwe) (p : List ℚ) (key : List Torus)
    (draw : ℕ → Torus) (samples : ℕ → ℚ) : Option Trlwe := do
  let n := P.trlweLv1.N
  let A ← forRange 0 n t.A fun i a => wr a i (draw i)
  let B := gaussianF64Vec p samples
  let polyRes ← O.mulPoly A key
  let B ← addInto n B polyRes
  pure ⟨A, B⟩

/-- `(*TRLWELv1).EncryptBool` (`/repo/trlwe/trlwe.go:53-63`) -/
def trlweEncryptBool (P : Params) (O : FourierOps) (t : Trlwe) (pBool : List Bool)
    (key : List Torus) (draw : ℕ → Torus) (samples : ℕ → ℚ) : Option Trlwe :=
  let pF64 : List ℚ := pBool.map fun b => if b then 0.125 else -0.125
  trlweEncryptF64 P O t pF64 key draw samples

/-- `(*TRLWELv1).DecryptBool` (`/repo/trlwe/trlwe.go:66-81`) -/
def trlweDecryptBool (O : FourierOps) (t : Trlwe) (key : List Torus) : Option (List Bool) := do
  let n := t.A.length
  let polyRes ← O.mulPoly t.A key
  forRange 0 n (mkSlice n false) fun i r => do
    let b ← rd t.B i
    let x ← rd polyRes i
    let value := (b - x).toInt
    wr r i (decide (value ≥ 0))

/-- The loop of the sample extraction functions (`/repo/trlwe/trlwe.go:118-124`, `144-150`,
`/repo/trlwe/trlwe_ops.go:13-19`). The index `k` is a natural number here: a negative one panics at
`trlwe.B[k]`. -/
def extractLoop (n : ℕ) (A : List Torus) (k : ℕ) (out : List Torus) : Option (List Torus) :=
  forRange 0 n out fun i out =>
    if i ≤ k then do
      let x ← rd A (k - i)
      wr out i x
    else do
      let x ← rd A (n + k - i)
      wr out i (BitVec.allOnes 32 - x)

/-- `SampleExtractIndexAssign` (`/repo/trlwe/trlwe_ops.go:10-21`) -/
def sampleExtractIndexAssign (P : Params) (t : Trlwe) (k : ℕ) (output : List Torus) :
    Option (List Torus) := do
  let output ← extractLoop P.trlweLv1.N t.A k output
  let b ← rd t.B k
  tlwe1SetB P output b

/-- `SampleExtractIndex` (`/repo/trlwe/trlwe.go:114-128`) -/
def sampleExtractIndex (P : Params) (t : Trlwe) (k : ℕ) : Option (List Torus) := do
  let result ← extractLoop P.trlweLv1.N t.A k (newTLWELv1 P)
  let b ← rd t.B k
  tlwe1SetB P result b

/-- `SampleExtractIndex2` (`/repo/trlwe/trlwe.go:133-154`) -/
def sampleExtractIndex2 (P : Params) (t : Trlwe) (k : ℕ) : Option (List Torus) :=
  if t.A.length ≠ P.tlweLv0.N then none
  else do
    let result ← extractLoop P.tlweLv0.N t.A k (newTLWELv0 P)
    let b ← rd t.B k
    tlwe0SetB P result b

end GoTfhe
