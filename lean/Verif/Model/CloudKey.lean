import Verif.Model.Trgsw
import Verif.Model.Sched
import Verif.Model.Key

/-!
# `/repo/cloudkey/cloudkey.go`
-/

namespace GoTfhe

/-- `CloudKey` (`/repo/cloudkey/cloudkey.go:16-21`) -/
structure CloudKey (O : FourierOps) where
  decompositionOffset : Torus
  blindRotateTestvec : Trlwe
  keySwitchingKey : List (List Torus)
  bootstrappingKey : List (TrgswF O)

/-- `genTestvec` (`/repo/cloudkey/cloudkey.go:74-85`) -/
def genTestvec (P : Params) : Option Trlwe :=
  let n := P.trgswLv1.N
  let bTorus := f64ToTorus 0.125
  forRange 0 n (newTRLWELv1 P) fun i t => do
    let A ← wr t.A i 0
    let B ← wr t.B i bTorus
    pure ⟨A, B⟩

/-- The randomness of key generation: masks and Gaussian draws of every entry. Each encryption call makes
its own generator, so the draws of an entry do not depend on the schedule. -/
structure KeyGenRand where
  kskDraw : ℕ → ℕ → ℕ → ℕ → Torus
  kskSample : ℕ → ℕ → ℕ → ℚ
  bskDraw : ℕ → ℕ → ℕ → Torus
  bskSample : ℕ → ℕ → ℕ → ℚ

/-- The ciphertext of lines 109-112 of `/repo/cloudkey/cloudkey.go`. The doubles are exact: `k` and the
key bit are small integers and the divisor is a power of two. -/
def kskEntry (P : Params) (keyLv0 keyLv1 : List Torus) (R : KeyGenRand) (i j k : ℕ) :
    Option (List Torus) := do
  let s ← rd keyLv1 i
  let shift := (j + 1) * P.trgswLv1.BASEBIT
  let p : ℚ := ((k : ℚ) * (s.toNat : ℚ)) / 2 ^ shift
  tlwe0EncryptF64 P (newTLWELv0 P) p keyLv0 (R.kskDraw i j k) (R.kskSample i j k)

/-- The goroutine of `/repo/cloudkey/cloudkey.go:102-115` for coefficient `i`: its writes in order, `k = 0`
being skipped. -/
def kskThread (P : Params) (keyLv0 keyLv1 : List Torus) (R : KeyGenRand) (i : ℕ) :
    List (Write (List Torus)) :=
  let base := 2 ^ P.trgswLv1.BASEBIT
  let iksT := P.trgswLv1.IKS_T
  (List.range iksT).flatMap fun j =>
    (List.range base).filterMap fun k =>
      if k = 0 then none
      else some ⟨(base * iksT * i) + (base * j) + k, kskEntry P keyLv0 keyLv1 R i j k⟩

/-- `genKeySwitchingKey` (`/repo/cloudkey/cloudkey.go:88-120`) under a schedule: the goroutines' remaining
writes and the slice `result`. -/
def genKeySwitchingKey (P : Params) (keyLv0 keyLv1 : List Torus) (R : KeyGenRand) (sched : List ℕ) :
    Option (List (List (Write (List Torus))) × List (List Torus)) :=
  let base := 2 ^ P.trgswLv1.BASEBIT
  let n := P.trgswLv1.N
  let result := List.replicate (base * P.trgswLv1.IKS_T * n) (newTLWELv0 P)
  runSched ((List.range n).map (kskThread P keyLv0 keyLv1 R)) result sched

/-- The value of lines 132-139 of `/repo/cloudkey/cloudkey.go`. -/
def bskEntry (P : Params) (O : FourierOps) (keyLv0 keyLv1 : List Torus) (R : KeyGenRand) (i : ℕ) :
    Option (TrgswF O) := do
  let s ← rd keyLv0 i
  let t ← trgswEncryptTorus P O (newTRGSWLv1 P) s keyLv1 (R.bskDraw i) (R.bskSample i)
  newTRGSWLv1FFT O t

/-- `genBootstrappingKey` (`/repo/cloudkey/cloudkey.go:123-145`) under a schedule. An entry that has not
been written is a nil pointer, modelled by the empty list of rows. -/
def genBootstrappingKey (P : Params) (O : FourierOps) (keyLv0 keyLv1 : List Torus) (R : KeyGenRand)
    (sched : List ℕ) : Option (List (List (Write (TrgswF O))) × List (TrgswF O)) :=
  let lv0N := P.tlweLv0.N
  runSched ((List.range lv0N).map fun i => [⟨i, bskEntry P O keyLv0 keyLv1 R i⟩])
    (List.replicate lv0N []) sched

/-- `NewCloudKey` (`/repo/cloudkey/cloudkey.go:24-31`). The schedules are those of the two sets of
goroutines; `wg.Wait()` returns only when all have finished, so an unfinished schedule gives no key. The
second component says whether both finished. -/
def newCloudKey (P : Params) (O : FourierOps) (keyLv0 keyLv1 : List Torus) (R : KeyGenRand)
    (schedK schedB : List ℕ) : Option (Bool × CloudKey O) := do
  let off ← genDecompositionOffset P
  let tv ← genTestvec P
  let (tk, ksk) ← genKeySwitchingKey P keyLv0 keyLv1 R schedK
  let (tb, bsk) ← genBootstrappingKey P O keyLv0 keyLv1 R schedB
  pure (allDone tk && allDone tb, ⟨off, tv, ksk, bsk⟩)

/-- `NewCloudKeyNoKSK` (`/repo/cloudkey/cloudkey.go:34-57`) -/
def newCloudKeyNoKSK (P : Params) (O : FourierOps) : Option (CloudKey O) := do
  let base := 2 ^ P.trgswLv1.BASEBIT
  let iksT := P.trgswLv1.IKS_T
  let n := P.trgswLv1.N
  let ksk := List.replicate (base * iksT * n) (newTLWELv0 P)
  let bsk ← (List.range P.tlweLv0.N).mapM fun _ => newTRGSWLv1FFTDummy P O
  let off ← genDecompositionOffset P
  let tv ← genTestvec P
  pure ⟨off, tv, ksk, bsk⟩

end GoTfhe
