import Verif.Model.Trgsw
import Verif.Model.Rotate
import Verif.Model.KeySwitch

/-!
# `/repo/evaluator/evaluator.go`, `/repo/evaluator/buffers.go`

An evaluator owns buffers, and callers pass pointers that may coincide. TRLWE and LWE ciphertexts
are objects of two heaps, and the methods take references, so every aliasing of whole objects is
expressed. Two different objects never share a slice (partial overlap of slices is not modelled).
Bootstrapping keys and key-switching keys are read-only values.
-/

namespace GoTfhe

/-- TRLWE objects: the evaluator's own buffers (`/repo/evaluator/buffers.go:31-49`) and the
caller's objects. -/
inductive TRef
  | extRes | cmuxTmp | acc1 | acc2 | rotated
  | user (k : ℕ)
deriving DecidableEq

/-- LWE objects: `ExtractedLWE`, the four result buffers (`/repo/evaluator/buffers.go:52-67`) and the
caller's objects. -/
inductive LRef
  | extracted
  | pool (i : ℕ)
  | user (k : ℕ)
deriving DecidableEq

/-- State of an `Evaluator` (`/repo/evaluator/evaluator.go:15-24`, `/repo/evaluator/buffers.go:21-73`)
together with the caller's ciphertext objects. `polyDec` and `fourDec` are the decomposer's buffers
(`/repo/poly/decomposer.go:13-17`). The fields `PolyBuffers`, `KeySwitched`, `GatePrep` and
`BlockRotation` are allocated but not used by any modelled function. -/
structure EvState (O : FourierOps) where
  polyDec : List (List Torus)
  fourDec : List O.F
  fourierA : O.F
  fourierB : O.F
  tr : TRef → Trlwe
  lw : LRef → List Torus
  poolIdx : ℕ

namespace EvState

variable {O : FourierOps}

/-- Write a whole TRLWE object. -/
def setTr (st : EvState O) (r : TRef) (t : Trlwe) : EvState O :=
  { st with tr := Function.update st.tr r t }

/-- Write a whole LWE object. -/
def setLw (st : EvState O) (r : LRef) (c : List Torus) : EvState O :=
  { st with lw := Function.update st.lw r c }

/-- `r.A[i] = v` -/
def wrA (st : EvState O) (r : TRef) (i : ℕ) (v : Torus) : Option (EvState O) := do
  let a ← wr (st.tr r).A i v
  pure (st.setTr r ⟨a, (st.tr r).B⟩)

/-- `r.B[i] = v` -/
def wrB (st : EvState O) (r : TRef) (i : ℕ) (v : Torus) : Option (EvState O) := do
  let b ← wr (st.tr r).B i v
  pure (st.setTr r ⟨(st.tr r).A, b⟩)

end EvState

open EvState

variable {O : FourierOps}

/-- `NewDecomposer` (`/repo/poly/decomposer.go:20-35`) -/
def newDecomposer (O : FourierOps) (N : ℕ) (maxLevel : ℕ) : Option (List (List Torus) × List O.F) := do
  let p ← (List.range maxLevel).mapM fun _ => newPoly N
  let f ← (List.range maxLevel).mapM fun _ => O.newF
  pure (p, f)

/-- The evaluator part of a state fresh from `NewEvaluator(n)` / `NewBufferPool(n)`
(`/repo/evaluator/evaluator.go:27-35`, `/repo/evaluator/buffers.go:109-146`) under the parameters
`P`, with `maxLevel` decomposer levels (`2*L` in `NewEvaluator`); `tr0`, `lw0` are the caller's
objects. -/
def newEvState (P : Params) (O : FourierOps) (maxLevel : ℕ) (tr0 : TRef → Trlwe)
    (lw0 : LRef → List Torus) : Option (EvState O) := do
  let d ← newDecomposer O O.deg maxLevel
  let fa ← O.newF
  let fb ← O.newF
  pure { polyDec := d.1
         fourDec := d.2
         fourierA := fa
         fourierB := fb
         tr := fun r => match r with
           | .user k => tr0 (.user k)
           | _ => newTRLWELv1 P
         lw := fun r => match r with
           | .extracted => newTLWELv1 P
           | .pool _ => newTLWELv0 P
           | .user k => lw0 (.user k)
         poolIdx := 0 }

/-- `NewEvaluator` (`/repo/evaluator/evaluator.go:27-35`) -/
def newEvaluator (P : Params) (O : FourierOps) (tr0 : TRef → Trlwe) (lw0 : LRef → List Torus) :
    Option (EvState O) :=
  newEvState P O (P.trgswLv1.L * 2) tr0 lw0

/-- `(*Evaluator).ShallowCopy` (`/repo/evaluator/evaluator.go:40-46`): the decomposer of the copy has
`len(e.Decomposer.GetPolyDecomposedBuffer(1))` levels. The polynomial evaluator of the copy shares
the tables of the original, so its operations are the same `O`. -/
def shallowCopy (P : Params) (st : EvState O) : Option (EvState O) :=
  if 1 > st.polyDec.length then none
  else newEvState P O (st.polyDec.take 1).length st.tr st.lw

/-- `(*Evaluator).ExternalProductAssign` (`/repo/evaluator/evaluator.go:50-81`);
`GetPolyDecomposedBuffer`, `GetPolyFourierDecomposedBuffer`: `/repo/poly/decomposer.go:38-51`. -/
def externalProductAssign (P : Params) (st : EvState O) (g : TrgswF O) (ctIn : TRef)
    (offset : Torus) (ctOut : TRef) : Option (EvState O) :=
  let l := P.trgswLv1.L
  let bgbit := P.trgswLv1.BGBIT
  if l * 2 > st.polyDec.length then none
  else if l * 2 > st.fourDec.length then none
  else do
    let dA ← decomposePolyAssign (st.tr ctIn).A bgbit l offset (st.polyDec.take l)
    let dB ← decomposePolyAssign (st.tr ctIn).B bgbit l offset ((st.polyDec.take (l * 2)).drop l)
    let st := { st with polyDec := dA ++ dB ++ st.polyDec.drop (l * 2) }
    let fourDec ← forRange 0 (l * 2) st.fourDec fun i f => do
      let p ← rd st.polyDec i
      let fi ← rd f i
      let fi ← O.toFourierAssign p fi
      wr f i fi
    let st := { st with fourDec := fourDec }
    let st := { st with fourierA := O.clear st.fourierA, fourierB := O.clear st.fourierB }
    let acc ← forRange 0 (l * 2) (st.fourierA, st.fourierB) fun i acc => do
      let d ← rd st.fourDec i
      let row ← rd g i
      let a ← O.mulAddAssign d row.A acc.1
      let row ← rd g i
      let b ← O.mulAddAssign d row.B acc.2
      pure (a, b)
    let st := { st with fourierA := acc.1, fourierB := acc.2 }
    let r ← O.toPolyUnsafe st.fourierA (st.tr ctOut).A
    let st := { st with fourierA := r.1 }.setTr ctOut ⟨r.2, (st.tr ctOut).B⟩
    let r ← O.toPolyUnsafe st.fourierB (st.tr ctOut).B
    pure ({ st with fourierB := r.1 }.setTr ctOut ⟨(st.tr ctOut).A, r.2⟩)

/-- `(*Evaluator).CMuxAssign` (`/repo/evaluator/evaluator.go:85-106`) -/
def cMuxAssign (P : Params) (st : EvState O) (cond : TrgswF O) (ct0 ct1 : TRef) (offset : Torus)
    (ctOut : TRef) : Option (EvState O) := do
  let n := P.trgswLv1.N
  let st := st.setTr ctOut ⟨copySlice (st.tr ctOut).A (st.tr ct0).A, (st.tr ctOut).B⟩
  let st := st.setTr ctOut ⟨(st.tr ctOut).A, copySlice (st.tr ctOut).B (st.tr ct0).B⟩
  let st ← forRange 0 n st fun i st => do
    let x ← rd (st.tr ct1).A i
    let y ← rd (st.tr ct0).A i
    let st ← st.wrA .cmuxTmp i (x - y)
    let x ← rd (st.tr ct1).B i
    let y ← rd (st.tr ct0).B i
    st.wrB .cmuxTmp i (x - y)
  let st ← externalProductAssign P st cond .cmuxTmp offset .extRes
  forRange 0 n st fun i st => do
    let x ← rd (st.tr ctOut).A i
    let y ← rd (st.tr .extRes).A i
    let st ← st.wrA ctOut i (x + y)
    let x ← rd (st.tr ctOut).B i
    let y ← rd (st.tr .extRes).B i
    st.wrB ctOut i (x + y)

/-- `poly.PolyMulWithXKInPlace` on both parts, from object `src` into object `dst`
(`/repo/evaluator/evaluator.go:117-118`, `125-126`). -/
def rotateInto (st : EvState O) (src : TRef) (k : ℤ) (dst : TRef) : Option (EvState O) := do
  let a ← if src = dst then polyMulWithXKAliased (st.tr src).A k
    else polyMulWithXK (st.tr src).A k (st.tr dst).A
  let st := st.setTr dst ⟨a, (st.tr dst).B⟩
  let b ← if src = dst then polyMulWithXKAliased (st.tr src).B k
    else polyMulWithXK (st.tr src).B k (st.tr dst).B
  pure (st.setTr dst ⟨(st.tr dst).A, b⟩)

/-- `(*Evaluator).BlindRotateAssign` (`/repo/evaluator/evaluator.go:110-135`) -/
def blindRotateAssign (P : Params) (st : EvState O) (ctIn : LRef) (testvec : TRef)
    (bsk : List (TrgswF O)) (offset : Torus) (ctOut : TRef) : Option (EvState O) := do
  let n := P.trgswLv1.N
  let nBit := P.trgswLv1.NBIT
  let b ← tlwe0B P (st.lw ctIn)
  let st ← rotateInto st testvec (bTilda n nBit b) .acc1
  let st ← forRange 0 P.tlweLv0.N st fun i st => do
    let a ← rd (st.lw ctIn) i
    let st ← rotateInto st .acc1 (aTilda nBit a) .acc2
    let g ← rd bsk i
    cMuxAssign P st g .acc1 .acc2 offset .acc1
  let st := st.setTr ctOut ⟨copySlice (st.tr ctOut).A (st.tr .acc1).A, (st.tr ctOut).B⟩
  pure (st.setTr ctOut ⟨(st.tr ctOut).A, copySlice (st.tr ctOut).B (st.tr .acc1).B⟩)

/-- `(*Evaluator).BootstrapAssign` (`/repo/evaluator/evaluator.go:139-148`) and the identical body of
`BootstrapLUTAssign` (`/repo/evaluator/programmable_bootstrap.go:93-115`). `ctOut` is not
`ExtractedLWE`. -/
def bootstrapAssign (P : Params) (st : EvState O) (ctIn : LRef) (testvec : TRef)
    (bsk : List (TrgswF O)) (ksk : List (List Torus)) (offset : Torus) (ctOut : LRef) :
    Option (EvState O) := do
  let st ← blindRotateAssign P st ctIn testvec bsk offset .rotated
  let e ← sampleExtractIndexAssign P (st.tr .rotated) 0 (st.lw .extracted)
  let st := st.setLw .extracted e
  let o ← identityKeySwitchingAssign P (st.lw .extracted) ksk (st.lw ctOut)
  pure (st.setLw ctOut o)

/-- `(*BufferPool).GetNextResult` (`/repo/evaluator/buffers.go:200-204`) -/
def getNextResult (st : EvState O) : EvState O × LRef :=
  ({ st with poolIdx := (st.poolIdx + 1) % 4 }, .pool st.poolIdx)

/-- `(*Evaluator).Bootstrap` (`/repo/evaluator/evaluator.go:152-157`) and `BootstrapLUTTemp`
(`/repo/evaluator/programmable_bootstrap.go:71-81`). -/
def bootstrapPooled (P : Params) (st : EvState O) (ctIn : LRef) (testvec : TRef)
    (bsk : List (TrgswF O)) (ksk : List (List Torus)) (offset : Torus) :
    Option (EvState O × LRef) := do
  let (st, result) := getNextResult st
  let st ← bootstrapAssign P st ctIn testvec bsk ksk offset result
  pure (st, result)

/-- `(*Evaluator).BootstrapLUT` (`/repo/evaluator/programmable_bootstrap.go:50-69`): the value of the
freshly allocated copy. -/
def bootstrapLUT (P : Params) (st : EvState O) (ctIn : LRef) (lut : TRef)
    (bsk : List (TrgswF O)) (ksk : List (List Torus)) (offset : Torus) :
    Option (EvState O × List Torus) := do
  let (st, result) ← bootstrapPooled P st ctIn lut bsk ksk offset
  let copied := copySlice (newTLWELv0 P) (st.lw result)
  let b ← tlwe0B P (st.lw result)
  let copied ← tlwe0SetB P copied b
  pure (st, copied)

/-- `(*Evaluator).ResetBuffers` (`/repo/evaluator/evaluator.go:160-162`,
`/repo/evaluator/buffers.go:208-211`) -/
def resetBuffers (st : EvState O) : EvState O := { st with poolIdx := 0 }

end GoTfhe
