import Verif.Model.Trgsw
import Verif.Model.Rotate
import Verif.Model.KeySwitch

/-!
# Blind rotation with pooled buffers

`ExternalProductWithFFT`, `CMUX`, `BlindRotate` of `/repo/trgsw/trgsw.go` on the buffers of a
`poly.Evaluator` (`/repo/poly/poly_evaluator.go:168-223`, `/repo/poly/buffer_methods.go`). Slices of
words are objects of a heap, so that the reuse of pooled buffers is expressed.
-/

namespace GoTfhe

/-- Slices: rotation pool, the two parts of the TRLWE pool, the caller's slices. -/
inductive PRef
  | rot (i : ℕ)
  | trA (i : ℕ)
  | trB (i : ℕ)
  | user (k : ℕ)
deriving DecidableEq

/-- The buffers of a `poly.Evaluator` used by blind rotation (`/repo/poly/poly_evaluator.go:168-223`)
and the caller's slices. The buffers `fp`, `fpInv`, `pSplit`, `fpMul1`, `fpMul2`, `fpDiff`, `pTemp`,
`pRotA`, `pRotB` are not used by the modelled functions. -/
structure PEState (O : FourierOps) where
  decompBuf : List (List Torus)
  decompFFT : List O.F
  fpAcc : O.F
  fpBcc : O.F
  mem : PRef → List Torus
  rotIdx : ℕ
  trIdx : ℕ

variable {O : FourierOps}

/-- `newEvaluationBuffer` (`/repo/poly/poly_evaluator.go:168-223`) -/
def newPEState (O : FourierOps) (mem0 : PRef → List Torus) : Option (PEState O) := do
  let d ← (List.range 8).mapM fun _ => newPoly O.deg
  let f ← (List.range 8).mapM fun _ => O.newF
  let r ← newPoly O.deg
  let a ← O.newF
  let b ← O.newF
  pure { decompBuf := d
         decompFFT := f
         fpAcc := a
         fpBcc := b
         mem := fun x => match x with
           | .user k => mem0 (.user k)
           | .rot _ => r
           | _ => mkSlice O.deg 0
         rotIdx := 0
         trIdx := 0 }

/-- Write a whole slice. -/
def PEState.set (st : PEState O) (r : PRef) (l : List Torus) : PEState O :=
  { st with mem := Function.update st.mem r l }

/-- `r[i] = v` -/
def PEState.wr1 (st : PEState O) (r : PRef) (i : ℕ) (v : Torus) : Option (PEState O) := do
  let l ← wr (st.mem r) i v
  pure (st.set r l)

/-- `GetRotationBuffer` (`/repo/poly/buffer_methods.go:112-116`) -/
def getRotationBuffer (st : PEState O) : PEState O × PRef :=
  ({ st with rotIdx := (st.rotIdx + 1) % 4 }, .rot st.rotIdx)

/-- `ResetRotationPool` (`/repo/poly/buffer_methods.go:120-122`) -/
def resetRotationPool (st : PEState O) : PEState O := { st with rotIdx := 0 }

/-- `GetTRLWEBuffer` (`/repo/poly/buffer_methods.go:177-181`) -/
def getTRLWEBuffer (st : PEState O) : PEState O × (PRef × PRef) :=
  ({ st with trIdx := (st.trIdx + 1) % 4 }, (.trA st.trIdx, .trB st.trIdx))

/-- `(*Evaluator).PolyMulWithXK` (`/repo/poly/buffer_methods.go:125-129`) -/
def polyMulWithXKPooled (st : PEState O) (a : PRef) (k : ℤ) : Option (PEState O × PRef) := do
  let (st, r) := getRotationBuffer st
  let res ← if a = r then polyMulWithXKAliased (st.mem a) k
    else polyMulWithXK (st.mem a) k (st.mem r)
  pure (st.set r res, r)

/-- `decompositionInPlace` (`/repo/trgsw/trgsw.go:137-169`); `ToFourierPolyInBuffer`:
`/repo/poly/buffer_methods.go:91-96`. -/
def decompositionInPlace (P : Params) (st : PEState O) (x : PRef × PRef) (offset : Torus) :
    Option (PEState O) := do
  let l := P.trgswLv1.L
  let bufs ← decompositionCoeffs l P.trgswLv1.N P.trgswLv1.BGBIT (st.mem x.1) (st.mem x.2) offset st.decompBuf
  let st := { st with decompBuf := bufs }
  let f ← forRange 0 (l * 2) st.decompFFT fun i f => do
    let p ← rd st.decompBuf i
    let fi ← rd f i
    let fi ← O.toFourierAssign p fi
    wr f i fi
  pure { st with decompFFT := f }

/-- `ExternalProductWithFFT` (`/repo/trgsw/trgsw.go:108-134`);
`MulAddFourierPolyAssignBuffered`, `BufferToPolyAssign`: `/repo/poly/buffer_methods.go:35-68`. -/
def externalProductWithFFT (P : Params) (st : PEState O) (g : TrgswF O) (x : PRef × PRef)
    (offset : Torus) : Option (PEState O × (PRef × PRef)) := do
  let l := P.trgswLv1.L
  let st ← decompositionInPlace P st x offset
  let st := { st with fpAcc := O.clear st.fpAcc }
  let st := { st with fpBcc := O.clear st.fpBcc }
  let acc ← forRange 0 (l * 2) (st.fpAcc, st.fpBcc) fun i acc => do
    let row ← rd g i
    let d ← rd st.decompFFT i
    let a ← O.mulAddAssign d row.A acc.1
    let row ← rd g i
    let d ← rd st.decompFFT i
    let b ← O.mulAddAssign d row.B acc.2
    pure (a, b)
  let st := { st with fpAcc := acc.1, fpBcc := acc.2 }
  let (st, out) := getTRLWEBuffer st
  let r ← O.toPolyUnsafe st.fpAcc (st.mem out.1)
  let st := { st with fpAcc := r.1 }.set out.1 r.2
  let r ← O.toPolyUnsafe st.fpBcc (st.mem out.2)
  pure ({ st with fpBcc := r.1 }.set out.2 r.2, out)

/-- `CMUX` (`/repo/trgsw/trgsw.go:173-194`) -/
def cmuxPooled (P : Params) (st : PEState O) (in1 in2 : PRef × PRef) (g : TrgswF O) (offset : Torus) :
    Option (PEState O × (PRef × PRef)) := do
  let n := P.trgswLv1.N
  let (st, tmp) := getTRLWEBuffer st
  let st ← forRange 0 n st fun i st => do
    let x ← rd (st.mem in2.1) i
    let y ← rd (st.mem in1.1) i
    let st ← st.wr1 tmp.1 i (x - y)
    let x ← rd (st.mem in2.2) i
    let y ← rd (st.mem in1.2) i
    st.wr1 tmp.2 i (x - y)
  let (st, out) ← externalProductWithFFT P st g tmp offset
  let st ← forRange 0 n st fun i st => do
    let x ← rd (st.mem out.1) i
    let y ← rd (st.mem in1.1) i
    let st ← st.wr1 out.1 i (x + y)
    let x ← rd (st.mem out.2) i
    let y ← rd (st.mem in1.2) i
    st.wr1 out.2 i (x + y)
  pure (st, out)

/-- `BlindRotate` (`/repo/trgsw/trgsw.go:197-224`). `src` is only read. -/
def blindRotatePooled (P : Params) (st : PEState O) (src : List Torus) (testvec : PRef × PRef)
    (bsk : List (TrgswF O)) (offset : Torus) : Option (PEState O × (PRef × PRef)) := do
  let n := P.trgswLv1.N
  let nBit := P.trgswLv1.NBIT
  let st := resetRotationPool st
  let b ← tlwe0B P src
  let (st, resA) ← polyMulWithXKPooled st testvec.1 (bTilda n nBit b)
  let (st, resB) ← polyMulWithXKPooled st testvec.2 (bTilda n nBit b)
  forRange 0 P.tlweLv0.N (st, (resA, resB)) fun i s => do
    let (st, result) := s
    let a ← rd src i
    let (st, r2A) ← polyMulWithXKPooled st result.1 (aTilda nBit a)
    let (st, r2B) ← polyMulWithXKPooled st result.2 (aTilda nBit a)
    let g ← rd bsk i
    cmuxPooled P st result (r2A, r2B) g offset

end GoTfhe
