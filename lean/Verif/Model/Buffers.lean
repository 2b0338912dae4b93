import Verif.Model.Poly
import Verif.Model.Params
import Verif.Model.Evaluator
import Verif.Model.PoolEval

/-!
# The buffers of an evaluator

`/repo/poly/buffer_manager.go`, `/repo/evaluator/buffers.go`, `newEvaluationBuffer`,
`NewDecomposer`, `NewEvaluator` and `ShallowCopy`, on a memory that hands out slices. A slice is known
by the number of the `make` call that created it; its length and the width of its elements are kept.
Only slices of words (`uint32`), of `float64`, of `complex128` and of `int` are counted; the slices of
slice headers and the structs around them are not. Temporary slices of `genTwiddleFactors` are
counted as part of the two tables they produce.
-/

namespace GoTfhe

/-- A slice: the `make` call that created it, its length, the bytes per element. -/
structure Buf where
  id : ℕ
  len : ℕ
  width : ℕ
deriving DecidableEq

/-- The memory: the number of slices made so far and the bytes they occupy. -/
structure Mem where
  next : ℕ
  bytes : ℕ

/-- Programs that make slices; `none` is a panic. -/
abbrev Alloc := StateT Mem Option

/-- `make([]T, n)` with elements of `w` bytes; a negative length panics. -/
def makeB (w : ℕ) (n : ℤ) : Alloc Buf := fun m =>
  if n < 0 then none
  else some (⟨m.next, n.toNat, w⟩, ⟨m.next + 1, m.bytes + w * n.toNat⟩)

/-- A loop `for i := 0; i < k; i++ { x[i] = f() }` -/
def makeEach {α : Type} (f : Alloc α) : ℕ → Alloc (List α)
  | 0 => pure []
  | k + 1 => do
    let l ← makeEach f k
    let a ← f
    pure (l ++ [a])

/-- The two panics at the head of `NewPoly`, `NewFourierPoly` and `NewEvaluator`
(`/repo/poly/poly.go:26-31`, `65-70`, `/repo/poly/poly_evaluator.go:77-82`). -/
def checkDegree (N : ℤ) : Alloc Unit := fun m =>
  if isPowerOfTwo N = false then none
  else if N < minDegree then none
  else some ((), m)

/-- `NewPoly` (`/repo/poly/poly.go:25-33`) -/
def newPolyB (N : ℤ) : Alloc Buf := do
  checkDegree N
  makeB 4 N

/-- `NewFourierPoly` (`/repo/poly/poly.go:64-72`) -/
def newFourierPolyB (N : ℤ) : Alloc Buf := do
  checkDegree N
  makeB 8 N

/-- Two slices: the parts `A` and `B` of a TRLWE ciphertext, or a pair of Fourier accumulators. -/
structure Buf2 where
  A : Buf
  B : Buf
deriving DecidableEq

/-- A pair of slices of words of length `n`, as in the TRLWE pools
(`/repo/poly/buffer_manager.go:98-104`, `/repo/poly/poly_evaluator.go:192-195`) and in `NewTRLWELv1`
(`/repo/trlwe/trlwe.go:19-25`). -/
def newPairB (n : ℤ) : Alloc Buf2 := do
  let a ← makeB 4 n
  let b ← makeB 4 n
  pure ⟨a, b⟩

/-- A pair of Fourier polynomials (`/repo/evaluator/buffers.go:176-179`, `186-189`). -/
def newFourierPairB (n : ℤ) : Alloc Buf2 := do
  let a ← newFourierPolyB n
  let b ← newFourierPolyB n
  pure ⟨a, b⟩

/-- A polynomial and a Fourier polynomial, in this order, as in the loops that fill decomposition
buffers (`/repo/poly/buffer_manager.go:76-79`, `/repo/poly/decomposer.go:24-27`,
`/repo/poly/poly_evaluator.go:176-179`). -/
def newLevelB (n : ℤ) : Alloc (Buf × Buf) := do
  let p ← newPolyB n
  let f ← newFourierPolyB n
  pure (p, f)

/-- `BufferManager` (`/repo/poly/buffer_manager.go:7-61`); `decomp` pairs `Decomposition.Poly[i]` with
`Decomposition.Fourier[i]`. -/
structure BufferManager where
  n : ℤ
  fftPoly : Buf
  fftFourier : Buf
  decomp : List (Buf × Buf)
  accA : Buf
  accB : Buf
  temp : Buf
  rotPool : List Buf
  rotInUse : ℕ
  trlwePool : List Buf2
  trlweInUse : ℕ
  poly1 : Buf
  poly2 : Buf
  poly3 : Buf

/-- `NewBufferManager` (`/repo/poly/buffer_manager.go:64-115`) -/
def newBufferManager (P : Params) (n : ℤ) : Alloc BufferManager := do
  let l := P.trgswLv1.L
  let fftPoly ← newPolyB n
  let fftFourier ← newFourierPolyB n
  let decomp ← makeEach (newLevelB n) (l * 2)
  let accA ← newFourierPolyB n
  let accB ← newFourierPolyB n
  let temp ← newFourierPolyB n
  let rotPool ← makeEach (newPolyB n) 4
  let trlwePool ← makeEach (newPairB n) 4
  let poly1 ← newPolyB n
  let poly2 ← newPolyB n
  let poly3 ← newPolyB n
  pure { n, fftPoly, fftFourier, decomp, accA, accB, temp, rotPool, rotInUse := 0, trlwePool,
         trlweInUse := 0, poly1, poly2, poly3 }

namespace BufferManager

/-- `GetRotationBuffer` (`/repo/poly/buffer_manager.go:118-126`) -/
def getRotationBuffer (bm : BufferManager) : Option (BufferManager × Buf) := do
  let bm := if bm.rotInUse ≥ bm.rotPool.length then { bm with rotInUse := 0 } else bm
  let buffer ← rd bm.rotPool bm.rotInUse
  pure ({ bm with rotInUse := bm.rotInUse + 1 }, buffer)

/-- `GetTRLWEBuffer` (`/repo/poly/buffer_manager.go:129-136`) -/
def getTRLWEBuffer (bm : BufferManager) : Option (BufferManager × Buf2) := do
  let bm := if bm.trlweInUse ≥ bm.trlwePool.length then { bm with trlweInUse := 0 } else bm
  let buffer ← rd bm.trlwePool bm.trlweInUse
  pure ({ bm with trlweInUse := bm.trlweInUse + 1 }, buffer)

/-- `Reset` (`/repo/poly/buffer_manager.go:139-142`) -/
def reset (bm : BufferManager) : BufferManager := { bm with rotInUse := 0, trlweInUse := 0 }

/-- `MemoryUsage` (`/repo/poly/buffer_manager.go:145-172`), under the parameters at the time of the
call. -/
def memoryUsage (P : Params) (bm : BufferManager) : ℤ :=
  let n := bm.n
  let l : ℤ := P.trgswLv1.L
  let polySize := n * 4
  let fourierSize := n * 8 * 2
  let mem := 0
  let mem := mem + (polySize + fourierSize)
  let mem := mem + (polySize + fourierSize) * l * 2
  let mem := mem + fourierSize * 3
  let mem := mem + polySize * bm.rotPool.length
  let mem := mem + polySize * 2 * bm.trlwePool.length
  let mem := mem + polySize * 3
  mem

end BufferManager

/-- `BlockRotationBuffers` (`/repo/evaluator/buffers.go:77-96`) -/
structure BlockRotationBuffers where
  accFourierDecomposed : List (List (List Buf))
  blockFourierAcc : List Buf2
  fourierAcc : List Buf2
  fourierMono : Buf

/-- `newBlockRotationBuffers` (`/repo/evaluator/buffers.go:149-195`) -/
def newBlockRotationBuffers (P : Params) (n : ℤ) : Alloc BlockRotationBuffers := do
  let blockSize := if P.trgswLv1.BlockSize < 1 then 1 else P.trgswLv1.BlockSize
  let glweRank := 1
  let level := P.trgswLv1.L
  let accFourierDecomposed ←
    makeEach (makeEach (makeEach (newFourierPolyB n) level) (glweRank + 1)) blockSize
  let blockFourierAcc ← makeEach (newFourierPairB n) blockSize
  let fourierAcc ← makeEach (newFourierPairB n) blockSize
  let fourierMono ← newFourierPolyB n
  pure { accFourierDecomposed, blockFourierAcc, fourierAcc, fourierMono }

/-- `BufferPool` (`/repo/evaluator/buffers.go:21-73`) -/
structure BufferPool where
  polyBuffers : BufferManager
  fourierA : Buf
  fourierB : Buf
  result : Buf2
  cmuxTemp : Buf2
  accumulator1 : Buf2
  accumulator2 : Buf2
  rotated : Buf2
  extractedLWE : Buf
  keySwitched : Buf
  gatePrep : Buf
  results : List Buf
  index : ℕ
  blockRotation : Option BlockRotationBuffers

/-- `NewTRLWELv1` (`/repo/trlwe/trlwe.go:19-25`) -/
def newTRLWELv1B (P : Params) : Alloc Buf2 := newPairB P.trlweLv1.N

/-- `NewTLWELv1` (`/repo/tlwe/tlwe.go:142-147`) -/
def newTLWELv1B (P : Params) : Alloc Buf := makeB 4 (P.tlweLv1.N + 1)

/-- `NewTLWELv0` (`/repo/tlwe/tlwe.go:16-21`) -/
def newTLWELv0B (P : Params) : Alloc Buf := makeB 4 (P.tlweLv0.N + 1)

/-- The optional part of `NewBufferPool` (`/repo/evaluator/buffers.go:141-143`). -/
def newBlockRotation (P : Params) (n : ℤ) : Alloc (Option BlockRotationBuffers) :=
  if useBlockBlindRotation P then do
    let b ← newBlockRotationBuffers P n
    pure (some b)
  else pure none

/-- `NewBufferPool` (`/repo/evaluator/buffers.go:109-146`) -/
def newBufferPool (P : Params) (n : ℤ) : Alloc BufferPool := do
  let polyBuffers ← newBufferManager P n
  let fourierA ← newFourierPolyB n
  let fourierB ← newFourierPolyB n
  let result ← newTRLWELv1B P
  let cmuxTemp ← newTRLWELv1B P
  let accumulator1 ← newTRLWELv1B P
  let accumulator2 ← newTRLWELv1B P
  let rotated ← newTRLWELv1B P
  let extractedLWE ← newTLWELv1B P
  let keySwitched ← newTLWELv0B P
  let gatePrep ← newTLWELv0B P
  let results ← makeEach (newTLWELv0B P) 4
  let blockRotation ← newBlockRotation P n
  pure { polyBuffers, fourierA, fourierB, result, cmuxTemp, accumulator1, accumulator2, rotated,
         extractedLWE, keySwitched, gatePrep, results, index := 0, blockRotation }

namespace BufferPool

/-- `GetNextResult` (`/repo/evaluator/buffers.go:200-204`) -/
def getNextResult (bp : BufferPool) : Option (BufferPool × Buf) := do
  let result ← rd bp.results bp.index
  pure ({ bp with index := (bp.index + 1) % 4 }, result)

/-- `Reset` (`/repo/evaluator/buffers.go:208-211`) -/
def reset (bp : BufferPool) : BufferPool :=
  { bp with index := 0, polyBuffers := bp.polyBuffers.reset }

/-- `MemoryUsage` (`/repo/evaluator/buffers.go:214-240`), under the parameters at the time of the
call. -/
def memoryUsage (P : Params) (bp : BufferPool) : ℤ :=
  let n : ℤ := P.trgswLv1.N
  let polyMem := bp.polyBuffers.memoryUsage P
  let trlweSize := 2 * n * 4
  let tlweSize := (n + 1) * 4
  let ciphertextMem := trlweSize * 5 + tlweSize * 5 + 2 * n * 8
  let blockMem :=
    if bp.blockRotation.isSome then
      let blockSize : ℤ := P.trgswLv1.BlockSize
      let level : ℤ := P.trgswLv1.L
      let glweRank := 1
      let blockMem := blockSize * (glweRank + 1) * level * n * 8 * 2
      let blockMem := blockMem + blockSize * 2 * n * 8 * 2
      blockMem + n * 8 * 2
    else 0
  polyMem + ciphertextMem + blockMem

end BufferPool

/-- `evaluationBuffer` (`/repo/poly/poly_evaluator.go:40-73`) -/
structure EvaluationBuffer where
  decomp : List (Buf × Buf)
  rotationPool : List Buf
  trlwePool : List Buf2
  fp : Buf
  fpInv : Buf
  pSplit : Buf
  fpMul1 : Buf
  fpMul2 : Buf
  fpAcc : Buf
  fpBcc : Buf
  fpDiff : Buf
  pTemp : Buf
  pRotA : Buf
  pRotB : Buf
  rotationIdx : ℕ
  trlweIdx : ℕ

/-- `newEvaluationBuffer` (`/repo/poly/poly_evaluator.go:168-223`) -/
def newEvaluationBuffer (N : ℤ) : Alloc EvaluationBuffer := do
  let maxDecompLevels := 8
  let decomp ← makeEach (newLevelB N) maxDecompLevels
  let rotationPool ← makeEach (newPolyB N) 4
  let trlwePool ← makeEach (newPairB N) 4
  let fp ← newFourierPolyB N
  let fpInv ← newFourierPolyB N
  let pSplit ← newPolyB N
  let fpMul1 ← newFourierPolyB N
  let fpMul2 ← newFourierPolyB N
  let fpAcc ← newFourierPolyB N
  let fpBcc ← newFourierPolyB N
  let fpDiff ← newFourierPolyB N
  let pTemp ← newPolyB N
  let pRotA ← newPolyB N
  let pRotB ← newPolyB N
  pure { decomp, rotationPool, trlwePool, fp, fpInv, pSplit, fpMul1, fpMul2, fpAcc, fpBcc, fpDiff,
         pTemp, pRotA, pRotB, rotationIdx := 0, trlweIdx := 0 }

namespace EvaluationBuffer

/-- `GetRotationBuffer` (`/repo/poly/buffer_methods.go:112-116`) -/
def getRotationBuffer (e : EvaluationBuffer) : Option (EvaluationBuffer × Buf) := do
  let buf ← rd e.rotationPool e.rotationIdx
  pure ({ e with rotationIdx := (e.rotationIdx + 1) % e.rotationPool.length }, buf)

/-- `ResetRotationPool` (`/repo/poly/buffer_methods.go:120-122`) -/
def resetRotationPool (e : EvaluationBuffer) : EvaluationBuffer := { e with rotationIdx := 0 }

/-- `GetTRLWEBuffer` (`/repo/poly/buffer_methods.go:177-181`) -/
def getTRLWEBuffer (e : EvaluationBuffer) : Option (EvaluationBuffer × Buf2) := do
  let buf ← rd e.trlwePool e.trlweIdx
  pure ({ e with trlweIdx := (e.trlweIdx + 1) % e.trlwePool.length }, buf)

/-- `ResetTRLWEPool` (`/repo/poly/buffer_methods.go:184-186`) -/
def resetTRLWEPool (e : EvaluationBuffer) : EvaluationBuffer := { e with trlweIdx := 0 }

end EvaluationBuffer

/-- The tables of a `poly.Evaluator` (`/repo/poly/poly_evaluator.go:17-25`); no method writes them
after the construction. -/
structure Tables where
  tw : Buf
  twInv : Buf
  twMono : Buf
  twMonoIdx : Buf
deriving DecidableEq

/-- `Evaluator` of `/repo/poly/poly_evaluator.go:12-28` -/
structure PolyEvaluatorB where
  degree : ℤ
  tables : Tables
  buffer : EvaluationBuffer

/-- `NewEvaluator` (`/repo/poly/poly_evaluator.go:76-111`): `genTwiddleFactors(N/2)` returns two slices
of capacity `N/2-1`. -/
def newPolyEvaluatorB (N : ℤ) : Alloc PolyEvaluatorB := do
  checkDegree N
  let tw ← makeB 16 (N / 2 - 1)
  let twInv ← makeB 16 (N / 2 - 1)
  let twMono ← makeB 16 (2 * N)
  let twMonoIdx ← makeB 8 (N / 2)
  let buffer ← newEvaluationBuffer N
  pure { degree := N, tables := ⟨tw, twInv, twMono, twMonoIdx⟩, buffer }

/-- `ShallowCopy` (`/repo/poly/poly_evaluator.go:242-252`) -/
def PolyEvaluatorB.shallowCopy (e : PolyEvaluatorB) : Alloc PolyEvaluatorB := do
  let buffer ← newEvaluationBuffer e.degree
  pure { degree := e.degree, tables := e.tables, buffer }

/-- `NewDecomposer` (`/repo/poly/decomposer.go:20-35`) -/
def newDecomposerB (N : ℤ) (maxLevel : ℕ) : Alloc (List (Buf × Buf)) :=
  makeEach (newLevelB N) maxLevel

/-- `GetPolyDecomposedBuffer` (`/repo/poly/decomposer.go:38-43`) -/
def getPolyDecomposedBufferB (d : List (Buf × Buf)) (level : ℕ) : Alloc (List (Buf × Buf)) := fun m =>
  if level > d.length then none else some (d.take level, m)

/-- `Evaluator` of `/repo/evaluator/evaluator.go:15-24` -/
structure EvaluatorB where
  polyEvaluator : PolyEvaluatorB
  decomposer : List (Buf × Buf)
  buffers : BufferPool

/-- `NewEvaluator` (`/repo/evaluator/evaluator.go:27-35`) -/
def newEvaluatorB (P : Params) (n : ℤ) : Alloc EvaluatorB := do
  let l := P.trgswLv1.L
  let polyEvaluator ← newPolyEvaluatorB n
  let decomposer ← newDecomposerB n (l * 2)
  let buffers ← newBufferPool P n
  pure { polyEvaluator, decomposer, buffers }

/-- `ShallowCopy` (`/repo/evaluator/evaluator.go:40-46`) -/
def EvaluatorB.shallowCopy (P : Params) (e : EvaluatorB) : Alloc EvaluatorB := do
  let polyEvaluator ← e.polyEvaluator.shallowCopy
  let d ← getPolyDecomposedBufferB e.decomposer 1
  let decomposer ← newDecomposerB e.polyEvaluator.degree d.length
  let buffers ← newBufferPool P e.polyEvaluator.degree
  pure { polyEvaluator, decomposer, buffers }

/-- `NewTRLWELv1FFTDummy` (`/repo/trlwe/trlwe.go:105-111`) -/
def newTRLWELv1FFTDummyB (P : Params) : Alloc Buf2 := do
  let a ← makeB 8 (2 * P.trlweLv1.N)
  let b ← makeB 8 (2 * P.trlweLv1.N)
  pure ⟨a, b⟩

/-- The object behind a name of the evaluator model of `Verif.Model.Evaluator` for TRLWE buffers. -/
def BufferPool.trBuf (bp : BufferPool) : TRef → Option Buf2
  | .extRes => some bp.result
  | .cmuxTmp => some bp.cmuxTemp
  | .acc1 => some bp.accumulator1
  | .acc2 => some bp.accumulator2
  | .rotated => some bp.rotated
  | .user _ => none

/-- The object behind a name of the evaluator model of `Verif.Model.Evaluator` for LWE buffers. -/
def BufferPool.lwBuf (bp : BufferPool) : LRef → Option Buf
  | .extracted => some bp.extractedLWE
  | .pool i => bp.results[i]?
  | .user _ => none

/-- The slice behind a name of the pooled model of `Verif.Model.PoolEval`. -/
def EvaluationBuffer.slice (e : EvaluationBuffer) : PRef → Option Buf
  | .rot i => e.rotationPool[i]?
  | .trA i => e.trlwePool[i]?.map Buf2.A
  | .trB i => e.trlwePool[i]?.map Buf2.B
  | .user _ => none

end GoTfhe
