import Verif.Model.Buffers

/-!
# What separate buffers mean

Every slice held by a structure, in the order in which the fields are filled.
-/

namespace GoTfhe

/-- The slices of a pair. -/
def Buf2.bufs (b : Buf2) : List Buf := [b.A, b.B]

/-- The slices of a decomposition level. -/
def levelBufs (b : Buf × Buf) : List Buf := [b.1, b.2]

/-- The slices of a `BufferManager`. -/
def BufferManager.bufs (b : BufferManager) : List Buf :=
  [b.fftPoly, b.fftFourier] ++ b.decomp.flatMap levelBufs ++ [b.accA, b.accB, b.temp] ++ b.rotPool ++
    b.trlwePool.flatMap Buf2.bufs ++ [b.poly1, b.poly2, b.poly3]

/-- The slices of `BlockRotationBuffers`. -/
def BlockRotationBuffers.bufs (b : BlockRotationBuffers) : List Buf :=
  b.accFourierDecomposed.flatten.flatten ++ b.blockFourierAcc.flatMap Buf2.bufs ++
    b.fourierAcc.flatMap Buf2.bufs ++ [b.fourierMono]

/-- The slices of optional block rotation buffers. -/
def blockBufs : Option BlockRotationBuffers → List Buf
  | some r => r.bufs
  | none => []

/-- The slices of a `BufferPool`. -/
def BufferPool.bufs (b : BufferPool) : List Buf :=
  b.polyBuffers.bufs ++ [b.fourierA, b.fourierB] ++ b.result.bufs ++ b.cmuxTemp.bufs ++
    b.accumulator1.bufs ++ b.accumulator2.bufs ++ b.rotated.bufs ++
    [b.extractedLWE, b.keySwitched, b.gatePrep] ++ b.results ++
    blockBufs b.blockRotation

/-- The slices of an `evaluationBuffer`. -/
def EvaluationBuffer.bufs (b : EvaluationBuffer) : List Buf :=
  b.decomp.flatMap levelBufs ++ b.rotationPool ++ b.trlwePool.flatMap Buf2.bufs ++
    [b.fp, b.fpInv, b.pSplit, b.fpMul1, b.fpMul2, b.fpAcc, b.fpBcc, b.fpDiff, b.pTemp, b.pRotA, b.pRotB]

/-- The tables. -/
def Tables.bufs (t : Tables) : List Buf := [t.tw, t.twInv, t.twMono, t.twMonoIdx]

/-- The slices that operations of an evaluator write: all except the tables. -/
def EvaluatorB.scratch (e : EvaluatorB) : List Buf :=
  e.polyEvaluator.buffer.bufs ++ e.decomposer.flatMap levelBufs ++ e.buffers.bufs

/-- The bytes of a list of slices. -/
def bytesOf (l : List Buf) : ℕ := (l.map fun b => b.width * b.len).sum

/-- A request to a pool of buffers: for the next buffer, or for a reset. -/
inductive PoolOp
  | get
  | reset

/-- What a round-robin pool hands out: with `k` buffers given since the last reset, the next one is
number `k` modulo the size. -/
def roundRobin {α : Type} (pool : List α) : ℕ → List PoolOp → List (Option α)
  | _, [] => []
  | k, .get :: ops => pool[k % pool.length]? :: roundRobin pool (k + 1) ops
  | _, .reset :: ops => roundRobin pool 0 ops

/-- An execution that creates evaluators: with `NewEvaluator(n)` under the parameters `P`, or with
`ShallowCopy` of evaluator number `i`. -/
inductive NewOp
  | fresh (P : Params) (n : ℤ)
  | copy (P : Params) (i : ℕ)

/-- One step of such an execution. -/
def NewOp.step (es : List EvaluatorB) : NewOp → Alloc (List EvaluatorB)
  | .fresh P n => do
    let e ← newEvaluatorB P n
    pure (es ++ [e])
  | .copy P i => fun m => do
    let e ← es[i]?
    let r ← e.shallowCopy P m
    pure (es ++ [r.1], r.2)

/-- A whole execution. -/
def NewOp.run : List EvaluatorB → List NewOp → Alloc (List EvaluatorB)
  | es, [] => pure es
  | es, op :: ops => do
    let es ← op.step es
    NewOp.run es ops

end GoTfhe
