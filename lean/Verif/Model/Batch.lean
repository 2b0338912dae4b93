import Verif.Model.PoolEval
import Verif.Model.Gates
import Verif.Model.Sched

/-!
# Batch blind rotation and batch gates (`/repo/trgsw/trgsw.go:226-252`, `/repo/gates/gates.go:155-312`)

The goroutines of `BatchBlindRotate` share `evaluatorPool`, a `sync.Pool`. `Get` returns any evaluator that is
in the pool, or a new one; the choice is part of the schedule. (An evaluator that the garbage collector drops
from the pool is one that no later `Get` chooses.) Evaluators are objects with memory of their own. `Get`
removes the evaluator from the pool, so a goroutine has it to itself until its `Put`; therefore its whole call
of `BlindRotate` is one step of the schedule. `results[idx]` is a pointer to two slices of the evaluator's
TRLWE pool, not a copy.
-/

namespace GoTfhe

variable {O : FourierOps}

/-- Where a goroutine of `BatchBlindRotate` stands (`/repo/trgsw/trgsw.go:240-247`). -/
inductive Job
  | waiting
  | holding (e : ℕ)
  | ran (e : ℕ)
  | done
deriving DecidableEq

/-- A result: `nil`, or the two slices of evaluator number `e` it points to. -/
abbrev BRef := Option (ℕ × (PRef × PRef))

/-- All evaluators ever created, those that are in the pool, the goroutines, `results`. -/
structure BatchState (O : FourierOps) where
  evs : List (PEState O)
  free : List ℕ
  jobs : List Job
  results : List BRef

/-- Steps of goroutine `i`: `evaluatorPool.Get()` with the pool's choice, `BlindRotate` and the assignment to
`results[idx]`, the deferred `Put` and `Done`. -/
inductive BEvent
  | get (i : ℕ) (choice : Option ℕ)
  | run (i : ℕ)
  | put (i : ℕ)

/-- One step. A step that is not the next one of its goroutine, or a choice that is not in the pool, does
nothing. -/
def batchStep (P : Params) (srcs : List (List Torus)) (tv : Trlwe) (bsk : List (TrgswF O)) (off : Torus)
    (s : BatchState O) : BEvent → Option (BatchState O)
  | .get i choice =>
    match s.jobs[i]? with
    | some .waiting =>
      match choice with
      | some e =>
        if e ∈ s.free then some { s with free := s.free.erase e, jobs := s.jobs.set i (.holding e) }
        else some s
      | none => do
        let st ← newPEState O fun _ => []
        pure { s with evs := s.evs ++ [st], jobs := s.jobs.set i (.holding s.evs.length) }
    | _ => some s
  | .run i =>
    match s.jobs[i]? with
    | some (.holding e) => do
      let src ← rd srcs i
      let st ← rd s.evs e
      let st := (st.set (.user 0) tv.A).set (.user 1) tv.B
      let (st, res) ← blindRotatePooled P st src (.user 0, .user 1) bsk off
      let evs ← wr s.evs e st
      let results ← wr s.results i (some (e, res))
      pure { s with evs := evs, results := results, jobs := s.jobs.set i (.ran e) }
    | _ => some s
  | .put i =>
    match s.jobs[i]? with
    | some (.ran e) => some { s with free := e :: s.free, jobs := s.jobs.set i .done }
    | _ => some s

/-- Run a schedule. -/
def runBatch (P : Params) (srcs : List (List Torus)) (tv : Trlwe) (bsk : List (TrgswF O)) (off : Torus) :
    BatchState O → List BEvent → Option (BatchState O)
  | s, [] => some s
  | s, ev :: sched =>
    match batchStep P srcs tv bsk off s ev with
    | none => none
    | some s => runBatch P srcs tv bsk off s sched

/-- `wg.Wait()` returns. -/
def BatchState.finished (s : BatchState O) : Bool := s.jobs.all fun j => j == .done

/-- `BatchBlindRotate` (`/repo/trgsw/trgsw.go:234-252`), with the evaluators `evs` already created and those
of them in `free` in the pool. It returns when the final state is `finished`. -/
def batchBlindRotate (P : Params) (evs : List (PEState O)) (free : List ℕ) (srcs : List (List Torus))
    (tv : Trlwe) (bsk : List (TrgswF O)) (off : Torus) (sched : List BEvent) : Option (BatchState O) :=
  runBatch P srcs tv bsk off
    ⟨evs, free, List.replicate srcs.length .waiting, List.replicate srcs.length none⟩ sched

/-- What the caller reads through `results[i]`; a panic for `nil`. -/
def BatchState.read (s : BatchState O) (i : ℕ) : Option Trlwe := do
  let r ← rd s.results i
  let (e, x) ← r
  let st ← rd s.evs e
  pure ⟨st.mem x.1, st.mem x.2⟩

/-- The gates with a batch version. -/
inductive BatchGate
  | nand | and | or | xor | nor | xnor
deriving DecidableEq

/-- The preparation of one pair: `/repo/gates/gates.go:160-162` (NAND), `188-190` (AND), `214-216` (OR),
`240-242` (XOR), `266-268` (NOR), `292-294` (XNOR). -/
def batchPrepare (P : Params) : BatchGate → List Torus → List Torus → Option (List Torus)
  | .nand, a, b => do
    let t ← tlwe0Add P a b
    let t ← tlwe0Neg P t
    shiftB P t 0.125
  | .and, a, b => do
    let t ← tlwe0Add P a b
    shiftB P t (-0.125)
  | .or, a, b => do
    let t ← tlwe0Add P a b
    shiftB P t 0.125
  | .xor, a, b => do
    let t ← tlwe0AddMul P a b 2
    shiftB P t 0.25
  | .nor, a, b => do
    let t ← tlwe0Add P a b
    let t ← tlwe0Neg P t
    shiftB P t (-0.125)
  | .xnor, a, b => do
    let t ← tlwe0SubMul P a b 2
    shiftB P t (-0.25)

/-- The value that post-processing goroutine `i` stores (`/repo/gates/gates.go:173-176` and the same lines of
the other batch gates). -/
def batchPost (P : Params) (s : BatchState O) (ck : CloudKey O) (i : ℕ) : Option (List Torus) := do
  let t ← s.read i
  let lv1 ← sampleExtractIndex P t 0
  identityKeySwitching P lv1 ck.keySwitchingKey

/-- What a batch gate leaves behind: whether both `wg.Wait()` returned, the evaluators, the results. -/
structure BatchOut (O : FourierOps) where
  done : Bool
  state : BatchState O
  out : List (List Torus)

/-- `BatchNAND` … `BatchXNOR` (`/repo/gates/gates.go:156-312`), which differ only in the preparation. -/
def batchGate (P : Params) (g : BatchGate) (evs : List (PEState O)) (free : List ℕ)
    (inputs : List (List Torus × List Torus)) (ck : CloudKey O) (sched : List BEvent) (post : List ℕ) :
    Option (BatchOut O) := do
  let prepared ← inputs.mapM fun p => batchPrepare P g p.1 p.2
  let s ← batchBlindRotate P evs free prepared ck.blindRotateTestvec ck.bootstrappingKey
    ck.decompositionOffset sched
  if s.finished then
    let (ths, out) ← runSched ((List.range prepared.length).map fun i => [⟨i, batchPost P s ck i⟩])
      (List.replicate prepared.length []) post
    pure ⟨allDone ths, s, out⟩
  else pure ⟨false, s, []⟩

end GoTfhe
