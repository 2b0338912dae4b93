import Verif.Model.Evaluator

/-!
# Goroutines bootstrapping at the same time

Several goroutines, each inside one call of `gates.bootstrap` (`/repo/gates/gates.go:136-142`) or
`BootstrapLUT` (`/repo/evaluator/programmable_bootstrap.go:50-69`; the two bodies are the same). A goroutine runs in
the atomic steps below; a schedule says which goroutine takes the next step. Several goroutines may use one evaluator.
The steps are coarser than the memory accesses of the code, so every interleaving of the model is one of the code.
-/

namespace GoTfhe

variable {O : FourierOps}

/-- Arguments of a call. The references are objects of the caller, which no call writes. -/
structure BootArgs (O : FourierOps) where
  ctIn : LRef
  testvec : TRef
  bsk : List (TrgswF O)
  ksk : List (List Torus)
  offset : Torus

/-- Where a goroutine is. -/
inductive BootPc
  /-- `/repo/evaluator/buffers.go:201` -/
  | takeSlot
  /-- `/repo/evaluator/buffers.go:202` -/
  | bump
  /-- `/repo/evaluator/evaluator.go:111-118` -/
  | rotate0
  /-- `/repo/evaluator/evaluator.go:121-126`, iteration `i` -/
  | rotate (i : ℕ)
  /-- `/repo/evaluator/evaluator.go:129`, iteration `i` -/
  | mux (i : ℕ)
  /-- `/repo/evaluator/evaluator.go:132-134` -/
  | copyOut
  /-- `/repo/evaluator/evaluator.go:144` -/
  | extract
  /-- `/repo/evaluator/evaluator.go:147` -/
  | switch
  /-- `/repo/gates/gates.go:138-141` -/
  | copyRes
  | done
deriving DecidableEq

/-- A goroutine: its evaluator, its place, and its local variables. -/
structure BootThread (O : FourierOps) where
  ev : ℕ
  args : BootArgs O
  pc : BootPc := .takeSlot
  slot : LRef := .pool 0
  res : List Torus := []

/-- Head of the loop of `BlindRotateAssign`. -/
def loopPc (P : Params) (i : ℕ) : BootPc := if i < P.tlweLv0.N then .rotate i else .copyOut

/-- One step of a goroutine on its evaluator. A finished goroutine stays finished. -/
def bootStep (P : Params) (st : EvState O) (th : BootThread O) : Option (EvState O × BootThread O) :=
  match th.pc with
  | .takeSlot => some (st, { th with pc := .bump, slot := .pool st.poolIdx })
  | .bump => some ({ st with poolIdx := (st.poolIdx + 1) % 4 }, { th with pc := .rotate0 })
  | .rotate0 => do
    let b ← tlwe0B P (st.lw th.args.ctIn)
    let st ← rotateInto st th.args.testvec (bTilda P.trgswLv1.N P.trgswLv1.NBIT b) .acc1
    pure (st, { th with pc := loopPc P 0 })
  | .rotate i => do
    let a ← rd (st.lw th.args.ctIn) i
    let st ← rotateInto st .acc1 (aTilda P.trgswLv1.NBIT a) .acc2
    pure (st, { th with pc := .mux i })
  | .mux i => do
    let g ← rd th.args.bsk i
    let st ← cMuxAssign P st g .acc1 .acc2 th.args.offset .acc1
    pure (st, { th with pc := loopPc P (i + 1) })
  | .copyOut =>
    let st := st.setTr .rotated ⟨copySlice (st.tr .rotated).A (st.tr .acc1).A, (st.tr .rotated).B⟩
    some (st.setTr .rotated ⟨(st.tr .rotated).A, copySlice (st.tr .rotated).B (st.tr .acc1).B⟩,
      { th with pc := .extract })
  | .extract => do
    let e ← sampleExtractIndexAssign P (st.tr .rotated) 0 (st.lw .extracted)
    pure (st.setLw .extracted e, { th with pc := .switch })
  | .switch => do
    let o ← identityKeySwitchingAssign P (st.lw .extracted) th.args.ksk (st.lw th.slot)
    pure (st.setLw th.slot o, { th with pc := .copyRes })
  | .copyRes => do
    let copied := copySlice (newTLWELv0 P) (st.lw th.slot)
    let b ← tlwe0B P (st.lw th.slot)
    let copied ← tlwe0SetB P copied b
    pure (st, { th with pc := .done, res := copied })
  | .done => some (st, th)

/-- Evaluators and goroutines of a process. -/
structure BootWorld (O : FourierOps) where
  evs : ℕ → EvState O
  ths : ℕ → BootThread O

/-- Goroutine `t` takes a step. A panic ends the process. -/
def BootWorld.step (P : Params) (w : BootWorld O) (t : ℕ) : Option (BootWorld O) := do
  let r ← bootStep P (w.evs (w.ths t).ev) (w.ths t)
  pure ⟨Function.update w.evs (w.ths t).ev r.1, Function.update w.ths t r.2⟩

/-- A schedule. -/
def BootWorld.run (P : Params) (w : BootWorld O) : List ℕ → Option (BootWorld O)
  | [] => some w
  | t :: ts => (w.step P t).bind fun w => w.run P ts

end GoTfhe
