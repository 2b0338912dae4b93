import Verif.Model.Evaluator

/-!
# Sequences of calls on one evaluator

A caller of `/repo/evaluator` as a list of calls; the caller may also write its own objects between
calls. Bootstrapping keys, key-switching keys and offsets may differ from call to call.
-/

namespace GoTfhe

/-- One step of a caller. -/
inductive EvCall (O : FourierOps)
  /-- the caller writes one of its own TRLWE objects -/
  | putTr (k : ℕ) (t : Trlwe)
  /-- the caller writes one of its own LWE objects -/
  | putLw (k : ℕ) (c : List Torus)
  /-- `ExternalProductAssign` -/
  | extProd (g : TrgswF O) (ctIn : ℕ) (off : Torus) (ctOut : ℕ)
  /-- `CMuxAssign` -/
  | cmux (g : TrgswF O) (ct0 ct1 : ℕ) (off : Torus) (ctOut : ℕ)
  /-- `BlindRotateAssign` -/
  | blindRotate (ctIn : LRef) (tv : ℕ) (bsk : List (TrgswF O)) (off : Torus) (ctOut : ℕ)
  /-- `BootstrapAssign`, `BootstrapLUTAssign` -/
  | bootAssign (ctIn : LRef) (tv : ℕ) (bsk : List (TrgswF O)) (ksk : List (List Torus)) (off : Torus)
      (ctOut : LRef)
  /-- `Bootstrap`, `BootstrapLUTTemp` -/
  | boot (ctIn : LRef) (tv : ℕ) (bsk : List (TrgswF O)) (ksk : List (List Torus)) (off : Torus)
  /-- `BootstrapLUT`, the copy being stored in the caller's new object `out` -/
  | bootCopy (ctIn : LRef) (tv : ℕ) (bsk : List (TrgswF O)) (ksk : List (List Torus)) (off : Torus) (out : ℕ)
  /-- `ResetBuffers` -/
  | reset

variable {O : FourierOps}

/-- Perform one call. -/
def EvCall.run (P : Params) (st : EvState O) : EvCall O → Option (EvState O)
  | .putTr k t => some (st.setTr (.user k) t)
  | .putLw k c => some (st.setLw (.user k) c)
  | .extProd g i off o => externalProductAssign P st g (.user i) off (.user o)
  | .cmux g a b off o => cMuxAssign P st g (.user a) (.user b) off (.user o)
  | .blindRotate c tv bsk off o => blindRotateAssign P st c (.user tv) bsk off (.user o)
  | .bootAssign c tv bsk ksk off o => bootstrapAssign P st c (.user tv) bsk ksk off o
  | .boot c tv bsk ksk off => (bootstrapPooled P st c (.user tv) bsk ksk off).map Prod.fst
  | .bootCopy c tv bsk ksk off o =>
    (bootstrapLUT P st c (.user tv) bsk ksk off).map fun r => r.1.setLw (.user o) r.2
  | .reset => some (resetBuffers st)

/-- Perform a sequence of calls. -/
def runCalls (P : Params) (st : EvState O) : List (EvCall O) → Option (EvState O)
  | [] => some st
  | c :: cs => (c.run P st).bind fun st => runCalls P st cs

/-- The calls that take a result buffer from the pool. -/
def EvCall.takesResult : EvCall O → Bool
  | .boot .. | .bootCopy .. => true
  | _ => false

end GoTfhe
