import Verif.Model.Concurrent
import Verif.Lemmas.Evaluator

/-!
# Goroutines bootstrapping at the same time: the steps of one goroutine
-/

namespace GoTfhe

variable {O : FourierOps}

/-- A goroutine running alone. -/
def soloSteps (P : Params) : ℕ → EvState O × BootThread O → Option (EvState O × BootThread O)
  | 0, x => some x
  | k + 1, x => (bootStep P x.1 x.2).bind (soloSteps P k)

theorem soloSteps_add (P : Params) (j k : ℕ) (x : EvState O × BootThread O) :
    soloSteps P (j + k) x = (soloSteps P j x).bind (soloSteps P k) := by
  induction j generalizing x with
  | zero => simp [soloSteps]
  | succ j ih =>
    rw [show j + 1 + k = (j + k) + 1 by omega]
    simp only [soloSteps]
    cases bootStep P x.1 x.2 with
    | none => rfl
    | some y => simp only [Option.bind_some]; exact ih y

theorem soloSteps_one (P : Params) (x : EvState O × BootThread O) : soloSteps P 1 x = bootStep P x.1 x.2 := by
  simp only [soloSteps]
  cases bootStep P x.1 x.2 <;> rfl

theorem bootStep_keeps (P : Params) (st st' : EvState O) (th th' : BootThread O)
    (h : bootStep P st th = some (st', th')) : th'.ev = th.ev ∧ th'.args = th.args := by
  unfold bootStep at h
  split at h <;>
    simp only [Option.bind_eq_bind, Option.pure_def, Option.bind_eq_some_iff, Option.some.injEq, Prod.mk.injEq] at h
  · obtain ⟨-, rfl⟩ := h; exact ⟨rfl, rfl⟩
  · obtain ⟨-, rfl⟩ := h; exact ⟨rfl, rfl⟩
  · obtain ⟨_, _, _, _, -, rfl⟩ := h; exact ⟨rfl, rfl⟩
  · obtain ⟨_, _, _, _, -, rfl⟩ := h; exact ⟨rfl, rfl⟩
  · obtain ⟨_, _, _, _, -, rfl⟩ := h; exact ⟨rfl, rfl⟩
  · obtain ⟨-, rfl⟩ := h; exact ⟨rfl, rfl⟩
  · obtain ⟨_, _, -, rfl⟩ := h; exact ⟨rfl, rfl⟩
  · obtain ⟨_, _, -, rfl⟩ := h; exact ⟨rfl, rfl⟩
  · obtain ⟨_, _, _, _, -, rfl⟩ := h; exact ⟨rfl, rfl⟩
  · obtain ⟨-, rfl⟩ := h; exact ⟨rfl, rfl⟩

theorem soloSteps_done (P : Params) (k : ℕ) (st : EvState O) (th : BootThread O) (h : th.pc = .done) :
    soloSteps P k (st, th) = some (st, th) := by
  induction k with
  | zero => rfl
  | succ k ih => simp only [soloSteps, bootStep, h, Option.bind_some]; exact ih

/-- The loop of `BlindRotateAssign`. -/
theorem soloSteps_loop (P : Params) (th : BootThread O) (m i : ℕ) (hi : i + m = P.tlweLv0.N) (st : EvState O) :
    soloSteps P (2 * m) (st, { th with pc := loopPc P i })
      = (forRange i P.tlweLv0.N st fun i st => do
          let a ← rd (st.lw th.args.ctIn) i
          let st ← rotateInto st .acc1 (aTilda P.trgswLv1.NBIT a) .acc2
          let g ← rd th.args.bsk i
          cMuxAssign P st g .acc1 .acc2 th.args.offset .acc1).map fun st => (st, { th with pc := .copyOut }) := by
  induction m generalizing i st with
  | zero =>
    rw [forRange_empty _ _ (by omega), loopPc, if_neg (by omega)]
    rfl
  | succ m ih =>
    rw [forRange_succ_left _ _ (by omega), show 2 * (m + 1) = 1 + (1 + 2 * m) by ring, soloSteps_add, soloSteps_one]
    rw [loopPc, if_pos (by omega)]
    simp only [bootStep, Option.bind_eq_bind, Option.pure_def]
    cases rd (st.lw th.args.ctIn) i with
    | none => rfl
    | some a =>
      simp only [Option.bind_some]
      cases rotateInto st .acc1 (aTilda P.trgswLv1.NBIT a) .acc2 with
      | none => rfl
      | some st1 =>
        simp only [Option.bind_some]
        rw [soloSteps_add, soloSteps_one]
        simp only [bootStep, Option.bind_eq_bind, Option.pure_def]
        cases rd th.args.bsk i with
        | none => rfl
        | some g =>
          simp only [Option.bind_some]
          cases cMuxAssign P st1 g .acc1 .acc2 th.args.offset .acc1 with
          | none => rfl
          | some st2 =>
            simp only [Option.bind_some]
            exact ih (i + 1) (by omega) st2

/-- The first half of the call: a slot is taken and the blind rotation is done. -/
theorem soloSteps_rotate (P : Params) (st : EvState O) (ev : ℕ) (a : BootArgs O) :
    soloSteps P (2 * P.tlweLv0.N + 4) (st, { ev := ev, args := a })
      = (blindRotateAssign P { st with poolIdx := (st.poolIdx + 1) % 4 } a.ctIn a.testvec a.bsk a.offset .rotated).map
          fun s => (s, { ev := ev, args := a, pc := .extract, slot := .pool st.poolIdx }) := by
  rw [show 2 * P.tlweLv0.N + 4 = 1 + (1 + (1 + (2 * P.tlweLv0.N + 1))) by ring]
  iterate 3 rw [soloSteps_add, soloSteps_one]; simp only [bootStep, Option.bind_some, Option.bind_eq_bind]
  unfold blindRotateAssign
  simp only [Option.bind_eq_bind, Option.pure_def]
  cases tlwe0B P (st.lw a.ctIn) with
  | none => rfl
  | some b =>
    simp only [Option.bind_some]
    cases rotateInto { st with poolIdx := (st.poolIdx + 1) % 4 } a.testvec
        (bTilda P.trgswLv1.N P.trgswLv1.NBIT b) .acc1 with
    | none => rfl
    | some s =>
      simp only [Option.bind_some]
      rw [soloSteps_add]
      have := soloSteps_loop P { ev := ev, args := a, slot := .pool st.poolIdx } P.tlweLv0.N 0 (by simp) s
      simp only at this
      rw [this]
      simp only [Option.bind_eq_bind]
      cases forRange 0 P.tlweLv0.N s fun i st => (rd (st.lw a.ctIn) i).bind fun a_1 =>
          (rotateInto st .acc1 (aTilda P.trgswLv1.NBIT a_1) .acc2).bind fun st =>
            (rd a.bsk i).bind fun g => cMuxAssign P st g .acc1 .acc2 a.offset .acc1 with
      | none => rfl
      | some s' => rfl

/-- The second half. -/
theorem soloSteps_finish (P : Params) (st : EvState O) (ev : ℕ) (a : BootArgs O) (slot : LRef) :
    soloSteps P 3 (st, { ev := ev, args := a, pc := .extract, slot := slot })
      = (do
          let e ← sampleExtractIndexAssign P (st.tr .rotated) 0 (st.lw .extracted)
          let st := st.setLw .extracted e
          let o ← identityKeySwitchingAssign P (st.lw .extracted) a.ksk (st.lw slot)
          let st := st.setLw slot o
          let copied := copySlice (newTLWELv0 P) (st.lw slot)
          let b ← tlwe0B P (st.lw slot)
          let copied ← tlwe0SetB P copied b
          pure (st, { ev := ev, args := a, pc := .done, slot := slot, res := copied })) := by
  rw [show 3 = 1 + (1 + 1) by rfl]
  rw [soloSteps_add, soloSteps_one]
  simp only [bootStep, Option.bind_eq_bind, Option.pure_def]
  cases sampleExtractIndexAssign P (st.tr .rotated) 0 (st.lw .extracted) with
  | none => rfl
  | some e =>
    simp only [Option.bind_some]
    rw [soloSteps_add, soloSteps_one]
    simp only [bootStep, Option.bind_eq_bind, Option.pure_def]
    cases identityKeySwitchingAssign P ((st.setLw .extracted e).lw .extracted) a.ksk ((st.setLw .extracted e).lw slot) with
    | none => rfl
    | some o =>
      simp only [Option.bind_some]
      rw [soloSteps_one]
      rfl

/-- The number of steps of a call. -/
def bootSteps (P : Params) : ℕ := 2 * P.tlweLv0.N + 7

/-- A goroutine running alone makes the sequential call. -/
theorem soloSteps_all (P : Params) (st : EvState O) (ev : ℕ) (a : BootArgs O) :
    soloSteps P (bootSteps P) (st, { ev := ev, args := a })
      = (bootstrapLUT P st a.ctIn a.testvec a.bsk a.ksk a.offset).map
          fun r => (r.1, { ev := ev, args := a, pc := .done, slot := .pool st.poolIdx, res := r.2 }) := by
  rw [show bootSteps P = (2 * P.tlweLv0.N + 4) + 3 from rfl, soloSteps_add, soloSteps_rotate]
  unfold bootstrapLUT bootstrapPooled getNextResult bootstrapAssign
  simp only [Option.bind_eq_bind, Option.pure_def]
  cases blindRotateAssign P { st with poolIdx := (st.poolIdx + 1) % 4 } a.ctIn a.testvec a.bsk a.offset .rotated with
  | none => rfl
  | some s =>
    simp only [Option.map_some, Option.bind_some]
    rw [soloSteps_finish]
    simp only [Option.bind_eq_bind, Option.pure_def]
    cases sampleExtractIndexAssign P (s.tr .rotated) 0 (s.lw .extracted) with
    | none => rfl
    | some e =>
      simp only [Option.bind_some]
      cases identityKeySwitchingAssign P ((s.setLw .extracted e).lw .extracted) a.ksk
          ((s.setLw .extracted e).lw (.pool st.poolIdx)) with
      | none => rfl
      | some o =>
        simp only [Option.bind_some]
        cases tlwe0B P (((s.setLw .extracted e).setLw (.pool st.poolIdx) o).lw (.pool st.poolIdx)) with
        | none => rfl
        | some b =>
          simp only [Option.bind_some]
          cases tlwe0SetB P (copySlice (newTLWELv0 P)
            (((s.setLw .extracted e).setLw (.pool st.poolIdx) o).lw (.pool st.poolIdx))) b <;> rfl

/-- One goroutine taking many steps in a row. -/
theorem run_replicate (P : Params) (t k : ℕ) (ts : List ℕ) (w : BootWorld O) :
    w.run P (List.replicate k t ++ ts)
      = (soloSteps P k (w.evs (w.ths t).ev, w.ths t)).bind fun r =>
          BootWorld.run P ⟨Function.update w.evs (w.ths t).ev r.1, Function.update w.ths t r.2⟩ ts := by
  induction k generalizing w with
  | zero => simp [soloSteps]
  | succ k ih =>
    rw [List.replicate_succ, List.cons_append]
    simp only [BootWorld.run, BootWorld.step, soloSteps, Option.bind_eq_bind, Option.pure_def]
    cases h : bootStep P (w.evs (w.ths t).ev) (w.ths t) with
    | none => rfl
    | some r =>
      have he := (bootStep_keeps P _ _ _ _ h).1
      simp only [Option.bind_some]
      rw [ih]
      simp only [Function.update_self, he, Function.update_idem]

end GoTfhe
