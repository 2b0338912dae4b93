import Verif.Lemmas.Blind
import Verif.Model.EvCalls

/-!
# Every sequence of well-sized calls keeps the evaluator usable
-/

namespace GoTfhe

variable {O : FourierOps}

/-- An LWE object a caller may pass: its own, or one of the four pooled results. -/
def LRef.callable : LRef → Prop
  | .extracted => False
  | .pool i => i < 4
  | .user _ => True

/-- The arguments of a call have the sizes of the parameters. -/
def EvCall.Sized (P : Params) (L : FourierLaws O) (st : EvState O) : EvCall O → Prop
  | .putTr _ _ => True
  | .putLw _ _ => True
  | .extProd g i _ o => GoodG L P.trgswLv1.L g ∧ (st.tr (.user i)).Sized P.trgswLv1.N ∧
      (st.tr (.user o)).Sized P.trgswLv1.N
  | .cmux g a b _ o => GoodG L P.trgswLv1.L g ∧ (st.tr (.user a)).Sized P.trgswLv1.N ∧
      (st.tr (.user b)).Sized P.trgswLv1.N ∧ (st.tr (.user o)).Sized P.trgswLv1.N
  | .blindRotate c tv bsk _ o => GoodBsk P L bsk ∧ (st.lw c).length = P.tlweLv0.N + 1 ∧
      (st.tr (.user tv)).Sized P.trgswLv1.N ∧ (st.tr (.user o)).Sized P.trgswLv1.N
  | .bootAssign c tv bsk ksk _ o => GoodBsk P L bsk ∧ GoodKsk P ksk ∧ (st.lw c).length = P.tlweLv0.N + 1 ∧
      (st.tr (.user tv)).Sized P.trgswLv1.N ∧ o.callable ∧ (st.lw o).length = P.tlweLv0.N + 1
  | .boot c tv bsk ksk _ => GoodBsk P L bsk ∧ GoodKsk P ksk ∧ (st.lw c).length = P.tlweLv0.N + 1 ∧
      (st.tr (.user tv)).Sized P.trgswLv1.N
  | .bootCopy c tv bsk ksk _ _ => GoodBsk P L bsk ∧ GoodKsk P ksk ∧ (st.lw c).length = P.tlweLv0.N + 1 ∧
      (st.tr (.user tv)).Sized P.trgswLv1.N
  | .reset => True

/-- Every call of the sequence is well sized when it is made. -/
def AllSized (P : Params) (L : FourierLaws O) : EvState O → List (EvCall O) → Prop
  | _, [] => True
  | st, c :: cs => c.Sized P L st ∧ ∀ st', c.run P st = some st' → AllSized P L st' cs

/-- The call does not name `r` as an output object. -/
def EvCall.Spares (r : LRef) : EvCall O → Prop
  | .putLw k _ => r ≠ .user k
  | .bootAssign _ _ _ _ _ o => r ≠ o
  | .bootCopy _ _ _ _ _ o => r ≠ .user o
  | _ => True

theorem EvGood.setLw_user {P : Params} {L : FourierLaws O} {st : EvState O} (h : EvGood P L st) (k : ℕ)
    (c : List Torus) : EvGood P L (st.setLw (.user k) c) := by
  refine ⟨h.dec_len, h.dec_row, h.four_len, h.four_ok, h.okA, h.okB, h.tr_len, ?_, ?_, h.idx_lt⟩
  · simpa [EvState.setLw] using h.ext_len
  · intro i hi
    simpa [EvState.setLw] using h.pool_len i hi

theorem EvGood.setTr_user {P : Params} {L : FourierLaws O} {st : EvState O} (h : EvGood P L st) (k : ℕ)
    (t : Trlwe) : EvGood P L (st.setTr (.user k) t) := by
  refine ⟨h.dec_len, h.dec_row, h.four_len, h.four_ok, h.okA, h.okB, ?_, h.ext_len, h.pool_len, h.idx_lt⟩
  intro r hr
  rw [EvState.setTr_tr_ne _ _ _ _ (by rintro rfl; exact hr)]
  exact h.tr_len r hr

theorem bootstrapLUT_eq {P : Params} (W : WellFormed P) (L : FourierLaws O)
    (hd : O.deg = P.trgswLv1.N) (st : EvState O) (hst : EvGood P L st) (bsk : List (TrgswF O))
    (hb : GoodBsk P L bsk) (ksk : List (List Torus)) (hk : GoodKsk P ksk) (off : Torus)
    (ctIn : LRef) (testvec : TRef) (hin : (st.lw ctIn).length = P.tlweLv0.N + 1)
    (htv : testvec ≠ .acc1) (ht : (st.tr testvec).Sized P.trgswLv1.N) :
    ∃ st', bootstrapLUT P st ctIn testvec bsk ksk off
        = some (st', bootPure P L off bsk ksk (st.tr testvec) (st.lw ctIn)) ∧
      EvGood P L st' ∧
      (∀ r, r ≠ .pool st.poolIdx → r ≠ .extracted → st'.lw r = st.lw r) ∧
      (∀ r : TRef, ¬ r.internal → st'.tr r = st.tr r) ∧ st'.poolIdx = (st.poolIdx + 1) % 4 := by
  obtain ⟨s, e, hg, h1, h2, h3, h4⟩ := bootstrapPooled_eq W L hd st hst bsk hb ksk hk off ctIn testvec hin htv ht
  unfold bootstrapLUT
  rw [e]
  simp only [Option.bind_eq_bind, Option.bind_some, h1]
  have hl := length_bootPure P L off bsk ksk (st.tr testvec) (st.lw ctIn)
  set v := bootPure P L off bsk ksk (st.tr testvec) (st.lw ctIn) with hv
  rw [copySlice_of_length _ _ (by simp [newTLWELv0, hl])]
  unfold tlwe0B tlwe0SetB
  rw [rd_at' _ _ (by omega), Option.bind_some, wr_eq _ _ _ (by omega)]
  simp only [Option.bind_some, Option.pure_def]
  refine ⟨s, ?_, hg, h2, h3, h4⟩
  congr 2
  apply List.ext_getElem (by simp)
  intro i hi hi'
  rw [List.getElem_set]
  split_ifs with h
  · subst h; rw [at'_of_lt]
  · rfl

/-- One call: it succeeds, keeps the evaluator usable, leaves alone every LWE object that is neither
named as output, nor the scratch, nor the result buffer taken; and the pool index advances exactly on
calls that take a result. -/
theorem run_good {P : Params} (W : WellFormed P) (L : FourierLaws O) (hd : O.deg = P.trgswLv1.N)
    (st : EvState O) (hst : EvGood P L st) (c : EvCall O) (hc : c.Sized P L st) :
    ∃ st', c.run P st = some st' ∧ EvGood P L st' ∧
      (∀ r, r ≠ .extracted → c.Spares r → (c.takesResult = true → r ≠ .pool st.poolIdx) →
        st'.lw r = st.lw r) ∧
      (c.takesResult = true → st'.poolIdx = (st.poolIdx + 1) % 4) ∧
      (c.takesResult = false → c = .reset ∧ st'.poolIdx = 0 ∨ st'.poolIdx = st.poolIdx) := by
  cases c with
  | putTr k t => exact ⟨_, rfl, hst.setTr_user k t, fun _ _ _ _ => rfl, by simp [EvCall.takesResult], fun _ => Or.inr rfl⟩
  | putLw k c =>
    refine ⟨_, rfl, hst.setLw_user k c, ?_, by simp [EvCall.takesResult], fun _ => Or.inr rfl⟩
    intro r _ h _
    exact Function.update_of_ne h _ _
  | extProd g i off o =>
    obtain ⟨h1, h2, h3⟩ := hc
    obtain ⟨s, e, hg, -, hl, hp⟩ := externalProductAssign_eq W L hd st hst g h1 off _ _ h2 h3
    exact ⟨s, e, hg, fun r _ _ _ => by rw [hl], by simp [EvCall.takesResult], fun _ => Or.inr hp⟩
  | cmux g a b off o =>
    obtain ⟨h1, h2, h3, h4⟩ := hc
    obtain ⟨s, e, hg, -, -, hl, hp⟩ := cMuxAssign_eq W L hd st hst g h1 off (.user a) (.user b) (.user o)
      (by simp) (by simp) (by simp) h2 h3 h4
    exact ⟨s, e, hg, fun r _ _ _ => by rw [hl], by simp [EvCall.takesResult], fun _ => Or.inr hp⟩
  | blindRotate c tv bsk off o =>
    obtain ⟨h1, h2, h3, h4⟩ := hc
    obtain ⟨s, e, hg, -, -, hl, hp⟩ := blindRotateAssign_eq W L hd st hst bsk h1 off c (.user tv) (.user o)
      h2 (by simp) (by simp [TRef.scratch]) h3 h4
    exact ⟨s, e, hg, fun r _ _ _ => by rw [hl], by simp [EvCall.takesResult], fun _ => Or.inr hp⟩
  | bootAssign c tv bsk ksk off o =>
    obtain ⟨h1, h2, h3, h4, h5, h6⟩ := hc
    obtain ⟨s, e, hg, -, hl, -, hp⟩ := bootstrapAssign_eq W L hd st hst bsk h1 ksk h2 off c (.user tv) o h3
      (by simp) h4 (by rintro rfl; exact h5) h6
    exact ⟨s, e, hg, fun r hr hs _ => hl r hs hr, by simp [EvCall.takesResult], fun _ => Or.inr hp⟩
  | boot c tv bsk ksk off =>
    obtain ⟨h1, h2, h3, h4⟩ := hc
    obtain ⟨s, e, hg, -, hl, -, hp⟩ := bootstrapPooled_eq W L hd st hst bsk h1 ksk h2 off c (.user tv) h3
      (by simp) h4
    refine ⟨s, ?_, hg, fun r hr _ hp => hl r (hp rfl) hr, fun _ => hp, by simp [EvCall.takesResult]⟩
    simp only [EvCall.run, e, Option.map_some]
  | bootCopy c tv bsk ksk off o =>
    obtain ⟨h1, h2, h3, h4⟩ := hc
    obtain ⟨s, e, hg, hl, -, hp⟩ := bootstrapLUT_eq W L hd st hst bsk h1 ksk h2 off c (.user tv) h3
      (by simp) h4
    refine ⟨s.setLw (.user o) (bootPure P L off bsk ksk (st.tr (.user tv)) (st.lw c)), ?_, hg.setLw_user o _, ?_, fun _ => hp, by simp [EvCall.takesResult]⟩
    · simp only [EvCall.run, e, Option.map_some]
    · intro r hr hs hp
      have : (s.setLw (.user o) (bootPure P L off bsk ksk (st.tr (.user tv)) (st.lw c))).lw r = s.lw r :=
        Function.update_of_ne hs _ _
      rw [this]
      exact hl r (hp rfl) hr
  | reset =>
    refine ⟨_, rfl, ?_, fun _ _ _ _ => rfl, by simp [EvCall.takesResult], fun _ => Or.inl ⟨rfl, rfl⟩⟩
    exact ⟨hst.dec_len, hst.dec_row, hst.four_len, hst.four_ok, hst.okA, hst.okB, hst.tr_len, hst.ext_len,
      hst.pool_len, by simp [resetBuffers]⟩

theorem runCalls_good {P : Params} (W : WellFormed P) (L : FourierLaws O) (hd : O.deg = P.trgswLv1.N)
    (cs : List (EvCall O)) (st : EvState O) (hst : EvGood P L st) (hc : AllSized P L st cs) :
    ∃ st', runCalls P st cs = some st' ∧ EvGood P L st' := by
  induction cs generalizing st with
  | nil => exact ⟨st, rfl, hst⟩
  | cons c cs ih =>
    obtain ⟨s, e, hg, -⟩ := run_good W L hd st hst c hc.1
    obtain ⟨s', e', hg'⟩ := ih s hg (hc.2 s e)
    exact ⟨s', by simp only [runCalls, e, Option.bind_some, e'], hg'⟩

/-- A pooled object survives calls that do not name it, as long as fewer results are taken than lie
between the pool index and its slot. -/
theorem runCalls_keeps {P : Params} (W : WellFormed P) (L : FourierLaws O) (hd : O.deg = P.trgswLv1.N)
    (i : ℕ) (hi : i < 4) (cs : List (EvCall O)) (st st' : EvState O) (hst : EvGood P L st) (hc : AllSized P L st cs)
    (hs : ∀ c ∈ cs, c.Spares (.pool i)) (hr : ∀ c ∈ cs, c ≠ .reset)
    (hn : cs.countP EvCall.takesResult ≤ (i + 4 - st.poolIdx) % 4)
    (hrun : runCalls P st cs = some st') : st'.lw (.pool i) = st.lw (.pool i) := by
  induction cs generalizing st with
  | nil =>
    simp only [runCalls, Option.some.injEq] at hrun
    rw [hrun]
  | cons c cs ih =>
    obtain ⟨s, e, hg, hl, hp1, hp2⟩ := run_good W L hd st hst c hc.1
    simp only [runCalls, e, Option.bind_some] at hrun
    have hidx := hst.idx_lt
    rw [List.countP_cons] at hn
    have h1 : s.lw (.pool i) = st.lw (.pool i) := by
      apply hl _ (by simp) (hs c List.mem_cons_self)
      intro ht
      rw [if_pos ht] at hn
      simp only [ne_eq, LRef.pool.injEq]
      rintro rfl
      omega
    rw [← h1]
    apply ih s hg (hc.2 s e) (fun c h => hs c (List.mem_cons_of_mem _ h))
      (fun c h => hr c (List.mem_cons_of_mem _ h)) _ hrun
    by_cases ht : c.takesResult = true
    · rw [hp1 ht]; rw [if_pos ht] at hn; omega
    · rw [if_neg ht] at hn
      rcases hp2 (by simpa using ht) with ⟨h, -⟩ | h
      · exact absurd h (hr c List.mem_cons_self)
      · rw [h]; omega

/-- The pool index counts the results taken since the last reset, modulo four. -/
theorem runCalls_poolIdx {P : Params} (W : WellFormed P) (L : FourierLaws O) (hd : O.deg = P.trgswLv1.N)
    (cs : List (EvCall O)) (st st' : EvState O) (hst : EvGood P L st) (hc : AllSized P L st cs)
    (hr : ∀ c ∈ cs, c ≠ .reset) (hrun : runCalls P st cs = some st') :
    st'.poolIdx = (st.poolIdx + cs.countP EvCall.takesResult) % 4 := by
  induction cs generalizing st with
  | nil =>
    simp only [runCalls, Option.some.injEq] at hrun
    rw [← hrun]
    have := hst.idx_lt
    simp only [List.countP_nil]; omega
  | cons c cs ih =>
    obtain ⟨s, e, hg, hl, hp1, hp2⟩ := run_good W L hd st hst c hc.1
    simp only [runCalls, e, Option.bind_some] at hrun
    rw [ih s hg (hc.2 s e) (fun c h => hr c (List.mem_cons_of_mem _ h)) hrun, List.countP_cons]
    by_cases ht : c.takesResult = true
    · rw [hp1 ht, if_pos ht]; omega
    · rw [if_neg ht]
      rcases hp2 (by simpa using ht) with ⟨h, -⟩ | h
      · exact absurd h (hr c List.mem_cons_self)
      · rw [h]; omega

end GoTfhe
