import Verif.Model.Batch
import Verif.Lemmas.PoolEval
import Verif.Lemmas.Blind
import Verif.Lemmas.Gates
import Verif.Lemmas.Sched
import Mathlib.Algebra.Group.Even

/-!
# The goroutines of batch blind rotation
-/

namespace GoTfhe

variable {O : FourierOps}

/-- Goroutine `i` has evaluator `e`. -/
def BatchState.Holds (s : BatchState O) (i e : ℕ) : Prop :=
  s.jobs[i]? = some (.holding e) ∨ s.jobs[i]? = some (.ran e)

/-- Where the next result goes when the number of CMUX steps is even. -/
def lastRef (st : PEState O) : PRef × PRef := (.trA ((st.trIdx + 3) % 4), .trB ((st.trIdx + 3) % 4))

structure BInv (P : Params) (L : FourierLaws O) (srcs : List (List Torus)) (tv : Trlwe) (bsk : List (TrgswF O))
    (off : Torus) (s : BatchState O) : Prop where
  jl : s.jobs.length = srcs.length
  rl : s.results.length = srcs.length
  good : ∀ st ∈ s.evs, PEGood P L st
  fnd : s.free.Nodup
  flt : ∀ e ∈ s.free, e < s.evs.length
  hold : ∀ i e, s.Holds i e → e < s.evs.length ∧ e ∉ s.free
  excl : ∀ i j e, s.Holds i e → s.Holds j e → i = j
  none_ : ∀ i : ℕ, s.jobs[i]? = some .waiting ∨ (∃ e, s.jobs[i]? = some (.holding e)) → s.results[i]? = some none
  some_ : ∀ i : ℕ, s.jobs[i]? = some .done ∨ (∃ e, s.jobs[i]? = some (.ran e)) → ∃ r, s.results[i]? = some (some r)
  val : ∀ (i e : ℕ) (x : PRef × PRef), s.results[i]? = some (some (e, x)) → ∃ st, s.evs[e]? = some st ∧
    (∃ a < 4, x = (.trA a, .trB a)) ∧ (Even P.tlweLv0.N → x = lastRef st) ∧
    ∃ (j : ℕ) (y : PRef × PRef) (src : List Torus), s.results[j]? = some (some (e, y)) ∧ srcs[j]? = some src ∧
      (⟨st.mem y.1, st.mem y.2⟩ : Trlwe) = blindRot P L off bsk tv src

theorem bInv_init {P : Params} {L : FourierLaws O} {srcs : List (List Torus)} {tv : Trlwe}
    {bsk : List (TrgswF O)} {off : Torus} {evs : List (PEState O)} {free : List ℕ}
    (hg : ∀ st ∈ evs, PEGood P L st) (hn : free.Nodup) (hlt : ∀ e ∈ free, e < evs.length) :
    BInv P L srcs tv bsk off
      ⟨evs, free, List.replicate srcs.length .waiting, List.replicate srcs.length none⟩ := by
  refine ⟨by simp, by simp, hg, hn, hlt, ?_, ?_, ?_, ?_, ?_⟩
  · rintro i e (h | h) <;> simp [List.getElem?_replicate] at h
  · rintro i j e (h | h) <;> simp [List.getElem?_replicate] at h
  · rintro i (h | ⟨e, h⟩)
    · simp only [List.getElem?_replicate] at h ⊢
      split_ifs at h ⊢ <;> simp_all
    · simp [List.getElem?_replicate] at h
  · rintro i (h | ⟨e, h⟩) <;> simp [List.getElem?_replicate] at h
  · intro i e x h
    simp [List.getElem?_replicate] at h

theorem batchStep_inv {P : Params} (W : WellFormed P) (L : FourierLaws O) (hd : O.deg = P.trgswLv1.N)
    {srcs : List (List Torus)} (hsrc : ∀ c ∈ srcs, c.length = P.tlweLv0.N + 1) {tv : Trlwe}
    (htv : tv.Sized P.trgswLv1.N) {bsk : List (TrgswF O)} (hb : GoodBsk P L bsk) {off : Torus}
    {s : BatchState O} (h : BInv P L srcs tv bsk off s) (ev : BEvent) :
    ∃ s', batchStep P srcs tv bsk off s ev = some s' ∧ BInv P L srcs tv bsk off s' := by
  have hj : ∀ {i : ℕ} {x : Job} {y : Job}, s.jobs[i]? = some x → ∀ k, (s.jobs.set i y)[k]? = if i = k then some y
      else s.jobs[k]? := by
    intro i x y hx k
    rw [List.getElem?_set]
    have : i < s.jobs.length := (List.getElem?_eq_some_iff.1 hx).1
    simp [this]
  cases ev with
  | get i choice =>
    unfold batchStep
    simp only
    split
    · rename_i hi
      cases choice with
      | some e =>
        simp only
        split
        · rename_i he
          refine ⟨_, rfl, ?_⟩
          have hH : ∀ k e', BatchState.Holds { s with free := s.free.erase e, jobs := s.jobs.set i (.holding e) } k e'
              → (k = i ∧ e' = e) ∨ (k ≠ i ∧ s.Holds k e') := by
            intro k e' hk
            unfold BatchState.Holds at hk ⊢
            simp only [hj hi] at hk
            by_cases hik : i = k
            · subst hik; left; simpa [eq_comm] using hk
            · right; exact ⟨Ne.symm hik, by simpa [hik] using hk⟩
          refine ⟨by simp [h.jl], h.rl, h.good, h.fnd.erase _, fun e' he' => h.flt e' (List.mem_of_mem_erase he'),
            ?_, ?_, ?_, ?_, h.val⟩
          · intro k e' hk
            rcases hH k e' hk with ⟨rfl, rfl⟩ | ⟨_, hk⟩
            · exact ⟨h.flt _ he, fun hc => (List.Nodup.not_mem_erase h.fnd) hc⟩
            · exact ⟨(h.hold k e' hk).1, fun hc => (h.hold k e' hk).2 (List.mem_of_mem_erase hc)⟩
          · intro k l e' hk hl
            rcases hH k e' hk with ⟨h1, h2⟩ | ⟨_, hk'⟩ <;> rcases hH l e' hl with ⟨h3, h4⟩ | ⟨_, hl'⟩
            · omega
            · rw [h2] at hl'; exact absurd he (h.hold l e hl').2
            · rw [h4] at hk'; exact absurd he (h.hold k e hk').2
            · exact h.excl k l e' hk' hl'
          · intro k hk
            simp only [hj hi] at hk
            by_cases hik : i = k
            · subst hik; exact h.none_ _ (Or.inl hi)
            · simp only [if_neg hik] at hk; exact h.none_ k hk
          · intro k hk
            simp only [hj hi] at hk
            by_cases hik : i = k
            · subst hik; simp at hk
            · simp only [if_neg hik] at hk; exact h.some_ k hk
        · exact ⟨s, rfl, h⟩
      | none =>
        simp only
        obtain ⟨st, est, hst, -⟩ := newPEState_good W L hd (fun _ => [])
        rw [est]
        refine ⟨_, rfl, ?_⟩
        have hH : ∀ k e', BatchState.Holds
            { s with evs := s.evs ++ [st], jobs := s.jobs.set i (.holding s.evs.length) } k e'
            → (k = i ∧ e' = s.evs.length) ∨ (k ≠ i ∧ s.Holds k e') := by
          intro k e' hk
          unfold BatchState.Holds at hk ⊢
          simp only [hj hi] at hk
          by_cases hik : i = k
          · subst hik; left; simpa [eq_comm] using hk
          · right; exact ⟨Ne.symm hik, by simpa [hik] using hk⟩
        refine ⟨by simp [h.jl], h.rl, ?_, h.fnd, ?_, ?_, ?_, ?_, ?_, ?_⟩
        · intro x hx
          rcases List.mem_append.1 hx with hx | hx
          · exact h.good x hx
          · rw [List.mem_singleton.1 hx]; exact hst
        · intro e he
          have := h.flt e he
          simp only [List.length_append, List.length_singleton]; omega
        · intro k e' hk
          simp only [List.length_append, List.length_singleton]
          rcases hH k e' hk with ⟨rfl, rfl⟩ | ⟨_, hk⟩
          · refine ⟨by omega, fun hc => ?_⟩
            have := h.flt _ hc
            omega
          · have := h.hold k e' hk
            exact ⟨by omega, this.2⟩
        · intro k l e' hk hl
          rcases hH k e' hk with ⟨h1, h2⟩ | ⟨_, hk'⟩ <;> rcases hH l e' hl with ⟨h3, h4⟩ | ⟨_, hl'⟩
          · omega
          · have := (h.hold l _ hl').1; omega
          · have := (h.hold k _ hk').1; omega
          · exact h.excl k l e' hk' hl'
        · intro k hk
          simp only [hj hi] at hk
          by_cases hik : i = k
          · subst hik; exact h.none_ _ (Or.inl hi)
          · simp only [if_neg hik] at hk; exact h.none_ k hk
        · intro k hk
          simp only [hj hi] at hk
          by_cases hik : i = k
          · subst hik; simp at hk
          · simp only [if_neg hik] at hk; exact h.some_ k hk
        · intro k e' x hk
          obtain ⟨st', h1, h2⟩ := h.val k e' x hk
          exact ⟨st', by rw [List.getElem?_append_left (List.getElem?_eq_some_iff.1 h1).1]; exact h1, h2⟩
    · exact ⟨s, rfl, h⟩
  | run i =>
    unfold batchStep
    simp only
    split
    · rename_i e hi
      have hilt : i < srcs.length := by rw [← h.jl]; exact (List.getElem?_eq_some_iff.1 hi).1
      have helt := (h.hold i e (Or.inl hi)).1
      have hgood := h.good _ (List.getElem_mem helt)
      have hg' : PEGood P L ((s.evs[e].set (.user 0) tv.A).set (.user 1) tv.B) :=
        (hgood.set _ _ htv.1).set _ _ htv.2
      have m0 : ((s.evs[e].set (.user 0) tv.A).set (.user 1) tv.B).mem (.user 0) = tv.A := by
        rw [PEState.set_mem_ne _ _ _ _ (by simp), PEState.set_mem]
      have m1 : ((s.evs[e].set (.user 0) tv.A).set (.user 1) tv.B).mem (.user 1) = tv.B := by
        rw [PEState.set_mem]
      obtain ⟨st', res, er, gr, vr, -, rr, tr⟩ := blindRotatePooled_eq W L hd _ hg' bsk hb off srcs[i]
        (hsrc _ (List.getElem_mem hilt)) (.user 0, .user 1) (by simp) (by simp) (by rw [m0]; exact htv.1)
        (by rw [m1]; exact htv.2)
      rw [m0, m1] at vr
      simp only [PEState.set_trIdx] at rr tr
      rw [rd_eq _ _ hilt, Option.bind_eq_bind, Option.bind_some, rd_eq _ _ helt, Option.bind_eq_bind,
        Option.bind_some]
      simp only [er, Option.bind_eq_bind, Option.bind_some]
      rw [wr_eq _ _ _ helt, Option.bind_some, wr_eq _ _ _ (by rw [h.rl]; exact hilt), Option.bind_some]
      refine ⟨_, rfl, ?_⟩
      have hr : ∀ k, (s.results.set i (some (e, res)))[k]? = if i = k then some (some (e, res))
          else s.results[k]? := by
        intro k
        rw [List.getElem?_set]
        simp [h.rl, hilt]
      have he : ∀ k, (s.evs.set e st')[k]? = if e = k then some st' else s.evs[k]? := by
        intro k
        rw [List.getElem?_set]
        simp [helt]
      have hH : ∀ k e', BatchState.Holds
          ⟨s.evs.set e st', s.free, s.jobs.set i (.ran e), s.results.set i (some (e, res))⟩ k e'
          → s.Holds k e' := by
        intro k e' hk
        unfold BatchState.Holds at hk ⊢
        simp only [hj hi] at hk
        by_cases hik : i = k
        · subst hik
          left; rw [hi]
          simpa using hk
        · simpa [hik] using hk
      refine ⟨by simp [h.jl], by simp [h.rl], ?_, h.fnd, ?_, ?_, ?_, ?_, ?_, ?_⟩
      · intro x hx
        rcases List.mem_or_eq_of_mem_set hx with hx | rfl
        · exact h.good x hx
        · exact gr
      · intro e' he'; simpa using h.flt e' he'
      · intro k e' hk; simpa using h.hold k e' (hH k e' hk)
      · intro k l e' hk hl; exact h.excl k l e' (hH k e' hk) (hH l e' hl)
      · intro k hk
        simp only [hj hi] at hk
        by_cases hik : i = k
        · subst hik; simp at hk
        · simp only [if_neg hik] at hk
          rw [hr, if_neg hik]; exact h.none_ k hk
      · intro k hk
        simp only [hj hi] at hk
        rw [hr]
        by_cases hik : i = k
        · exact ⟨_, if_pos hik⟩
        · simp only [if_neg hik] at hk ⊢
          exact h.some_ k hk
      · intro k e' x hk
        rw [hr] at hk
        have hidx : Even P.tlweLv0.N → st'.trIdx = s.evs[e].trIdx := by
          rintro ⟨m, hm⟩
          have := hgood.tr_lt
          rw [tr]; omega
        have hnew : Even P.tlweLv0.N → res = lastRef st' := by
          intro hev
          have := hidx hev
          obtain ⟨m, hm⟩ := hev
          have h0 := W.lv0_pos
          unfold lastRef
          rw [rr, this]
          have : (s.evs[e].trIdx + 2 * P.tlweLv0.N - 1) % 4 = (s.evs[e].trIdx + 3) % 4 := by omega
          rw [this]
        by_cases hik : i = k
        · subst hik
          rw [if_pos rfl] at hk
          simp only [Option.some.injEq, Prod.mk.injEq] at hk
          obtain ⟨rfl, rfl⟩ := hk
          refine ⟨st', by rw [he, if_pos rfl], ⟨_, Nat.mod_lt _ (by norm_num), rr⟩, hnew, i, res, srcs[i], by rw [hr, if_pos rfl],
            List.getElem?_eq_getElem hilt, vr⟩
        · rw [if_neg hik] at hk
          obtain ⟨st0, hs0, ha0, hev0, j, y, src, hj1, hj2, hj3⟩ := h.val k e' x hk
          by_cases hee : e = e'
          · subst hee
            refine ⟨st', by rw [he, if_pos rfl], ha0, ?_, i, res, srcs[i], by rw [hr, if_pos rfl],
              List.getElem?_eq_getElem hilt, vr⟩
            intro hev
            have : st0 = s.evs[e] := by
              rw [List.getElem?_eq_getElem helt] at hs0; exact (Option.some.inj hs0).symm
            rw [hev0 hev, lastRef, lastRef, hidx hev, this]
          · refine ⟨st0, by rw [he, if_neg hee]; exact hs0, ha0, hev0, j, y, src, ?_, hj2, hj3⟩
            rw [hr]
            by_cases hij : i = j
            · subst hij
              rw [h.none_ i (Or.inr ⟨e, hi⟩)] at hj1
              simp at hj1
            · rw [if_neg hij]; exact hj1
    · exact ⟨s, rfl, h⟩
  | put i =>
    unfold batchStep
    simp only
    split
    · rename_i e hi
      refine ⟨_, rfl, ?_⟩
      have hH : ∀ k e', BatchState.Holds { s with free := e :: s.free, jobs := s.jobs.set i .done } k e'
          → k ≠ i ∧ s.Holds k e' := by
        intro k e' hk
        unfold BatchState.Holds at hk ⊢
        simp only [hj hi] at hk
        by_cases hik : i = k
        · subst hik; simp at hk
        · exact ⟨Ne.symm hik, by simpa [hik] using hk⟩
      have hi' := h.hold i e (Or.inr hi)
      refine ⟨by simp [h.jl], h.rl, h.good, List.nodup_cons.2 ⟨hi'.2, h.fnd⟩, ?_, ?_, ?_, ?_, ?_, h.val⟩
      · intro e' he'
        rcases List.mem_cons.1 he' with rfl | he'
        · exact hi'.1
        · exact h.flt e' he'
      · intro k e' hk
        obtain ⟨hne, hk'⟩ := hH k e' hk
        refine ⟨(h.hold k e' hk').1, fun hc => ?_⟩
        rcases List.mem_cons.1 hc with h1 | hc
        · rw [h1] at hk'; exact hne (h.excl k i _ hk' (Or.inr hi))
        · exact (h.hold k e' hk').2 hc
      · intro k l e' hk hl
        exact h.excl k l e' (hH k e' hk).2 (hH l e' hl).2
      · intro k hk
        simp only [hj hi] at hk
        by_cases hik : i = k
        · subst hik; simp at hk
        · simp only [if_neg hik] at hk; exact h.none_ k hk
      · intro k hk
        simp only [hj hi] at hk
        by_cases hik : i = k
        · subst hik; exact h.some_ _ (Or.inr ⟨e, hi⟩)
        · simp only [if_neg hik] at hk; exact h.some_ k hk
    · exact ⟨s, rfl, h⟩

theorem runBatch_inv {P : Params} (W : WellFormed P) (L : FourierLaws O) (hd : O.deg = P.trgswLv1.N)
    {srcs : List (List Torus)} (hsrc : ∀ c ∈ srcs, c.length = P.tlweLv0.N + 1) {tv : Trlwe}
    (htv : tv.Sized P.trgswLv1.N) {bsk : List (TrgswF O)} (hb : GoodBsk P L bsk) {off : Torus}
    (sched : List BEvent) : ∀ {s : BatchState O}, BInv P L srcs tv bsk off s →
    ∃ s', runBatch P srcs tv bsk off s sched = some s' ∧ BInv P L srcs tv bsk off s' := by
  induction sched with
  | nil => intro s h; exact ⟨s, rfl, h⟩
  | cons ev sched ih =>
    intro s h
    obtain ⟨s1, e1, h1⟩ := batchStep_inv W L hd hsrc htv hb h ev
    obtain ⟨s2, e2, h2⟩ := ih h1
    exact ⟨s2, by rw [runBatch, e1]; exact e2, h2⟩

theorem runBatch_append (P : Params) (srcs : List (List Torus)) (tv : Trlwe) (bsk : List (TrgswF O))
    (off : Torus) (s1 s2 : List BEvent) : ∀ (s : BatchState O),
    runBatch P srcs tv bsk off s (s1 ++ s2)
      = (runBatch P srcs tv bsk off s s1).bind fun s => runBatch P srcs tv bsk off s s2 := by
  induction s1 with
  | nil => intro s; rfl
  | cons ev s1 ih =>
    intro s
    rw [List.cons_append, runBatch, runBatch]
    cases batchStep P srcs tv bsk off s ev with
    | none => rfl
    | some s' => exact ih s'

/-- All finished: every job is done. -/
theorem BatchState.finished_iff (s : BatchState O) :
    s.finished = true ↔ ∀ i, i < s.jobs.length → s.jobs[i]? = some .done := by
  unfold finished
  rw [List.all_eq_true]
  constructor
  · intro h i hi
    rw [List.getElem?_eq_getElem hi]
    congr 1
    exact beq_iff_eq.1 (h _ (List.getElem_mem hi))
  · intro h j hj
    obtain ⟨i, hi, rfl⟩ := List.getElem_of_mem hj
    have := h i hi
    rw [List.getElem?_eq_getElem hi] at this
    exact beq_iff_eq.2 (Option.some.inj this)

/-- No two results point into the same evaluator. -/
def BatchState.Distinct (s : BatchState O) : Prop :=
  ∀ (i j e : ℕ) (x y : PRef × PRef), s.results[i]? = some (some (e, x)) → s.results[j]? = some (some (e, y)) → i = j

theorem BatchState.read_of {s : BatchState O} {i e : ℕ} {x : PRef × PRef} {st : PEState O}
    (h1 : s.results[i]? = some (some (e, x))) (h2 : s.evs[e]? = some st) :
    s.read i = some ⟨st.mem x.1, st.mem x.2⟩ := by
  unfold BatchState.read rd
  rw [h1]
  simp only [Option.bind_eq_bind, Option.bind_some, h2]
  rfl

theorem BInv.read_distinct {P : Params} {L : FourierLaws O} {srcs : List (List Torus)} {tv : Trlwe}
    {bsk : List (TrgswF O)} {off : Torus} {s : BatchState O} (h : BInv P L srcs tv bsk off s)
    (hf : s.finished = true) (hd : s.Distinct) (i : ℕ) (hi : i < srcs.length) :
    s.read i = some (blindRot P L off bsk tv srcs[i]) := by
  obtain ⟨⟨e, x⟩, hr⟩ := h.some_ i (Or.inl (s.finished_iff.1 hf i (by rw [h.jl]; exact hi)))
  obtain ⟨st, h1, -, -, j, y, src, h2, h3, h4⟩ := h.val i e x hr
  obtain rfl := hd i j e x y hr h2
  rw [hr] at h2
  simp only [Option.some.injEq, Prod.mk.injEq] at h2
  obtain ⟨-, rfl⟩ := h2
  rw [BatchState.read_of hr h1, h4]
  rw [List.getElem?_eq_getElem hi] at h3
  rw [← Option.some.inj h3]

/-- With an even number of CMUX steps, all results in one evaluator are the same: that of one of its jobs. -/
theorem BInv.read_shared {P : Params} {L : FourierLaws O} {srcs : List (List Torus)} {tv : Trlwe}
    {bsk : List (TrgswF O)} {off : Torus} {s : BatchState O} (h : BInv P L srcs tv bsk off s)
    (hev : Even P.tlweLv0.N) {i e : ℕ} {x : PRef × PRef} (hr : s.results[i]? = some (some (e, x))) :
    ∃ (j : ℕ) (src : List Torus), srcs[j]? = some src ∧ (∃ y, s.results[j]? = some (some (e, y))) ∧
      ∀ (k : ℕ) (y : PRef × PRef), s.results[k]? = some (some (e, y)) → s.read k = some (blindRot P L off bsk tv src) := by
  obtain ⟨st, h1, -, -, j, y, src, h2, h3, h4⟩ := h.val i e x hr
  refine ⟨j, src, h3, ⟨y, h2⟩, ?_⟩
  intro k z hk
  have hst : ∀ (k : ℕ) (z : PRef × PRef), s.results[k]? = some (some (e, z)) → z = lastRef st := by
    intro k z hk
    obtain ⟨st', h1', -, hx, -⟩ := h.val k e z hk
    rw [h1] at h1'
    rw [Option.some.inj h1']; exact hx hev
  rw [BatchState.read_of hk h1, ← h4, hst k z hk, hst j y h2]

/-- The preparation of the batch gates, as coefficients. -/
def BatchGate.coef : BatchGate → Torus × Torus × Torus
  | .nand => (-1, -1, 536870912#32)
  | .and => (1, 1, -536870912#32)
  | .or => (1, 1, 536870912#32)
  | .xor => (1, 2, 1073741824#32)
  | .nor => (-1, -1, -536870912#32)
  | .xnor => (1, -2, -1073741824#32)

theorem batchPrepare_eq (P : Params) (g : BatchGate) (a b : List Torus) (ha : a.length = P.tlweLv0.N + 1)
    (hb : b.length = P.tlweLv0.N + 1) :
    batchPrepare P g a b = some (lin P.tlweLv0.N g.coef.1 g.coef.2.1 g.coef.2.2 a b) := by
  unfold lin
  cases g with
  | nand =>
    simp only [batchPrepare, tlwe0Add, zip0_eq P _ a b ha hb, Option.bind_eq_bind, Option.bind_some]
    rw [tlwe0Neg_eq P _ (by simp)]
    simp only [Option.bind_some, shiftB_tab, f64ToTorus_eighth]
    congr 1
    apply tab_congr
    intro i hi
    rw [at'_tab _ _ _ hi]
    simp only [BatchGate.coef]
    ring
  | and =>
    simp only [batchPrepare, tlwe0Add, zip0_eq P _ a b ha hb, Option.bind_eq_bind, Option.bind_some,
      shiftB_tab, f64ToTorus_neg_eighth]
    congr 1
    apply tab_congr
    intro i hi
    simp only [BatchGate.coef]
    ring
  | or =>
    simp only [batchPrepare, tlwe0Add, zip0_eq P _ a b ha hb, Option.bind_eq_bind, Option.bind_some,
      shiftB_tab, f64ToTorus_eighth]
    congr 1
    apply tab_congr
    intro i hi
    simp only [BatchGate.coef]
    ring
  | xor =>
    simp only [batchPrepare, tlwe0AddMul, zip0_eq P _ a b ha hb, Option.bind_eq_bind, Option.bind_some,
      shiftB_tab, f64ToTorus_quarter]
    congr 1
    apply tab_congr
    intro i hi
    simp only [BatchGate.coef]
    ring
  | nor =>
    simp only [batchPrepare, tlwe0Add, zip0_eq P _ a b ha hb, Option.bind_eq_bind, Option.bind_some]
    rw [tlwe0Neg_eq P _ (by simp)]
    simp only [Option.bind_some, shiftB_tab, f64ToTorus_neg_eighth]
    congr 1
    apply tab_congr
    intro i hi
    rw [at'_tab _ _ _ hi]
    simp only [BatchGate.coef]
    ring
  | xnor =>
    simp only [batchPrepare, tlwe0SubMul, zip0_eq P _ a b ha hb, Option.bind_eq_bind, Option.bind_some,
      shiftB_tab, f64ToTorus_neg_quarter]
    congr 1
    apply tab_congr
    intro i hi
    simp only [BatchGate.coef]
    ring

/-- The post-processing of one rotated ciphertext. -/
def postOf (P : Params) (ck : CloudKey O) (t : Trlwe) : List Torus :=
  ksOut P.tlweLv0.N P.trgswLv1.N P.trgswLv1.BASEBIT P.trgswLv1.IKS_T (extracted P.trgswLv1.N t 0)
    ck.keySwitchingKey

theorem batchPost_eq {P : Params} (W : WellFormed P) (L : FourierLaws O) {ck : CloudKey O} (hck : CkGood P L ck)
    (s : BatchState O) (i : ℕ) (t : Trlwe) (hr : s.read i = some t) (ht : t.Sized P.trgswLv1.N) :
    batchPost P s ck i = some (postOf P ck t) := by
  have hN := W.min_degree
  unfold batchPost
  simp only [hr, Option.bind_eq_bind, Option.bind_some]
  rw [sampleExtractIndex_eq P (by rw [W.lv1_eq, W.trlwe_eq]) _ 0 (by rw [W.trlwe_eq]; omega)
    (by rw [W.trlwe_eq]; exact ht.1) (by have := ht.2; omega)]
  simp only [Option.bind_some, W.trlwe_eq]
  rw [identityKeySwitching_eq P _ _ W.basebit_pos W.ks_fits (by simp [extracted]) hck.ksk.1 hck.ksk.2]
  rfl

/-- Reading a result of a finished batch never panics, and gives slices of the right size. -/
theorem BInv.read_some {P : Params} {L : FourierLaws O} {srcs : List (List Torus)} {tv : Trlwe}
    {bsk : List (TrgswF O)} {off : Torus} {s : BatchState O} (h : BInv P L srcs tv bsk off s)
    (hf : s.finished = true) (i : ℕ) (hi : i < srcs.length) :
    ∃ t, s.read i = some t ∧ t.Sized P.trgswLv1.N := by
  obtain ⟨⟨e, x⟩, hr⟩ := h.some_ i (Or.inl (s.finished_iff.1 hf i (by rw [h.jl]; exact hi)))
  obtain ⟨st, h1, ⟨a, ha, rfl⟩, -⟩ := h.val i e x hr
  have hg := h.good st (List.mem_of_getElem? h1)
  exact ⟨_, BatchState.read_of hr h1, hg.trA_len a ha, hg.trB_len a ha⟩

end GoTfhe
