import Verif.Lemmas.Batch
import Verif.Props.Gates

/-!
# C48, C49: batch blind rotation and batch gates
-/

namespace GoTfhe

variable {O : FourierOps}

/-! ### C49 -/

/-- **C49**, in part: for every state of the evaluator pool, all inputs and every schedule (including the
choices of the pool), `BatchBlindRotate` does not panic and no two goroutines ever hold the same evaluator.
When it returns, and **if no two results lie in the same evaluator**, then each `results[i]` is bit for bit what
a call of `BlindRotate` on the `i`-th input with any evaluator returns. (The full property, without that
condition, is false: `C49_false`.) -/
theorem C49_batchBlindRotate_partial {P : Params} (W : WellFormed P) (L : FourierLaws O)
    (hd : O.deg = P.trgswLv1.N) (evs : List (PEState O)) (free : List ℕ) (hg : ∀ st ∈ evs, PEGood P L st)
    (hn : free.Nodup) (hlt : ∀ e ∈ free, e < evs.length)
    (srcs : List (List Torus)) (hsrc : ∀ c ∈ srcs, c.length = P.tlweLv0.N + 1)
    (tv : Trlwe) (htv : tv.Sized P.trgswLv1.N) (bsk : List (TrgswF O)) (hb : GoodBsk P L bsk) (off : Torus)
    (sched : List BEvent) :
    ∃ s, batchBlindRotate P evs free srcs tv bsk off sched = some s ∧
      (∀ i j e, s.Holds i e → s.Holds j e → i = j) ∧
      (s.finished = true → s.Distinct → ∀ (i : ℕ) (c : List Torus), srcs[i]? = some c →
        ∀ (ps : PEState O), PEGood P L ps → ps.mem (.user 0) = tv.A → ps.mem (.user 1) = tv.B →
        ∃ ps' res, blindRotatePooled P ps c (.user 0, .user 1) bsk off = some (ps', res) ∧
          s.read i = some ⟨ps'.mem res.1, ps'.mem res.2⟩) := by
  obtain ⟨s, e, hi⟩ := runBatch_inv W L hd hsrc htv hb sched
    (bInv_init (srcs := srcs) (tv := tv) (bsk := bsk) (off := off) hg hn hlt)
  refine ⟨s, e, hi.excl, ?_⟩
  intro hf hD i c hc ps hps h0 h1
  obtain ⟨hil, rfl⟩ := List.getElem?_eq_some_iff.1 hc
  obtain ⟨ps', res, er, -, v, -⟩ := blindRotatePooled_eq W L hd ps hps bsk hb off srcs[i]
    (hsrc _ (List.getElem_mem hil)) (.user 0, .user 1) (by simp) (by simp) (by rw [h0]; exact htv.1)
    (by rw [h1]; exact htv.2)
  refine ⟨ps', res, er, ?_⟩
  rw [hi.read_distinct hf hD i hil, v, h0, h1]

/-- **C49**, what happens when evaluators are reused (`n` even, as at all Boolean levels): all results lying in
one evaluator are the same, namely the blind rotation of the input of one of the goroutines that used it. -/
theorem C49_reuse {P : Params} (W : WellFormed P) (L : FourierLaws O)
    (hd : O.deg = P.trgswLv1.N) (hev : Even P.tlweLv0.N) (evs : List (PEState O)) (free : List ℕ)
    (hg : ∀ st ∈ evs, PEGood P L st) (hn : free.Nodup) (hlt : ∀ e ∈ free, e < evs.length)
    (srcs : List (List Torus)) (hsrc : ∀ c ∈ srcs, c.length = P.tlweLv0.N + 1)
    (tv : Trlwe) (htv : tv.Sized P.trgswLv1.N) (bsk : List (TrgswF O)) (hb : GoodBsk P L bsk) (off : Torus)
    (sched : List BEvent) (s : BatchState O) (hs : batchBlindRotate P evs free srcs tv bsk off sched = some s)
    (i e : ℕ) (x : PRef × PRef) (hr : s.results[i]? = some (some (e, x))) :
    ∃ (j : ℕ) (c : List Torus), srcs[j]? = some c ∧ (∃ y, s.results[j]? = some (some (e, y))) ∧
      ∀ (k : ℕ) (y : PRef × PRef), s.results[k]? = some (some (e, y)) →
        ∀ (ps : PEState O), PEGood P L ps → ps.mem (.user 0) = tv.A → ps.mem (.user 1) = tv.B →
        ∃ ps' res, blindRotatePooled P ps c (.user 0, .user 1) bsk off = some (ps', res) ∧
          s.read k = some ⟨ps'.mem res.1, ps'.mem res.2⟩ := by
  obtain ⟨s', e', hi⟩ := runBatch_inv W L hd hsrc htv hb sched
    (bInv_init (srcs := srcs) (tv := tv) (bsk := bsk) (off := off) hg hn hlt)
  obtain rfl : s = s' := by
    have : some s = some s' := hs.symm.trans e'
    exact Option.some.inj this
  obtain ⟨j, c, h1, h2, h3⟩ := hi.read_shared hev hr
  refine ⟨j, c, h1, h2, ?_⟩
  intro k y hk ps hps h0 h1'
  obtain ⟨ps', res, er, -, v, -⟩ := blindRotatePooled_eq W L hd ps hps bsk hb off c
    (hsrc _ (List.mem_of_getElem? h1)) (.user 0, .user 1) (by simp) (by simp) (by rw [h0]; exact htv.1)
    (by rw [h1']; exact htv.2)
  refine ⟨ps', res, er, ?_⟩
  rw [h3 k y hk, v, h0, h1']

/-! ### C48 -/

/-- The single gate of the same name. -/
def BatchGate.single : BatchGate → Gate2
  | .nand => .nand
  | .and => .and
  | .or => .or
  | .xor => .xor
  | .nor => .nor
  | .xnor => .xnor

theorem BatchGate.coef_single (g : BatchGate) (h : g ≠ .xnor) : g.coef = g.single.coef := by
  cases g <;> first | rfl | exact absurd rfl h

theorem mapM_batchPrepare (P : Params) (g : BatchGate) (inputs : List (List Torus × List Torus))
    (hl : ∀ p ∈ inputs, p.1.length = P.tlweLv0.N + 1 ∧ p.2.length = P.tlweLv0.N + 1) :
    (inputs.mapM fun p => batchPrepare P g p.1 p.2)
      = some (inputs.map fun p => lin P.tlweLv0.N g.coef.1 g.coef.2.1 g.coef.2.2 p.1 p.2) := by
  induction inputs with
  | nil => rfl
  | cons p inputs ih =>
    rw [List.mapM_cons, batchPrepare_eq P g _ _ (hl p (by simp)).1 (hl p (by simp)).2]
    simp only [Option.bind_eq_bind, Option.bind_some]
    rw [ih fun q hq => hl q (List.mem_cons_of_mem _ hq)]
    rfl

/-- The general statement behind C48: every schedule runs without a panic, and the outputs are the
post-processed results of batch blind rotation, in order. -/
theorem batchGate_spec {P : Params} (W : WellFormed P) (L : FourierLaws O) (hd : O.deg = P.trgswLv1.N)
    {ck : CloudKey O} (hck : CkGood P L ck) (g : BatchGate) (evs : List (PEState O)) (free : List ℕ)
    (hg : ∀ st ∈ evs, PEGood P L st) (hn : free.Nodup) (hlt : ∀ e ∈ free, e < evs.length)
    (inputs : List (List Torus × List Torus))
    (hl : ∀ p ∈ inputs, p.1.length = P.tlweLv0.N + 1 ∧ p.2.length = P.tlweLv0.N + 1)
    (sched : List BEvent) (post : List ℕ) :
    ∃ r, batchGate P g evs free inputs ck sched post = some r ∧
      batchBlindRotate P evs free
        (inputs.map fun p => lin P.tlweLv0.N g.coef.1 g.coef.2.1 g.coef.2.2 p.1 p.2)
        ck.blindRotateTestvec ck.bootstrappingKey ck.decompositionOffset sched = some r.state ∧
      BInv P L (inputs.map fun p => lin P.tlweLv0.N g.coef.1 g.coef.2.1 g.coef.2.2 p.1 p.2)
        ck.blindRotateTestvec ck.bootstrappingKey ck.decompositionOffset r.state ∧
      (r.done = true → r.state.finished = true ∧ r.out.length = inputs.length ∧
        ∀ i < inputs.length, ∃ t, r.state.read i = some t ∧ r.out[i]? = some (postOf P ck t)) := by
  obtain ⟨s, e, hi⟩ := runBatch_inv W L hd
    (srcs := inputs.map fun p => lin P.tlweLv0.N g.coef.1 g.coef.2.1 g.coef.2.2 p.1 p.2)
    (by
      intro c hc
      obtain ⟨p, -, rfl⟩ := List.mem_map.1 hc
      simp) hck.tv hck.bsk (off := ck.decompositionOffset) sched (bInv_init hg hn hlt)
  by_cases hf : s.finished = true
  · have hr : ∀ i < inputs.length, ∃ t, s.read i = some t ∧ t.Sized P.trgswLv1.N :=
      fun i h => hi.read_some hf i (by simpa using h)
    obtain ⟨ths', mem', e2, hlen, hspec⟩ := runSched_spec
      (f := fun i => postOf P ck ((s.read i).getD ⟨[], []⟩))
      (ths := (List.range inputs.length).map fun i => [⟨i, batchPost P s ck i⟩])
      (mem := List.replicate inputs.length []) (by
        intro th hth w hw
        obtain ⟨i, hi, rfl⟩ := List.mem_map.1 hth
        rw [List.mem_singleton.1 hw]
        have hi := List.mem_range.1 hi
        obtain ⟨t, h1, h2⟩ := hr i hi
        refine ⟨?_, by simpa using hi⟩
        show batchPost P s ck i = some (postOf P ck ((s.read i).getD ⟨[], []⟩))
        rw [batchPost_eq W L hck s i t h1 h2, h1]; rfl) post
    refine ⟨⟨allDone ths', s, mem'⟩, ?_, e, hi, ?_⟩
    · unfold batchGate
      rw [mapM_batchPrepare P g inputs hl]
      simp only [Option.bind_eq_bind, Option.bind_some]
      unfold batchBlindRotate
      rw [e]
      simp only [Option.bind_some, hf, List.length_map, if_true]
      rw [e2]
      rfl
    · intro hdone
      refine ⟨hf, by simpa using hlen, ?_⟩
      intro i h
      obtain ⟨t, h1, h2⟩ := hr i h
      refine ⟨t, h1, ?_⟩
      have := (hspec hdone).1 i ⟨_, List.mem_map.2 ⟨i, List.mem_range.2 h, rfl⟩, _, List.mem_singleton.2 rfl, rfl⟩
      simp only [h1, Option.getD_some] at this
      exact this
  · refine ⟨⟨false, s, []⟩, ?_, e, hi, fun h => by simp at h⟩
    unfold batchGate
    rw [mapM_batchPrepare P g inputs hl]
    simp only [Option.bind_eq_bind, Option.bind_some]
    unfold batchBlindRotate
    rw [e]
    simp only [Option.bind_some, hf]
    rfl

theorem batchGate_distinct {P : Params} (W : WellFormed P) (L : FourierLaws O) (hd : O.deg = P.trgswLv1.N)
    {ck : CloudKey O} (hck : CkGood P L ck) (g : BatchGate) (evs : List (PEState O)) (free : List ℕ)
    (hg : ∀ st ∈ evs, PEGood P L st) (hn : free.Nodup) (hlt : ∀ e ∈ free, e < evs.length)
    (inputs : List (List Torus × List Torus))
    (hl : ∀ p ∈ inputs, p.1.length = P.tlweLv0.N + 1 ∧ p.2.length = P.tlweLv0.N + 1)
    (sched : List BEvent) (post : List ℕ) :
    ∃ r, batchGate P g evs free inputs ck sched post = some r ∧
      (r.done = true → r.state.Distinct → r.out.length = inputs.length ∧
        ∀ (i : ℕ) (a b : List Torus), inputs[i]? = some (a, b) → r.out[i]? =
          some (bootOut P L ck ck.blindRotateTestvec (lin P.tlweLv0.N g.coef.1 g.coef.2.1 g.coef.2.2 a b))) := by
  obtain ⟨r, e, -, hi, h⟩ := batchGate_spec W L hd hck g evs free hg hn hlt inputs hl sched post
  refine ⟨r, e, fun hdone hD => ?_⟩
  obtain ⟨hf, hlen, ho⟩ := h hdone
  refine ⟨hlen, ?_⟩
  intro i a b hab
  obtain ⟨hil, hab⟩ := List.getElem?_eq_some_iff.1 hab
  obtain ⟨t, h1, h2⟩ := ho i hil
  have := hi.read_distinct hf hD i (by simpa using hil)
  rw [h1, List.getElem_map, hab] at this
  rw [h2, Option.some.inj this]
  rfl

/-- **C48**, in part: each batch gate other than `BatchXNOR`, for all input lists, all pool states and every
schedule of its goroutines, does not panic; when it returns, and if no two blind rotations were given the same
evaluator, its `i`-th output is bit for bit what the single gate returns on the `i`-th pair, whatever the state
of the global evaluator. (Without the condition on the evaluators it is false: `C49_false`. For
`BatchXNOR` it is false: `C48_batchXNOR_false`.) -/
theorem C48_batch_partial {P : Params} (W : WellFormed P) (L : FourierLaws O) (hd : O.deg = P.trgswLv1.N)
    {ck : CloudKey O} (hck : CkGood P L ck) (g : BatchGate) (hx : g ≠ .xnor)
    (evs : List (PEState O)) (free : List ℕ)
    (hg : ∀ st ∈ evs, PEGood P L st) (hn : free.Nodup) (hlt : ∀ e ∈ free, e < evs.length)
    (inputs : List (List Torus × List Torus))
    (hl : ∀ p ∈ inputs, p.1.length = P.tlweLv0.N + 1 ∧ p.2.length = P.tlweLv0.N + 1)
    (sched : List BEvent) (post : List ℕ) :
    ∃ r, batchGate P g evs free inputs ck sched post = some r ∧
      (r.done = true → r.state.Distinct → r.out.length = inputs.length ∧
        ∀ (i : ℕ) (a b : List Torus), inputs[i]? = some (a, b) → ∀ st, EvGood P L st →
          ∃ st' o, gate2 P g.single st a b ck = some (st', o) ∧ r.out[i]? = some o) := by
  obtain ⟨r, e, h⟩ := batchGate_distinct W L hd hck g evs free hg hn hlt inputs hl sched post
  refine ⟨r, e, fun hdone hD => ⟨(h hdone hD).1, ?_⟩⟩
  intro i a b hab st hst
  have hlen := hl _ (List.mem_of_getElem? hab)
  obtain ⟨st', e', -⟩ := gateBootstrap_eq W L hd hst hck
    (lin P.tlweLv0.N g.coef.1 g.coef.2.1 g.coef.2.2 a b) (by simp)
  refine ⟨st', _, ?_, (h hdone hD).2 i a b hab⟩
  rw [gate2_eq, gatePrepare_eq P _ a b hlen.1 hlen.2, Option.bind_some, ← g.coef_single hx]
  exact e'

/-- What `BatchXNOR` prepares is what an XOR gate needs. -/
theorem xnor_table (x y : Bool) :
    ((1 : Torus) * bval x + (-2) * bval y + (-1073741824#32)).toInt = 536870912 ∧ (x != y) = true ∨
    ((1 : Torus) * bval x + (-2) * bval y + (-1073741824#32)).toInt = 1610612736 ∧ (x != y) = true ∨
    ((1 : Torus) * bval x + (-2) * bval y + (-1073741824#32)).toInt = -536870912 ∧ (x != y) = false ∨
    ((1 : Torus) * bval x + (-2) * bval y + (-1073741824#32)).toInt = -1610612736 ∧ (x != y) = false := by
  cases x <;> cases y <;> decide

/-- **C48**, `BatchXNOR`: with noises within the margins, every output decrypts to the **XOR** of its pair, for all
input lists, keys and schedules in which no two blind rotations were given the same evaluator. -/
theorem C48_batchXNOR_is_xor {P : Params} (W : WellFormed P) (L : FourierLaws O) (hd : O.deg = P.trgswLv1.N)
    {D β κ : ℕ} {ck : CloudKey O} {s0 s1 : List Torus} (K : KeysOK P L D β κ ck s0 s1)
    (htv : ck.blindRotateTestvec = gateTestvec P) (h0 : P.tlweLv0.N ≤ s0.length)
    (hB : bootBound P D β κ (weight P.tlweLv0.N s0) (weight P.trgswLv1.N s1) < 2 ^ 29)
    (evs : List (PEState O)) (free : List ℕ)
    (hg : ∀ st ∈ evs, PEGood P L st) (hn : free.Nodup) (hlt : ∀ e ∈ free, e < evs.length)
    (inputs : List (List Torus × List Torus))
    (hl : ∀ p ∈ inputs, p.1.length = P.tlweLv0.N + 1 ∧ p.2.length = P.tlweLv0.N + 1)
    (sched : List BEvent) (post : List ℕ) :
    ∃ r, batchGate P .xnor evs free inputs ck sched post = some r ∧
      (r.done = true → r.state.Distinct → ∀ (i : ℕ) (a b : List Torus) (x y : Bool) (ea eb : Torus),
        inputs[i]? = some (a, b) →
        Enc P.tlweLv0.N a s0 x ea → Enc P.tlweLv0.N b s0 y eb →
        nrm ea + 2 * nrm eb + drift P (weight P.tlweLv0.N s0) < 2 ^ 29 →
        ∃ o, r.out[i]? = some o ∧ tlwe0DecryptBool P o s0 = some (x != y)) := by
  obtain ⟨r, e, h⟩ := batchGate_distinct W L hd (ckGood L hd K htv) .xnor evs free hg hn hlt inputs hl sched post
  refine ⟨r, e, fun hdone hD i a b x y ea eb hab hx hy hm => ?_⟩
  refine ⟨_, (h hdone hD).2 i a b hab, ?_⟩
  rw [htv]
  set prep := lin P.tlweLv0.N (BatchGate.xnor).coef.1 (BatchGate.xnor).coef.2.1 (BatchGate.xnor).coef.2.2 a b with hprep
  have hE : Enc P.tlweLv0.N (bootOut P L ck (gateTestvec P) prep) s0 (x != y)
      (bootNoise P L ck s0 s1 (gateTestvec P) prep) := by
    refine ⟨length_bootPure _ _ _ _ _ _ _, boot_bool W L ck s0 s1 prep _ (msPhase_near W prep s0) ?_⟩
    have hph : phase P.tlweLv0.N prep s0
        = ((1 : Torus) * bval x + (-2) * bval y + (-1073741824#32)) + (1 * ea + (-2) * eb) := by
      rw [hprep, phase_lin, hx.2, hy.2]
      show (1 : Torus) * _ + (-2) * _ + (-1073741824#32) = _
      ring
    rw [hph]
    have hn : nrm ((1 : Torus) * ea + (-2) * eb) ≤ nrm ea + 2 * nrm eb := nrm_gate_noise .xnor ea eb
    exact margin_of_table _ _ _ _ (by omega) (xnor_table x y)
  exact hE.decrypts h0 (by have := nrm_bootNoise W L hd K (gateTestvec P) prep; omega)

/-! ### Schedules -/

/-- Each goroutine in turn takes a new evaluator. -/
def freshSched (n : ℕ) : List BEvent :=
  (List.range n).flatMap fun i => [.get i none, .run i, .put i]

/-- Each goroutine in turn takes evaluator `e`, the first one a new one. -/
def reuseSched (n e : ℕ) : List BEvent :=
  (List.range n).flatMap fun i => [.get i (if i = 0 then none else some e), .run i, .put i]

/-- One goroutine from start to end. -/
theorem runBatch_oneJob {P : Params} (W : WellFormed P) (L : FourierLaws O) (hd : O.deg = P.trgswLv1.N)
    {srcs : List (List Torus)} (hsrc : ∀ c ∈ srcs, c.length = P.tlweLv0.N + 1) {tv : Trlwe}
    (htv : tv.Sized P.trgswLv1.N) {bsk : List (TrgswF O)} (hb : GoodBsk P L bsk) {off : Torus}
    {s : BatchState O} (h : BInv P L srcs tv bsk off s) (i : ℕ) (hi : s.jobs[i]? = some .waiting)
    (choice : Option ℕ) (e : ℕ)
    (hc : choice = none ∧ e = s.evs.length ∨ choice = some e ∧ e ∈ s.free) :
    ∃ s' x, runBatch P srcs tv bsk off s [.get i choice, .run i, .put i] = some s' ∧
      BInv P L srcs tv bsk off s' ∧ s'.jobs = s.jobs.set i .done ∧
      s'.results = s.results.set i (some (e, x)) ∧ e ∈ s'.free ∧
      s'.evs.length = s.evs.length + (if choice = none then 1 else 0) := by
  have hil : i < s.jobs.length := (List.getElem?_eq_some_iff.1 hi).1
  obtain ⟨s1, e1, h1⟩ := batchStep_inv W L hd hsrc htv hb h (.get i choice)
  have q1 : s1.jobs = s.jobs.set i (.holding e) ∧ s1.results = s.results ∧
      s1.evs.length = s.evs.length + (if choice = none then 1 else 0) := by
    unfold batchStep at e1
    simp only [hi] at e1
    rcases hc with ⟨rfl, rfl⟩ | ⟨rfl, he⟩
    · simp only [Option.bind_eq_bind, Option.bind_eq_some_iff, Option.pure_def, Option.some.injEq] at e1
      obtain ⟨st, -, rfl⟩ := e1
      simp
    · simp only [if_pos he, Option.some.injEq] at e1
      subst e1
      simp
  obtain ⟨s2, e2, h2⟩ := batchStep_inv W L hd hsrc htv hb h1 (.run i)
  have hj1 : s1.jobs[i]? = some (.holding e) := by
    rw [q1.1, List.getElem?_set]; simp [hil]
  have q2 : ∃ x, s2.jobs = s1.jobs.set i (.ran e) ∧ s2.results = s1.results.set i (some (e, x)) ∧
      s2.evs.length = s1.evs.length := by
    unfold batchStep at e2
    simp only [hj1, Option.bind_eq_bind, Option.bind_eq_some_iff, Option.pure_def, Option.some.injEq] at e2
    obtain ⟨src, -, st, -, ⟨st', res⟩, -, evs, hev, rs, hrs, rfl⟩ := e2
    refine ⟨res, rfl, ?_, length_of_wr hev⟩
    simp only at hrs ⊢
    have hil' : i < s1.results.length := by rw [h1.rl, ← h1.jl, q1.1]; simpa using hil
    rw [wr_eq _ _ _ hil'] at hrs
    exact (Option.some.inj hrs).symm
  obtain ⟨x, j2, r2, l2⟩ := q2
  obtain ⟨s3, e3, h3⟩ := batchStep_inv W L hd hsrc htv hb h2 (.put i)
  have hj2 : s2.jobs[i]? = some (.ran e) := by
    rw [j2, q1.1, List.set_set, List.getElem?_set]; simp [hil]
  have q3 : s3.jobs = s2.jobs.set i .done ∧ s3.results = s2.results ∧ s3.evs = s2.evs ∧ e ∈ s3.free := by
    unfold batchStep at e3
    simp only [hj2, Option.some.injEq] at e3
    subst e3
    simp
  refine ⟨s3, x, ?_, h3, ?_, ?_, q3.2.2.2, ?_⟩
  · simp only [runBatch, e1, e2, e3]
  · rw [q3.1, j2, q1.1, List.set_set, List.set_set]
  · rw [q3.2.1, r2, q1.2.1]
  · rw [q3.2.2.1, l2, q1.2.2]

/-- Every batch can run to completion without sharing evaluators: the condition of C48 and C49 can be met for
all inputs and all states of the pool. -/
theorem freshSched_distinct {P : Params} (W : WellFormed P) (L : FourierLaws O)
    (hd : O.deg = P.trgswLv1.N) (evs : List (PEState O)) (free : List ℕ) (hg : ∀ st ∈ evs, PEGood P L st)
    (hn : free.Nodup) (hlt : ∀ e ∈ free, e < evs.length)
    (srcs : List (List Torus)) (hsrc : ∀ c ∈ srcs, c.length = P.tlweLv0.N + 1)
    (tv : Trlwe) (htv : tv.Sized P.trgswLv1.N) (bsk : List (TrgswF O)) (hb : GoodBsk P L bsk) (off : Torus) :
    ∃ s, batchBlindRotate P evs free srcs tv bsk off (freshSched srcs.length) = some s ∧
      s.finished = true ∧ s.Distinct := by
  have key : ∀ k ≤ srcs.length, ∃ s, batchBlindRotate P evs free srcs tv bsk off (freshSched k) = some s ∧
      BInv P L srcs tv bsk off s ∧ s.evs.length = evs.length + k ∧
      (∀ i < k, s.jobs[i]? = some .done ∧ ∃ x, s.results[i]? = some (some (evs.length + i, x))) ∧
      (∀ i, k ≤ i → i < srcs.length → s.jobs[i]? = some .waiting) := by
    intro k
    induction k with
    | zero =>
      intro _
      refine ⟨_, rfl, bInv_init hg hn hlt, rfl, fun i hi => absurd hi (Nat.not_lt_zero _), ?_⟩
      intro i _ hi
      simp [hi]
    | succ k ih =>
      intro hk
      obtain ⟨s, e, hi, hl, hdone, hwait⟩ := ih (by omega)
      obtain ⟨s', x, e', hi', hj', hr', -, hl'⟩ := runBatch_oneJob W L hd hsrc htv hb hi k
        (hwait k le_rfl (by omega)) none s.evs.length (Or.inl ⟨rfl, rfl⟩)
      have hkj : k < s.jobs.length := by rw [hi.jl]; omega
      have hkr : k < s.results.length := by rw [hi.rl]; omega
      refine ⟨s', ?_, hi', by rw [hl', hl]; simp; omega, ?_, ?_⟩
      · unfold batchBlindRotate freshSched at e ⊢
        rw [List.range_succ, List.flatMap_append, runBatch_append, e]
        simpa using e'
      · intro i h
        rw [hj', hr', List.getElem?_set, List.getElem?_set]
        by_cases hik : k = i
        · subst hik
          simp [hkj, hkr, hl]
        · simp only [if_neg hik]
          exact hdone i (by omega)
      · intro i h1 h2
        rw [hj', List.getElem?_set, if_neg (by omega)]
        exact hwait i (by omega) h2
  obtain ⟨s, e, hi, hl, hdone, -⟩ := key srcs.length le_rfl
  refine ⟨s, e, s.finished_iff.2 fun i h => (hdone i (by rw [← hi.jl]; exact h)).1, ?_⟩
  intro i j e x y h1 h2
  have hi1 : i < srcs.length := by rw [← hi.rl]; exact (List.getElem?_eq_some_iff.1 h1).1
  have hi2 : j < srcs.length := by rw [← hi.rl]; exact (List.getElem?_eq_some_iff.1 h2).1
  obtain ⟨x', hx⟩ := (hdone i hi1).2
  obtain ⟨y', hy⟩ := (hdone j hi2).2
  rw [h1] at hx
  rw [h2] at hy
  simp only [Option.some.injEq, Prod.mk.injEq] at hx hy
  omega

/-- The schedule in which each goroutine starts after the previous one has put its evaluator back, and gets
it: possible from every state of the pool; all results point to the same evaluator. -/
theorem reuseSched_shared {P : Params} (W : WellFormed P) (L : FourierLaws O)
    (hd : O.deg = P.trgswLv1.N) (evs : List (PEState O)) (free : List ℕ) (hg : ∀ st ∈ evs, PEGood P L st)
    (hn : free.Nodup) (hlt : ∀ e ∈ free, e < evs.length)
    (srcs : List (List Torus)) (hsrc : ∀ c ∈ srcs, c.length = P.tlweLv0.N + 1)
    (tv : Trlwe) (htv : tv.Sized P.trgswLv1.N) (bsk : List (TrgswF O)) (hb : GoodBsk P L bsk) (off : Torus) :
    ∃ s, batchBlindRotate P evs free srcs tv bsk off (reuseSched srcs.length evs.length) = some s ∧
      s.finished = true ∧ BInv P L srcs tv bsk off s ∧
      ∀ i < srcs.length, ∃ x, s.results[i]? = some (some (evs.length, x)) := by
  have key : ∀ k ≤ srcs.length, ∃ s, batchBlindRotate P evs free srcs tv bsk off (reuseSched k evs.length) = some s ∧
      BInv P L srcs tv bsk off s ∧ (k = 0 → s.evs.length = evs.length) ∧ (k ≠ 0 → evs.length ∈ s.free) ∧
      (∀ i < k, s.jobs[i]? = some .done ∧ ∃ x, s.results[i]? = some (some (evs.length, x))) ∧
      (∀ i, k ≤ i → i < srcs.length → s.jobs[i]? = some .waiting) := by
    intro k
    induction k with
    | zero =>
      intro _
      refine ⟨_, rfl, bInv_init hg hn hlt, fun _ => rfl, fun h => absurd rfl h,
        fun i hi => absurd hi (Nat.not_lt_zero _), ?_⟩
      intro i _ hi
      simp [hi]
    | succ k ih =>
      intro hk
      obtain ⟨s, e, hi, hl0, hl, hdone, hwait⟩ := ih (by omega)
      obtain ⟨s', x, e', hi', hj', hr', hf', -⟩ := runBatch_oneJob W L hd hsrc htv hb hi k
        (hwait k le_rfl (by omega)) (if k = 0 then none else some evs.length) evs.length (by
          by_cases h0 : k = 0
          · exact Or.inl ⟨if_pos h0, (hl0 h0).symm⟩
          · exact Or.inr ⟨if_neg h0, hl h0⟩)
      have hkj : k < s.jobs.length := by rw [hi.jl]; omega
      have hkr : k < s.results.length := by rw [hi.rl]; omega
      refine ⟨s', ?_, hi', fun h => absurd h (by omega), fun _ => hf', ?_, ?_⟩
      · unfold batchBlindRotate reuseSched at e ⊢
        rw [List.range_succ, List.flatMap_append, runBatch_append, e]
        simpa using e'
      · intro i h
        rw [hj', hr', List.getElem?_set, List.getElem?_set]
        by_cases hik : k = i
        · subst hik
          simp [hkj, hkr]
        · simp only [if_neg hik]
          exact hdone i (by omega)
      · intro i h1 h2
        rw [hj', List.getElem?_set, if_neg (by omega)]
        exact hwait i (by omega) h2
  obtain ⟨s, e, hi, -, -, hdone, -⟩ := key srcs.length le_rfl
  exact ⟨s, e, s.finished_iff.2 fun i h => (hdone i (by rw [← hi.jl]; exact h)).1, hi,
    fun i h => (hdone i h).2⟩

/-! ### The counterexamples, at the 128-bit level -/

/-- Keys at the 128-bit level for which every bootstrapping is correct: noise one in the bootstrapping key, one
key bit set in each secret key. -/
theorem exists_keys128 :
    ∃ ck : CloudKey (exactOps 1024),
      KeysOK (paramsFor 128) (exL (C63_wellFormed 128)) 0 1 0 ck (unitKey 700) (unitKey 1024) ∧
      ck.blindRotateTestvec = gateTestvec (paramsFor 128) ∧
      bootBound (paramsFor 128) 0 1 0 (weight (paramsFor 128).tlweLv0.N (unitKey 700))
        (weight (paramsFor 128).trgswLv1.N (unitKey 1024)) < 2 ^ 29 ∧
      drift (paramsFor 128) (weight (paramsFor 128).tlweLv0.N (unitKey 700)) = 2 ^ 21 := by
  have W := C63_wellFormed 128
  obtain ⟨ck, K, htv⟩ := exists_keysOK W (unitKey 700) (unitKey 1024) (by simp [unitKey]; rfl)
    (isBinary_unitKey _) (isBinary_unitKey _)
  have w0 : weight (paramsFor 128).tlweLv0.N (unitKey 700) = 1 := weight_unitKey 700 (by norm_num)
  have w1 : weight (paramsFor 128).trgswLv1.N (unitKey 1024) = 1 := weight_unitKey 1024 (by norm_num)
  refine ⟨ck, K, htv, ?_, ?_⟩
  · rw [w0, w1]
    show (1 + 1) * (1 + 1 * (1 + 2 ^ (32 - 3 * 6))) + 700 * (2 * 3 * 1024 * 2 ^ (6 - 1) * 1 + 0 * (1 + 1)) + 1
      + (1 * 2 ^ (31 - 2 * 9) + 1024 * (9 * 0)) < 2 ^ 29
    norm_num
  · rw [w0]
    show (1 + 1) * 2 ^ (30 - 10) = 2 ^ 21
    norm_num

/-- **C49 is false**: at the 128-bit level, with correct keys, there are two ciphertexts and a complete schedule
of `BatchBlindRotate` on them, starting with an empty pool, such that some result is not the blind rotation of
its input. -/
theorem C49_false :
    ∃ (ck : CloudKey (exactOps 1024)) (srcs : List (List Torus)) (sched : List BEvent)
      (s : BatchState (exactOps 1024)),
      KeysOK (paramsFor 128) (exL (C63_wellFormed 128)) 0 1 0 ck (unitKey 700) (unitKey 1024) ∧
      (∀ c ∈ srcs, c.length = (paramsFor 128).tlweLv0.N + 1) ∧
      batchBlindRotate (paramsFor 128) [] [] srcs ck.blindRotateTestvec ck.bootstrappingKey
        ck.decompositionOffset sched = some s ∧ s.finished = true ∧
      ∃ i c, srcs[i]? = some c ∧ ∀ (ps ps' : PEState (exactOps 1024)) (res : PRef × PRef),
        PEGood (paramsFor 128) (exL (C63_wellFormed 128)) ps →
        ps.mem (.user 0) = ck.blindRotateTestvec.A → ps.mem (.user 1) = ck.blindRotateTestvec.B →
        blindRotatePooled (paramsFor 128) ps c (.user 0, .user 1) ck.bootstrappingKey ck.decompositionOffset
          = some (ps', res) →
        s.read i ≠ some ⟨ps'.mem res.1, ps'.mem res.2⟩ := by
  have W := C63_wellFormed 128
  obtain ⟨ck, K, htv, hB, hdr⟩ := exists_keys128
  set P := paramsFor 128 with hP
  have hck := ckGood (exL W) rfl K htv
  obtain ⟨t, -, -, ht, -⟩ := C45_constant P true
  obtain ⟨f, -, -, hf, -⟩ := C45_constant P false
  have hsrc : ∀ c ∈ [t, f], c.length = P.tlweLv0.N + 1 := by
    intro c hc
    simp only [List.mem_cons, List.not_mem_nil, or_false] at hc
    rcases hc with rfl | rfl
    · exact (ht []).1
    · exact (hf []).1
  obtain ⟨s, e, hfin, hi, hres⟩ := reuseSched_shared W (exL W) rfl [] [] (by simp) (by simp) (by simp) [t, f] hsrc
    ck.blindRotateTestvec hck.tv ck.bootstrappingKey hck.bsk ck.decompositionOffset
  refine ⟨ck, [t, f], _, s, K, hsrc, e, hfin, ?_⟩
  -- the two right results differ
  have hb : ∀ (b : Bool) (c : List Torus), (Enc P.tlweLv0.N c (unitKey 700) b (if b then 0 else 1)) →
      tlwe0DecryptBool P (bootOut P (exL W) ck ck.blindRotateTestvec c) (unitKey 700) = some b := by
    intro b c hc
    rw [htv]
    refine Enc.decrypts (e := bootNoise P (exL W) ck (unitKey 700) (unitKey 1024) (gateTestvec P) c)
      ⟨length_bootPure _ _ _ _ _ _ _, boot_bool W (exL W) ck (unitKey 700) (unitKey 1024) c b (msPhase_near W c _) ?_⟩
      (show 700 ≤ (unitKey 700).length by simp [unitKey]) ?_
    · rw [hdr, hc.2]
      cases b <;> decide
    · have := nrm_bootNoise W (exL W) rfl K (gateTestvec P) c
      omega
  have hne : blindRot P (exL W) ck.decompositionOffset ck.bootstrappingKey ck.blindRotateTestvec t
      ≠ blindRot P (exL W) ck.decompositionOffset ck.bootstrappingKey ck.blindRotateTestvec f := by
    intro hc
    have h1 := hb true t (ht _)
    have h2 := hb false f (hf _)
    have : bootOut P (exL W) ck ck.blindRotateTestvec t = bootOut P (exL W) ck ck.blindRotateTestvec f := by
      unfold bootOut bootPure
      rw [hc]
    rw [this, h2] at h1
    simp at h1
  have hev : Even P.tlweLv0.N := ⟨350, rfl⟩
  obtain ⟨x0, hx0⟩ := hres 0 (by simp)
  obtain ⟨x1, hx1⟩ := hres 1 (by simp)
  obtain ⟨j, c, hjc, -, hall⟩ := hi.read_shared hev hx0
  have r0 := hall 0 x0 hx0
  have r1 := hall 1 x1 hx1
  have fin : ∀ (i : ℕ) (d : List Torus), [t, f][i]? = some d → s.read i ≠ some (blindRot P (exL W)
      ck.decompositionOffset ck.bootstrappingKey ck.blindRotateTestvec d) →
      ∃ i c, [t, f][i]? = some c ∧ ∀ (ps ps' : PEState (exactOps 1024)) (res : PRef × PRef),
        PEGood P (exL W) ps →
        ps.mem (.user 0) = ck.blindRotateTestvec.A → ps.mem (.user 1) = ck.blindRotateTestvec.B →
        blindRotatePooled P ps c (.user 0, .user 1) ck.bootstrappingKey ck.decompositionOffset
          = some (ps', res) →
        s.read i ≠ some ⟨ps'.mem res.1, ps'.mem res.2⟩ := by
    intro i d hid hne'
    refine ⟨i, d, hid, ?_⟩
    intro ps ps' res hps h0 h1 her hc
    obtain ⟨ps2, res2, e2, -, v2, -⟩ := blindRotatePooled_eq W (exL W) rfl ps hps ck.bootstrappingKey hck.bsk
      ck.decompositionOffset d (hsrc d (List.mem_of_getElem? hid)) (.user 0, .user 1) (by simp) (by simp)
      (by rw [h0]; exact hck.tv.1) (by rw [h1]; exact hck.tv.2)
    have h2 : (ps2, res2) = (ps', res) := Option.some.inj (e2.symm.trans her)
    obtain ⟨rfl, rfl⟩ := Prod.mk.inj h2
    have hc := hc.trans (congrArg some v2)
    rw [h0, h1] at hc
    exact hne' hc
  by_cases hct : blindRot P (exL W) ck.decompositionOffset ck.bootstrappingKey ck.blindRotateTestvec t
      = blindRot P (exL W) ck.decompositionOffset ck.bootstrappingKey ck.blindRotateTestvec c
  · refine fin 1 f rfl ?_
    rw [r1, ← hct]
    intro hc
    exact hne (Option.some.inj hc)
  · refine fin 0 t rfl ?_
    rw [r0]
    intro hc
    exact hct (Option.some.inj hc).symm

/-- Post-processing can always run to completion, so a finished batch of rotations gives a finished gate. -/
theorem batchGate_finish {P : Params} (W : WellFormed P) (L : FourierLaws O) (hd : O.deg = P.trgswLv1.N)
    {ck : CloudKey O} (hck : CkGood P L ck) (g : BatchGate) (evs : List (PEState O)) (free : List ℕ)
    (hg : ∀ st ∈ evs, PEGood P L st) (hn : free.Nodup) (hlt : ∀ e ∈ free, e < evs.length)
    (inputs : List (List Torus × List Torus))
    (hl : ∀ p ∈ inputs, p.1.length = P.tlweLv0.N + 1 ∧ p.2.length = P.tlweLv0.N + 1)
    (sched : List BEvent) (s : BatchState O)
    (hs : batchBlindRotate P evs free
        (inputs.map fun p => lin P.tlweLv0.N g.coef.1 g.coef.2.1 g.coef.2.2 p.1 p.2)
        ck.blindRotateTestvec ck.bootstrappingKey ck.decompositionOffset sched = some s)
    (hf : s.finished = true) :
    ∃ post r, batchGate P g evs free inputs ck sched post = some r ∧ r.done = true ∧ r.state = s := by
  obtain ⟨s', e, hi⟩ := runBatch_inv W L hd
    (srcs := inputs.map fun p => lin P.tlweLv0.N g.coef.1 g.coef.2.1 g.coef.2.2 p.1 p.2)
    (by
      intro c hc
      obtain ⟨p, -, rfl⟩ := List.mem_map.1 hc
      simp) hck.tv hck.bsk (off := ck.decompositionOffset) sched (bInv_init hg hn hlt)
  obtain rfl : s = s' := Option.some.inj (hs.symm.trans e)
  obtain ⟨post, ths, mem, e2, hdone⟩ := runSched_finish
    (f := fun i => postOf P ck ((s.read i).getD ⟨[], []⟩)) (n := inputs.length) _
    ((List.range inputs.length).map fun i => [⟨i, batchPost P s ck i⟩])
    (List.replicate inputs.length []) rfl (by simp) (by
      intro th hth w hw
      obtain ⟨i, hi', rfl⟩ := List.mem_map.1 hth
      rw [List.mem_singleton.1 hw]
      have hi' := List.mem_range.1 hi'
      obtain ⟨t, h1, h2⟩ := hi.read_some hf i (by simpa using hi')
      refine ⟨?_, hi'⟩
      show batchPost P s ck i = some (postOf P ck ((s.read i).getD ⟨[], []⟩))
      rw [batchPost_eq W L hck s i t h1 h2, h1]; rfl)
  refine ⟨post, ⟨allDone ths, s, mem⟩, ?_, hdone, rfl⟩
  unfold batchGate
  rw [mapM_batchPrepare P g inputs hl]
  simp only [Option.bind_eq_bind, Option.bind_some]
  rw [hs]
  simp only [Option.bind_some, hf, List.length_map, if_true]
  rw [e2]
  rfl

/-- **C48 is false when an evaluator is reused**: at the 128-bit level, with correct keys, `BatchNAND` on the
pairs (true, true), (false, false), starting with an empty pool, has a complete schedule after which both
outputs are the same, although the single gates give different results; so one of them is wrong. -/
theorem C48_reuse_false :
    ∃ (ck : CloudKey (exactOps 1024)) (t f : List Torus) (sched : List BEvent) (post : List ℕ)
      (r : BatchOut (exactOps 1024)) (o : List Torus),
      KeysOK (paramsFor 128) (exL (C63_wellFormed 128)) 0 1 0 ck (unitKey 700) (unitKey 1024) ∧
      gateConstant (paramsFor 128) true = some t ∧ gateConstant (paramsFor 128) false = some f ∧
      batchGate (paramsFor 128) .nand [] [] [(t, t), (f, f)] ck sched post = some r ∧ r.done = true ∧
      r.out = [o, o] ∧
      ∀ st, EvGood (paramsFor 128) (exL (C63_wellFormed 128)) st → ∃ st1 o1 st2 o2,
        gateNAND (paramsFor 128) st t t ck = some (st1, o1) ∧
        tlwe0DecryptBool (paramsFor 128) o1 (unitKey 700) = some false ∧
        gateNAND (paramsFor 128) st f f ck = some (st2, o2) ∧
        tlwe0DecryptBool (paramsFor 128) o2 (unitKey 700) = some true := by
  have W := C63_wellFormed 128
  obtain ⟨ck, K, htv, hB, hdr⟩ := exists_keys128
  set P := paramsFor 128 with hP
  have hck := ckGood (exL W) rfl K htv
  obtain ⟨t, et, -, ht, -⟩ := C45_constant P true
  obtain ⟨f, ef, -, hf, -⟩ := C45_constant P false
  have hl : ∀ p ∈ [(t, t), (f, f)], p.1.length = P.tlweLv0.N + 1 ∧ p.2.length = P.tlweLv0.N + 1 := by
    intro p hp
    simp only [List.mem_cons, List.not_mem_nil, or_false] at hp
    rcases hp with rfl | rfl
    · exact ⟨(ht []).1, (ht []).1⟩
    · exact ⟨(hf []).1, (hf []).1⟩
  obtain ⟨s, e, hfin, hi, hres⟩ := reuseSched_shared W (exL W) rfl [] [] (by simp) (by simp) (by simp)
    ([(t, t), (f, f)].map fun p => lin P.tlweLv0.N (BatchGate.nand).coef.1 (BatchGate.nand).coef.2.1
      (BatchGate.nand).coef.2.2 p.1 p.2)
    (by
      intro c hc
      obtain ⟨p, -, rfl⟩ := List.mem_map.1 hc
      simp)
    ck.blindRotateTestvec hck.tv ck.bootstrappingKey hck.bsk ck.decompositionOffset
  obtain ⟨post, r, er, hdone, hrs⟩ := batchGate_finish W (exL W) rfl hck .nand [] [] (by simp) (by simp) (by simp)
    [(t, t), (f, f)] hl _ s e hfin
  obtain ⟨r', er', -, -, hspec⟩ := batchGate_spec W (exL W) rfl hck .nand [] [] (by simp) (by simp) (by simp)
    [(t, t), (f, f)] hl (reuseSched
      ([(t, t), (f, f)].map fun p => lin P.tlweLv0.N (BatchGate.nand).coef.1 (BatchGate.nand).coef.2.1
      (BatchGate.nand).coef.2.2 p.1 p.2).length ([] : List (PEState (exactOps P.trgswLv1.N))).length) post
  obtain rfl : r = r' := Option.some.inj (er.symm.trans er')
  obtain ⟨-, hlen, hout⟩ := hspec hdone
  have hev : Even P.tlweLv0.N := ⟨350, rfl⟩
  obtain ⟨x0, hx0⟩ := hres 0 (by simp)
  obtain ⟨x1, hx1⟩ := hres 1 (by simp)
  obtain ⟨j, c, hjc, -, hall⟩ := hi.read_shared hev hx0
  obtain ⟨t0, ht0, ho0⟩ := hout 0 (by simp)
  obtain ⟨t1, ht1, ho1⟩ := hout 1 (by simp)
  have htt : t0 = t1 := by
    rw [hrs, hall 0 x0 hx0] at ht0
    rw [hrs, hall 1 x1 hx1] at ht1
    exact (Option.some.inj ht0).symm.trans (Option.some.inj ht1)
  refine ⟨ck, t, f, _, post, r, postOf P ck t0, K, et, ef, er, hdone, ?_, ?_⟩
  · apply List.ext_getElem?
    intro i
    match i with
    | 0 => exact ho0
    | 1 => rw [htt]; exact ho1
    | i + 2 =>
      rw [List.getElem?_eq_none (by rw [hlen]; simp), List.getElem?_eq_none (by simp)]
  · intro st hst
    have h700 : P.tlweLv0.N ≤ (unitKey 700).length := by
      show 700 ≤ (unitKey 700).length
      simp [unitKey]
    obtain ⟨st1, o1, e1, -, d1⟩ := C43_gate_worst_case W (exL W) rfl K htv h700 hB st hst .nand t t true true _ _
      (ht _) (ht _) (by rw [hdr]; decide)
    obtain ⟨st2, o2, e2, -, d2⟩ := C43_gate_worst_case W (exL W) rfl K htv h700 hB st hst .nand f f false false _ _
      (hf _) (hf _) (by rw [hdr]; decide)
    exact ⟨st1, o1, st2, o2, e1, d1, e2, d2⟩

/-- **C48 is false for `BatchXNOR`**: at the 128-bit level, with correct keys, for all bits `x`, `y`: `XNOR`
gives `x == y` and `BatchXNOR` on the same ciphertexts gives `x != y`. -/
theorem C48_batchXNOR_false (x y : Bool) :
    ∃ (ck : CloudKey (exactOps 1024)) (a b : List Torus) (sched : List BEvent) (post : List ℕ)
      (r : BatchOut (exactOps 1024)) (o : List Torus),
      KeysOK (paramsFor 128) (exL (C63_wellFormed 128)) 0 1 0 ck (unitKey 700) (unitKey 1024) ∧
      gateConstant (paramsFor 128) x = some a ∧ gateConstant (paramsFor 128) y = some b ∧
      batchGate (paramsFor 128) .xnor [] [] [(a, b)] ck sched post = some r ∧ r.done = true ∧
      r.out = [o] ∧ tlwe0DecryptBool (paramsFor 128) o (unitKey 700) = some (x != y) ∧
      ∀ st, EvGood (paramsFor 128) (exL (C63_wellFormed 128)) st → ∃ st1 o1,
        gateXNOR (paramsFor 128) st a b ck = some (st1, o1) ∧
        tlwe0DecryptBool (paramsFor 128) o1 (unitKey 700) = some (x == y) := by
  have W := C63_wellFormed 128
  obtain ⟨ck, K, htv, hB, hdr⟩ := exists_keys128
  set P := paramsFor 128 with hP
  have hck := ckGood (exL W) rfl K htv
  obtain ⟨a, ea, -, ha, -⟩ := C45_constant P x
  obtain ⟨b, eb, -, hb, -⟩ := C45_constant P y
  have h700 : P.tlweLv0.N ≤ (unitKey 700).length := by
    show 700 ≤ (unitKey 700).length
    simp [unitKey]
  have hl : ∀ p ∈ [(a, b)], p.1.length = P.tlweLv0.N + 1 ∧ p.2.length = P.tlweLv0.N + 1 := by
    intro p hp
    simp only [List.mem_cons, List.not_mem_nil, or_false] at hp
    subst hp
    exact ⟨(ha []).1, (hb []).1⟩
  obtain ⟨s, e, hfin, hD⟩ := freshSched_distinct W (exL W) rfl [] [] (by simp) (by simp) (by simp)
    ([(a, b)].map fun p => lin P.tlweLv0.N (BatchGate.xnor).coef.1 (BatchGate.xnor).coef.2.1
      (BatchGate.xnor).coef.2.2 p.1 p.2)
    (by
      intro c hc
      obtain ⟨p, -, rfl⟩ := List.mem_map.1 hc
      simp)
    ck.blindRotateTestvec hck.tv ck.bootstrappingKey hck.bsk ck.decompositionOffset
  obtain ⟨post, r, er, hdone, hrs⟩ := batchGate_finish W (exL W) rfl hck .xnor [] [] (by simp) (by simp) (by simp)
    [(a, b)] hl _ s e hfin
  obtain ⟨r', er', hx⟩ := C48_batchXNOR_is_xor W (exL W) rfl K htv h700 hB [] [] (by simp) (by simp) (by simp)
    [(a, b)] hl (freshSched
      ([(a, b)].map fun p => lin P.tlweLv0.N (BatchGate.xnor).coef.1 (BatchGate.xnor).coef.2.1
      (BatchGate.xnor).coef.2.2 p.1 p.2).length) post
  obtain rfl : r = r' := Option.some.inj (er.symm.trans er')
  obtain ⟨r2, er2, hlen⟩ := batchGate_distinct W (exL W) rfl hck .xnor [] [] (by simp) (by simp) (by simp)
    [(a, b)] hl (freshSched
      ([(a, b)].map fun p => lin P.tlweLv0.N (BatchGate.xnor).coef.1 (BatchGate.xnor).coef.2.1
      (BatchGate.xnor).coef.2.2 p.1 p.2).length) post
  obtain rfl : r = r2 := Option.some.inj (er.symm.trans er2)
  have hlen := (hlen hdone (by rw [hrs]; exact hD)).1
  have hm : nrm (if x then (0 : Torus) else 1) + 2 * nrm (if y then (0 : Torus) else 1) + 2 ^ 21 < 2 ^ 29 := by
    cases x <;> cases y <;> decide
  obtain ⟨o, ho, hdec⟩ := hx hdone (by rw [hrs]; exact hD) 0 a b x y _ _ rfl (ha _) (hb _) (by rw [hdr]; exact hm)
  refine ⟨ck, a, b, _, post, r, o, K, ea, eb, er, hdone, ?_, hdec, ?_⟩
  · apply List.ext_getElem?
    intro i
    match i with
    | 0 => exact ho
    | i + 1 => rw [List.getElem?_eq_none (by rw [hlen]; simp), List.getElem?_eq_none (by simp)]
  · intro st hst
    obtain ⟨st1, o1, e1, -, d1⟩ := C43_gate_worst_case W (exL W) rfl K htv h700 hB st hst .xnor a b x y _ _
      (ha _) (hb _) (by rw [hdr]; exact hm)
    exact ⟨st1, o1, e1, d1⟩

end GoTfhe
