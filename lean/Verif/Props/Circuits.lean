import Verif.Model.Circuit
import Verif.Props.Gates

/-!
# C46, C47: circuits
-/

namespace GoTfhe

variable {O : FourierOps}

/-- The wires `ws` encrypt the bits `bs`, each with noise at most `η`. -/
def EncAll (n : ℕ) (s0 : List Torus) (η : ℕ) (ws : List (List Torus)) (bs : List Bool) : Prop :=
  List.Forall₂ (fun w b => ∃ e, Enc n w s0 b e ∧ nrm e ≤ η) ws bs

theorem EncAll.get {n : ℕ} {s0 : List Torus} {η : ℕ} {ws : List (List Torus)} {bs : List Bool}
    (h : EncAll n s0 η ws bs) {i : ℕ} {b : Bool} (hb : bs[i]? = some b) :
    ∃ w e, ws[i]? = some w ∧ Enc n w s0 b e ∧ nrm e ≤ η := by
  unfold EncAll at h
  induction h generalizing i with
  | nil => simp at hb
  | cons h1 h2 ih =>
    cases i with
    | zero =>
      simp only [List.getElem?_cons_zero, Option.some.injEq] at hb
      subst hb
      obtain ⟨e, he⟩ := h1
      exact ⟨_, e, rfl, he⟩
    | succ i =>
      simp only [List.getElem?_cons_succ] at hb ⊢
      exact ih hb

theorem EncAll.append {n : ℕ} {s0 : List Torus} {η : ℕ} {ws : List (List Torus)} {bs : List Bool}
    (h : EncAll n s0 η ws bs) {w : List Torus} {b : Bool} {e : Torus} (hw : Enc n w s0 b e) (he : nrm e ≤ η) :
    EncAll n s0 η (ws ++ [w]) (bs ++ [b]) :=
  List.rel_append h (List.Forall₂.cons ⟨e, hw, he⟩ List.Forall₂.nil)

/-- The ciphertexts an instruction hands to the bootstrapping. -/
def Instr.prepared (P : Params) (ck : CloudKey O) (st : EvState O) (ws : List (List Torus)) :
    Instr → List (List Torus)
  | .gate g i j => ((ws[i]?.bind fun a => ws[j]?.bind fun b => gatePrepare P g a b).toList)
  | .mux i j k =>
    ((ws[i]?.bind fun a => ws[j]?.bind fun b => prepareAND P a b).toList)
      ++ ((ws[i]?.bind fun a => (gateNOT P a).bind fun na => ws[k]?.bind fun c => prepareAND P na c).toList)
      ++ ((ws[i]?.bind fun a => ws[j]?.bind fun b => ws[k]?.bind fun c => do
            let (st, x) ← gateAND P st a b ck
            let na ← gateNOT P a
            let (_, y) ← gateAND P st na c ck
            prepareOR P x y).toList)
  | _ => []

/-- In this run of the circuit, every bootstrapping has realised noise at most `η`. -/
def RunNoise (P : Params) (L : FourierLaws O) (ck : CloudKey O) (s0 s1 : List Torus) (η : ℕ) :
    EvState O → List (List Torus) → List Instr → Prop
  | _, _, [] => True
  | st, ws, c :: cs =>
    (∀ p ∈ c.prepared P ck st ws, nrm (bootNoise P L ck s0 s1 (gateTestvec P) p) ≤ η) ∧
      ∀ st' w, c.run P ck st ws = some (st', w) → RunNoise P L ck s0 s1 η st' (ws ++ [w]) cs

/-- One gate call of a circuit whose wires all have noise at most `η`. -/
theorem instr_step {P : Params} (W : WellFormed P) (L : FourierLaws O) (hd : O.deg = P.trgswLv1.N)
    {D β κ : ℕ} {ck : CloudKey O} {s0 s1 : List Torus} (K : KeysOK P L D β κ ck s0 s1)
    (htv : ck.blindRotateTestvec = gateTestvec P) (h0 : P.tlweLv0.N ≤ s0.length) {η : ℕ} (hη1 : 1 ≤ η)
    (hη : 3 * η + drift P (weight P.tlweLv0.N s0) < 2 ^ 29)
    {st : EvState O} (hst : EvGood P L st) {ws : List (List Torus)} {bs : List Bool}
    (h : EncAll P.tlweLv0.N s0 η ws bs) (c : Instr) {b : Bool} (hb : c.eval bs = some b)
    (hn : ∀ p ∈ c.prepared P ck st ws, nrm (bootNoise P L ck s0 s1 (gateTestvec P) p) ≤ η) :
    ∃ st' w e, c.run P ck st ws = some (st', w) ∧ EvGood P L st' ∧ Enc P.tlweLv0.N w s0 b e ∧ nrm e ≤ η := by
  cases c with
  | gate g i j =>
    simp only [Instr.eval, Option.bind_eq_bind, Option.bind_eq_some_iff, Option.pure_def, Option.some.injEq] at hb
    obtain ⟨x, hx, y, hy, rfl⟩ := hb
    obtain ⟨a, ea, hia, hea, hna⟩ := h.get hx
    obtain ⟨b, eb, hib, heb, hnb⟩ := h.get hy
    obtain ⟨prep, st', out, hp, e, hg, -, t⟩ := C43_gate W L hd K htv h0 st hst g a b hea.1 heb.1
    have hm : g.mult * nrm eb ≤ 2 * η := Nat.mul_le_mul (by cases g <;> decide) hnb
    refine ⟨st', out, _, ?_, hg, (t x y ea eb hea heb (by omega)).1, ?_⟩
    · simp only [Instr.run, hia, hib, Option.bind_eq_bind, Option.bind_some, e]
    · apply hn
      simp only [Instr.prepared, hia, hib, Option.bind_some, hp, Option.toList_some, List.mem_singleton]
  | mux i j k =>
    simp only [Instr.eval, Option.bind_eq_bind, Option.bind_eq_some_iff, Option.pure_def, Option.some.injEq] at hb
    obtain ⟨x, hx, y, hy, z, hz, rfl⟩ := hb
    obtain ⟨a, ea, hia, hea, hna⟩ := h.get hx
    obtain ⟨b, eb, hib, heb, hnb⟩ := h.get hy
    obtain ⟨c, ec, hic, hec, hnc⟩ := h.get hz
    obtain ⟨p1, st1, o1, q1, e1, g1, -, t1⟩ := C43_gate W L hd K htv h0 st hst .and a b hea.1 heb.1
    obtain ⟨na, en, hnl, -, hne, -⟩ := C45_not P a s0 hea.1
    obtain ⟨p2, st2, o2, q2, e2, g2, -, t2⟩ := C43_gate W L hd K htv h0 st1 g1 .and na c hnl hec.1
    have m1 := t1 x y ea eb hea heb (by simp only [Gate2.mult]; omega)
    have m2 := t2 (!x) z (-ea) ec (hne x ea hea) hec (by simp only [Gate2.mult, nrm_neg]; omega)
    obtain ⟨p3, st3, o3, q3, e3, g3, -, t3⟩ := C43_gate W L hd K htv h0 st2 g2 .or o1 o2 m1.1.1 m2.1.1
    have e1 : gateAND P st a b ck = some (st1, o1) := e1
    have e2 : gateAND P st1 na c ck = some (st2, o2) := e2
    have e3 : gateOR P st2 o1 o2 ck = some (st3, o3) := e3
    have q1 : prepareAND P a b = some p1 := q1
    have q2 : prepareAND P na c = some p2 := q2
    have q3 : prepareOR P o1 o2 = some p3 := q3
    have hmem : (Instr.mux i j k).prepared P ck st ws = [p1, p2, p3] := by
      simp only [Instr.prepared, hia, hib, hic, Option.bind_eq_bind, Option.bind_some, q1, en, q2, e1, e2, q3,
        Option.toList_some, List.cons_append, List.nil_append]
    rw [hmem] at hn
    have n1 := hn p1 (by simp)
    have n2 := hn p2 (by simp)
    have m3 := t3 _ _ _ _ m1.1 m2.1 (by simp only [Gate2.mult]; omega)
    have ev : (Gate2.or).eval ((Gate2.and).eval x y) ((Gate2.and).eval (!x) z) = if x then y else z := by
      cases x <;> cases y <;> cases z <;> rfl
    rw [ev] at m3
    refine ⟨st3, o3, _, ?_, g3, m3.1, hn p3 (by simp)⟩
    simp only [Instr.run, hia, hib, hic, Option.bind_eq_bind, Option.bind_some, gateMUX, e1, en, e2, e3]
  | not i =>
    simp only [Instr.eval, Option.bind_eq_bind, Option.bind_eq_some_iff, Option.pure_def, Option.some.injEq] at hb
    obtain ⟨x, hx, rfl⟩ := hb
    obtain ⟨a, ea, hia, hea, hna⟩ := h.get hx
    obtain ⟨na, en, hnl, -, hne, -⟩ := C45_not P a s0 hea.1
    refine ⟨st, na, -ea, ?_, hst, hne x ea hea, by rw [nrm_neg]; exact hna⟩
    simp only [Instr.run, hia, en, Option.bind_eq_bind, Option.bind_some, Option.pure_def]
  | copy i =>
    obtain ⟨a, ea, hia, hea, hna⟩ := h.get (show bs[i]? = some b from hb)
    refine ⟨st, a, ea, ?_, hst, hea, hna⟩
    simp only [Instr.run, hia, C45_copy P a hea.1, Option.bind_eq_bind, Option.bind_some, Option.pure_def]
  | const v =>
    obtain rfl : v = b := Option.some.inj hb
    obtain ⟨c, ec, -, hE, -⟩ := C45_constant P v
    refine ⟨st, c, _, ?_, hst, hE s0, ?_⟩
    · simp only [Instr.run, ec, Option.bind_eq_bind, Option.bind_some, Option.pure_def]
    · cases v
      · exact (show nrm (1 : Torus) = 1 from rfl) ▸ hη1
      · exact (show nrm (0 : Torus) = 0 from rfl) ▸ Nat.zero_le _

/-- **C46.** For every circuit of any size and depth, every list of input ciphertexts and every state of the
evaluator: if the inputs encrypt bits with noise at most `η` and every bootstrapping of the run has realised
noise at most `η`, where `3η + drift < 1/8`, then the homomorphic evaluation does not panic, every wire
encrypts the circuit's Boolean value with noise at most `η` again, and decrypts to it. -/
theorem C46_circuit {P : Params} (W : WellFormed P) (L : FourierLaws O) (hd : O.deg = P.trgswLv1.N)
    {D β κ : ℕ} {ck : CloudKey O} {s0 s1 : List Torus} (K : KeysOK P L D β κ ck s0 s1)
    (htv : ck.blindRotateTestvec = gateTestvec P) (h0 : P.tlweLv0.N ≤ s0.length) {η : ℕ} (hη1 : 1 ≤ η)
    (hη : 3 * η + drift P (weight P.tlweLv0.N s0) < 2 ^ 29) (prog : List Instr) :
    ∀ (st : EvState O) (_ : EvGood P L st) (ws : List (List Torus)) (bs bs' : List Bool)
      (_ : EncAll P.tlweLv0.N s0 η ws bs) (_ : evalCircuit bs prog = some bs')
      (_ : RunNoise P L ck s0 s1 η st ws prog),
      ∃ st' ws', runCircuit P ck st ws prog = some (st', ws') ∧ EvGood P L st' ∧
        EncAll P.tlweLv0.N s0 η ws' bs' ∧
        List.Forall₂ (fun w b => tlwe0DecryptBool P w s0 = some b) ws' bs' := by
  induction prog with
  | nil =>
    intro st hst ws bs bs' h he _
    obtain rfl : bs = bs' := Option.some.inj he
    refine ⟨st, ws, rfl, hst, h, h.imp ?_⟩
    rintro w b ⟨e, hE, hn⟩
    exact hE.decrypts h0 (by omega)
  | cons c cs ih =>
    intro st hst ws bs bs' h he hn
    simp only [evalCircuit, Option.bind_eq_bind, Option.bind_eq_some_iff] at he
    obtain ⟨b, hb, he⟩ := he
    obtain ⟨st', w, e, hr, hg, hE, hle⟩ := instr_step W L hd K htv h0 hη1 hη hst h c hb hn.1
    obtain ⟨st2, ws2, hr2, rest⟩ := ih st' hg (ws ++ [w]) (bs ++ [b]) bs' (h.append hE hle) he (hn.2 st' w hr)
    refine ⟨st2, ws2, ?_, rest⟩
    simp only [runCircuit, hr, Option.bind_eq_bind, Option.bind_some, hr2]

theorem runNoise_of_bound {P : Params} (W : WellFormed P) (L : FourierLaws O) (hd : O.deg = P.trgswLv1.N)
    {D β κ : ℕ} {ck : CloudKey O} {s0 s1 : List Torus} (K : KeysOK P L D β κ ck s0 s1) {η : ℕ}
    (hB : bootBound P D β κ (weight P.tlweLv0.N s0) (weight P.trgswLv1.N s1) ≤ η) (prog : List Instr) :
    ∀ (st : EvState O) (ws : List (List Torus)), RunNoise P L ck s0 s1 η st ws prog := by
  induction prog with
  | nil => intro _ _; trivial
  | cons c cs ih => exact fun st ws => ⟨fun p _ => (nrm_bootNoise W L hd K _ p).trans hB, fun st' w _ => ih st' _⟩

/-- **C46**, worst case: when the worst-case bound satisfies the margin, every circuit is evaluated
correctly, whatever the randomness was; noise does not accumulate with depth. -/
theorem C46_circuit_worst_case {P : Params} (W : WellFormed P) (L : FourierLaws O) (hd : O.deg = P.trgswLv1.N)
    {D β κ : ℕ} {ck : CloudKey O} {s0 s1 : List Torus} (K : KeysOK P L D β κ ck s0 s1)
    (htv : ck.blindRotateTestvec = gateTestvec P) (h0 : P.tlweLv0.N ≤ s0.length) {η : ℕ} (hη1 : 1 ≤ η)
    (hB : bootBound P D β κ (weight P.tlweLv0.N s0) (weight P.trgswLv1.N s1) ≤ η)
    (hη : 3 * η + drift P (weight P.tlweLv0.N s0) < 2 ^ 29) (prog : List Instr) (st : EvState O)
    (hst : EvGood P L st) (ws : List (List Torus)) (bs bs' : List Bool)
    (h : EncAll P.tlweLv0.N s0 η ws bs) (he : evalCircuit bs prog = some bs') :
    ∃ st' ws', runCircuit P ck st ws prog = some (st', ws') ∧ EvGood P L st' ∧
      EncAll P.tlweLv0.N s0 η ws' bs' ∧
      List.Forall₂ (fun w b => tlwe0DecryptBool P w s0 = some b) ws' bs' :=
  C46_circuit W L hd K htv h0 hη1 hη prog st hst ws bs bs' h he (runNoise_of_bound W L hd K hB prog st ws)

/-! ### C47 -/

/-- The bit-pair lists of the adder, with noise at most `η`. -/
def EncPairs (n : ℕ) (s0 : List Torus) (η : ℕ) (ab : List (List Torus × List Torus)) (xy : List (Bool × Bool)) :
    Prop :=
  List.Forall₂ (fun c b => (∃ e, Enc n c.1 s0 b.1 e ∧ nrm e ≤ η) ∧ ∃ e, Enc n c.2 s0 b.2 e ∧ nrm e ≤ η) ab xy

/-- The ciphertexts handed to the five bootstrappings of `FullAdder`. -/
def adderPrepared (P : Params) (ck : CloudKey O) (st : EvState O) (a b cin : List Torus) : List (List Torus) :=
  (prepareXOR P a b).toList ++ (prepareAND P a b).toList ++
    (do let (st, x) ← gateXOR P st a b ck
        let (st, y) ← gateAND P st a b ck
        let (_, z) ← gateAND P st x cin ck
        let p ← prepareAND P x cin
        let q ← prepareXOR P x cin
        let r ← prepareOR P y z
        pure [p, q, r] : Option (List (List Torus))).getD []

/-- In this run of the adder, every bootstrapping has realised noise at most `η`. -/
def AdderNoise (P : Params) (L : FourierLaws O) (ck : CloudKey O) (s0 s1 : List Torus) (η : ℕ) :
    EvState O → List (List Torus × List Torus) → List Torus → Prop
  | _, [], _ => True
  | st, (a, b) :: rest, cin =>
    (∀ p ∈ adderPrepared P ck st a b cin, nrm (bootNoise P L ck s0 s1 (gateTestvec P) p) ≤ η) ∧
      ∀ st' s c, fullAdder P ck st a b cin = some (st', s, c) → AdderNoise P L ck s0 s1 η st' rest c

theorem fullAdder_step {P : Params} (W : WellFormed P) (L : FourierLaws O) (hd : O.deg = P.trgswLv1.N)
    {D β κ : ℕ} {ck : CloudKey O} {s0 s1 : List Torus} (K : KeysOK P L D β κ ck s0 s1)
    (htv : ck.blindRotateTestvec = gateTestvec P) (h0 : P.tlweLv0.N ≤ s0.length) {η : ℕ}
    (hη : 3 * η + drift P (weight P.tlweLv0.N s0) < 2 ^ 29)
    {st : EvState O} (hst : EvGood P L st) {a b c : List Torus} {x y z : Bool} {ea eb ec : Torus}
    (ha : Enc P.tlweLv0.N a s0 x ea) (hb : Enc P.tlweLv0.N b s0 y eb) (hc : Enc P.tlweLv0.N c s0 z ec)
    (na : nrm ea ≤ η) (nb : nrm eb ≤ η) (nc : nrm ec ≤ η)
    (hn : ∀ p ∈ adderPrepared P ck st a b c, nrm (bootNoise P L ck s0 s1 (gateTestvec P) p) ≤ η) :
    ∃ st' s co es eo, fullAdder P ck st a b c = some (st', s, co) ∧ EvGood P L st' ∧
      Enc P.tlweLv0.N s s0 ((x != y) != z) es ∧ nrm es ≤ η ∧
      Enc P.tlweLv0.N co s0 (x && y || (x != y) && z) eo ∧ nrm eo ≤ η := by
  obtain ⟨p1, st1, o1, q1, e1, g1, -, t1⟩ := C43_gate W L hd K htv h0 st hst .xor a b ha.1 hb.1
  have m1 := (t1 x y ea eb ha hb (by simp only [Gate2.mult]; omega)).1
  obtain ⟨p2, st2, o2, q2, e2, g2, -, t2⟩ := C43_gate W L hd K htv h0 st1 g1 .and a b ha.1 hb.1
  have m2 := (t2 x y ea eb ha hb (by simp only [Gate2.mult]; omega)).1
  obtain ⟨p3, st3, o3, q3, e3, g3, -, t3⟩ := C43_gate W L hd K htv h0 st2 g2 .and o1 c m1.1 hc.1
  obtain ⟨p4, st4, o4, q4, e4, g4, -, t4⟩ := C43_gate W L hd K htv h0 st3 g3 .xor o1 c m1.1 hc.1
  have hl3 : o3.length = P.tlweLv0.N + 1 := by
    rw [gate2_eq, q3] at e3
    obtain ⟨s, e, -⟩ := gateBootstrap_eq W L hd g2 (ckGood L hd K htv) p3 (by
      rw [gatePrepare_eq P _ o1 c m1.1 hc.1] at q3
      rw [← Option.some.inj q3]; simp)
    rw [Option.bind_some, e] at e3
    have := congrArg Prod.snd (Option.some.inj e3)
    simp only at this
    rw [← this]
    exact length_bootPure _ _ _ _ _ _ _
  obtain ⟨p5, st5, o5, q5, e5, g5, -, t5⟩ := C43_gate W L hd K htv h0 st4 g4 .or o2 o3 m2.1 hl3
  have e1 : gateXOR P st a b ck = some (st1, o1) := e1
  have e2 : gateAND P st1 a b ck = some (st2, o2) := e2
  have e3 : gateAND P st2 o1 c ck = some (st3, o3) := e3
  have e4 : gateXOR P st3 o1 c ck = some (st4, o4) := e4
  have e5 : gateOR P st4 o2 o3 ck = some (st5, o5) := e5
  have q1 : prepareXOR P a b = some p1 := q1
  have q2 : prepareAND P a b = some p2 := q2
  have q3 : prepareAND P o1 c = some p3 := q3
  have q4 : prepareXOR P o1 c = some p4 := q4
  have q5 : prepareOR P o2 o3 = some p5 := q5
  have hmem : adderPrepared P ck st a b c = [p1, p2, p3, p4, p5] := by
    simp only [adderPrepared, q1, q2, e1, e2, e3, q3, q4, q5, Option.bind_eq_bind, Option.bind_some,
      Option.toList_some, Option.pure_def, Option.getD_some, List.cons_append, List.nil_append]
  rw [hmem] at hn
  have n1 := hn p1 (by simp)
  have n2 := hn p2 (by simp)
  have n3 := hn p3 (by simp)
  have m3 := (t3 _ z _ ec m1 hc (by simp only [Gate2.mult]; omega)).1
  have m4 := (t4 _ z _ ec m1 hc (by simp only [Gate2.mult]; omega)).1
  have m5 := (t5 _ _ _ _ m2 m3 (by simp only [Gate2.mult]; omega)).1
  refine ⟨st5, o4, o5, _, _, ?_, g5, m4, hn p4 (by simp), m5, hn p5 (by simp)⟩
  simp only [fullAdder, e1, e2, e3, e4, e5, Option.bind_eq_bind, Option.bind_some, Option.pure_def]

theorem bit_sum (x y z : Bool) :
    ((x != y) != z).toNat + 2 * (x && y || (x != y) && z).toNat = x.toNat + y.toNat + z.toNat := by
  cases x <;> cases y <;> cases z <;> rfl

/-- **C47**, the loop with any carry in: for every width the sum ciphertexts and the carry out encrypt the
bits of `a + b + carry`. -/
theorem C47_loop {P : Params} (W : WellFormed P) (L : FourierLaws O) (hd : O.deg = P.trgswLv1.N)
    {D β κ : ℕ} {ck : CloudKey O} {s0 s1 : List Torus} (K : KeysOK P L D β κ ck s0 s1)
    (htv : ck.blindRotateTestvec = gateTestvec P) (h0 : P.tlweLv0.N ≤ s0.length) {η : ℕ}
    (hη : 3 * η + drift P (weight P.tlweLv0.N s0) < 2 ^ 29) (ab : List (List Torus × List Torus)) :
    ∀ (xy : List (Bool × Bool)) (st : EvState O) (cin : List Torus) (z : Bool) (ez : Torus),
      EvGood P L st → EncPairs P.tlweLv0.N s0 η ab xy → Enc P.tlweLv0.N cin s0 z ez → nrm ez ≤ η →
      AdderNoise P L ck s0 s1 η st ab cin →
      ∃ st' out co bits cb, rippleLoop P ck st ab cin = some (st', out, co) ∧ EvGood P L st' ∧
        EncAll P.tlweLv0.N s0 η out bits ∧ (∃ e, Enc P.tlweLv0.N co s0 cb e ∧ nrm e ≤ η) ∧
        bits.length = xy.length ∧
        bitsVal bits + 2 ^ xy.length * cb.toNat
          = bitsVal (xy.map Prod.fst) + bitsVal (xy.map Prod.snd) + z.toNat := by
  induction ab with
  | nil =>
    intro xy st cin z ez hst hp hz hn _
    cases hp
    exact ⟨st, [], cin, [], z, rfl, hst, List.Forall₂.nil, ⟨ez, hz, hn⟩, rfl, by simp [bitsVal]⟩
  | cons p rest ih =>
    intro xy st cin z ez hst hp hz hn hN
    obtain ⟨a, b⟩ := p
    cases hp with
    | @cons _ q _ qs h1 h2 =>
      obtain ⟨x, y⟩ := q
      obtain ⟨⟨ea, ha, na⟩, ⟨eb, hb, nb⟩⟩ := h1
      obtain ⟨st1, s, co, es, eo, e1, g1, hs, ns, hco, no⟩ := fullAdder_step W L hd K htv h0 hη hst ha hb hz na nb hn hN.1
      obtain ⟨st2, out, co2, bits, cb, e2, g2, hout, hc2, hlen, hval⟩ := ih qs st1 co _ eo g1 h2 hco no (hN.2 st1 s co e1)
      refine ⟨st2, s :: out, co2, ((x != y) != z) :: bits, cb, ?_, g2, List.Forall₂.cons ⟨es, hs, ns⟩ hout, hc2,
        by simp [hlen], ?_⟩
      · simp only [rippleLoop, e1, e2, Option.bind_eq_bind, Option.bind_some, Option.pure_def]
      · have hb := bit_sum x y z
        simp only [bitsVal, List.map_cons, List.length_cons, pow_succ] at hval ⊢
        have : 2 ^ qs.length * 2 * cb.toNat = 2 * (2 ^ qs.length * cb.toNat) := by ring
        rw [this]
        omega

theorem adderNoise_of_bound {P : Params} (W : WellFormed P) (L : FourierLaws O) (hd : O.deg = P.trgswLv1.N)
    {D β κ : ℕ} {ck : CloudKey O} {s0 s1 : List Torus} (K : KeysOK P L D β κ ck s0 s1) {η : ℕ}
    (hB : bootBound P D β κ (weight P.tlweLv0.N s0) (weight P.trgswLv1.N s1) ≤ η)
    (ab : List (List Torus × List Torus)) :
    ∀ (st : EvState O) (c : List Torus), AdderNoise P L ck s0 s1 η st ab c := by
  induction ab with
  | nil => intro _ _; trivial
  | cons p rest ih => exact fun st c => ⟨fun p _ => (nrm_bootNoise W L hd K _ p).trans hB, fun st' _ c _ => ih st' c⟩

/-- **C47.** The README adder on `w` bit pairs, for every `w`, every pair of operands and every run whose
bootstrappings have realised noise at most `η`: it does not panic, and decrypting the `w` sums and the last
carry gives the bits of `a + b`. -/
theorem C47_adder {P : Params} (W : WellFormed P) (L : FourierLaws O) (hd : O.deg = P.trgswLv1.N)
    {D β κ : ℕ} {ck : CloudKey O} {s0 s1 : List Torus} (K : KeysOK P L D β κ ck s0 s1)
    (htv : ck.blindRotateTestvec = gateTestvec P) (h0 : P.tlweLv0.N ≤ s0.length) {η : ℕ} (hη1 : 1 ≤ η)
    (hη : 3 * η + drift P (weight P.tlweLv0.N s0) < 2 ^ 29) (ab : List (List Torus × List Torus))
    (xy : List (Bool × Bool)) (st : EvState O) (hst : EvGood P L st) (hab : EncPairs P.tlweLv0.N s0 η ab xy)
    (hN : ∀ c, gateConstant P false = some c → AdderNoise P L ck s0 s1 η st ab c) :
    ∃ st' out co bits cb, rippleAdd P ck st ab = some (st', out, co) ∧
      List.Forall₂ (fun w b => tlwe0DecryptBool P w s0 = some b) out bits ∧
      tlwe0DecryptBool P co s0 = some cb ∧ bits.length = xy.length ∧
      bitsVal bits + 2 ^ xy.length * cb.toNat = bitsVal (xy.map Prod.fst) + bitsVal (xy.map Prod.snd) := by
  obtain ⟨c, ec, -, hE, -⟩ := C45_constant P false
  obtain ⟨st', out, co, bits, cb, e, -, ho, ⟨eo, hco, no⟩, hl, hv⟩ := C47_loop W L hd K htv h0 hη ab xy st c false _
    hst hab (hE s0) (show nrm (1 : Torus) ≤ η from (show nrm (1 : Torus) = 1 from rfl) ▸ hη1) (hN c ec)
  refine ⟨st', out, co, bits, cb, ?_, ho.imp ?_, hco.decrypts h0 (by omega), hl, by simpa using hv⟩
  · simp only [rippleAdd, ec, Option.bind_eq_bind, Option.bind_some, e]
  · rintro w b ⟨e, hE, hn⟩
    exact hE.decrypts h0 (by omega)

/-- Non-vacuity of C46 and C47 at the 128-bit level: with `η = 150000000` all hypotheses on the keys hold at
once, so every circuit and every addition of encrypted inputs of that noise is evaluated correctly. -/
example : ∃ (ck : CloudKey (exactOps 1024)) (st : EvState (exactOps 1024)),
    (∀ prog ws bs bs', EncAll 700 (unitKey 700) 150000000 ws bs → evalCircuit bs prog = some bs' →
      ∃ st' ws', runCircuit (paramsFor 128) ck st ws prog = some (st', ws') ∧
        List.Forall₂ (fun w b => tlwe0DecryptBool (paramsFor 128) w (unitKey 700) = some b) ws' bs') ∧
    ∀ ab xy, EncPairs 700 (unitKey 700) 150000000 ab xy →
      ∃ st' out co bits cb, rippleAdd (paramsFor 128) ck st ab = some (st', out, co) ∧
        List.Forall₂ (fun w b => tlwe0DecryptBool (paramsFor 128) w (unitKey 700) = some b) out bits ∧
        tlwe0DecryptBool (paramsFor 128) co (unitKey 700) = some cb ∧ bits.length = xy.length ∧
        bitsVal bits + 2 ^ xy.length * cb.toNat = bitsVal (xy.map Prod.fst) + bitsVal (xy.map Prod.snd) := by
  have W := C63_wellFormed 128
  obtain ⟨ck, K, htv⟩ := exists_keysOK W (unitKey 700) (unitKey 1024) (by simp [unitKey]; rfl)
    (isBinary_unitKey _) (isBinary_unitKey _)
  obtain ⟨st, -, hst, -⟩ := newEvaluator_good W (exL W) rfl (fun _ => ⟨[], []⟩) (fun _ => [])
  have w0 : weight (paramsFor 128).tlweLv0.N (unitKey 700) = 1 := weight_unitKey 700 (by norm_num)
  have w1 : weight (paramsFor 128).trgswLv1.N (unitKey 1024) = 1 := weight_unitKey 1024 (by norm_num)
  have hB : bootBound (paramsFor 128) 0 1 0 (weight (paramsFor 128).tlweLv0.N (unitKey 700))
      (weight (paramsFor 128).trgswLv1.N (unitKey 1024)) ≤ 150000000 := by
    rw [w0, w1]
    show (1 + 1) * (1 + 1 * (1 + 2 ^ (32 - 3 * 6))) + 700 * (2 * 3 * 1024 * 2 ^ (6 - 1) * 1 + 0 * (1 + 1)) + 1
      + (1 * 2 ^ (31 - 2 * 9) + 1024 * (9 * 0)) ≤ 150000000
    norm_num
  have hη : 3 * 150000000 + drift (paramsFor 128) (weight (paramsFor 128).tlweLv0.N (unitKey 700)) < 2 ^ 29 := by
    rw [w0]
    show 3 * 150000000 + (1 + 1) * 2 ^ (30 - 10) < 2 ^ 29
    norm_num
  have h0 : (paramsFor 128).tlweLv0.N ≤ (unitKey 700).length := show 700 ≤ (unitKey 700).length by simp [unitKey]
  refine ⟨ck, st, ?_, ?_⟩
  · intro prog ws bs bs' h he
    obtain ⟨st', ws', e, -, -, h⟩ := C46_circuit_worst_case W (exL W) rfl K htv h0 (by norm_num) hB hη prog st hst ws bs
      bs' h he
    exact ⟨st', ws', e, h⟩
  · intro ab xy h
    exact C47_adder W (exL W) rfl K htv h0 (by norm_num) hη ab xy st hst h
      (fun c _ => adderNoise_of_bound W (exL W) rfl K hB ab st c)

end GoTfhe
