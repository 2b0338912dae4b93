import Verif.Model.Tenants
import Verif.Spec.Tenants
import Verif.Props.Rewrite

/-!
# C99: one evaluator may serve many clients
-/

namespace GoTfhe

variable {O : FourierOps}

section
variable {P : Params} (W : WellFormed P) (L : FourierLaws O) (hd : O.deg = P.trgswLv1.N)
include W hd

/-- One request gives the same ciphertext on two evaluators with any history. -/
theorem run_same {ck : CloudKey O} (hck : CkGood P L ck) {st st2 : EvState O} (hst : EvGood P L st) (hst2 : EvGood P L st2)
    {ws : List (List Torus)} (hws : ∀ w ∈ ws, w.length = P.tlweLv0.N + 1) (c : Instr) {st' : EvState O} {w : List Torus}
    (hr : c.run P ck st ws = some (st', w)) :
    EvGood P L st' ∧ w.length = P.tlweLv0.N + 1 ∧ ∃ st2', EvGood P L st2' ∧ c.run P ck st2 ws = some (st2', w) := by
  have get : ∀ {i : ℕ} {a : List Torus}, ws[i]? = some a → a.length = P.tlweLv0.N + 1 :=
    fun h => hws _ (List.mem_of_getElem? h)
  cases c with
  | gate g i j =>
    simp only [Instr.run, Option.bind_eq_bind, Option.bind_eq_some_iff] at hr
    obtain ⟨a, ha, b, hb, hg⟩ := hr
    obtain ⟨s, e, hs⟩ := gate2_val W L hd hck hst g a b (get ha) (get hb)
    obtain ⟨s2, e2, hs2⟩ := gate2_val W L hd hck hst2 g a b (get ha) (get hb)
    rw [e] at hg
    obtain ⟨rfl, rfl⟩ := Prod.mk.inj (Option.some.inj hg)
    exact ⟨hs, length_gateVal _ _ _ _ _ _, s2, hs2, by
      simp only [Instr.run, ha, hb, Option.bind_eq_bind, Option.bind_some, e2]⟩
  | mux i j k =>
    simp only [Instr.run, Option.bind_eq_bind, Option.bind_eq_some_iff] at hr
    obtain ⟨a, ha, b, hb, c, hc, hg⟩ := hr
    have la := get ha
    have lb := get hb
    have lc := get hc
    have mux : ∀ {s : EvState O}, EvGood P L s → ∃ s', EvGood P L s' ∧ gateMUX P s a b c ck
        = some (s', gateVal P L ck .or (gateVal P L ck .and a b) (gateVal P L ck .and (notVal P.tlweLv0.N a) c)) := by
      intro s hs
      obtain ⟨s1, e1, h1⟩ := gate2_val W L hd hck hs .and a b la lb
      obtain ⟨s2, e2, h2⟩ := gate2_val W L hd hck h1 .and (notVal P.tlweLv0.N a) c (length_notVal _ _) lc
      obtain ⟨s3, e3, h3⟩ := gate2_val W L hd hck h2 .or _ _ (length_gateVal P L ck .and a b)
        (length_gateVal P L ck .and (notVal P.tlweLv0.N a) c)
      change gateAND P s a b ck = _ at e1
      change gateAND P s1 _ c ck = _ at e2
      change gateOR P s2 _ _ ck = _ at e3
      refine ⟨s3, h3, ?_⟩
      simp only [gateMUX, e1, gateNOT_eq P a la, e2, Option.bind_eq_bind, Option.bind_some]
      exact e3
    obtain ⟨s, hs, e⟩ := mux hst
    obtain ⟨s2, hs2, e2⟩ := mux hst2
    rw [e] at hg
    obtain ⟨rfl, rfl⟩ := Prod.mk.inj (Option.some.inj hg)
    exact ⟨hs, length_gateVal _ _ _ _ _ _, s2, hs2, by
      simp only [Instr.run, ha, hb, hc, Option.bind_eq_bind, Option.bind_some, e2]⟩
  | not i =>
    simp only [Instr.run, Option.bind_eq_bind, Option.bind_eq_some_iff] at hr
    obtain ⟨a, ha, r, hn, hp⟩ := hr
    obtain ⟨rfl, rfl⟩ := Prod.mk.inj (Option.some.inj hp)
    have hl : r.length = P.tlweLv0.N + 1 := by
      rw [gateNOT_eq P a (get ha)] at hn
      rw [← Option.some.inj hn]
      exact length_notVal _ _
    exact ⟨hst, hl, st2, hst2, by simp only [Instr.run, ha, hn, Option.bind_eq_bind, Option.bind_some]; rfl⟩
  | copy i =>
    simp only [Instr.run, Option.bind_eq_bind, Option.bind_eq_some_iff] at hr
    obtain ⟨a, ha, hp⟩ := hr
    obtain ⟨rfl, rfl⟩ := Prod.mk.inj (Option.some.inj hp)
    exact ⟨hst, by rw [C45_copy P a (get ha)]; exact get ha, st2, hst2, by
      simp only [Instr.run, ha, Option.bind_eq_bind, Option.bind_some]; rfl⟩
  | const b =>
    simp only [Instr.run, Option.bind_eq_bind, Option.bind_eq_some_iff] at hr
    obtain ⟨r, hn, hp⟩ := hr
    obtain ⟨rfl, rfl⟩ := Prod.mk.inj (Option.some.inj hp)
    obtain ⟨c, hc, -, hE, -⟩ := C45_constant P b
    have hcr : c = r := Option.some.inj (hc.symm.trans hn)
    exact ⟨hst, by rw [← hcr]; exact (hE []).1, st2, hst2, by
      simp only [Instr.run, hn, Option.bind_eq_bind, Option.bind_some]; rfl⟩

/-- **C99**: a server that serves any number of clients, each with its own keys and ciphertexts, in any order, one gate at a
time on one evaluator, computes for every client bit for bit what the client's requests give on an evaluator of its own. -/
theorem C99_server (ck : ℕ → CloudKey O) (hck : ∀ p, CkGood P L (ck p)) (reqs : List (ℕ × Instr)) :
    ∀ (st : EvState O) (_ : EvGood P L st) (ws : ℕ → List (List Torus))
      (_ : ∀ p, ∀ w ∈ ws p, w.length = P.tlweLv0.N + 1) (st' : EvState O) (ws' : ℕ → List (List Torus))
      (_ : runServer P ck st ws reqs = some (st', ws')),
      EvGood P L st' ∧ ∀ (p : ℕ) (own : EvState O) (_ : EvGood P L own),
        ∃ own', runCircuit P (ck p) own (ws p) (requestsOf p reqs) = some (own', ws' p) := by
  induction reqs with
  | nil =>
    intro st hst ws _ st' ws' h
    obtain ⟨rfl, rfl⟩ := Prod.mk.inj (Option.some.inj h)
    exact ⟨hst, fun p own _ => ⟨own, rfl⟩⟩
  | cons r rest ih =>
    obtain ⟨q, c⟩ := r
    intro st hst ws hws st' ws' h
    simp only [runServer, Option.bind_eq_bind, Option.bind_eq_some_iff] at h
    obtain ⟨⟨s1, w⟩, hr, hrest⟩ := h
    obtain ⟨h1, hw, -⟩ := run_same W L hd (hck q) hst hst (hws q) c hr
    obtain ⟨hg, hp⟩ := ih s1 h1 _ (by
      intro p v hv
      by_cases hpq : p = q
      · subst hpq
        rw [Function.update_self] at hv
        rcases List.mem_append.1 hv with hv | hv
        · exact hws p v hv
        · rw [List.mem_singleton.1 hv]; exact hw
      · rw [Function.update_of_ne hpq] at hv
        exact hws p v hv) st' ws' hrest
    refine ⟨hg, fun p own hown => ?_⟩
    by_cases hpq : q = p
    · subst hpq
      obtain ⟨-, -, o2, ho2, e⟩ := run_same W L hd (hck q) hst hown (hws q) c hr
      obtain ⟨own', e'⟩ := hp q o2 ho2
      rw [Function.update_self] at e'
      refine ⟨own', ?_⟩
      rw [show requestsOf q ((q, c) :: rest) = c :: requestsOf q rest by simp [requestsOf]]
      simp only [runCircuit, e, Option.bind_eq_bind, Option.bind_some]
      exact e'
    · obtain ⟨own', e'⟩ := hp p own hown
      rw [Function.update_of_ne (Ne.symm hpq)] at e'
      refine ⟨own', ?_⟩
      rw [show requestsOf p ((q, c) :: rest) = requestsOf p rest by simp [requestsOf, hpq]]
      exact e'

/-- **C99**: and the server never fails if every client alone would not: when each client's requests run on some
evaluator, the server's run does. -/
theorem C99_runs (ck : ℕ → CloudKey O) (hck : ∀ p, CkGood P L (ck p)) (reqs : List (ℕ × Instr)) :
    ∀ (st : EvState O) (_ : EvGood P L st) (ws : ℕ → List (List Torus))
      (_ : ∀ p, ∀ w ∈ ws p, w.length = P.tlweLv0.N + 1)
      (_ : ∀ p, ∃ own own' wp, EvGood P L own ∧ runCircuit P (ck p) own (ws p) (requestsOf p reqs) = some (own', wp)),
      ∃ st' ws', runServer P ck st ws reqs = some (st', ws') := by
  induction reqs with
  | nil => intro st _ ws _ _; exact ⟨st, ws, rfl⟩
  | cons r rest ih =>
    obtain ⟨q, c⟩ := r
    intro st hst ws hws hrun
    obtain ⟨own, own', wp, ho, e⟩ := hrun q
    rw [show requestsOf q ((q, c) :: rest) = c :: requestsOf q rest by simp [requestsOf]] at e
    simp only [runCircuit, Option.bind_eq_bind, Option.bind_eq_some_iff] at e
    obtain ⟨⟨o1, w⟩, hc, hrest⟩ := e
    obtain ⟨ho1, hw, s1, hs1, hc2⟩ := run_same W L hd (hck q) ho hst (hws q) c hc
    obtain ⟨st', ws', h⟩ := ih s1 hs1 (Function.update ws q (ws q ++ [w])) (by
      intro p v hv
      by_cases hpq : p = q
      · subst hpq
        rw [Function.update_self] at hv
        rcases List.mem_append.1 hv with hv | hv
        · exact hws p v hv
        · rw [List.mem_singleton.1 hv]; exact hw
      · rw [Function.update_of_ne hpq] at hv
        exact hws p v hv) (by
      intro p
      by_cases hpq : q = p
      · subst hpq
        rw [Function.update_self]
        exact ⟨o1, own', wp, ho1, hrest⟩
      · obtain ⟨x, x', y, hx, hy⟩ := hrun p
        rw [show requestsOf p ((q, c) :: rest) = requestsOf p rest by simp [requestsOf, hpq]] at hy
        rw [Function.update_of_ne (Ne.symm hpq)]
        exact ⟨x, x', y, hx, hy⟩)
    exact ⟨st', ws', by simp only [runServer, hc2, Option.bind_eq_bind, Option.bind_some]; exact h⟩

end

/-- **C99** in `float64` arithmetic at every level: every client made its keys with any binary secret keys and any
randomness; the server uses one evaluator from `NewEvaluator`, and so does every client alone. -/
theorem C99_float {fl : ℚ → ℚ} (hfl : IsRound fl) {fu : Fusing} {ce : ℚ → ℚ × ℚ} (hce : CexpAccurate ce (1 / 2 ^ 52))
    (level : SecurityLevel) {e : PolyEval ℚ}
    (he : newPolyEval (floatArith fl fu mathPi ce) ((paramsFor level).trgswLv1.N : ℤ) = some e)
    (k0 k1 : ℕ → List Torus) (R : ℕ → KeyGenRand) (h0 : ∀ p, (paramsFor level).tlweLv0.N ≤ (k0 p).length)
    (h1 : ∀ p, (k1 p).length = (paramsFor level).trgswLv1.N)
    (hb0 : ∀ p, IsBinary (k0 p)) (hb1 : ∀ p, IsBinary (k1 p)) (schedK schedB : ℕ → List ℕ)
    (ck : ℕ → CloudKey (fftOps (floatArith fl fu mathPi ce) e))
    (hck : ∀ p, newCloudKey (paramsFor level) _ (k0 p) (k1 p) (R p) (schedK p) (schedB p) = some (true, ck p))
    (tr0 tr1 : TRef → Trlwe) (lw0 lw1 : LRef → List Torus) :
    ∃ st own, newEvaluator (paramsFor level) (fftOps (floatArith fl fu mathPi ce) e) tr0 lw0 = some st ∧
      newEvaluator (paramsFor level) (fftOps (floatArith fl fu mathPi ce) e) tr1 lw1 = some own ∧
      ∀ (ws : ℕ → List (List Torus)) (_ : ∀ p, ∀ w ∈ ws p, w.length = (paramsFor level).tlweLv0.N + 1)
        (reqs : List (ℕ × Instr)) (bs bs' : ℕ → List Bool) (_ : ∀ p, (bs p).length = (ws p).length)
        (_ : ∀ p, evalCircuit (bs p) (requestsOf p reqs) = some (bs' p)),
        ∃ st' ws', runServer (paramsFor level) ck st ws reqs = some (st', ws') ∧
          ∀ p, ∃ own', runCircuit (paramsFor level) (ck p) own (ws p) (requestsOf p reqs) = some (own', ws' p) := by
  have W := C63_wellFormed level
  obtain ⟨⟨L, -⟩, hd, -⟩ := float_keys hfl hce level he (k0 0) (k1 0) (R 0) (h0 0) (h1 0) (hb0 0) (hb1 0)
    (fun _ _ _ _ _ _ => nrm_le _) (fun _ _ _ _ _ _ => nrm_le _) (schedK 0) (schedB 0) (ck 0) (hck 0)
  have hg : ∀ p, CkGood (paramsFor level) L (ck p) := by
    intro p
    obtain ⟨-, -, K, htv⟩ := float_keys hfl hce level he (k0 p) (k1 p) (R p) (h0 p) (h1 p) (hb0 p) (hb1 p)
      (fun _ _ _ _ _ _ => nrm_le _) (fun _ _ _ _ _ _ => nrm_le _) (schedK p) (schedB p) (ck p) (hck p)
    exact ckGood L hd (K L) htv
  obtain ⟨st, es, hst, -⟩ := newEvaluator_good W L hd tr0 lw0
  obtain ⟨own, eo, ho, -⟩ := newEvaluator_good W L hd tr1 lw1
  refine ⟨st, own, es, eo, fun ws hws reqs bs bs' hl hbs => ?_⟩
  obtain ⟨st', ws', hr⟩ := C99_runs W L hd ck hg reqs st hst ws hws (fun p => by
    obtain ⟨o', w', h⟩ := run_total W L hd (hg p) (requestsOf p reqs) own ho (ws p) (hws p) (bs p) (bs' p) (hl p) (hbs p)
    exact ⟨own, o', w', ho, h⟩)
  exact ⟨st', ws', hr, fun p => (C99_server W L hd ck hg reqs st hst ws hws st' ws' hr).2 p own ho⟩

/-- Two clients in turn -/
example : requestsOf 1 [(0, .gate .and 0 1), (1, .not 0), (0, .gate .xor 2 0), (1, .gate .or 0 1)]
    = [.not 0, .gate .or 0 1] := rfl

/-- The hypotheses are met at 128 bits by two clients with different keys. -/
example : ∃ (ck : ℕ → CloudKey (exactOps 1024)) (st : EvState (exactOps 1024)),
    (∀ p, CkGood (paramsFor 128) (exL (C63_wellFormed 128)) (ck p)) ∧
    KeysOK (paramsFor 128) (exL (C63_wellFormed 128)) 0 1 0 (ck 0) (unitKey 700) (unitKey 1024) ∧
    KeysOK (paramsFor 128) (exL (C63_wellFormed 128)) 0 1 0 (ck 1) (tab 700 fun _ => 1) (unitKey 1024) ∧
    EvGood (paramsFor 128) (exL (C63_wellFormed 128)) st := by
  have W := C63_wellFormed 128
  obtain ⟨c0, K0, t0⟩ := exists_keysOK W (unitKey 700) (unitKey 1024) (by simp [unitKey]; rfl)
    (isBinary_unitKey _) (isBinary_unitKey _)
  obtain ⟨c1, K1, t1⟩ := exists_keysOK W (tab 700 fun _ => 1) (unitKey 1024) (by simp [unitKey]; rfl)
    (by
      intro x hx
      obtain ⟨i, hi, rfl⟩ := List.getElem_of_mem hx
      rw [getElem_tab]
      exact Or.inr rfl) (isBinary_unitKey _)
  obtain ⟨st, -, hst, -⟩ := newEvaluator_good W (exL W) rfl (fun _ => ⟨[], []⟩) (fun _ => [])
  have g0 := ckGood (exL W) rfl K0 t0
  have g1 := ckGood (exL W) rfl K1 t1
  exact ⟨fun p => Nat.casesOn p c0 fun _ => c1, st, fun p => Nat.casesOn p g0 fun _ => g1, K0, K1, hst⟩

end GoTfhe
