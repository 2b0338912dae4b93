import Verif.Spec.Rewrite
import Verif.Model.Circuit
import Verif.Props.FloatGates

/-!
# C97: circuits may be rewritten without changing a bit of any ciphertext
-/

namespace GoTfhe

variable {O : FourierOps}

/-- The value that `NOT` computes -/
def notVal (n : ℕ) (a : List Torus) : List Torus := tab (n + 1) fun i => -at' a i

theorem gateNOT_eq (P : Params) (a : List Torus) (ha : a.length = P.tlweLv0.N + 1) :
    gateNOT P a = some (notVal P.tlweLv0.N a) := tlwe0Neg_eq P a ha

@[simp] theorem length_notVal (n : ℕ) (a : List Torus) : (notVal n a).length = n + 1 := by simp [notVal]

/-- The input of a basic gate -/
def negIf (n : ℕ) (p : Bool) (a : List Torus) : List Torus := if p then notVal n a else a

theorem lin_basic (n : ℕ) (g : Gate2) (a b : List Torus) :
    lin n g.coef.1 g.coef.2.1 g.coef.2.2 a b
      = lin n g.basic.2.2.coef.1 g.basic.2.2.coef.2.1 g.basic.2.2.coef.2.2 (negIf n g.basic.1 a)
        (negIf n g.basic.2.1 b) := by
  unfold lin
  apply tab_congr
  intro i hi
  cases g <;> simp only [Gate2.coef, Gate2.basic, negIf, notVal, if_true, Bool.false_eq_true, if_false, at'_tab _ _ _ hi] <;>
    ring

/-! ### Single gates -/

/-- **C97**, one gate, for all ciphertexts, encryptions of bits or not, and every state of the evaluator: the gate on the
inputs is AND, OR or XOR on possibly negated inputs; same ciphertext, same panic, same state afterwards. -/
theorem C97_gate (P : Params) (g : Gate2) (st : EvState O) (ck : CloudKey O) (a b : List Torus)
    (ha : a.length = P.tlweLv0.N + 1) (hb : b.length = P.tlweLv0.N + 1) :
    gate2 P g st a b ck = (if g.basic.1 then gateNOT P a else some a).bind fun a' =>
      (if g.basic.2.1 then gateNOT P b else some b).bind fun b' => gate2 P g.basic.2.2 st a' b' ck := by
  have e : ∀ (p : Bool) (c : List Torus), c.length = P.tlweLv0.N + 1 →
      (if p then gateNOT P c else some c) = some (negIf P.tlweLv0.N p c) ∧
      (negIf P.tlweLv0.N p c).length = P.tlweLv0.N + 1 := by
    intro p c hc
    cases p
    · exact ⟨rfl, hc⟩
    · exact ⟨gateNOT_eq P c hc, by simp [negIf]⟩
  obtain ⟨e1, l1⟩ := e g.basic.1 a ha
  obtain ⟨e2, l2⟩ := e g.basic.2.1 b hb
  rw [e1, e2, Option.bind_some, Option.bind_some, gate2_eq, gate2_eq, gatePrepare_eq P g a b ha hb, gatePrepare_eq P _ _ _ l1 l2, lin_basic]

/-- **C97**, exchanging the inputs: AND, OR, NAND and NOR give the same ciphertext, ANDNY and ANDYN as well as ORNY and
ORYN become each other. -/
theorem C97_swap (P : Params) (st : EvState O) (ck : CloudKey O) (a b : List Torus)
    (ha : a.length = P.tlweLv0.N + 1) (hb : b.length = P.tlweLv0.N + 1) :
    gateAND P st a b ck = gateAND P st b a ck ∧ gateOR P st a b ck = gateOR P st b a ck ∧
    gateNAND P st a b ck = gateNAND P st b a ck ∧ gateNOR P st a b ck = gateNOR P st b a ck ∧
    gateANDNY P st a b ck = gateANDYN P st b a ck ∧ gateORNY P st a b ck = gateORYN P st b a ck := by
  have key : ∀ g h : Gate2, g.coef.1 = h.coef.2.1 → g.coef.2.1 = h.coef.1 → g.coef.2.2 = h.coef.2.2 →
      gate2 P g st a b ck = gate2 P h st b a ck := by
    intro g h e1 e2 e3
    rw [gate2_eq, gate2_eq, gatePrepare_eq P g a b ha hb, gatePrepare_eq P h b a hb ha, e1, e2, e3]
    congr 2
    unfold lin
    apply tab_congr
    intro i _
    ring
  exact ⟨key .and .and rfl rfl rfl, key .or .or rfl rfl rfl, key .nand .nand rfl rfl rfl, key .nor .nor rfl rfl rfl,
    key .andny .andyn rfl rfl rfl, key .orny .oryn rfl rfl rfl⟩

/-- **C97**, XOR is the exception: it treats its inputs differently, so the ciphertext handed to the bootstrapping is the
same in both orders only if the two inputs are the same ciphertext. -/
theorem C97_xor_order (P : Params) (a b : List Torus) (ha : a.length = P.tlweLv0.N + 1)
    (hb : b.length = P.tlweLv0.N + 1) : prepareXOR P a b = prepareXOR P b a ↔ a = b := by
  have e1 : prepareXOR P a b = _ := gatePrepare_eq P .xor a b ha hb
  have e2 : prepareXOR P b a = _ := gatePrepare_eq P .xor b a hb ha
  rw [e1, e2, Option.some.injEq]
  refine ⟨fun h => ?_, fun h => by rw [h]⟩
  apply List.ext_getElem (by rw [ha, hb])
  intro i h1 h2
  have hi : i < P.tlweLv0.N + 1 := by omega
  have h3 : at' (lin P.tlweLv0.N Gate2.xor.coef.1 Gate2.xor.coef.2.1 Gate2.xor.coef.2.2 a b) i
      = at' (lin P.tlweLv0.N Gate2.xor.coef.1 Gate2.xor.coef.2.1 Gate2.xor.coef.2.2 b a) i := by rw [h]
  unfold lin at h3
  rw [at'_tab _ _ _ hi, at'_tab _ _ _ hi] at h3
  simp only [Gate2.coef] at h3
  have h4 : at' a i = at' b i := by
    have : at' a i - at' b i
        = (1 * at' b i + 2 * at' a i + if i = P.tlweLv0.N then 1073741824#32 else 0)
          - (1 * at' a i + 2 * at' b i + if i = P.tlweLv0.N then 1073741824#32 else 0) := by ring
    rw [h3, sub_self] at this
    exact sub_eq_zero.1 this
  unfold at' at h4
  rwa [List.getD_eq_getElem _ _ h1, List.getD_eq_getElem _ _ h2] at h4

/-- **C97**: negating twice gives the ciphertext back, bit for bit. -/
theorem C97_not_not (P : Params) (a : List Torus) (ha : a.length = P.tlweLv0.N + 1) :
    (gateNOT P a).bind (gateNOT P) = some a := by
  rw [gateNOT_eq P a ha, Option.bind_some, gateNOT_eq P _ (by simp), Option.some.injEq]
  unfold notVal
  apply List.ext_getElem (by simp [ha])
  intro i h1 h2
  have hi : i < P.tlweLv0.N + 1 := by omega
  rw [getElem_tab, at'_tab _ _ _ hi, neg_neg]
  unfold at'
  rw [List.getD_eq_getElem _ _ h2]

/-! ### Circuits -/

theorem runCircuit_append (P : Params) (ck : CloudKey O) (xs ys : List Instr) :
    ∀ (st : EvState O) (ws : List (List Torus)), runCircuit P ck st ws (xs ++ ys)
      = (runCircuit P ck st ws xs).bind fun r => runCircuit P ck r.1 r.2 ys := by
  induction xs with
  | nil => intro st ws; rfl
  | cons c cs ih =>
    intro st ws
    simp only [List.cons_append, runCircuit, Option.bind_eq_bind]
    cases c.run P ck st ws with
    | none => rfl
    | some r => simp only [Option.bind_some]; exact ih _ _

/-- The value of a gate; it does not depend on the evaluator. -/
def gateVal (P : Params) (L : FourierLaws O) (ck : CloudKey O) (g : Gate2) (a b : List Torus) : List Torus :=
  bootOut P L ck ck.blindRotateTestvec (lin P.tlweLv0.N g.coef.1 g.coef.2.1 g.coef.2.2 a b)

theorem gate2_val {P : Params} (W : WellFormed P) (L : FourierLaws O) (hd : O.deg = P.trgswLv1.N)
    {ck : CloudKey O} (hck : CkGood P L ck) {st : EvState O} (hst : EvGood P L st) (g : Gate2) (a b : List Torus)
    (ha : a.length = P.tlweLv0.N + 1) (hb : b.length = P.tlweLv0.N + 1) :
    ∃ st', gate2 P g st a b ck = some (st', gateVal P L ck g a b) ∧ EvGood P L st' := by
  rw [gate2_eq, gatePrepare_eq P g a b ha hb]
  exact gateBootstrap_eq W L hd hst hck _ (by simp)

theorem length_gateVal (P : Params) (L : FourierLaws O) (ck : CloudKey O) (g : Gate2) (a b : List Torus) :
    (gateVal P L ck g a b).length = P.tlweLv0.N + 1 := length_bootPure _ _ _ _ _ _ _

theorem gateVal_basic (P : Params) (L : FourierLaws O) (ck : CloudKey O) (g : Gate2) (a b : List Torus) :
    gateVal P L ck g.basic.2.2 (negIf P.tlweLv0.N g.basic.1 a) (negIf P.tlweLv0.N g.basic.2.1 b) = gateVal P L ck g a b := by
  unfold gateVal
  rw [← lin_basic]

/-- Wire `i` of the circuit is wire `σ[i]` of the rewritten one. -/
def Same (n : ℕ) (σ : List ℕ) (ws vs : List (List Torus)) : Prop :=
  (∀ w ∈ ws, w.length = n + 1) ∧ σ.length = ws.length ∧ ∀ i < ws.length, vs[σ.getD i 0]? = ws[i]?

theorem Same.get {n : ℕ} {σ : List ℕ} {ws vs : List (List Torus)} (h : Same n σ ws vs) {i : ℕ} {w : List Torus}
    (hw : ws[i]? = some w) : vs[σ.getD i 0]? = some w ∧ w.length = n + 1 := by
  obtain ⟨hi, rfl⟩ := List.getElem?_eq_some_iff.1 hw
  exact ⟨by rw [h.2.2 i hi, hw], h.1 _ (List.getElem_mem hi)⟩

theorem Same.snoc {n : ℕ} {σ : List ℕ} {ws vs : List (List Torus)} (h : Same n σ ws vs) (ex : List (List Torus))
    (w : List Torus) (hw : w.length = n + 1) : Same n (σ ++ [vs.length + ex.length]) (ws ++ [w]) (vs ++ ex ++ [w]) := by
  obtain ⟨h1, h2, h3⟩ := h
  refine ⟨?_, by simp [h2], ?_⟩
  · intro v hv
    rcases List.mem_append.1 hv with hv | hv
    · exact h1 v hv
    · rw [List.mem_singleton.1 hv]; exact hw
  · intro i hi
    rw [List.length_append, List.length_singleton] at hi
    by_cases hlt : i < ws.length
    · rw [List.getElem?_append_left hlt, ← h3 i hlt, List.getD_append _ _ _ _ (by omega)]
      have : σ.getD i 0 < vs.length := by
        have := h3 i hlt
        rw [List.getElem?_eq_getElem hlt] at this
        exact (List.getElem?_eq_some_iff.1 this).1
      rw [List.append_assoc, List.getElem?_append_left this]
    · have hi' : i = ws.length := by omega
      subst hi'
      rw [List.getD_append_right _ _ _ _ (by omega), h2]
      simp

section
variable {P : Params} (W : WellFormed P) (L : FourierLaws O) (hd : O.deg = P.trgswLv1.N) {ck : CloudKey O}
  (hck : CkGood P L ck)
include W hd hck

theorem run_gate {st : EvState O} (hst : EvGood P L st) {vs : List (List Torus)} {i j : ℕ} {a b : List Torus} (g : Gate2)
    (hi : vs[i]? = some a) (hj : vs[j]? = some b) (ha : a.length = P.tlweLv0.N + 1) (hb : b.length = P.tlweLv0.N + 1) :
    ∃ st', EvGood P L st' ∧ ∀ cs, runCircuit P ck st vs (.gate g i j :: cs)
      = runCircuit P ck st' (vs ++ [gateVal P L ck g a b]) cs := by
  obtain ⟨st', e, h⟩ := gate2_val W L hd hck hst g a b ha hb
  refine ⟨st', h, fun cs => ?_⟩
  simp only [runCircuit, Instr.run, hi, hj, e, Option.bind_eq_bind, Option.bind_some]

omit W hd hck in
theorem run_not {st : EvState O} {vs : List (List Torus)} {i : ℕ} {a : List Torus} (hi : vs[i]? = some a)
    (ha : a.length = P.tlweLv0.N + 1) (cs : List Instr) :
    runCircuit P ck st vs (.not i :: cs) = runCircuit P ck st (vs ++ [notVal P.tlweLv0.N a]) cs := by
  simp only [runCircuit, Instr.run, hi, gateNOT_eq P a ha, Option.bind_eq_bind, Option.bind_some, Option.pure_def]

omit W hd hck in
theorem get_old {vs : List (List Torus)} {i : ℕ} {a : List Torus} (hi : vs[i]? = some a) (xs : List (List Torus)) :
    (vs ++ xs)[i]? = some a := by
  rw [List.getElem?_append_left (List.getElem?_eq_some_iff.1 hi).1, hi]

/-- One instruction and its translation, on two evaluators with any history -/
theorem lower_step {st st2 : EvState O} (hst : EvGood P L st) (hst2 : EvGood P L st2) {σ : List ℕ}
    {ws vs : List (List Torus)} (hS : Same P.tlweLv0.N σ ws vs) (c : Instr) {st' : EvState O} {w : List Torus}
    (hr : c.run P ck st ws = some (st', w)) :
    EvGood P L st' ∧ w.length = P.tlweLv0.N + 1 ∧ ∃ st2' ex, EvGood P L st2' ∧ (c.lower σ vs.length).length = ex.length + 1 ∧
      runCircuit P ck st2 vs (c.lower σ vs.length) = some (st2', vs ++ ex ++ [w]) := by
  cases c with
  | gate g i j =>
    simp only [Instr.run, Option.bind_eq_bind, Option.bind_eq_some_iff] at hr
    obtain ⟨a, ha, b, hb, hg⟩ := hr
    obtain ⟨ga, la⟩ := hS.get ha
    obtain ⟨gb, lb⟩ := hS.get hb
    obtain ⟨s, e, hs⟩ := gate2_val W L hd hck hst g a b la lb
    rw [e] at hg
    obtain ⟨rfl, rfl⟩ := Prod.mk.inj (Option.some.inj hg)
    refine ⟨hs, length_gateVal _ _ _ _ _ _, ?_⟩
    have hv := gateVal_basic P L ck g a b
    simp only [Instr.lower]
    rcases hbas : g.basic with ⟨p, q, h⟩
    rw [hbas] at hv
    cases p <;> cases q <;> simp only [negIf, if_true, Bool.false_eq_true, if_false] at hv ⊢
    · obtain ⟨s2, hs2, e2⟩ := run_gate W L hd hck hst2 h ga gb la lb
      exact ⟨s2, [], hs2, rfl, by rw [e2, hv]; simp [runCircuit]⟩
    · obtain ⟨s2, hs2, e2⟩ := run_gate W L hd hck hst2 (vs := vs ++ [notVal P.tlweLv0.N b]) h (get_old ga _)
        (List.getElem?_concat_length) la (length_notVal _ _)
      exact ⟨s2, [notVal P.tlweLv0.N b], hs2, rfl, by rw [run_not gb lb, e2, hv]; simp [runCircuit]⟩
    · obtain ⟨s2, hs2, e2⟩ := run_gate W L hd hck hst2 (vs := vs ++ [notVal P.tlweLv0.N a]) h
        (List.getElem?_concat_length) (get_old gb _) (length_notVal _ _) lb
      exact ⟨s2, [notVal P.tlweLv0.N a], hs2, rfl, by rw [run_not ga la, e2, hv]; simp [runCircuit]⟩
    · obtain ⟨s2, hs2, e2⟩ := run_gate W L hd hck hst2
        (vs := vs ++ [notVal P.tlweLv0.N a] ++ [notVal P.tlweLv0.N b]) (i := vs.length) (j := vs.length + 1) h
        (by simp) (by simp) (length_notVal _ a) (length_notVal _ b)
      exact ⟨s2, [notVal P.tlweLv0.N a, notVal P.tlweLv0.N b], hs2, rfl, by
        rw [run_not ga la, run_not (get_old gb _) lb, e2, hv]; simp [runCircuit]⟩
  | mux i j k =>
    simp only [Instr.run, Option.bind_eq_bind, Option.bind_eq_some_iff] at hr
    obtain ⟨a, ha, b, hb, c, hc, hg⟩ := hr
    obtain ⟨ga, la⟩ := hS.get ha
    obtain ⟨gb, lb⟩ := hS.get hb
    obtain ⟨gc, lc⟩ := hS.get hc
    set u := gateVal P L ck .and a b with hu
    set v := gateVal P L ck .and (notVal P.tlweLv0.N a) c with hv
    have lu : u.length = P.tlweLv0.N + 1 := length_gateVal _ _ _ _ _ _
    have lv : v.length = P.tlweLv0.N + 1 := length_gateVal _ _ _ _ _ _
    obtain ⟨s1, e1, h1⟩ := gate2_val W L hd hck hst .and a b la lb
    obtain ⟨s2, e2, h2⟩ := gate2_val W L hd hck h1 .and (notVal P.tlweLv0.N a) c (length_notVal _ _) lc
    obtain ⟨s3, e3, h3⟩ := gate2_val W L hd hck h2 .or u v lu lv
    change gateAND P st a b ck = _ at e1
    change gateAND P s1 _ c ck = _ at e2
    change gateOR P s2 u v ck = _ at e3
    unfold gateMUX at hg
    simp only [e1, gateNOT_eq P a la, e2, Option.bind_eq_bind, Option.bind_some] at hg
    rw [← hu, ← hv, e3] at hg
    obtain ⟨rfl, rfl⟩ := Prod.mk.inj (Option.some.inj hg)
    refine ⟨h3, length_gateVal _ _ _ _ _ _, ?_⟩
    obtain ⟨t1, g1, f1⟩ := run_gate W L hd hck hst2 .and ga gb la lb
    obtain ⟨t2, g2, f2⟩ := run_gate W L hd hck g1 (vs := vs ++ [u] ++ [notVal P.tlweLv0.N a]) (i := vs.length + 1) .and
      (by simp) (get_old (get_old gc _) _) (length_notVal _ a) lc
    obtain ⟨t3, g3, f3⟩ := run_gate W L hd hck g2 (vs := vs ++ [u] ++ [notVal P.tlweLv0.N a] ++ [v]) (i := vs.length)
      (j := vs.length + 2) .or (a := u) (b := v) (by simp) (by simp) lu lv
    refine ⟨t3, [u, notVal P.tlweLv0.N a, v], g3, rfl, ?_⟩
    simp only [Instr.lower]
    rw [f1, ← hu, run_not (get_old ga _) la, f2, ← hv, f3]
    simp [runCircuit]
  | not i =>
    simp only [Instr.run, Option.bind_eq_bind, Option.bind_eq_some_iff] at hr
    obtain ⟨a, ha, r, hn, hp⟩ := hr
    obtain ⟨ga, la⟩ := hS.get ha
    obtain ⟨rfl, rfl⟩ := Prod.mk.inj (Option.some.inj hp)
    rw [gateNOT_eq P a la] at hn
    obtain rfl := Option.some.inj hn
    exact ⟨hst, length_notVal _ _, st2, [], hst2, rfl, by
      simp only [Instr.lower]; rw [run_not ga la]; simp [runCircuit]⟩
  | copy i =>
    simp only [Instr.run, Option.bind_eq_bind, Option.bind_eq_some_iff] at hr
    obtain ⟨a, ha, hp⟩ := hr
    obtain ⟨ga, la⟩ := hS.get ha
    obtain ⟨rfl, rfl⟩ := Prod.mk.inj (Option.some.inj hp)
    refine ⟨hst, by rw [C45_copy P a la]; exact la, st2, [], hst2, rfl, ?_⟩
    simp [Instr.lower, runCircuit, Instr.run, -List.getD_eq_getElem?_getD, ga]
  | const b =>
    simp only [Instr.run, Option.bind_eq_bind, Option.bind_eq_some_iff] at hr
    obtain ⟨r, hn, hp⟩ := hr
    obtain ⟨rfl, rfl⟩ := Prod.mk.inj (Option.some.inj hp)
    obtain ⟨c, hc, -, hE, -⟩ := C45_constant P b
    have hcr : c = r := Option.some.inj (hc.symm.trans hn)
    refine ⟨hst, by rw [← hcr]; exact (hE []).1, st2, [], hst2, rfl, ?_⟩
    simp [Instr.lower, runCircuit, Instr.run, hn]

/-- **C97**: every circuit can be rewritten into one of AND, OR, XOR, NOT, Copy and Constant without changing a single bit
of any ciphertext it computes, for all ciphertexts, encryptions of bits or not, with any noise and even under different
keys, and whatever the two evaluators did before. -/
theorem C97_circuit (prog : List Instr) : ∀ (st st2 : EvState O) (_ : EvGood P L st) (_ : EvGood P L st2) (σ : List ℕ)
    (ws vs : List (List Torus)) (_ : Same P.tlweLv0.N σ ws vs) (st' : EvState O) (ws' : List (List Torus))
    (_ : runCircuit P ck st ws prog = some (st', ws')),
    ∃ st2' vs', runCircuit P ck st2 vs (lowerCircuit σ vs.length prog).1 = some (st2', vs') ∧
      Same P.tlweLv0.N (lowerCircuit σ vs.length prog).2 ws' vs' ∧ EvGood P L st' ∧ EvGood P L st2' := by
  induction prog with
  | nil =>
    intro st st2 hst hst2 σ ws vs hS st' ws' h
    obtain ⟨rfl, rfl⟩ := Prod.mk.inj (Option.some.inj h)
    exact ⟨st2, vs, rfl, hS, hst, hst2⟩
  | cons c cs ih =>
    intro st st2 hst hst2 σ ws vs hS st' ws' h
    simp only [runCircuit, Option.bind_eq_bind, Option.bind_eq_some_iff] at h
    obtain ⟨⟨s1, w⟩, hr, hcs⟩ := h
    obtain ⟨h1, hw, s2, ex, h2, hlen, hrun⟩ := lower_step W L hd hck hst hst2 hS c hr
    have hn : vs.length + (c.lower σ vs.length).length - 1 = vs.length + ex.length := by omega
    have hn2 : vs.length + (c.lower σ vs.length).length = (vs ++ ex ++ [w]).length := by simp [hlen]
    obtain ⟨s3, vs', hrun', hS', g1, g2⟩ := ih s1 s2 h1 h2 (σ ++ [vs.length + ex.length]) (ws ++ [w]) (vs ++ ex ++ [w])
      (hS.snoc ex w hw) st' ws' hcs
    refine ⟨s3, vs', ?_, ?_, g1, g2⟩
    · simp only [lowerCircuit]
      rw [runCircuit_append, hrun, Option.bind_some, hn, hn2]
      exact hrun'
    · simp only [lowerCircuit]
      rw [hn, hn2]
      exact hS'

/-- A circuit that only reads existing wires never panics, whatever the ciphertexts are. -/
theorem run_total (prog : List Instr) : ∀ (st : EvState O) (_ : EvGood P L st) (ws : List (List Torus))
    (_ : ∀ w ∈ ws, w.length = P.tlweLv0.N + 1) (bs bs' : List Bool) (_ : bs.length = ws.length)
    (_ : evalCircuit bs prog = some bs'), ∃ st' ws', runCircuit P ck st ws prog = some (st', ws') := by
  induction prog with
  | nil => intro st _ ws _ _ _ _ _; exact ⟨st, ws, rfl⟩
  | cons c cs ih =>
    intro st hst ws hws bs bs' hl he
    simp only [evalCircuit, Option.bind_eq_bind, Option.bind_eq_some_iff] at he
    obtain ⟨b, hc, he⟩ := he
    have get : ∀ {i : ℕ} {x : Bool}, bs[i]? = some x → ∃ a, ws[i]? = some a ∧ a.length = P.tlweLv0.N + 1 := by
      intro i x hx
      have hi : i < ws.length := by have := (List.getElem?_eq_some_iff.1 hx).1; omega
      exact ⟨_, List.getElem?_eq_getElem hi, hws _ (List.getElem_mem hi)⟩
    have hstep : ∃ st' w, c.run P ck st ws = some (st', w) ∧ EvGood P L st' ∧ w.length = P.tlweLv0.N + 1 := by
      cases c with
      | gate g i j =>
        simp only [Instr.eval, Option.bind_eq_bind, Option.bind_eq_some_iff] at hc
        obtain ⟨x, hx, y, hy, -⟩ := hc
        obtain ⟨a, ha, la⟩ := get hx
        obtain ⟨d, hb, lb⟩ := get hy
        obtain ⟨s, e, hs⟩ := gate2_val W L hd hck hst g a d la lb
        exact ⟨s, gateVal P L ck g a d, by simp only [Instr.run, ha, hb, Option.bind_eq_bind, Option.bind_some, e], hs,
          length_gateVal _ _ _ _ _ _⟩
      | mux i j k =>
        simp only [Instr.eval, Option.bind_eq_bind, Option.bind_eq_some_iff] at hc
        obtain ⟨x, hx, y, hy, z, hz, -⟩ := hc
        obtain ⟨a, ha, la⟩ := get hx
        obtain ⟨d, hb, lb⟩ := get hy
        obtain ⟨f, hf, lf⟩ := get hz
        obtain ⟨s1, e1, h1⟩ := gate2_val W L hd hck hst .and a d la lb
        obtain ⟨s2, e2, h2⟩ := gate2_val W L hd hck h1 .and (notVal P.tlweLv0.N a) f (length_notVal _ _) lf
        obtain ⟨s3, e3, h3⟩ := gate2_val W L hd hck h2 .or _ _ (length_gateVal P L ck .and a d)
          (length_gateVal P L ck .and (notVal P.tlweLv0.N a) f)
        change gateAND P st a d ck = _ at e1
        change gateAND P s1 _ f ck = _ at e2
        change gateOR P s2 _ _ ck = _ at e3
        refine ⟨s3, gateVal P L ck .or (gateVal P L ck .and a d) (gateVal P L ck .and (notVal P.tlweLv0.N a) f), ?_, h3,
          length_gateVal _ _ _ _ _ _⟩
        simp only [Instr.run, ha, hb, hf, Option.bind_eq_bind, Option.bind_some, gateMUX, e1, gateNOT_eq P a la, e2]
        exact e3
      | not i =>
        simp only [Instr.eval, Option.bind_eq_bind, Option.bind_eq_some_iff] at hc
        obtain ⟨x, hx, -⟩ := hc
        obtain ⟨a, ha, la⟩ := get hx
        exact ⟨st, notVal P.tlweLv0.N a, by
          simp only [Instr.run, ha, Option.bind_eq_bind, Option.bind_some, gateNOT_eq P a la]; rfl, hst,
          length_notVal _ _⟩
      | copy i =>
        obtain ⟨a, ha, la⟩ := get hc
        exact ⟨st, gateCopy P a, by simp only [Instr.run, ha, Option.bind_eq_bind, Option.bind_some]; rfl, hst,
          by rw [C45_copy P a la]; exact la⟩
      | const v =>
        obtain ⟨d, hd', -, hE, -⟩ := C45_constant P v
        exact ⟨st, d, by simp only [Instr.run, hd', Option.bind_eq_bind, Option.bind_some]; rfl, hst, (hE []).1⟩
    obtain ⟨s, w, hr, hs, hw⟩ := hstep
    obtain ⟨st', ws', h⟩ := ih s hs (ws ++ [w]) (by
      intro v hv
      rcases List.mem_append.1 hv with hv | hv
      · exact hws v hv
      · rw [List.mem_singleton.1 hv]; exact hw) (bs ++ [b]) bs' (by simp [hl]) he
    exact ⟨st', ws', by simp only [runCircuit, hr, Option.bind_eq_bind, Option.bind_some]; exact h⟩

end

/-- The rewritten circuit only uses AND, OR, XOR, NOT, Copy and Constant. -/
theorem C97_basic (prog : List Instr) : ∀ (σ : List ℕ) (n : ℕ), ∀ c ∈ (lowerCircuit σ n prog).1, c.isBasic := by
  induction prog with
  | nil => intro σ n c hc; simp [lowerCircuit] at hc
  | cons c cs ih =>
    intro σ n d hd
    simp only [lowerCircuit, List.mem_append] at hd
    rcases hd with hd | hd
    · cases c with
      | gate g i j => cases g <;> simp only [Instr.lower, Gate2.basic, List.mem_cons, List.not_mem_nil, or_false] at hd <;>
          (rcases hd with rfl | rfl | rfl) <;> simp [Instr.isBasic]
      | mux i j k =>
        simp only [Instr.lower, List.mem_cons, List.not_mem_nil, or_false] at hd
        rcases hd with rfl | rfl | rfl | rfl <;> simp [Instr.isBasic]
      | not i => simp only [Instr.lower, List.mem_singleton] at hd; subst hd; trivial
      | copy i => simp only [Instr.lower, List.mem_singleton] at hd; subst hd; trivial
      | const b => simp only [Instr.lower, List.mem_singleton] at hd; subst hd; trivial
    · exact ih _ _ d hd

/-- The first `m` wires keep their places. -/
theorem same_range (n : ℕ) (ws : List (List Torus)) (h : ∀ w ∈ ws, w.length = n + 1) :
    Same n (List.range ws.length) ws ws := by
  refine ⟨h, by simp, fun i hi => ?_⟩
  rw [List.getD_eq_getElem _ _ (by simpa using hi), List.getElem_range]

/-- **C97** in `float64` arithmetic at every level, from key generation on: for every circuit that only reads existing
wires and all ciphertexts, the circuit and its rewriting run, on two evaluators, and wire `i` of the one is wire `σ[i]` of
the other, bit for bit. -/
theorem C97_float {fl : ℚ → ℚ} (hfl : IsRound fl) {fu : Fusing} {ce : ℚ → ℚ × ℚ} (hce : CexpAccurate ce (1 / 2 ^ 52))
    (level : SecurityLevel) {e : PolyEval ℚ}
    (he : newPolyEval (floatArith fl fu mathPi ce) ((paramsFor level).trgswLv1.N : ℤ) = some e) (k0 k1 : List Torus)
    (R : KeyGenRand) (h0 : (paramsFor level).tlweLv0.N ≤ k0.length) (h1 : k1.length = (paramsFor level).trgswLv1.N)
    (hb0 : IsBinary k0) (hb1 : IsBinary k1) (schedK schedB : List ℕ)
    (ck : CloudKey (fftOps (floatArith fl fu mathPi ce) e))
    (hck : newCloudKey (paramsFor level) _ k0 k1 R schedK schedB = some (true, ck))
    (tr0 tr1 : TRef → Trlwe) (lw0 lw1 : LRef → List Torus) :
    ∃ st st2, newEvaluator (paramsFor level) (fftOps (floatArith fl fu mathPi ce) e) tr0 lw0 = some st ∧
      newEvaluator (paramsFor level) (fftOps (floatArith fl fu mathPi ce) e) tr1 lw1 = some st2 ∧
      ∀ (ws : List (List Torus)) (_ : ∀ w ∈ ws, w.length = (paramsFor level).tlweLv0.N + 1) (prog : List Instr)
        (bs bs' : List Bool) (_ : bs.length = ws.length) (_ : evalCircuit bs prog = some bs'),
        ∃ st' st2' ws' vs', runCircuit (paramsFor level) ck st ws prog = some (st', ws') ∧
          runCircuit (paramsFor level) ck st2 ws (lowerCircuit (List.range ws.length) ws.length prog).1 = some (st2', vs') ∧
          ∀ i < ws'.length, ∃ (k : ℕ) (c : List Torus),
            (lowerCircuit (List.range ws.length) ws.length prog).2[i]? = some k ∧ ws'[i]? = some c ∧ vs'[k]? = some c := by
  obtain ⟨⟨L, -⟩, hd, K, htv⟩ := float_keys hfl hce level he k0 k1 R h0 h1 hb0 hb1
    (fun _ _ _ _ _ _ => nrm_le _) (fun _ _ _ _ _ _ => nrm_le _) schedK schedB ck hck
  have W := C63_wellFormed level
  have hg := ckGood L hd (K L) htv
  obtain ⟨st, es, hst, -⟩ := newEvaluator_good W L hd tr0 lw0
  obtain ⟨st2, es2, hst2, -⟩ := newEvaluator_good W L hd tr1 lw1
  refine ⟨st, st2, es, es2, fun ws hws prog bs bs' hl hbs => ?_⟩
  obtain ⟨st', ws', hr⟩ := run_total W L hd hg prog st hst ws hws bs bs' hl hbs
  obtain ⟨st2', vs', hr2, ⟨-, hS, hv⟩, -⟩ := C97_circuit W L hd hg prog st st2 hst hst2 _ ws ws (same_range _ ws hws) st'
    ws' hr
  refine ⟨st', st2', ws', vs', hr, hr2, fun i hi => ?_⟩
  have hi' : i < (lowerCircuit (List.range ws.length) ws.length prog).2.length := by rw [hS]; exact hi
  refine ⟨_, ws'[i], List.getElem?_eq_getElem hi', List.getElem?_eq_getElem hi, ?_⟩
  have := hv i hi
  rwa [List.getD_eq_getElem _ _ hi', List.getElem?_eq_getElem hi] at this

/-- A multiplexer followed by XNOR with its first input, on three inputs, becomes five gates and two negations. -/
example : lowerCircuit (List.range 3) 3 [.mux 0 1 2, .gate .xnor 3 0]
    = ([.gate .and 0 1, .not 0, .gate .and 4 2, .gate .or 3 5, .not 0, .gate .xor 6 7], [0, 1, 2, 6, 8]) ∧
    evalCircuit [true, false, true] [.mux 0 1 2, .gate .xnor 3 0] = some [true, false, true, false, false] := ⟨rfl, rfl⟩

/-- The hypotheses are met at 128 bits by keys and an evaluator, and every two evaluators. -/
example : ∃ (ck : CloudKey (exactOps 1024)) (st : EvState (exactOps 1024)), CkGood (paramsFor 128) (exL (C63_wellFormed 128)) ck ∧
    EvGood (paramsFor 128) (exL (C63_wellFormed 128)) st := by
  have W := C63_wellFormed 128
  obtain ⟨ck, K, htv⟩ := exists_keysOK W (unitKey 700) (unitKey 1024) (by simp [unitKey]; rfl)
    (isBinary_unitKey _) (isBinary_unitKey _)
  obtain ⟨st, -, hst, -⟩ := newEvaluator_good W (exL W) rfl (fun _ => ⟨[], []⟩) (fun _ => [])
  exact ⟨ck, st, ckGood (exL W) rfl K htv, hst⟩

end GoTfhe
