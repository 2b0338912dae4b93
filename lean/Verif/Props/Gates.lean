import Verif.Lemmas.Gates
import Verif.Props.CloudKey
import Verif.Props.Tlwe
import Verif.Props.Trlwe

/-!
# C43, C44, C45: the gates
-/

namespace GoTfhe

variable {O : FourierOps}

/-- The test vector of the gates: the constant polynomial 1/8, unencrypted. -/
def gateTestvec (P : Params) : Trlwe := ⟨mkSlice P.trgswLv1.N 0, tab P.trgswLv1.N fun _ => 536870912#32⟩

theorem ckGood {P : Params} (L : FourierLaws O) (hd : O.deg = P.trgswLv1.N) {D β κ : ℕ} {ck : CloudKey O}
    {s0 s1 : List Torus} (K : KeysOK P L D β κ ck s0 s1) (htv : ck.blindRotateTestvec = gateTestvec P) :
    CkGood P L ck := by
  obtain ⟨err, h, -⟩ := K.bsk
  refine ⟨goodBsk_of_isBsk L hd h, K.ksk_good, ?_⟩
  rw [htv]
  exact ⟨by simp [gateTestvec], by simp [gateTestvec]⟩

/-- The sign of a phase away from `0` and `1/2` survives bootstrapping. -/
theorem boot_bool {P : Params} (W : WellFormed P) (L : FourierLaws O) (ck : CloudKey O) (s0 s1 : List Torus)
    (c : List Torus) (r : Bool) {d : ℕ} (hnear : Near P c s0 d)
    (h : if r then (d : ℤ) ≤ (phase P.tlweLv0.N c s0).toInt ∧
          (phase P.tlweLv0.N c s0).toInt + d < 2 ^ 31
        else (phase P.tlweLv0.N c s0).toInt + d < 0 ∧
          -2 ^ 31 + (d : ℤ) ≤ (phase P.tlweLv0.N c s0).toInt) :
    phase P.tlweLv0.N (bootOut P L ck (gateTestvec P) c) s0
      = bval r + bootNoise P L ck s0 s1 (gateTestvec P) c := by
  have hc : ∀ j < P.trgswLv1.N,
      trPhase P.trgswLv1.N (gateTestvec P).A (gateTestvec P).B s1 j = 536870912#32 := by
    intro j hj
    unfold gateTestvec
    rw [trPhase_trivial _ _ _ _ hj, at'_tab _ _ _ hj]
  have : ext P.trgswLv1.N (trPhase P.trgswLv1.N (gateTestvec P).A (gateTestvec P).B s1)
      (msPhase P.trgswLv1.N P.tlweLv0.N c s0) = bval r := by
    cases r
    · obtain ⟨j, hj, e⟩ := msPhase_lower W c s0 hnear h.1 h.2
        (trPhase P.trgswLv1.N (gateTestvec P).A (gateTestvec P).B s1)
      rw [e, hc j hj]; rfl
    · obtain ⟨j, hj, e⟩ := msPhase_upper W c s0 hnear h.1 h.2
        (trPhase P.trgswLv1.N (gateTestvec P).A (gateTestvec P).B s1)
      rw [e, hc j hj]; rfl
  unfold bootNoise
  rw [this]
  ring

theorem gate_table (g : Gate2) (x y : Bool) :
    (g.coef.1 * bval x + g.coef.2.1 * bval y + g.coef.2.2).toInt = 536870912 ∧ g.eval x y = true ∨
    (g.coef.1 * bval x + g.coef.2.1 * bval y + g.coef.2.2).toInt = 1610612736 ∧ g.eval x y = true ∨
    (g.coef.1 * bval x + g.coef.2.1 * bval y + g.coef.2.2).toInt = -536870912 ∧ g.eval x y = false ∨
    (g.coef.1 * bval x + g.coef.2.1 * bval y + g.coef.2.2).toInt = -1610612736 ∧ g.eval x y = false := by
  cases g <;> cases x <;> cases y <;> decide

theorem nrm_gate_noise (g : Gate2) (ea eb : Torus) :
    nrm (g.coef.1 * ea + g.coef.2.1 * eb) ≤ nrm ea + g.mult * nrm eb := by
  refine (nrm_add _ _).trans (Nat.add_le_add ?_ ?_)
  · refine (nrm_mul _ _).trans ?_
    cases g <;> exact (le_of_eq (one_mul _))
  · refine (nrm_mul _ _).trans ?_
    cases g <;> exact le_rfl

theorem margin_of_table (v e : Torus) (d : ℕ) (r : Bool) (hd : nrm e + d < 2 ^ 29)
    (hv : v.toInt = 536870912 ∧ r = true ∨ v.toInt = 1610612736 ∧ r = true ∨
      v.toInt = -536870912 ∧ r = false ∨ v.toInt = -1610612736 ∧ r = false) :
    if r then (d : ℤ) ≤ (v + e).toInt ∧ (v + e).toInt + d < 2 ^ 31
      else (v + e).toInt + d < 0 ∧ -2 ^ 31 + (d : ℤ) ≤ (v + e).toInt := by
  unfold nrm at hd
  have hs := toInt_add_of_range v e (by omega) (by omega)
  rcases hv with ⟨h, rfl⟩ | ⟨h, rfl⟩ | ⟨h, rfl⟩ | ⟨h, rfl⟩ <;> simp only [if_true, Bool.false_eq_true, if_false] <;>
    rw [hs, h] <;> omega

/-- A ciphertext with noise below 1/8 decrypts to its bit. -/
theorem Enc.decrypts {P : Params} {c s0 : List Torus} {b : Bool} {e : Torus} (h : Enc P.tlweLv0.N c s0 b e)
    (h0 : P.tlweLv0.N ≤ s0.length) (he : nrm e < 2 ^ 29) : tlwe0DecryptBool P c s0 = some b := by
  rw [tlwe0DecryptBool_eq P c s0 h0 (by rw [h.1]; omega), h.2, Option.some.injEq]
  unfold bval
  rw [sign_margin]
  unfold nrm at he
  split_ifs <;> omega

/-- One gate with the realised rounding `d` of the prepared ciphertext. -/
theorem gate_near {P : Params} (W : WellFormed P) (L : FourierLaws O) (hd : O.deg = P.trgswLv1.N)
    {D β κ : ℕ} {ck : CloudKey O} {s0 s1 : List Torus} (K : KeysOK P L D β κ ck s0 s1)
    (htv : ck.blindRotateTestvec = gateTestvec P) (h0 : P.tlweLv0.N ≤ s0.length)
    (st : EvState O) (hst : EvGood P L st) (g : Gate2) (a b : List Torus)
    (ha : a.length = P.tlweLv0.N + 1) (hb : b.length = P.tlweLv0.N + 1) :
    ∃ prep st' out, gatePrepare P g a b = some prep ∧ gate2 P g st a b ck = some (st', out) ∧
      EvGood P L st' ∧
      nrm (bootNoise P L ck s0 s1 (gateTestvec P) prep)
        ≤ bootBound P D β κ (weight P.tlweLv0.N s0) (weight P.trgswLv1.N s1) ∧
      ∀ x y ea eb d, Enc P.tlweLv0.N a s0 x ea → Enc P.tlweLv0.N b s0 y eb → Near P prep s0 d →
        nrm ea + g.mult * nrm eb + d < 2 ^ 29 →
        Enc P.tlweLv0.N out s0 (g.eval x y) (bootNoise P L ck s0 s1 (gateTestvec P) prep) ∧
        (nrm (bootNoise P L ck s0 s1 (gateTestvec P) prep) < 2 ^ 29 →
          tlwe0DecryptBool P out s0 = some (g.eval x y)) := by
  have hp := gatePrepare_eq P g a b ha hb
  set prep := lin P.tlweLv0.N g.coef.1 g.coef.2.1 g.coef.2.2 a b with hprep
  obtain ⟨st', e, hg⟩ := gateBootstrap_eq W L hd hst (ckGood L hd K htv) prep (by simp [hprep])
  rw [htv] at e
  refine ⟨prep, st', bootOut P L ck (gateTestvec P) prep, hp, ?_, hg, nrm_bootNoise W L hd K _ _, ?_⟩
  · rw [gate2_eq, hp]; exact e
  · intro x y ea eb d hx hy hnear hm
    have hlen : (bootOut P L ck (gateTestvec P) prep).length = P.tlweLv0.N + 1 := length_bootPure _ _ _ _ _ _ _
    have hE : Enc P.tlweLv0.N (bootOut P L ck (gateTestvec P) prep) s0 (g.eval x y)
        (bootNoise P L ck s0 s1 (gateTestvec P) prep) := by
      refine ⟨hlen, boot_bool W L ck s0 s1 prep _ hnear ?_⟩
      have hph : phase P.tlweLv0.N prep s0
          = (g.coef.1 * bval x + g.coef.2.1 * bval y + g.coef.2.2) + (g.coef.1 * ea + g.coef.2.1 * eb) := by
        rw [hprep, phase_lin, hx.2, hy.2]; ring
      rw [hph]
      exact margin_of_table _ _ _ _ (by have := nrm_gate_noise g ea eb; omega) (gate_table g x y)
    exact ⟨hE, fun hn => hE.decrypts h0 hn⟩

/-- **C43.** Each two-input gate, for all ciphertexts `a`, `b` of the current dimension, every state of the
global evaluator and all evaluation keys: it does not panic, and leaves the evaluator usable. If `a`, `b`
encrypt the bits `x`, `y` with noises whose weighted sum stays below `1/8 - drift`, the result encrypts the
gate's truth table at `(x, y)`; its noise is the realised noise of this bootstrapping, which is at most
`bootBound` whatever the inputs; and it decrypts to that bit as soon as this realised noise is below 1/8. -/
theorem C43_gate {P : Params} (W : WellFormed P) (L : FourierLaws O) (hd : O.deg = P.trgswLv1.N)
    {D β κ : ℕ} {ck : CloudKey O} {s0 s1 : List Torus} (K : KeysOK P L D β κ ck s0 s1)
    (htv : ck.blindRotateTestvec = gateTestvec P) (h0 : P.tlweLv0.N ≤ s0.length)
    (st : EvState O) (hst : EvGood P L st) (g : Gate2) (a b : List Torus)
    (ha : a.length = P.tlweLv0.N + 1) (hb : b.length = P.tlweLv0.N + 1) :
    ∃ prep st' out, gatePrepare P g a b = some prep ∧ gate2 P g st a b ck = some (st', out) ∧
      EvGood P L st' ∧
      nrm (bootNoise P L ck s0 s1 (gateTestvec P) prep)
        ≤ bootBound P D β κ (weight P.tlweLv0.N s0) (weight P.trgswLv1.N s1) ∧
      ∀ x y ea eb, Enc P.tlweLv0.N a s0 x ea → Enc P.tlweLv0.N b s0 y eb →
        nrm ea + g.mult * nrm eb + drift P (weight P.tlweLv0.N s0) < 2 ^ 29 →
        Enc P.tlweLv0.N out s0 (g.eval x y) (bootNoise P L ck s0 s1 (gateTestvec P) prep) ∧
        (nrm (bootNoise P L ck s0 s1 (gateTestvec P) prep) < 2 ^ 29 →
          tlwe0DecryptBool P out s0 = some (g.eval x y)) := by
  obtain ⟨prep, st', out, h1, h2, h3, h4, h5⟩ := gate_near W L hd K htv h0 st hst g a b ha hb
  exact ⟨prep, st', out, h1, h2, h3, h4, fun x y ea eb hx hy hm => h5 x y ea eb _ hx hy (msPhase_near W prep s0) hm⟩

/-- **C43**, worst case: when even the worst-case bound is below 1/8, every gate decrypts correctly. -/
theorem C43_gate_worst_case {P : Params} (W : WellFormed P) (L : FourierLaws O) (hd : O.deg = P.trgswLv1.N)
    {D β κ : ℕ} {ck : CloudKey O} {s0 s1 : List Torus} (K : KeysOK P L D β κ ck s0 s1)
    (htv : ck.blindRotateTestvec = gateTestvec P) (h0 : P.tlweLv0.N ≤ s0.length)
    (hB : bootBound P D β κ (weight P.tlweLv0.N s0) (weight P.trgswLv1.N s1) < 2 ^ 29)
    (st : EvState O) (hst : EvGood P L st) (g : Gate2) (a b : List Torus) (x y : Bool) (ea eb : Torus)
    (hx : Enc P.tlweLv0.N a s0 x ea) (hy : Enc P.tlweLv0.N b s0 y eb)
    (hm : nrm ea + g.mult * nrm eb + drift P (weight P.tlweLv0.N s0) < 2 ^ 29) :
    ∃ st' out, gate2 P g st a b ck = some (st', out) ∧ EvGood P L st' ∧
      tlwe0DecryptBool P out s0 = some (g.eval x y) := by
  obtain ⟨prep, st', out, -, e, hg, hn, h⟩ := C43_gate W L hd K htv h0 st hst g a b hx.1 hy.1
  exact ⟨st', out, e, hg, (h x y ea eb hx hy hm).2 (by omega)⟩

/-! ### C45 -/

/-- **C45**: `NOT` negates the phase exactly; it adds no noise. -/
theorem C45_not (P : Params) (a s0 : List Torus) (ha : a.length = P.tlweLv0.N + 1) :
    ∃ c, gateNOT P a = some c ∧ c.length = P.tlweLv0.N + 1 ∧
      phase P.tlweLv0.N c s0 = -phase P.tlweLv0.N a s0 ∧
      (∀ b e, Enc P.tlweLv0.N a s0 b e → Enc P.tlweLv0.N c s0 (!b) (-e)) ∧
      (P.tlweLv0.N ≤ s0.length → phase P.tlweLv0.N a s0 ≠ 0 → phase P.tlweLv0.N a s0 ≠ 2147483648#32 →
        ∀ b, tlwe0DecryptBool P a s0 = some b → tlwe0DecryptBool P c s0 = some (!b)) := by
  obtain ⟨-, -, ⟨c, e, hl, hp⟩, -⟩ := C07_linear P a a 0 ha ha
  refine ⟨c, e, hl, hp s0, ?_, ?_⟩
  · intro b e hb
    refine ⟨hl, ?_⟩
    rw [hp, hb.2]
    cases b <;> simp only [bval, Bool.not_false, Bool.not_true, if_true, Bool.false_eq_true, if_false] <;> ring
  · intro h0 hz hh b hb
    rw [tlwe0DecryptBool_eq P a s0 h0 (by omega), Option.some.injEq] at hb
    rw [tlwe0DecryptBool_eq P c s0 h0 (by omega), Option.some.injEq, ← hb, hp, toInt_neg32]
    have h1 := toInt_lo (phase P.tlweLv0.N a s0)
    have h2 := toInt_hi (phase P.tlweLv0.N a s0)
    have h3 : (phase P.tlweLv0.N a s0).toInt ≠ 0 := by
      intro hc; exact hz (BitVec.eq_of_toInt_eq hc)
    have h4 : (phase P.tlweLv0.N a s0).toInt ≠ -2147483648 := by
      intro hc; exact hh (BitVec.eq_of_toInt_eq (hc.trans (by decide)))
    rw [bmod32_of_range _ (by omega) (by omega)]
    by_cases hp : 0 ≤ (phase P.tlweLv0.N a s0).toInt
    · rw [decide_eq_true hp, decide_eq_false (by omega)]; rfl
    · rw [decide_eq_false hp, decide_eq_true (by omega)]; rfl

/-- **C45**: the two excluded phases are real exceptions, `NOT` leaves their decryption unchanged. -/
theorem C45_not_boundary (P : Params) (s0 : List Torus) (h0 : P.tlweLv0.N ≤ s0.length) (v : Torus)
    (hv : v = 0 ∨ v = 2147483648#32) :
    ∃ c, gateNOT P (tab (P.tlweLv0.N + 1) fun i => if i = P.tlweLv0.N then v else 0) = some c ∧
      tlwe0DecryptBool P c s0
        = tlwe0DecryptBool P (tab (P.tlweLv0.N + 1) fun i => if i = P.tlweLv0.N then v else 0) s0 := by
  obtain ⟨c, e, hl, hp, -⟩ := C45_not P (tab (P.tlweLv0.N + 1) fun i => if i = P.tlweLv0.N then v else 0) s0 (by simp)
  refine ⟨c, e, ?_⟩
  rw [tlwe0DecryptBool_eq P _ s0 h0 (by rw [hl]; omega), tlwe0DecryptBool_eq P _ s0 h0 (by simp), hp, phase_tab,
    if_pos rfl, Finset.sum_eq_zero (fun i hi => by
      rw [if_neg (by have := Finset.mem_range.1 hi; omega), zero_mul])]
  rcases hv with rfl | rfl <;> decide

/-- **C45**: `Copy` returns the same ciphertext, bit for bit. -/
theorem C45_copy (P : Params) (a : List Torus) (ha : a.length = P.tlweLv0.N + 1) : gateCopy P a = a := by
  unfold gateCopy
  exact copySlice_of_length _ _ (by simp [newTLWELv0, ha])

/-- **C45**: `Constant b` does not panic, has zero mask, encrypts `b` under every key with noise `0`, or
one unit for `false`, and decrypts to `b`. -/
theorem C45_constant (P : Params) (b : Bool) :
    ∃ c, gateConstant P b = some c ∧ (∀ i < P.tlweLv0.N, at' c i = 0) ∧
      (∀ s0, Enc P.tlweLv0.N c s0 b (if b then 0 else 1)) ∧
      ∀ s0 : List Torus, P.tlweLv0.N ≤ s0.length → tlwe0DecryptBool P c s0 = some b := by
  have hw : gateConstant P b
      = some (tab (P.tlweLv0.N + 1) fun i => if i = P.tlweLv0.N then bval b + (if b then 0 else 1) else 0) := by
    unfold gateConstant tlwe0SetB newTLWELv0
    rw [wr_eq _ _ _ (by simp)]
    congr 1
    apply List.ext_getElem?
    intro i
    rw [List.getElem?_set, getElem?_tab, length_mkSlice]
    by_cases h : P.tlweLv0.N = i
    · subst h
      simp only [if_true, if_pos (Nat.lt_succ_self _)]
      rw [f64ToTorus_eighth]
      cases b <;> decide
    · rw [if_neg h]
      unfold mkSlice
      rw [List.getElem?_replicate]
      simp only [if_neg (Ne.symm h)]
  have hE : ∀ s0, Enc P.tlweLv0.N
      (tab (P.tlweLv0.N + 1) fun i => if i = P.tlweLv0.N then bval b + (if b then 0 else 1) else 0) s0 b
      (if b then 0 else 1) := by
    intro s0
    refine ⟨by simp, ?_⟩
    rw [phase_tab, if_pos rfl, Finset.sum_eq_zero (fun i hi => by
      rw [if_neg (by have := Finset.mem_range.1 hi; omega), zero_mul]), sub_zero]
  refine ⟨_, hw, ?_, hE, ?_⟩
  · intro i hi
    rw [at'_tab _ _ _ (by omega), if_neg (by omega)]
  · intro s0 h0
    exact (hE s0).decrypts h0 (by cases b <;> decide)

/-! ### C44 -/

/-- **C44.** `MUX` on ciphertexts of the current dimension never panics. If the noises of `a`, `b`, `c` and
the realised noises of its first two bootstrappings are within the margins, the result encrypts `b` if `a`
is true and `c` otherwise. Nothing is assumed about the three arguments being different. -/
theorem C44_mux {P : Params} (W : WellFormed P) (L : FourierLaws O) (hd : O.deg = P.trgswLv1.N)
    {D β κ : ℕ} {ck : CloudKey O} {s0 s1 : List Torus} (K : KeysOK P L D β κ ck s0 s1)
    (htv : ck.blindRotateTestvec = gateTestvec P) (h0 : P.tlweLv0.N ≤ s0.length)
    (st : EvState O) (hst : EvGood P L st) (a b c : List Torus)
    (ha : a.length = P.tlweLv0.N + 1) (hb : b.length = P.tlweLv0.N + 1) (hc : c.length = P.tlweLv0.N + 1) :
    ∃ p1 p2 p3 st' out, gateMUX P st a b c ck = some (st', out) ∧ EvGood P L st' ∧
      (∀ p ∈ [p1, p2, p3], nrm (bootNoise P L ck s0 s1 (gateTestvec P) p)
        ≤ bootBound P D β κ (weight P.tlweLv0.N s0) (weight P.trgswLv1.N s1)) ∧
      prepareAND P a b = some p1 ∧
      (∃ na, gateNOT P a = some na ∧ prepareAND P na c = some p2) ∧
      ∀ x y z ea eb ec, Enc P.tlweLv0.N a s0 x ea → Enc P.tlweLv0.N b s0 y eb → Enc P.tlweLv0.N c s0 z ec →
        nrm ea + nrm eb + drift P (weight P.tlweLv0.N s0) < 2 ^ 29 →
        nrm ea + nrm ec + drift P (weight P.tlweLv0.N s0) < 2 ^ 29 →
        nrm (bootNoise P L ck s0 s1 (gateTestvec P) p1) + nrm (bootNoise P L ck s0 s1 (gateTestvec P) p2)
          + drift P (weight P.tlweLv0.N s0) < 2 ^ 29 →
        Enc P.tlweLv0.N out s0 (if x then y else z) (bootNoise P L ck s0 s1 (gateTestvec P) p3) ∧
        (nrm (bootNoise P L ck s0 s1 (gateTestvec P) p3) < 2 ^ 29 →
          tlwe0DecryptBool P out s0 = some (if x then y else z)) := by
  obtain ⟨p1, st1, o1, q1, e1, g1, n1, t1⟩ := C43_gate W L hd K htv h0 st hst .and a b ha hb
  obtain ⟨na, en, hnl, -, hne, -⟩ := C45_not P a s0 ha
  obtain ⟨p2, st2, o2, q2, e2, g2, n2, t2⟩ := C43_gate W L hd K htv h0 st1 g1 .and na c hnl hc
  have hl : ∀ {st st' : EvState O} {a b o : List Torus}, gate2 P .and st a b ck = some (st', o) →
      EvGood P L st → a.length = P.tlweLv0.N + 1 → b.length = P.tlweLv0.N + 1 → o.length = P.tlweLv0.N + 1 := by
    intro st st' a b o h hst ha hb
    rw [gate2_eq, gatePrepare_eq P _ a b ha hb] at h
    obtain ⟨s, e, -⟩ := gateBootstrap_eq W L hd hst (ckGood L hd K htv)
      (lin P.tlweLv0.N (Gate2.and).coef.1 (Gate2.and).coef.2.1 (Gate2.and).coef.2.2 a b) (by simp)
    rw [Option.bind_some, e] at h
    have := congrArg Prod.snd (Option.some.inj h)
    simp only at this
    rw [← this]
    exact length_bootPure _ _ _ _ _ _ _
  obtain ⟨p3, st3, o3, q3, e3, g3, n3, t3⟩ := C43_gate W L hd K htv h0 st2 g2 .or o1 o2
    (hl e1 hst ha hb) (hl e2 g1 hnl hc)
  refine ⟨p1, p2, p3, st3, o3, ?_, g3, ?_, q1, ⟨na, en, q2⟩, ?_⟩
  · have e1 : gateAND P st a b ck = some (st1, o1) := e1
    have e2 : gateAND P st1 na c ck = some (st2, o2) := e2
    have e3 : gateOR P st2 o1 o2 ck = some (st3, o3) := e3
    unfold gateMUX
    simp only [e1, en, e2, e3, Option.bind_eq_bind, Option.bind_some]
  · intro p hp
    simp only [List.mem_cons, List.not_mem_nil, or_false] at hp
    rcases hp with rfl | rfl | rfl
    · exact n1
    · exact n2
    · exact n3
  · intro x y z ea eb ec hx hy hz m1 m2 m3
    have r1 := (t1 x y ea eb hx hy (by simpa [Gate2.mult] using m1)).1
    have r2 := (t2 (!x) z (-ea) ec (hne x ea hx) hz (by simpa [Gate2.mult, nrm_neg] using m2)).1
    have r3 := t3 _ _ _ _ r1 r2 (by simpa [Gate2.mult] using m3)
    have ev : (Gate2.or).eval ((Gate2.and).eval x y) ((Gate2.and).eval (!x) z) = if x then y else z := by
      cases x <;> cases y <;> cases z <;> rfl
    rw [ev] at r3
    exact r3


/-! ### C26, bootstrapping without key switching -/

/-- **C26**: `bootstrapWithoutKeySwitch` panics at every security level, for every ciphertext of the current
dimension, every state of the evaluator and all well-formed keys: the blind rotation succeeds and the
extraction fails. -/
theorem C26_bootstrapWithoutKeySwitch (level : SecurityLevel) (L : FourierLaws O)
    (hd : O.deg = (paramsFor level).trgswLv1.N) (st : EvState O) (hst : EvGood (paramsFor level) L st)
    (ck : CloudKey O) (hck : CkGood (paramsFor level) L ck) (c : List Torus)
    (hc : c.length = (paramsFor level).tlweLv0.N + 1) :
    bootstrapWithoutKeySwitch (paramsFor level) st c ck = none := by
  have W := C63_wellFormed level
  have hst' : EvGood (paramsFor level) L (((st.setLw (.user 0) c).setTr (.user 0) ck.blindRotateTestvec).setTr
      (.user 1) (newTRLWELv1 (paramsFor level))) :=
    ((hst.setLw_user 0 c).setTr_user 0 _).setTr_user 1 _
  obtain ⟨s, e, -, h1, -⟩ := blindRotateAssign_eq W L hd _ hst' ck.bootstrappingKey hck.bsk ck.decompositionOffset
    (.user 0) (.user 0) (.user 1) (by
      show (Function.update st.lw (.user 0) c (.user 0)).length = _
      rw [Function.update_self, hc]) (by simp) (by simp [TRef.scratch]) (by
      show (Function.update (Function.update st.tr (.user 0) ck.blindRotateTestvec) (.user 1) (newTRLWELv1 (paramsFor level)) (.user 0)).Sized _
      rw [Function.update_of_ne (by simp), Function.update_self]; exact hck.tv) (by
      show (Function.update (Function.update st.tr (.user 0) ck.blindRotateTestvec) (.user 1) (newTRLWELv1 (paramsFor level)) (.user 1)).Sized _
      rw [Function.update_self]
      exact ⟨by simp [newTRLWELv1, W.trlwe_eq], by simp [newTRLWELv1, W.trlwe_eq]⟩)
  unfold bootstrapWithoutKeySwitch
  simp only [e, Option.bind_eq_bind, Option.bind_some]
  rw [C26_panics level _ 0 (by
    rw [h1, W.trlwe_eq]
    exact (blindAcc_sized _ L _ _ _ _ _).1)]
  rfl

/-! ### From key generation to decryption -/

/-- A generated cloud key is a correct one, with the realised noise of its samples. -/
theorem keysOK_of_newCloudKey {P : Params} (W : WellFormed P) (L : FourierLaws O) (hd : O.deg = P.trgswLv1.N)
    {D D1 β κ : ℕ} (hacc : L.Accurate (P.trgswLv1.L * 2) (2 ^ (P.trgswLv1.BGBIT - 1)) D)
    (hacc1 : L.MulAccurate 1 D1) (k0 k1 : List Torus) (R : KeyGenRand)
    (h0 : P.tlweLv0.N ≤ k0.length) (h1 : k1.length = P.trgswLv1.N) (hb0 : IsBinary k0) (hb1 : IsBinary k1)
    (hβ : ∀ i < P.tlweLv0.N, ∀ j < 2 * P.trgswLv1.L, ∀ k < P.trgswLv1.N, nrm (f64ToTorus (R.bskSample i j k)) ≤ β)
    (hκ : ∀ i < P.trgswLv1.N, ∀ j < P.trgswLv1.IKS_T, ∀ k < 2 ^ P.trgswLv1.BASEBIT,
      nrm (f64ToTorus (R.kskSample i j k)) ≤ κ)
    (schedK schedB : List ℕ) (ck : CloudKey O)
    (hck : newCloudKey P O k0 k1 R schedK schedB = some (true, ck)) :
    KeysOK P L D (β + D1) κ ck k0 k1 ∧ ck.blindRotateTestvec = gateTestvec P := by
  obtain ⟨done, ck', e, hoff, htv, h⟩ := C37_newCloudKey W L hd hacc1 k0 k1 R h0 h1 hb1 schedK schedB
  obtain ⟨rfl, rfl⟩ : true = done ∧ ck = ck' := by
    rw [hck] at e; simpa using e
  obtain ⟨hgk, hksk, r, hr, hbsk⟩ := h rfl
  refine ⟨⟨hacc, ?_, hb0, hb1, ?_, hgk, ?_⟩, htv⟩
  · rw [genDecompositionOffset_eq P W.bg W.bgbit_pos W.gadget_fits, hoff]
    congr 1
    unfold gadgetOffset
    apply Finset.sum_congr rfl
    intro i _
    have : P.trgswLv1.BG / 2 = 2 ^ (P.trgswLv1.BGBIT - 1) := by
      rw [W.bg]
      have := W.bgbit_pos
      obtain ⟨m, hm⟩ : ∃ m, P.trgswLv1.BGBIT = m + 1 := ⟨P.trgswLv1.BGBIT - 1, by omega⟩
      rw [hm, pow_succ]; simp
    rw [this]
    push_cast
    rfl
  · refine ⟨fun i j k => if i < P.tlweLv0.N ∧ j < 2 * P.trgswLv1.L ∧ k < P.trgswLv1.N then
      f64ToTorus (R.bskSample i j k) + r i j k else 0, ⟨hbsk.1, ?_⟩, ?_⟩
    · intro i hi
      obtain ⟨t, ht, hf⟩ := hbsk.2 i hi
      refine ⟨t, ⟨ht.rows, ht.sizedA, ht.sizedB, ?_, ?_⟩, hf⟩
      · intro j hj k hk
        rw [ht.phaseA j hj k hk]
        simp only
        rw [if_pos ⟨hi, by omega, hk⟩]
      · intro j hj k hk
        have hc : i < P.tlweLv0.N ∧ j + P.trgswLv1.L < 2 * P.trgswLv1.L ∧ k < P.trgswLv1.N := ⟨hi, by omega, hk⟩
        rw [ht.phaseB j hj k hk]
        simp only [if_pos hc]
    · intro i j k
      simp only
      split_ifs with hc
      · exact (nrm_add _ _).trans (Nat.add_le_add (hβ i hc.1 j hc.2.1 k hc.2.2) (hr i j k hc.2.2))
      · exact (le_of_eq nrm_zero).trans (Nat.zero_le _)
  · refine ⟨fun i j k => if i < P.trgswLv1.N ∧ j < P.trgswLv1.IKS_T ∧ k < 2 ^ P.trgswLv1.BASEBIT then
      f64ToTorus (R.kskSample i j k) else 0, ?_, ?_⟩
    · intro i hi j hj k hk1 hk2
      rw [hksk i hi j hj k hk1 hk2]
      simp only
      rw [if_pos ⟨hi, hj, hk2⟩]
    · intro i j k
      simp only
      split_ifs with hc
      · exact hκ i hc.1 j hc.2.1 k hc.2.2
      · exact (le_of_eq nrm_zero).trans (Nat.zero_le _)

/-- Fresh encryptions of bits. -/
theorem enc_of_encryptBool (P : Params) (t key : List Torus) (b : Bool) (draw : ℕ → Torus) (sample : ℚ)
    (hk : P.tlweLv0.N ≤ key.length) (ht : t.length = P.tlweLv0.N + 1) :
    ∃ c, tlwe0EncryptBool P t b key draw sample = some c ∧ Enc P.tlweLv0.N c key b (f64ToTorus sample) := by
  obtain ⟨c, e, hl, -, hp⟩ := tlwe0EncryptF64_eq P t key (if b then 0.125 else -0.125) draw sample hk (by omega)
  refine ⟨c, e, by omega, ?_⟩
  rw [hp, f64ToTorus_bool]; rfl

/-- **C43**, from key generation to decryption: generate a cloud key under any schedules, create the
evaluator, encrypt two bits, apply a gate, decrypt. -/
theorem C43_end_to_end {P : Params} (W : WellFormed P) (L : FourierLaws O) (hd : O.deg = P.trgswLv1.N)
    {D D1 β κ : ℕ} (hacc : L.Accurate (P.trgswLv1.L * 2) (2 ^ (P.trgswLv1.BGBIT - 1)) D)
    (hacc1 : L.MulAccurate 1 D1) (k0 k1 : List Torus) (R : KeyGenRand)
    (h0 : P.tlweLv0.N ≤ k0.length) (h1 : k1.length = P.trgswLv1.N) (hb0 : IsBinary k0) (hb1 : IsBinary k1)
    (hβ : ∀ i < P.tlweLv0.N, ∀ j < 2 * P.trgswLv1.L, ∀ k < P.trgswLv1.N, nrm (f64ToTorus (R.bskSample i j k)) ≤ β)
    (hκ : ∀ i < P.trgswLv1.N, ∀ j < P.trgswLv1.IKS_T, ∀ k < 2 ^ P.trgswLv1.BASEBIT,
      nrm (f64ToTorus (R.kskSample i j k)) ≤ κ)
    (schedK schedB : List ℕ) (ck : CloudKey O)
    (hck : newCloudKey P O k0 k1 R schedK schedB = some (true, ck))
    (g : Gate2) (x y : Bool) (dx dy : ℕ → Torus) (sx sy : ℚ)
    (hm : nrm (f64ToTorus sx) + g.mult * nrm (f64ToTorus sy) + drift P (weight P.tlweLv0.N k0) < 2 ^ 29)
    (hB : bootBound P D (β + D1) κ (weight P.tlweLv0.N k0) (weight P.trgswLv1.N k1) < 2 ^ 29)
    (tr0 : TRef → Trlwe) (lw0 : LRef → List Torus) :
    ∃ st a b st' out, newEvaluator P O tr0 lw0 = some st ∧
      tlwe0EncryptBool P (newTLWELv0 P) x k0 dx sx = some a ∧
      tlwe0EncryptBool P (newTLWELv0 P) y k0 dy sy = some b ∧
      gate2 P g st a b ck = some (st', out) ∧ tlwe0DecryptBool P out k0 = some (g.eval x y) := by
  obtain ⟨K, htv⟩ := keysOK_of_newCloudKey W L hd hacc hacc1 k0 k1 R h0 h1 hb0 hb1 hβ hκ schedK schedB ck hck
  obtain ⟨st, es, hst, -⟩ := newEvaluator_good W L hd tr0 lw0
  obtain ⟨a, ea, ha⟩ := enc_of_encryptBool P (newTLWELv0 P) k0 x dx sx h0 (by simp [newTLWELv0])
  obtain ⟨b, eb, hb⟩ := enc_of_encryptBool P (newTLWELv0 P) k0 y dy sy h0 (by simp [newTLWELv0])
  obtain ⟨st', out, e, -, hdec⟩ := C43_gate_worst_case W L hd K htv h0 hB st hst g a b x y _ _ ha hb hm
  exact ⟨st, a, b, st', out, es, ea, eb, e, hdec⟩

/-- The hypotheses of the gate theorems can be met: at every level, for all binary keys, there is a cloud key
with noise one in its bootstrapping key. -/
theorem exists_keysOK {P : Params} (W : WellFormed P) (s0 s1 : List Torus) (hk : s1.length = P.trgswLv1.N)
    (hb0 : IsBinary s0) (hb1 : IsBinary s1) :
    ∃ ck : CloudKey (exactOps P.trgswLv1.N), KeysOK P (exL W) 0 1 0 ck s0 s1 ∧
      ck.blindRotateTestvec = gateTestvec P := by
  obtain ⟨bsk, ksk, h1, h2, h3⟩ := exists_keys W s0 s1 hk hb1
  refine ⟨⟨gadgetOffset P.trgswLv1.BGBIT P.trgswLv1.L, gateTestvec P, ksk, bsk⟩,
    ⟨exL_accurate W _ _, genDecompositionOffset_eq P W.bg W.bgbit_pos W.gadget_fits, hb0, hb1,
      ⟨_, h1, ?_⟩, h2, ⟨_, h3, fun _ _ _ => (le_of_eq nrm_zero)⟩⟩, rfl⟩
  intro i j k
  split_ifs <;> decide

/-- A key with a single one. -/
def unitKey (n : ℕ) : List Torus := tab n fun i => if i = 0 then 1 else 0

theorem isBinary_unitKey (n : ℕ) : IsBinary (unitKey n) := by
  intro x hx
  obtain ⟨i, -, rfl⟩ := List.mem_map.1 hx
  by_cases h : i = 0 <;> simp [h]

theorem weight_unitKey (n : ℕ) (hn : 0 < n) : weight n (unitKey n) = 1 := by
  unfold weight unitKey
  rw [Finset.sum_eq_single 0]
  · rw [at'_tab _ _ _ hn]; rfl
  · intro i hi h
    rw [at'_tab _ _ _ (Finset.mem_range.1 hi), if_neg h]; rfl
  · intro h; exact absurd (Finset.mem_range.2 hn) h

/-- Non-vacuity of C43 at the 128-bit level, noise one in the bootstrapping key, input noise up to 1/32:
all hypotheses hold at once. -/
example (g : Gate2) (x y : Bool) (a b : List Torus) (ea eb : Torus)
    (hx : Enc (paramsFor 128).tlweLv0.N a (unitKey 700) x ea)
    (hy : Enc (paramsFor 128).tlweLv0.N b (unitKey 700) y eb) (h1 : nrm ea ≤ 2 ^ 27) (h2 : nrm eb ≤ 2 ^ 27) :
    ∃ (ck : CloudKey (exactOps 1024)) (st st' : EvState (exactOps 1024)) (out : List Torus),
      gate2 (paramsFor 128) g st a b ck = some (st', out) ∧
      tlwe0DecryptBool (paramsFor 128) out (unitKey 700) = some (g.eval x y) := by
  have W := C63_wellFormed 128
  obtain ⟨ck, K, htv⟩ := exists_keysOK W (unitKey 700) (unitKey 1024) (by simp [unitKey]; rfl)
    (isBinary_unitKey _) (isBinary_unitKey _)
  obtain ⟨st, -, hst, -⟩ := newEvaluator_good W (exL W) rfl (fun _ => ⟨[], []⟩) (fun _ => [])
  have w0 : weight (paramsFor 128).tlweLv0.N (unitKey 700) = 1 := weight_unitKey 700 (by norm_num)
  have w1 : weight (paramsFor 128).trgswLv1.N (unitKey 1024) = 1 := weight_unitKey 1024 (by norm_num)
  obtain ⟨st', out, e, -, hdec⟩ := C43_gate_worst_case W (exL W) rfl K htv
    (show 700 ≤ (unitKey 700).length by simp [unitKey])
    (by rw [w0, w1]
        show (1 + 1) * (1 + 1 * (1 + 2 ^ (32 - 3 * 6))) + 700 * (2 * 3 * 1024 * 2 ^ (6 - 1) * 1 + 0 * (1 + 1)) + 1
          + (1 * 2 ^ (31 - 2 * 9) + 1024 * (9 * 0)) < 2 ^ 29
        norm_num)
    st hst g a b x y ea eb hx hy (by
      rw [w0]
      have hd : drift (paramsFor 128) 1 = 2 ^ 21 := by
        show (1 + 1) * 2 ^ (30 - 10) = 2 ^ 21
        norm_num
      rw [hd]
      have hmul : g.mult * nrm eb ≤ 2 * 2 ^ 27 := Nat.mul_le_mul (by cases g <;> decide) h2
      omega)
  exact ⟨ck, st, st', out, e, hdec⟩

end GoTfhe
