import Verif.Props.MsgProgram
import Verif.Model.SimpleGates

/-!
# The example programs `programmable_bootstrap` and `simple_gates`
-/

namespace GoTfhe

variable {O : FourierOps}

/-- The noises of the demo on these inputs: of each encryption (plus the rounding) and of each bootstrapping. -/
def DemoNoise (fl : ℚ → ℚ) (P : Params) (k : ℕ) (L : FourierLaws O) (ck : CloudKey O) (s0 s1 : List Torus)
    (f : ℤ → Option ℤ) (inputs : List (ℤ × (ℕ → Torus) × ℚ)) : Prop :=
  ∀ x ∈ inputs, nrm (f64ToTorus x.2.2) + drift P (weight P.tlweLv0.N s0) < 2 ^ 30 / 2 ^ k ∧
    ∀ ct, encryptLWEMessage fl P (newTLWELv0 P) x.1 ((2 ^ k : ℕ) : ℤ) s0 x.2.1 x.2.2 = some ct →
    ∀ t, (newGenerator fl P ((2 ^ k : ℕ) : ℤ)).genLookUpTable fl P f = some t →
      nrm (bootNoise P L ck s0 s1 t ct) < 2 ^ 30 / 2 ^ k

section

variable {P : Params} (W : WellFormed P) (L : FourierLaws O) (hd : O.deg = P.trgswLv1.N)
  (ck : CloudKey O) (hb : GoodBsk P L ck.bootstrappingKey) (hks : GoodKsk P ck.keySwitchingKey)
  (s0 s1 : List Torus) (hs0 : P.tlweLv0.N ≤ s0.length) (fl : ℚ → ℚ) (hfl : IsRound fl)
  (k : ℕ) (hk : k ≤ 29) (hN : 2 * 2 ^ k ∣ P.trgswLv1.N)

include W hd hb hks hs0 hfl hk hN

/-- **C77.** `demoFunction` prints `f(x)` modulo the message modulus for each input. -/
theorem C77_demoFunction (f : ℤ → Option ℤ) (F : ℕ → ℤ) (hF : ∀ x < 2 ^ k, f (x : ℕ) = some (F x))
    (inputs : List (ℤ × (ℕ → Torus) × ℚ)) :
    ∀ (_ : DemoNoise fl P k L ck s0 s1 f inputs) (st : EvState O) (_ : EvGood P L st),
      ∃ st', demoFunction fl P ((2 ^ k : ℕ) : ℤ) ck s0 f st inputs
          = some (st', inputs.map fun x => F (x.1 % ((2 ^ k : ℕ) : ℤ)).toNat % ((2 ^ k : ℕ) : ℤ)) ∧ EvGood P L st' := by
  induction inputs with
  | nil => exact fun _ st hst => ⟨st, rfl, hst⟩
  | cons x xs ih =>
    intro hn st hst
    obtain ⟨input, draw, sample⟩ := x
    obtain ⟨hn1, hn2⟩ := hn _ List.mem_cons_self
    obtain ⟨c, ec, hE, hlt⟩ := mEnc_of_encrypt fl hfl P s0 hs0 k hk input draw sample
    have htot : ∀ x < 2 ^ k, (f (x : ℕ)).isSome := fun x hx => by rw [hF x hx]; rfl
    obtain ⟨t, ht⟩ := genLookUpTable_some W fl k f htot
    obtain ⟨hsz, hyM, hO⟩ := MEnc.lookup W L ck s0 s1 fl hfl k hk hN f htot t ht c _ _ hE hlt hn1
      (F (input % ((2 ^ k : ℕ) : ℤ)).toNat % ((2 ^ k : ℕ) : ℤ)).toNat (by rw [msgApply, hF _ hlt]; rfl)
    have hlw : ((st.setLw (.user 0) c).setTr (.user 0) t).lw (.user 0) = c := by simp [EvState.setLw, EvState.setTr]
    have htr : ((st.setLw (.user 0) c).setTr (.user 0) t).tr (.user 0) = t := EvState.setTr_tr _ _ _
    obtain ⟨st', e1, g1, -⟩ := bootstrapLUT_eq W L hd _ ((hst.setLw_user 0 c).setTr_user 0 t) ck.bootstrappingKey hb
      ck.keySwitchingKey hks ck.decompositionOffset (.user 0) (.user 0) (by rw [hlw]; exact hE.1) (by simp)
      (by rw [htr]; exact hsz)
    rw [htr, hlw] at e1
    obtain ⟨st2, e2, g2⟩ := ih (fun y hy => hn y (List.mem_cons_of_mem _ hy)) st' g1
    have hdec := hO.decrypts hk hyM (hn2 c ec t ht) hs0
    rw [Int.toNat_of_nonneg (Int.emod_nonneg _ (by positivity))] at hdec
    refine ⟨st2, ?_, g2⟩
    change bootstrapLUT P _ _ _ _ _ _ = some (st', bootOut P L ck t c) at e1
    simp only [demoFunction, ec, Option.bind_eq_bind, Option.bind_some, bootstrapFunc, ht, e1, hdec, e2, Option.pure_def,
      List.map_cons]

/-- **C77.** `demoLUTReuse`: one table, prepared once, used for every input. -/
theorem C77_demoLUTReuse (f : ℤ → Option ℤ) (F : ℕ → ℤ) (hF : ∀ x < 2 ^ k, f (x : ℕ) = some (F x))
    (inputs : List (ℤ × (ℕ → Torus) × ℚ)) (hn : DemoNoise fl P k L ck s0 s1 f inputs)
    (st : EvState O) (hst : EvGood P L st) :
      ∃ st', demoLUTReuse fl P ((2 ^ k : ℕ) : ℤ) ck s0 f st inputs
          = some (st', inputs.map fun x => F (x.1 % ((2 ^ k : ℕ) : ℤ)).toNat % ((2 ^ k : ℕ) : ℤ)) ∧ EvGood P L st' := by
  have htot : ∀ x < 2 ^ k, (f (x : ℕ)).isSome := fun x hx => by rw [hF x hx]; rfl
  obtain ⟨t, ht⟩ := genLookUpTable_some W fl k f htot
  have main : ∀ (inputs : List (ℤ × (ℕ → Torus) × ℚ)) (_ : DemoNoise fl P k L ck s0 s1 f inputs) (st : EvState O)
      (_ : EvGood P L st) (_ : st.tr (.user 1) = t),
      ∃ st', demoLUTLoop fl P ((2 ^ k : ℕ) : ℤ) ck s0 st inputs
          = some (st', inputs.map fun x => F (x.1 % ((2 ^ k : ℕ) : ℤ)).toNat % ((2 ^ k : ℕ) : ℤ)) ∧ EvGood P L st' := by
    intro inputs
    induction inputs with
    | nil => exact fun _ st hst _ => ⟨st, rfl, hst⟩
    | cons x xs ih =>
      intro hn st hst hT
      obtain ⟨input, draw, sample⟩ := x
      obtain ⟨hn1, hn2⟩ := hn _ List.mem_cons_self
      obtain ⟨c, ec, hE, hlt⟩ := mEnc_of_encrypt fl hfl P s0 hs0 k hk input draw sample
      obtain ⟨hsz, hyM, hO⟩ := MEnc.lookup W L ck s0 s1 fl hfl k hk hN f htot t ht c _ _ hE hlt hn1
        (F (input % ((2 ^ k : ℕ) : ℤ)).toNat % ((2 ^ k : ℕ) : ℤ)).toNat (by rw [msgApply, hF _ hlt]; rfl)
      have hlw : (st.setLw (.user 0) c).lw (.user 0) = c := by simp [EvState.setLw]
      have htr : (st.setLw (.user 0) c).tr (.user 1) = t := hT
      obtain ⟨st', e1, g1, -, fr, -⟩ := bootstrapLUT_eq W L hd _ (hst.setLw_user 0 c) ck.bootstrappingKey hb
        ck.keySwitchingKey hks ck.decompositionOffset (.user 0) (.user 1) (by rw [hlw]; exact hE.1) (by simp)
        (by rw [htr]; exact hsz)
      rw [htr, hlw] at e1
      obtain ⟨st2, e2, g2⟩ := ih (fun y hy => hn y (List.mem_cons_of_mem _ hy)) st' g1
        (by rw [fr (.user 1) (by simp [TRef.internal]), htr])
      have hdec := hO.decrypts hk hyM (hn2 c ec t ht) hs0
      rw [Int.toNat_of_nonneg (Int.emod_nonneg _ (by positivity))] at hdec
      refine ⟨st2, ?_, g2⟩
      change bootstrapLUT P _ _ _ _ _ _ = some (st', bootOut P L ck t c) at e1
      simp only [demoLUTLoop, ec, Option.bind_eq_bind, Option.bind_some, e1, hdec, e2, Option.pure_def, List.map_cons]
  obtain ⟨st', e, g⟩ := main inputs hn (st.setTr (.user 1) t) (hst.setTr_user 1 t) (EvState.setTr_tr _ _ _)
  exact ⟨st', by simp only [demoLUTReuse, ht, Option.bind_eq_bind, Option.bind_some, e], g⟩

end

/-- **C77.** The whole of `programmable_bootstrap`: the six demos, one after the other with one evaluator, print what
their headings announce. -/
theorem C77_pbsDemo {P : Params} (W : WellFormed P) (L : FourierLaws O) (hd : O.deg = P.trgswLv1.N)
    (ck : CloudKey O) (hb : GoodBsk P L ck.bootstrappingKey) (hks : GoodKsk P ck.keySwitchingKey)
    (s0 s1 : List Torus) (hs0 : P.tlweLv0.N ≤ s0.length) (fl : ℚ → ℚ) (hfl : IsRound fl)
    (hN : 8 ∣ P.trgswLv1.N) (r : ℕ → ℕ → (ℕ → Torus) × ℚ)
    (n1 : DemoNoise fl P 1 L ck s0 s1 (fun x => some x) [(0, r 0 0), (1, r 0 1)])
    (n2 : DemoNoise fl P 1 L ck s0 s1 (fun x => some (1 - x)) [(0, r 1 0), (1, r 1 1)])
    (n3 : DemoNoise fl P 1 L ck s0 s1 (fun _ => some 1) [(0, r 2 0), (1, r 2 1)])
    (n4 : DemoNoise fl P 1 L ck s0 s1 (fun _ => some 0) [(0, r 3 0), (1, r 3 1)])
    (n5 : DemoNoise fl P 1 L ck s0 s1 (fun x => some (1 - x))
      [(0, r 4 0), (1, r 4 1), (0, r 4 2), (1, r 4 3), (0, r 4 4)])
    (n6 : DemoNoise fl P 2 L ck s0 s1 (fun x => goMod (x + 1) 4) [(0, r 5 0), (1, r 5 1), (2, r 5 2), (3, r 5 3)])
    (st : EvState O) (hst : EvGood P L st) :
    ∃ st', pbsDemo fl P ck s0 st r
      = some (st', [[0, 1], [1, 0], [1, 1], [0, 0], [1, 0, 1, 0, 1], [1, 2, 3, 0]]) ∧ EvGood P L st' := by
  have hN2 : 2 * 2 ^ 1 ∣ P.trgswLv1.N := Dvd.dvd.trans (by norm_num) hN
  obtain ⟨st1, e1, g1⟩ := C77_demoFunction W L hd ck hb hks s0 s1 hs0 fl hfl 1 (by norm_num) hN2 _ (fun x => x)
    (fun _ _ => rfl) _ n1 st hst
  obtain ⟨st2, e2, g2⟩ := C77_demoFunction W L hd ck hb hks s0 s1 hs0 fl hfl 1 (by norm_num) hN2 _ (fun x => 1 - x)
    (fun _ _ => rfl) _ n2 st1 g1
  obtain ⟨st3, e3, g3⟩ := C77_demoFunction W L hd ck hb hks s0 s1 hs0 fl hfl 1 (by norm_num) hN2 _ (fun _ => 1)
    (fun _ _ => rfl) _ n3 st2 g2
  obtain ⟨st4, e4, g4⟩ := C77_demoFunction W L hd ck hb hks s0 s1 hs0 fl hfl 1 (by norm_num) hN2 _ (fun _ => 0)
    (fun _ _ => rfl) _ n4 st3 g3
  obtain ⟨st5, e5, g5⟩ := C77_demoLUTReuse W L hd ck hb hks s0 s1 hs0 fl hfl 1 (by norm_num) hN2 _ (fun x => 1 - x)
    (fun _ _ => rfl) _ n5 st4 g4
  obtain ⟨st6, e6, g6⟩ := C77_demoFunction W L hd ck hb hks s0 s1 hs0 fl hfl 2 (by norm_num) (by norm_num; exact hN) _
    (fun x => ((x : ℤ) + 1) % 4)
    (fun x _ => by simp [goMod, Int.tmod_eq_emod_of_nonneg (show (0 : ℤ) ≤ (x : ℤ) + 1 by positivity)]) _ n6 st5 g5
  refine ⟨st6, ?_, g6⟩
  have h2 : ((2 ^ 1 : ℕ) : ℤ) = 2 := by norm_num
  have h4 : ((2 ^ 2 : ℕ) : ℤ) = 4 := by norm_num
  rw [h2] at e1 e2 e3 e4 e5
  rw [h4] at e6
  simp only [pbsDemo, e1, e2, e3, e4, e5, e6, Option.bind_eq_bind, Option.bind_some, Option.pure_def, List.map_cons,
    List.map_nil, Option.some.injEq, Prod.mk.injEq, true_and]
  decide

/-- The noises of `simple_gates` on these test cases. -/
def SimpleNoise (P : Params) (L : FourierLaws O) (ck : CloudKey O) (s0 s1 : List Torus)
    (cases : List ((Bool × (ℕ → Torus) × ℚ) × (Bool × (ℕ → Torus) × ℚ))) : Prop :=
  ∀ x ∈ cases, nrm (f64ToTorus x.1.2.2) + 2 * nrm (f64ToTorus x.2.2.2) + drift P (weight P.tlweLv0.N s0) < 2 ^ 29 ∧
    ∀ a b, tlwe0EncryptBool P (newTLWELv0 P) x.1.1 s0 x.1.2.1 x.1.2.2 = some a →
      tlwe0EncryptBool P (newTLWELv0 P) x.2.1 s0 x.2.2.1 x.2.2.2 = some b →
      ∀ g prep, gatePrepare P g a b = some prep → nrm (bootNoise P L ck s0 s1 (gateTestvec P) prep) < 2 ^ 29

section

variable {P : Params} (W : WellFormed P) (L : FourierLaws O) (hd : O.deg = P.trgswLv1.N)
  {D β κ : ℕ} {ck : CloudKey O} {s0 s1 : List Torus} (K : KeysOK P L D β κ ck s0 s1)
  (htv : ck.blindRotateTestvec = gateTestvec P) (h0 : P.tlweLv0.N ≤ s0.length)

include W hd K htv h0

theorem testGates_eq {a b : List Torus} {x y : Bool} {ea eb : Torus} (ha : Enc P.tlweLv0.N a s0 x ea)
    (hb : Enc P.tlweLv0.N b s0 y eb) (he : nrm ea + 2 * nrm eb + drift P (weight P.tlweLv0.N s0) < 2 ^ 29)
    (hn : ∀ g prep, gatePrepare P g a b = some prep → nrm (bootNoise P L ck s0 s1 (gateTestvec P) prep) < 2 ^ 29)
    (gs : List Gate2) : ∀ (st : EvState O) (_ : EvGood P L st),
    ∃ st', testGates P ck s0 a b st gs = some (st', gs.map fun g => g.eval x y) ∧ EvGood P L st' := by
  induction gs with
  | nil => exact fun st hst => ⟨st, rfl, hst⟩
  | cons g gs ih =>
    intro st hst
    obtain ⟨prep, st1, out, h1, h2, h3, -, h5⟩ := C43_gate W L hd K htv h0 st hst g a b ha.1 hb.1
    have hm : g.mult ≤ 2 := by cases g <;> decide
    have := Nat.mul_le_mul_right (nrm eb) hm
    obtain ⟨-, hdec⟩ := h5 x y ea eb ha hb (by omega)
    obtain ⟨st2, e2, g2⟩ := ih st1 h3
    exact ⟨st2, by simp only [testGates, h2, hdec (hn g prep h1), e2, Option.bind_eq_bind, Option.bind_some,
      Option.pure_def, List.map_cons], g2⟩

/-- **C77.** The loop of `simple_gates`: for every list of pairs of bits, each of the six gates decrypts to its truth
table. -/
theorem C77_simpleGates (cases : List ((Bool × (ℕ → Torus) × ℚ) × (Bool × (ℕ → Torus) × ℚ))) :
    ∀ (_ : SimpleNoise P L ck s0 s1 cases) (st : EvState O) (_ : EvGood P L st),
    ∃ st', simpleGatesLoop P ck s0 st cases = some (st', cases.map fun x =>
      [x.1.1 && x.2.1, x.1.1 || x.2.1, !(x.1.1 && x.2.1), !(x.1.1 || x.2.1), x.1.1 != x.2.1, x.1.1 == x.2.1]) ∧
      EvGood P L st' := by
  induction cases with
  | nil => exact fun _ st hst => ⟨st, rfl, hst⟩
  | cons x xs ih =>
    intro hn st hst
    obtain ⟨hn1, hn2⟩ := hn x List.mem_cons_self
    obtain ⟨a, ea, hEa⟩ := enc_of_encryptBool P (newTLWELv0 P) s0 x.1.1 x.1.2.1 x.1.2.2 h0 (by simp [newTLWELv0])
    obtain ⟨b, eb, hEb⟩ := enc_of_encryptBool P (newTLWELv0 P) s0 x.2.1 x.2.2.1 x.2.2.2 h0 (by simp [newTLWELv0])
    obtain ⟨st1, e1, g1⟩ := testGates_eq W L hd K htv h0 hEa hEb hn1 (hn2 a b ea eb) simpleGateList st hst
    obtain ⟨st2, e2, g2⟩ := ih (fun y hy => hn y (List.mem_cons_of_mem _ hy)) st1 g1
    refine ⟨st2, ?_, g2⟩
    simp only [simpleGatesLoop, ea, eb, e1, e2, Option.bind_eq_bind, Option.bind_some, Option.pure_def, List.map_cons]
    rfl

omit W hd K htv in
/-- **C77.** The loop over `NOT` of `simple_gates`. -/
theorem C77_simpleNot (xs : List (Bool × (ℕ → Torus) × ℚ)) (hn : ∀ x ∈ xs, nrm (f64ToTorus x.2.2) < 2 ^ 29) :
    simpleNotLoop P s0 xs = some (xs.map fun x => !x.1) := by
  induction xs with
  | nil => rfl
  | cons x xs ih =>
    obtain ⟨a, ea, hEa⟩ := enc_of_encryptBool P (newTLWELv0 P) s0 x.1 x.2.1 x.2.2 h0 (by simp [newTLWELv0])
    obtain ⟨c, ec, -, -, hc, -⟩ := C45_not P a s0 hEa.1
    have hd := (hc _ _ hEa).decrypts h0 (by rw [nrm_neg]; exact hn x List.mem_cons_self)
    simp only [simpleNotLoop, ea, ec, hd, ih fun y hy => hn y (List.mem_cons_of_mem _ hy), Option.bind_eq_bind,
      Option.bind_some, Option.pure_def, List.map_cons]

end

section

variable {fl : ℚ → ℚ} (hfl : IsRound fl) {fu : Fusing} {ce : ℚ → ℚ × ℚ} (hce : CexpAccurate ce (1 / 2 ^ 52))

include hfl hce

/-- **C77**, everything in `float64` arithmetic, worst case: with the worst-case noise of the keys and of the fresh
ciphertexts below the margins, both examples print what they announce, whatever the randomness was. -/
theorem C77_worst_case (level : SecurityLevel) {e : PolyEval ℚ}
    (he : newPolyEval (floatArith fl fu mathPi ce) ((paramsFor level).trgswLv1.N : ℤ) = some e)
    (k0 k1 : List Torus) (R : KeyGenRand)
    (h0 : (paramsFor level).tlweLv0.N ≤ k0.length) (h1 : k1.length = (paramsFor level).trgswLv1.N)
    (hb0 : IsBinary k0) (hb1 : IsBinary k1) {β κ η : ℕ}
    (hβ : ∀ i < (paramsFor level).tlweLv0.N, ∀ j < 2 * (paramsFor level).trgswLv1.L,
      ∀ k < (paramsFor level).trgswLv1.N, nrm (f64ToTorus (R.bskSample i j k)) ≤ β)
    (hκ : ∀ i < (paramsFor level).trgswLv1.N, ∀ j < (paramsFor level).trgswLv1.IKS_T,
      ∀ k < 2 ^ (paramsFor level).trgswLv1.BASEBIT, nrm (f64ToTorus (R.kskSample i j k)) ≤ κ)
    (schedK schedB : List ℕ) (ck : CloudKey (fftOps (floatArith fl fu mathPi ce) e))
    (hck : newCloudKey (paramsFor level) _ k0 k1 R schedK schedB = some (true, ck))
    (hbound : bootBound (paramsFor level) (fftErr (paramsFor level)) β κ (weight (paramsFor level).tlweLv0.N k0)
      (weight (paramsFor level).trgswLv1.N k1) < 2 ^ 28)
    (hη : 3 * η + drift (paramsFor level) (weight (paramsFor level).tlweLv0.N k0) < 2 ^ 28)
    (r : ℕ → ℕ → (ℕ → Torus) × ℚ) (hr : ∀ i j, nrm (f64ToTorus (r i j).2) ≤ η)
    (tr0 : TRef → Trlwe) (lw0 : LRef → List Torus) :
    ∃ st st1 st2, newEvaluator (paramsFor level) (fftOps (floatArith fl fu mathPi ce) e) tr0 lw0 = some st ∧
      pbsDemo fl (paramsFor level) ck k0 st r
        = some (st1, [[0, 1], [1, 0], [1, 1], [0, 0], [1, 0, 1, 0, 1], [1, 2, 3, 0]]) ∧
      simpleGatesLoop (paramsFor level) ck k0 st
        [((false, r 0 0), (false, r 0 1)), ((false, r 1 0), (true, r 1 1)),
         ((true, r 2 0), (false, r 2 1)), ((true, r 3 0), (true, r 3 1))]
        = some (st2, [[false, false, true, true, false, true], [false, true, true, false, true, false],
          [false, true, true, false, true, false], [true, true, false, false, false, true]]) ∧
      simpleNotLoop (paramsFor level) k0 [(false, r 4 0), (true, r 4 1)] = some [true, false] := by
  obtain ⟨⟨L, -⟩, hd, K, htv⟩ := float_keys hfl hce level he k0 k1 R h0 h1 hb0 hb1 hβ hκ schedK schedB ck hck
  have K := K L
  have W := C63_wellFormed level
  obtain ⟨st, es, hst, -⟩ := newEvaluator_good W L hd tr0 lw0
  obtain ⟨err, hbsk, -⟩ := K.bsk
  have hN : 8 ∣ (paramsFor level).trgswLv1.N := by
    rcases paramsFor_cases level with h | h | h | h | h | h | h | h | h | h | h <;> rw [h.2] <;> decide
  have hbn : ∀ t c, nrm (bootNoise (paramsFor level) L ck k0 k1 t c) < 2 ^ 28 :=
    fun t c => (nrm_bootNoise W L hd K t c).trans_lt hbound
  have hrη : ∀ i j, 3 * nrm (f64ToTorus (r i j).2) ≤ 3 * η := fun i j => Nat.mul_le_mul_left 3 (hr i j)
  have dn : ∀ k ≤ 2, ∀ f (xs : List (ℤ × (ℕ → Torus) × ℚ)), (∀ x ∈ xs, ∃ i j, x.2 = r i j) →
      DemoNoise fl (paramsFor level) k L ck k0 k1 f xs := by
    intro k hk f xs hxs x hx
    obtain ⟨i, j, hij⟩ := hxs x hx
    have h28 : 2 ^ 28 ≤ 2 ^ 30 / 2 ^ k := by interval_cases k <;> norm_num
    rw [hij]
    have := hrη i j
    exact ⟨by omega, fun c _ t _ => (hbn t c).trans_le h28⟩
  obtain ⟨st1, e1, -⟩ := C77_pbsDemo W L hd ck (goodBsk_of_isBsk L hd hbsk) K.ksk_good k0 k1 h0 fl hfl hN r
    (dn 1 (by norm_num) _ _ (by simp)) (dn 1 (by norm_num) _ _ (by simp)) (dn 1 (by norm_num) _ _ (by simp))
    (dn 1 (by norm_num) _ _ (by simp)) (dn 1 (by norm_num) _ _ (by simp)) (dn 2 (by norm_num) _ _ (by simp)) st hst
  have sn : SimpleNoise (paramsFor level) L ck k0 k1
      [((false, r 0 0), (false, r 0 1)), ((false, r 1 0), (true, r 1 1)),
         ((true, r 2 0), (false, r 2 1)), ((true, r 3 0), (true, r 3 1))] := by
    intro x hx
    obtain ⟨i, j, i', j', hi, hj⟩ : ∃ i j i' j', x.1.2 = r i j ∧ x.2.2 = r i' j' := by
      simp only [List.mem_cons, List.not_mem_nil, or_false] at hx
      rcases hx with rfl | rfl | rfl | rfl <;> exact ⟨_, _, _, _, rfl, rfl⟩
    rw [hi, hj]
    have := hr i j
    have := hr i' j'
    exact ⟨by omega, fun a b _ _ g prep _ => (hbn _ _).trans (by norm_num)⟩
  obtain ⟨st2, e2, -⟩ := C77_simpleGates W L hd K htv h0 _ sn st hst
  refine ⟨st, st1, st2, es, e1, e2, ?_⟩
  refine C77_simpleNot h0 _ fun x hx => ?_
  simp only [List.mem_cons, List.not_mem_nil, or_false] at hx
  rcases hx with rfl | rfl
  · have := hr 4 0; show nrm (f64ToTorus (r 4 0).2) < _; omega
  · have := hr 4 1; show nrm (f64ToTorus (r 4 1).2) < _; omega

end

/-- Non-vacuity of `C77_worst_case` at 80 bit: keys of weight one, key noise at most one, fresh noise up to `2 ^ 25`. -/
example : bootBound (paramsFor 80) (fftErr (paramsFor 80)) 1 0
      (weight 550 (unitKey 550)) (weight 1024 (unitKey 1024)) < 2 ^ 28 ∧
    3 * 2 ^ 25 + drift (paramsFor 80) (weight 550 (unitKey 550)) < 2 ^ 28 := by
  refine ⟨?_, ?_⟩
  · rw [weight_unitKey 550 (by norm_num), weight_unitKey 1024 (by norm_num)]
    show (1 + 1) * (1 + 1 * (1 + 2 ^ (32 - 3 * 6))) + 550 * (2 * 3 * 1024 * 2 ^ (6 - 1) * 1 + 29 * (1 + 1)) + 1
      + (1 * 2 ^ (31 - 2 * 7) + 1024 * (7 * 0)) < 2 ^ 28
    norm_num
  · rw [weight_unitKey 550 (by norm_num)]
    show 3 * 2 ^ 25 + (1 + 1) * 2 ^ (30 - 10) < 2 ^ 28
    norm_num

end GoTfhe
