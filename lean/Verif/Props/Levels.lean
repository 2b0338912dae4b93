import Verif.Lemmas.Panic
import Verif.Props.Gates

/-!
# C50: the gates and `params.CurrentSecurityLevel`

`gates.globalEval` is made once, by `init` (`/repo/gates/gates.go:21-23`), under the default level. The gates
read the parameters of the level in force when they are called.
-/

namespace GoTfhe

variable {O : FourierOps}

/-- An evaluator made under `P` fits `P'` if the degree is the same and `P'` has no more gadget levels;
the result pool keeps its size. -/
theorem EvGoodAt.relevel {P P' : Params} {L : FourierLaws O} {m : ℕ} {st : EvState O} (h : EvGoodAt P L m st)
    (hN : P'.trgswLv1.N = P.trgswLv1.N) (hL : P'.trgswLv1.L ≤ P.trgswLv1.L) : EvGoodAt P' L m st := by
  refine ⟨?_, ?_, ?_, h.four_ok, h.okA, h.okB, ?_, ?_, h.pool_len, h.idx_lt⟩
  · have := h.dec_len; omega
  · rw [hN]; exact h.dec_row
  · have := h.four_len; omega
  · rw [hN]; exact h.tr_len
  · rw [hN]; exact h.ext_len

/-- The levels at which the start-up evaluator fits. -/
def FitsDefault (level : SecurityLevel) : Prop := level ∉ ({80, 110, 2, 3, 4, 5, 6, 7, 8} : Set ℤ)

theorem FitsDefault.dims {level : SecurityLevel} (h : FitsDefault level) :
    (paramsFor level).trgswLv1.N = 1024 ∧ (paramsFor level).trgswLv1.L ≤ 3 ∧
      (paramsFor level).tlweLv0.N = 700 := by
  unfold FitsDefault at h
  simp only [Set.mem_insert_iff, Set.mem_singleton_iff, not_or] at h
  rcases paramsFor_cases level with ⟨e, _⟩ | ⟨e, _⟩ | ⟨_, e⟩ | ⟨e, _⟩ | ⟨e, _⟩ | ⟨e, _⟩ | ⟨e, _⟩ |
    ⟨e, _⟩ | ⟨e, _⟩ | ⟨e, _⟩ | ⟨_, e⟩
  · exact absurd e h.1
  · exact absurd e h.2.1
  · rw [e]; decide
  · exact absurd e h.2.2.1
  · exact absurd e h.2.2.2.1
  · exact absurd e h.2.2.2.2.1
  · exact absurd e h.2.2.2.2.2.1
  · exact absurd e h.2.2.2.2.2.2.1
  · exact absurd e h.2.2.2.2.2.2.2.1
  · exact absurd e h.2.2.2.2.2.2.2.2
  · rw [e]; decide

/-- **C50, the part that holds.** At the 128-bit level, at `Uint1` and at every unknown level, the evaluator
made at start-up under the default level is a usable evaluator, and in every usable state all gates are
correct. (Missing: the other nine levels, where the claim is false; see below.) -/
theorem C50_gates_partial (level : SecurityLevel) (hfit : FitsDefault level) (L : FourierLaws O)
    (hd : O.deg = 1024) {D β κ : ℕ} {ck : CloudKey O} {s0 s1 : List Torus}
    (K : KeysOK (paramsFor level) L D β κ ck s0 s1)
    (htv : ck.blindRotateTestvec = gateTestvec (paramsFor level))
    (h0 : (paramsFor level).tlweLv0.N ≤ s0.length) (tr0 : TRef → Trlwe) (lw0 : LRef → List Torus) :
    (∃ st0, newEvaluator (paramsFor initialLevel) O tr0 lw0 = some st0 ∧ EvGood (paramsFor level) L st0) ∧
    ∀ (st : EvState O), EvGood (paramsFor level) L st → ∀ (g : Gate2) (a b : List Torus),
      a.length = (paramsFor level).tlweLv0.N + 1 → b.length = (paramsFor level).tlweLv0.N + 1 →
      ∃ prep st' out, gatePrepare (paramsFor level) g a b = some prep ∧
        gate2 (paramsFor level) g st a b ck = some (st', out) ∧ EvGood (paramsFor level) L st' ∧
        ∀ x y ea eb, Enc (paramsFor level).tlweLv0.N a s0 x ea → Enc (paramsFor level).tlweLv0.N b s0 y eb →
          nrm ea + g.mult * nrm eb + drift (paramsFor level) (weight (paramsFor level).tlweLv0.N s0) < 2 ^ 29 →
          Enc (paramsFor level).tlweLv0.N out s0 (g.eval x y)
            (bootNoise (paramsFor level) L ck s0 s1 (gateTestvec (paramsFor level)) prep) ∧
          (nrm (bootNoise (paramsFor level) L ck s0 s1 (gateTestvec (paramsFor level)) prep) < 2 ^ 29 →
            tlwe0DecryptBool (paramsFor level) out s0 = some (g.eval x y)) := by
  obtain ⟨e1, e2, e3⟩ := hfit.dims
  refine ⟨?_, ?_⟩
  · obtain ⟨st, h1, h2, -⟩ := newEvaluator_good (C63_wellFormed initialLevel) L hd tr0 lw0
    refine ⟨st, h1, ?_⟩
    have := EvGoodAt.relevel (P' := paramsFor level) h2 e1 e2
    unfold EvGood
    rw [e3]
    exact this
  · intro st hst g a b ha hb
    obtain ⟨prep, st', out, p1, p2, p3, -, p4⟩ :=
      C43_gate (C63_wellFormed level) L (by rw [e1]; exact hd) K htv h0 st hst g a b ha hb
    exact ⟨prep, st', out, p1, p2, p3, p4⟩

/-- The hypotheses of `C50_gates_partial` are met at `Uint1` by the exact backend and keys of weight one. -/
theorem C50_example : FitsDefault 1 ∧ ∃ ck : CloudKey (exactOps (paramsFor 1).trgswLv1.N),
    (exactOps (paramsFor 1).trgswLv1.N).deg = 1024 ∧
    KeysOK (paramsFor 1) (exL (C63_wellFormed 1)) 0 1 0 ck (unitKey 700) (unitKey 1024) ∧
    ck.blindRotateTestvec = gateTestvec (paramsFor 1) ∧
    (paramsFor 1).tlweLv0.N ≤ (unitKey 700).length := by
  refine ⟨by simp [FitsDefault], ?_⟩
  obtain ⟨ck, K, htv⟩ := exists_keysOK (C63_wellFormed 1) (unitKey 700) (unitKey 1024) (by simp [unitKey]; rfl)
    (isBinary_unitKey _) (isBinary_unitKey _)
  exact ⟨ck, rfl, K, htv, by simp [unitKey]; exact le_rfl⟩

/-! ## Where the gates panic -/

/-- The degree doubles: at `Uint4` to `Uint8` every gate panics, on every input, with every cloud key of that
level, in every state of the start-up evaluator. -/
theorem C50_panics_4_to_8 (level : SecurityLevel) (hl : 4 ≤ level ∧ level ≤ 8) (L : FourierLaws O)
    (st : EvState O) (hst : EvGood (paramsFor initialLevel) L st) (ck : CloudKey O)
    (htv : ck.blindRotateTestvec.Sized (paramsFor level).trgswLv1.N) (g : Gate2) (a b : List Torus) :
    gate2 (paramsFor level) g st a b ck = none := by
  have hN : (paramsFor level).trgswLv1.N = 2048 := by
    obtain ⟨h1, h2⟩ := hl
    interval_cases level <;> rfl
  rw [hN] at htv
  have ha1 := (hst.tr_len .acc1 trivial).1
  have ha2 := (hst.tr_len .acc2 trivial).1
  have e1024 : (paramsFor initialLevel).trgswLv1.N = 1024 := rfl
  rw [e1024] at ha1 ha2
  rw [gate2_eq, Option.bind_eq_none_iff]
  intro c _
  unfold gateBootstrap bootstrapPooled getNextResult bootstrapAssign
  simp only [Option.bind_eq_bind]
  rw [blindRotateAssign_none _ _ _ _ _ _ _ (by simp) (C63_wellFormed level).lv0_pos ?_ ?_ ?_]
  · rfl
  all_goals simp only [EvState.setTr, EvState.setLw, Function.update_self]
  · rw [Function.update_of_ne (by simp), htv.1, ha1]; norm_num
  · rw [Function.update_of_ne (by simp), Function.update_of_ne (by simp), ha1, ha2]
  · rw [Function.update_of_ne (by simp), ha2, hN]; norm_num

/-- Running a gate at a level whose degree is that of the start-up evaluator: everything up to the key switch
works, and what remains is the key switch into a result buffer of dimension 700. -/
theorem gateBootstrap_stale {P : Params} (W : WellFormed P) (hN : P.trgswLv1.N = 1024) (hl : P.trgswLv1.L ≤ 3)
    (L : FourierLaws O) (hd : O.deg = 1024) (st : EvState O) (hst : EvGood (paramsFor initialLevel) L st)
    (ck : CloudKey O) (hb : GoodBsk P L ck.bootstrappingKey) (htv : ck.blindRotateTestvec.Sized P.trgswLv1.N)
    (c : List Torus) (hc : c.length = P.tlweLv0.N + 1) :
    ∃ (out : List Torus) (s : List Torus → EvState O), out.length = 701 ∧
      gateBootstrap P st c ck = (identityKeySwitchingAssign P (extracted P.trgswLv1.N
          (blindRot P L ck.decompositionOffset ck.bootstrappingKey ck.blindRotateTestvec c) 0)
          ck.keySwitchingKey out).bind fun o => (tlwe0B P o).bind fun b =>
            (tlwe0SetB P (copySlice (newTLWELv0 P) o) b).bind fun r => some (s o, r) := by
  have hst0 : EvGoodAt P L 700 st := EvGoodAt.relevel hst hN hl
  have hst' : EvGoodAt P L 700 { (st.setLw (.user 0) c).setTr (.user 0) ck.blindRotateTestvec with
      poolIdx := (st.poolIdx + 1) % 4 } := by
    have h1 : EvGoodAt P L 700 ((st.setLw (.user 0) c).setTr (.user 0) ck.blindRotateTestvec) := by
      refine ⟨hst0.dec_len, hst0.dec_row, hst0.four_len, hst0.four_ok, hst0.okA, hst0.okB, ?_, ?_, ?_, hst0.idx_lt⟩
      · intro r hr
        rw [EvState.setTr_tr_ne _ _ _ _ (by rintro rfl; exact hr)]
        exact hst0.tr_len r hr
      · simpa [EvState.setLw, EvState.setTr] using hst0.ext_len
      · intro i hi
        simpa [EvState.setLw, EvState.setTr] using hst0.pool_len i hi
    exact ⟨h1.dec_len, h1.dec_row, h1.four_len, h1.four_ok, h1.okA, h1.okB, h1.tr_len, h1.ext_len, h1.pool_len,
      Nat.mod_lt _ (by norm_num)⟩
  obtain ⟨s, e, hg, t, -, l, -⟩ := blindRotateAssign_eq W L (by rw [hN]; exact hd) _ hst' ck.bootstrappingKey hb
    ck.decompositionOffset (.user 0) (.user 0) .rotated (by
      show (Function.update st.lw (.user 0) c (.user 0)).length = _
      rw [Function.update_self, hc]) (by simp) (by simp [TRef.scratch]) (by
      show (Function.update st.tr (.user 0) ck.blindRotateTestvec (.user 0)).Sized _
      rw [Function.update_self]; exact htv) (hst'.tr_len _ trivial)
  have hN0 : 0 < P.trgswLv1.N := by omega
  have hrs := hg.tr_len .rotated trivial
  have hx := sampleExtractIndexAssign_eq P (by rw [W.lv1_eq, W.trlwe_eq]) (s.tr .rotated) 0 (s.lw .extracted)
    (by rw [W.trlwe_eq]; exact hN0) (by rw [W.trlwe_eq]; exact hrs.1) (by rw [hrs.2]; exact hN0)
    (by rw [W.trlwe_eq]; exact hg.ext_len)
  have ev : ∀ x : Trlwe, Function.update st.tr (.user 0) x (.user 0) = x := fun x => Function.update_self _ _ _
  have ew : ∀ x : List Torus, Function.update st.lw (.user 0) x (.user 0) = x := fun x => Function.update_self _ _ _
  simp only [EvState.setLw, EvState.setTr, ev, ew] at t
  have hx' := hx.trans (congrArg (fun x => some (extracted P.trlweLv1.N x 0)) t)
  rw [W.trlwe_eq] at hx'
  refine ⟨s.lw (.pool st.poolIdx), fun o => (s.setLw .extracted (extracted P.trgswLv1.N
          (blindRot P L ck.decompositionOffset ck.bootstrappingKey ck.blindRotateTestvec c) 0)).setLw
          (.pool st.poolIdx) o, hg.pool_len _ hst0.idx_lt, ?_⟩
  unfold gateBootstrap bootstrapPooled getNextResult bootstrapAssign
  simp only [Option.bind_eq_bind]
  erw [e]
  simp only [Option.bind_some]
  rw [hx']
  simp only [EvState.setLw]
  simp only [Option.bind_some, Function.update_self]
  rw [Function.update_of_ne (by simp)]
  simp only [Option.bind_assoc, EvState.setTr, Option.pure_def, Option.bind_some, Function.update_self]

/-- At `Uint3` the dimension 820 exceeds that of the result buffers: every gate panics, on every input, with
every cloud key of that level, in every state of the start-up evaluator. -/
theorem C50_panics_3 (L : FourierLaws O) (hd : O.deg = 1024)
    (st : EvState O) (hst : EvGood (paramsFor initialLevel) L st) (ck : CloudKey O)
    (hb : GoodBsk (paramsFor 3) L ck.bootstrappingKey) (htv : ck.blindRotateTestvec.Sized 1024)
    (g : Gate2) (a b : List Torus) (ha : a.length = 821) (hb' : b.length = 821) :
    gate2 (paramsFor 3) g st a b ck = none := by
  rw [gate2_eq, gatePrepare_eq _ g a b ha hb']
  obtain ⟨out, s, ho, e⟩ := gateBootstrap_stale (C63_wellFormed 3) rfl (by decide) L hd st hst ck hb htv
    (lin (paramsFor 3).tlweLv0.N g.coef.1 g.coef.2.1 g.coef.2.2 a b) (by simp)
  rw [Option.bind_some, e]
  unfold identityKeySwitchingAssign
  simp only [Option.bind_eq_bind]
  have hz : forRange 0 out.length out (fun i out => wr out i (0 : Torus)) = some (tab out.length fun _ => 0) :=
    forRange_fill_full _ out (fun _ => 0) rfl _ (fun _ _ _ _ => rfl)
  rw [hz, Option.bind_some, rdLast_eq _ (paramsFor 3).trgswLv1.N (by simp [extracted]), Option.bind_some,
    wr_none _ _ _ (by simp [ho]; decide)]
  rfl

/-- A nonzero digit means a coefficient that is not rounded to zero. -/
theorem exists_ksDigit_iff (b T : ℕ) (src : List Torus) (i : ℕ) (hT : b * T ≤ 31) :
    (∃ j < T, ksDigit b T src i j ≠ 0) ↔
      2 ^ (32 - b * T) ≤ (at' src i + ((2 ^ (31 - b * T) : ℕ) : Torus)).toNat := by
  set y := (at' src i + ((2 ^ (31 - b * T) : ℕ) : Torus)).toNat with hy
  have h := digits_sum y b T (by rw [Nat.mul_comm]; omega)
  rw [Nat.mod_eq_of_lt (a := y) (b := 2 ^ 32) (by rw [hy]; exact BitVec.isLt _), Nat.mul_comm T b] at h
  have hlt : y % 2 ^ (32 - b * T) < 2 ^ (32 - b * T) := Nat.mod_lt _ (by positivity)
  constructor
  · rintro ⟨j, hj, hne⟩
    by_contra hc
    have hyl : y < 2 ^ (32 - b * T) := by omega
    rw [Nat.mod_eq_of_lt hyl] at h
    have hs : ∑ i ∈ Finset.range T, (y / 2 ^ (32 - (i + 1) * b) % 2 ^ b) * 2 ^ (32 - (i + 1) * b) = 0 := by omega
    have := (Finset.sum_eq_zero_iff.1 hs) j (Finset.mem_range.2 hj)
    rcases Nat.mul_eq_zero.1 this with h0 | h0
    · exact hne h0
    · exact absurd h0 (by positivity)
  · intro hc
    by_contra hz
    push Not at hz
    have hs : ∑ i ∈ Finset.range T, (y / 2 ^ (32 - (i + 1) * b) % 2 ^ b) * 2 ^ (32 - (i + 1) * b) = 0 := by
      apply Finset.sum_eq_zero
      intro j hj
      have := hz j (Finset.mem_range.1 hj)
      unfold ksDigit at this
      rw [← hy] at this
      rw [this, Nat.zero_mul]
    omega

/-- At the 80-bit and 110-bit levels the result buffers are longer than the entries of the key-switching
key: a gate panics exactly when some mask coefficient after blind rotation does not round to zero (to `IKS_T *
BASEBIT` bits) — in other words unless the bootstrapped ciphertext is practically trivial. For all inputs, all
cloud keys of the level (whose entries have exactly `n0 + 1` numbers), all states of the start-up evaluator. -/
theorem C50_panics_80_110 (level : SecurityLevel) (hl : level = 80 ∨ level = 110) (L : FourierLaws O)
    (hd : O.deg = 1024) (st : EvState O) (hst : EvGood (paramsFor initialLevel) L st) (ck : CloudKey O)
    (hck : CkGood (paramsFor level) L ck)
    (hrow : ∀ e ∈ ck.keySwitchingKey, e.length = (paramsFor level).tlweLv0.N + 1)
    (g : Gate2) (a b : List Torus) (ha : a.length = (paramsFor level).tlweLv0.N + 1)
    (hb : b.length = (paramsFor level).tlweLv0.N + 1) :
    ∃ prep, gatePrepare (paramsFor level) g a b = some prep ∧
      (gate2 (paramsFor level) g st a b ck = none ↔ ∃ i < 1024,
        2 ^ (32 - 2 * (paramsFor level).trgswLv1.IKS_T) ≤ (at' (extracted 1024 (blindRot (paramsFor level) L
          ck.decompositionOffset ck.bootstrappingKey ck.blindRotateTestvec prep) 0) i
            + ((2 ^ (31 - 2 * (paramsFor level).trgswLv1.IKS_T) : ℕ) : Torus)).toNat) := by
  have hdim : (paramsFor level).trgswLv1.N = 1024 ∧ (paramsFor level).trgswLv1.L ≤ 3 ∧
      (paramsFor level).trgswLv1.BASEBIT = 2 ∧ (paramsFor level).tlweLv0.N < 700 := by
    rcases hl with rfl | rfl <;> decide
  obtain ⟨hN, hL, hB, hn0⟩ := hdim
  have W := C63_wellFormed level
  refine ⟨_, gatePrepare_eq _ g a b ha hb, ?_⟩
  rw [gate2_eq, gatePrepare_eq _ g a b ha hb, Option.bind_some]
  set prep := lin (paramsFor level).tlweLv0.N g.coef.1 g.coef.2.1 g.coef.2.2 a b with hprep
  obtain ⟨out, s, ho, e⟩ := gateBootstrap_stale W hN hL L hd st hst ck hck.bsk hck.tv prep (by simp [hprep])
  rw [e, hN]
  set src := extracted 1024 (blindRot (paramsFor level) L ck.decompositionOffset ck.bootstrappingKey
    ck.blindRotateTestvec prep) 0 with hsrc
  have hfits := W.ks_fits
  rw [hB] at hfits
  have hz : forRange 0 out.length out (fun i out => wr out i (0 : Torus)) = some (tab out.length fun _ => 0) :=
    forRange_fill_full _ out (fun _ => 0) rfl _ (fun _ _ _ _ => rfl)
  have hks : identityKeySwitchingAssign (paramsFor level) src ck.keySwitchingKey out
      = keySwitchLoop 1024 2 (paramsFor level).trgswLv1.IKS_T src ck.keySwitchingKey
          ((tab out.length fun _ => (0 : Torus)).set (paramsFor level).tlweLv0.N (at' src 1024)) := by
    unfold identityKeySwitchingAssign
    simp only [Option.bind_eq_bind]
    rw [hz, Option.bind_some, rdLast_eq _ 1024 (by simp [hsrc, extracted]), Option.bind_some,
      wr_eq _ _ _ (by simp; omega), Option.bind_some, hN, hB]
  have hiff := keySwitchLoop_none_iff 1024 2 (paramsFor level).trgswLv1.IKS_T ((paramsFor level).tlweLv0.N + 1) src
    ck.keySwitchingKey ((tab out.length fun _ => (0 : Torus)).set (paramsFor level).tlweLv0.N (at' src 1024))
    hfits (by simp [hsrc, extracted]) hrow (by simp; omega)
  have hdig : (∃ i < 1024, ∃ j < (paramsFor level).trgswLv1.IKS_T, ksDigit 2 (paramsFor level).trgswLv1.IKS_T src i j ≠ 0) ↔
      ∃ i < 1024, 2 ^ (32 - 2 * (paramsFor level).trgswLv1.IKS_T) ≤
        (at' src i + ((2 ^ (31 - 2 * (paramsFor level).trgswLv1.IKS_T) : ℕ) : Torus)).toNat :=
    exists_congr fun i => and_congr_right fun _ => exists_ksDigit_iff _ _ _ _ hfits
  rw [← hdig, ← hiff, ← hks]
  constructor
  · intro h
    rw [Option.bind_eq_none_iff] at h
    rcases ho2 : identityKeySwitchingAssign (paramsFor level) src ck.keySwitchingKey out with - | o
    · rfl
    · exfalso
      have hol : o.length = 701 := by
        rw [hks] at ho2
        rw [length_keySwitchLoop _ _ _ _ _ _ _ ho2]
        simp [ho]
      have hb1 : tlwe0B (paramsFor level) o = some (at' o (paramsFor level).tlweLv0.N) := by
        unfold tlwe0B; exact rd_at' _ _ (by omega)
      have := h o ho2
      rw [hb1, Option.bind_some] at this
      unfold tlwe0SetB at this
      rw [wr_eq _ _ _ (by simp [copySlice, newTLWELv0, hol]; omega)] at this
      exact absurd this (by simp)
  · intro h
    rw [h]; rfl

/-- **C50 is false.** There are valid keys at `Uint3` (they satisfy everything C43 asks for, with exact
Fourier arithmetic) for which, with the evaluator made at start-up, every gate panics on every pair of
ciphertexts of that level. -/
theorem C50_false : ∃ (ck : CloudKey (exactOps 1024)) (st0 : EvState (exactOps 1024)),
    KeysOK (paramsFor 3) (exL (C63_wellFormed 3)) 0 1 0 ck (unitKey 820) (unitKey 1024) ∧
    ck.blindRotateTestvec = gateTestvec (paramsFor 3) ∧
    newEvaluator (paramsFor initialLevel) (exactOps 1024) (fun _ => ⟨[], []⟩) (fun _ => []) = some st0 ∧
    ∀ (g : Gate2) (a b : List Torus), a.length = (paramsFor 3).tlweLv0.N + 1 →
      b.length = (paramsFor 3).tlweLv0.N + 1 → gate2 (paramsFor 3) g st0 a b ck = none := by
  obtain ⟨ck, K, htv⟩ := exists_keysOK (C63_wellFormed 3) (unitKey 820) (unitKey 1024) (by simp [unitKey]; rfl)
    (isBinary_unitKey _) (isBinary_unitKey _)
  obtain ⟨st, h1, h2, -⟩ := newEvaluator_good (C63_wellFormed initialLevel) (exL (C63_wellFormed 3)) rfl
    (fun _ => ⟨[], []⟩) (fun _ => [])
  refine ⟨ck, st, K, htv, h1, ?_⟩
  intro g a b ha hb
  have hck := ckGood (exL (C63_wellFormed 3)) rfl K htv
  exact C50_panics_3 (exL (C63_wellFormed 3)) rfl st h2 ck hck.bsk hck.tv g a b ha hb

end GoTfhe
