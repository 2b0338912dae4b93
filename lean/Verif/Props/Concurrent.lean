import Verif.Lemmas.Concurrent
import Verif.Lemmas.EvCalls
import Verif.Props.Gates

/-!
# C70: concurrent bootstraps, separate or shared evaluators
-/

namespace GoTfhe

variable {O : FourierOps}

/-- With one evaluator per goroutine, each goroutine sees only its own steps. -/
theorem run_separate (P : Params) (ts : List ℕ) (w w' : BootWorld O)
    (hinj : ∀ t u, (w.ths t).ev = (w.ths u).ev → t = u) (h : w.run P ts = some w') (t : ℕ) :
    soloSteps P (ts.count t) (w.evs (w.ths t).ev, w.ths t) = some (w'.evs (w.ths t).ev, w'.ths t) := by
  induction ts generalizing w with
  | nil =>
    simp only [BootWorld.run, Option.some.injEq] at h
    subst h; rfl
  | cons u ts ih =>
    simp only [BootWorld.run, BootWorld.step, Option.bind_eq_bind, Option.pure_def] at h
    cases hs : bootStep P (w.evs (w.ths u).ev) (w.ths u) with
    | none => rw [hs] at h; simp at h
    | some r =>
      rw [hs] at h
      simp only [Option.bind_some] at h
      have he := (bootStep_keeps P _ _ _ _ hs).1
      have hev : ∀ x, (Function.update w.ths u r.2 x).ev = (w.ths x).ev := by
        intro x
        by_cases hx : x = u
        · subst hx; rw [Function.update_self, he]
        · rw [Function.update_of_ne hx]
      have := ih ⟨Function.update w.evs (w.ths u).ev r.1, Function.update w.ths u r.2⟩
        (by intro a b hab; exact hinj a b (by rw [← hev a, ← hev b]; exact hab)) h
      simp only [hev] at this
      by_cases hx : u = t
      · subst hx
        rw [List.count_cons_self, Nat.add_comm, soloSteps_add, soloSteps_one]
        simp only [hs, Option.bind_some]
        simp only [Function.update_self] at this
        exact this
      · rw [List.count_cons_of_ne hx]
        rw [Function.update_of_ne (fun h => hx (hinj _ _ h).symm), Function.update_of_ne (Ne.symm hx)] at this
        exact this

/-- With one evaluator per goroutine, nothing panics if no goroutine would panic alone. -/
theorem run_separate_progress (P : Params) (ts : List ℕ) (w : BootWorld O)
    (hinj : ∀ t u, (w.ths t).ev = (w.ths u).ev → t = u)
    (hs : ∀ t ∈ ts, ∀ k, (soloSteps P k (w.evs (w.ths t).ev, w.ths t)).isSome) : ∃ w', w.run P ts = some w' := by
  induction ts generalizing w with
  | nil => exact ⟨w, rfl⟩
  | cons u ts ih =>
    have h1 := hs u List.mem_cons_self 1
    rw [soloSteps_one] at h1
    obtain ⟨r, hr⟩ := Option.isSome_iff_exists.1 h1
    simp only at hr
    have he := (bootStep_keeps P _ _ _ _ hr).1
    have hev : ∀ x, (Function.update w.ths u r.2 x).ev = (w.ths x).ev := by
      intro x
      by_cases hx : x = u
      · subst hx; rw [Function.update_self, he]
      · rw [Function.update_of_ne hx]
    obtain ⟨w', e⟩ := ih ⟨Function.update w.evs (w.ths u).ev r.1, Function.update w.ths u r.2⟩
      (by intro a b hab; exact hinj a b (by rw [← hev a, ← hev b]; exact hab)) (by
        intro t ht k
        simp only [hev]
        by_cases hx : t = u
        · subst hx
          simp only [Function.update_self]
          have := hs t List.mem_cons_self (1 + k)
          rw [soloSteps_add, soloSteps_one] at this
          simp only [hr, Option.bind_some] at this
          exact this
        · rw [Function.update_of_ne (fun h => hx (hinj _ _ h)), Function.update_of_ne hx]
          exact hs t (List.mem_cons_of_mem _ ht) k)
    refine ⟨w', ?_⟩
    simp only [BootWorld.run, BootWorld.step, Option.bind_eq_bind, Option.pure_def, hr, Option.bind_some, e]

/-- If a call succeeds when made alone, none of its steps panics. -/
theorem soloSteps_isSome (P : Params) (st : EvState O) (ev : ℕ) (a : BootArgs O)
    (h : (bootstrapLUT P st a.ctIn a.testvec a.bsk a.ksk a.offset).isSome) (k : ℕ) :
    (soloSteps P k (st, { ev := ev, args := a })).isSome := by
  obtain ⟨r, hr⟩ := Option.isSome_iff_exists.1 h
  have hall := soloSteps_all P st ev a
  rw [hr, Option.map_some] at hall
  by_cases hk : k ≤ bootSteps P
  · by_contra hn
    rw [Option.not_isSome_iff_eq_none] at hn
    rw [← Nat.add_sub_cancel' hk, soloSteps_add, hn] at hall
    simp at hall
  · rw [← Nat.add_sub_cancel' (Nat.le_of_not_le hk), soloSteps_add, hall, Option.bind_some,
      soloSteps_done _ _ _ _ rfl]
    rfl

/-- **C70.** One evaluator per goroutine. Any number of goroutines each make one call of `bootstrap` / `BootstrapLUT` on
an evaluator of their own, from any evaluator states in which the calls made alone would not panic. Then under every
schedule the process does not panic, every goroutine that has finished holds exactly the result of the same call made
alone, and a goroutine has finished as soon as it was given `bootSteps P` steps. -/
theorem C70_separate (P : Params) (evs : ℕ → EvState O) (own : ℕ → ℕ) (args : ℕ → BootArgs O)
    (hinj : Function.Injective own) (ts : List ℕ)
    (hok : ∀ t ∈ ts, (bootstrapLUT P (evs (own t)) (args t).ctIn (args t).testvec (args t).bsk (args t).ksk
      (args t).offset).isSome) :
    ∃ w', BootWorld.run P ⟨evs, fun t => { ev := own t, args := args t }⟩ ts = some w' ∧
      ∀ t, (bootSteps P ≤ ts.count t → (w'.ths t).pc = .done) ∧
        ((w'.ths t).pc = .done →
          bootstrapLUT P (evs (own t)) (args t).ctIn (args t).testvec (args t).bsk (args t).ksk (args t).offset
            = some (w'.evs (own t), (w'.ths t).res)) := by
  have hi : ∀ t u, ((fun t => ({ ev := own t, args := args t } : BootThread O)) t).ev
      = ((fun t => ({ ev := own t, args := args t } : BootThread O)) u).ev → t = u := fun t u h => hinj h
  obtain ⟨w', e⟩ := run_separate_progress P ts ⟨evs, fun t => { ev := own t, args := args t }⟩ hi
    (fun t ht k => soloSteps_isSome P _ _ _ (hok t ht) k)
  refine ⟨w', e, fun t => ?_⟩
  have hs := run_separate P ts _ _ hi e t
  have hall := soloSteps_all P (evs (own t)) (own t) (args t)
  simp only at hs
  constructor
  · intro hk
    rw [← Nat.add_sub_cancel' hk, soloSteps_add, hall] at hs
    cases hb : bootstrapLUT P (evs (own t)) (args t).ctIn (args t).testvec (args t).bsk (args t).ksk (args t).offset with
    | none => rw [hb] at hs; simp at hs
    | some r =>
      rw [hb, Option.map_some, Option.bind_some, soloSteps_done _ _ _ _ rfl, Option.some.injEq, Prod.mk.injEq] at hs
      rw [← hs.2]
  · intro hd
    have h2 : soloSteps P (ts.count t + bootSteps P) (evs (own t), { ev := own t, args := args t })
        = some (w'.evs (own t), w'.ths t) := by
      rw [soloSteps_add, hs, Option.bind_some, soloSteps_done _ _ _ _ hd]
    rw [Nat.add_comm, soloSteps_add, hall] at h2
    cases hb : bootstrapLUT P (evs (own t)) (args t).ctIn (args t).testvec (args t).bsk (args t).ksk (args t).offset with
    | none => rw [hb] at h2; simp at h2
    | some r =>
      rw [hb, Option.map_some, Option.bind_some, soloSteps_done _ _ _ _ rfl, Option.some.injEq, Prod.mk.injEq] at h2
      rw [← h2.1, ← h2.2]

/-- What a gate bootstraps to. -/
theorem bootOut_gate {P : Params} (W : WellFormed P) (L : FourierLaws O) (hd : O.deg = P.trgswLv1.N)
    {D β κ : ℕ} {ck : CloudKey O} {s0 s1 : List Torus} (K : KeysOK P L D β κ ck s0 s1)
    (htv : ck.blindRotateTestvec = gateTestvec P) (h0 : P.tlweLv0.N ≤ s0.length) (st : EvState O) (hst : EvGood P L st)
    (g : Gate2) (a b prep : List Torus) (x y : Bool) (ea eb : Torus)
    (hx : Enc P.tlweLv0.N a s0 x ea) (hy : Enc P.tlweLv0.N b s0 y eb) (hp : gatePrepare P g a b = some prep)
    (hm : nrm ea + g.mult * nrm eb + drift P (weight P.tlweLv0.N s0) < 2 ^ 29)
    (hn : nrm (bootNoise P L ck s0 s1 (gateTestvec P) prep) < 2 ^ 29) :
    prep.length = P.tlweLv0.N + 1 ∧
    tlwe0DecryptBool P (bootOut P L ck (gateTestvec P) prep) s0 = some (g.eval x y) := by
  have hl : prep.length = P.tlweLv0.N + 1 := by
    have := gatePrepare_eq P g a b hx.1 hy.1
    rw [hp, Option.some.injEq] at this
    rw [this]; simp
  obtain ⟨prep', st', out, e1, e2, -, -, h⟩ := C43_gate W L hd K htv h0 st hst g a b hx.1 hy.1
  obtain rfl := Option.some.inj (e1.symm.trans hp)
  obtain ⟨s, e3, -⟩ := gateBootstrap_eq W L hd hst (ckGood L hd K htv) prep' hl
  rw [gate2_eq, e1, Option.bind_some, e3, htv, Option.some.injEq, Prod.mk.injEq] at e2
  rw [e2.2]
  exact ⟨hl, (h x y ea eb hx hy hm).2 hn⟩

/-- Arguments of the bootstrap of a gate. -/
def gateArgs (ck : CloudKey O) (c tv : ℕ) : BootArgs O :=
  ⟨.user c, .user tv, ck.bootstrappingKey, ck.keySwitchingKey, ck.decompositionOffset⟩

/-- **C70.** Gates evaluated at the same time, one evaluator per goroutine: under every schedule, each goroutine that
has finished holds an encryption of its gate's truth table. -/
theorem C70_gates {P : Params} (W : WellFormed P) (L : FourierLaws O) (hd : O.deg = P.trgswLv1.N)
    {D β κ : ℕ} {ck : CloudKey O} {s0 s1 : List Torus} (K : KeysOK P L D β κ ck s0 s1)
    (htv : ck.blindRotateTestvec = gateTestvec P) (h0 : P.tlweLv0.N ≤ s0.length)
    (evs : ℕ → EvState O) (hev : ∀ e, EvGood P L (evs e)) (own : ℕ → ℕ) (hinj : Function.Injective own)
    (g : ℕ → Gate2) (a b : ℕ → List Torus) (x y : ℕ → Bool) (ea eb : ℕ → Torus) (tv : ℕ)
    (hx : ∀ t, Enc P.tlweLv0.N (a t) s0 (x t) (ea t)) (hy : ∀ t, Enc P.tlweLv0.N (b t) s0 (y t) (eb t))
    (hp : ∀ t, gatePrepare P (g t) (a t) (b t) = some ((evs (own t)).lw (.user t)))
    (ht : ∀ t, (evs (own t)).tr (.user tv) = gateTestvec P)
    (hm : ∀ t, nrm (ea t) + (g t).mult * nrm (eb t) + drift P (weight P.tlweLv0.N s0) < 2 ^ 29)
    (hn : ∀ t, nrm (bootNoise P L ck s0 s1 (gateTestvec P) ((evs (own t)).lw (.user t))) < 2 ^ 29) (ts : List ℕ) :
    ∃ w', BootWorld.run P ⟨evs, fun t => { ev := own t, args := gateArgs ck t tv }⟩ ts = some w' ∧
      ∀ t, (bootSteps P ≤ ts.count t → (w'.ths t).pc = .done) ∧
        ((w'.ths t).pc = .done → tlwe0DecryptBool P (w'.ths t).res s0 = some ((g t).eval (x t) (y t))) := by
  have hg := ckGood L hd K htv
  have hval : ∀ t, ∃ s, bootstrapLUT P (evs (own t)) (.user t) (.user tv) ck.bootstrappingKey ck.keySwitchingKey
      ck.decompositionOffset = some (s, bootOut P L ck (gateTestvec P) ((evs (own t)).lw (.user t))) := by
    intro t
    obtain ⟨s, e, -⟩ := bootstrapLUT_eq W L hd (evs (own t)) (hev _) ck.bootstrappingKey hg.bsk ck.keySwitchingKey hg.ksk
      ck.decompositionOffset (.user t) (.user tv)
      (bootOut_gate W L hd K htv h0 _ (hev 0) (g t) (a t) (b t) _ _ _ _ _ (hx t) (hy t) (hp t) (hm t) (hn t)).1
      (by simp) (by rw [ht, ← htv]; exact hg.tv)
    rw [ht] at e
    exact ⟨s, e⟩
  obtain ⟨w', e, h⟩ := C70_separate P evs own (fun t => gateArgs ck t tv) hinj ts (by
    intro t _
    obtain ⟨s, e⟩ := hval t
    show (bootstrapLUT P (evs (own t)) (.user t) (.user tv) ck.bootstrappingKey ck.keySwitchingKey
      ck.decompositionOffset).isSome
    rw [e]; rfl)
  refine ⟨w', e, fun t => ⟨(h t).1, fun hdone => ?_⟩⟩
  obtain ⟨s, e2⟩ := hval t
  have e3 : some (s, bootOut P L ck (gateTestvec P) ((evs (own t)).lw (.user t))) = some (w'.evs (own t), (w'.ths t).res) :=
    e2.symm.trans ((h t).2 hdone)
  rw [Option.some.injEq, Prod.mk.injEq] at e3
  rw [← e3.2]
  exact (bootOut_gate W L hd K htv h0 _ (hev 0) (g t) (a t) (b t) _ _ _ _ _ (hx t) (hy t) (hp t) (hm t) (hn t)).2

/-- The second half of a call, from any usable evaluator state. -/
theorem finish_eq {P : Params} (W : WellFormed P) (L : FourierLaws O) (st : EvState O)
    (hst : EvGood P L st) (ev : ℕ) (a : BootArgs O) (hk : GoodKsk P a.ksk) (i : ℕ) (hi : i < 4) :
    ∃ st', soloSteps P 3 (st, { ev := ev, args := a, pc := .extract, slot := .pool i })
        = some (st', ⟨ev, a, .done, .pool i, ksOut P.tlweLv0.N P.trgswLv1.N P.trgswLv1.BASEBIT P.trgswLv1.IKS_T
              (extracted P.trgswLv1.N (st.tr .rotated) 0) a.ksk⟩) ∧
      EvGood P L st' ∧ st'.tr = st.tr := by
  have hN0 : 0 < P.trgswLv1.N := by have := W.min_degree; omega
  have hrs := hst.tr_len .rotated trivial
  rw [soloSteps_finish, sampleExtractIndexAssign_eq P (by rw [W.lv1_eq, W.trlwe_eq]) _ 0 _
    (by rw [W.trlwe_eq]; exact hN0) (by rw [W.trlwe_eq]; exact hrs.1) (by rw [hrs.2]; exact hN0)
    (by rw [W.trlwe_eq]; exact hst.ext_len)]
  simp only [Option.bind_eq_bind, Option.bind_some, EvState.setLw, Function.update_self,
    Function.update_of_ne (show LRef.pool i ≠ .extracted by simp)]
  rw [W.trlwe_eq, identityKeySwitchingAssign_eq P _ a.ksk _ W.basebit_pos W.ks_fits (by simp [extracted])
    (hst.pool_len i hi) hk.1 hk.2]
  simp only [Option.bind_some]
  set v := ksOut P.tlweLv0.N P.trgswLv1.N P.trgswLv1.BASEBIT P.trgswLv1.IKS_T
              (extracted P.trgswLv1.N (st.tr .rotated) 0) a.ksk with hv
  have hl : v.length = P.tlweLv0.N + 1 := length_ksOut _ _ _ _ _ _
  rw [copySlice_of_length _ _ (by simp [newTLWELv0, hl])]
  unfold tlwe0B tlwe0SetB
  rw [rd_at' _ _ (by omega), Option.bind_some, wr_eq _ _ _ (by omega)]
  simp only [Option.bind_some, Option.pure_def]
  have hset : v.set P.tlweLv0.N (at' v P.tlweLv0.N) = v := by
    rw [at'_of_lt _ _ (by omega), List.set_getElem_self]
  rw [hset]
  refine ⟨_, rfl, ?_, rfl⟩
  refine ⟨hst.dec_len, hst.dec_row, hst.four_len, hst.four_ok, hst.okA, hst.okB, hst.tr_len, ?_, ?_, hst.idx_lt⟩
  · simp [extracted]
  · intro j hj
    simp only
    by_cases h : LRef.pool j = LRef.pool i
    · rw [h, Function.update_self]; exact hl
    · rw [Function.update_of_ne h, Function.update_of_ne (by simp)]
      exact hst.pool_len j hj

/-- **C70.** Two goroutines sharing one evaluator, as all single gates share `globalEval`: there is a schedule under
which both calls finish and the first returns the result of the second call's input instead of its own. This holds for
all inputs, keys and evaluator states. -/
theorem C70_shared {P : Params} (W : WellFormed P) (L : FourierLaws O) (hd : O.deg = P.trgswLv1.N)
    {ck : CloudKey O} (hck : CkGood P L ck) (evs : ℕ → EvState O) (e : ℕ) (hst : EvGood P L (evs e)) (tv c0 c1 : ℕ)
    (ht : (evs e).tr (.user tv) = ck.blindRotateTestvec)
    (h0 : ((evs e).lw (.user c0)).length = P.tlweLv0.N + 1) (h1 : ((evs e).lw (.user c1)).length = P.tlweLv0.N + 1) :
    ∃ ts w', BootWorld.run P ⟨evs, fun t => { ev := e, args := gateArgs ck (if t = 0 then c0 else c1) tv }⟩ ts = some w' ∧
      (w'.ths 0).pc = .done ∧ (w'.ths 1).pc = .done ∧
      (w'.ths 0).res = bootOut P L ck ck.blindRotateTestvec ((evs e).lw (.user c1)) ∧
      (w'.ths 1).res = bootOut P L ck ck.blindRotateTestvec ((evs e).lw (.user c1)) := by
  have bumped : ∀ st : EvState O, EvGood P L st → EvGood P L { st with poolIdx := (st.poolIdx + 1) % 4 } :=
    fun st h => ⟨h.dec_len, h.dec_row, h.four_len, h.four_ok, h.okA, h.okB, h.tr_len, h.ext_len,
      h.pool_len, Nat.mod_lt _ (by norm_num)⟩
  -- goroutine 0 up to the end of its blind rotation
  obtain ⟨s1, e1, g1, -, f1, l1, -⟩ := blindRotateAssign_eq W L hd _ (bumped _ hst) ck.bootstrappingKey hck.bsk
    ck.decompositionOffset (.user c0) (.user tv) .rotated h0 (by simp) (by simp [TRef.scratch])
    (by show ((evs e).tr (.user tv)).Sized _; rw [ht]; exact hck.tv) (hst.tr_len _ trivial)
  have r1 := soloSteps_rotate P (evs e) e (gateArgs ck c0 tv)
  simp only [gateArgs] at r1
  rw [e1, Option.map_some] at r1
  have l1' : s1.lw = (evs e).lw := l1
  have t1 : s1.tr (.user tv) = ck.blindRotateTestvec :=
    (f1 (.user tv) (by simp) (by simp [TRef.scratch])).trans ht
  -- goroutine 1 completely
  obtain ⟨s2, e2, g2, v2, -, -, -⟩ := blindRotateAssign_eq W L hd _ (bumped _ g1) ck.bootstrappingKey hck.bsk
    ck.decompositionOffset (.user c1) (.user tv) .rotated (by show (s1.lw _).length = _; rw [l1']; exact h1) (by simp)
    (by simp [TRef.scratch]) (by show (s1.tr (.user tv)).Sized _; rw [t1]; exact hck.tv) (g1.tr_len _ trivial)
  have r2 := soloSteps_rotate P s1 e (gateArgs ck c1 tv)
  simp only [gateArgs] at r2
  rw [e2, Option.map_some] at r2
  have v2' : s2.tr .rotated = blindRot P L ck.decompositionOffset ck.bootstrappingKey ck.blindRotateTestvec
      ((evs e).lw (.user c1)) := by
    rw [v2]
    show blindRot P L _ _ (s1.tr (.user tv)) (s1.lw (.user c1)) = _
    rw [t1, l1']
  obtain ⟨s3, e3, g3, t3⟩ := finish_eq W L s2 g2 e (gateArgs ck c1 tv) hck.ksk s1.poolIdx g1.idx_lt
  -- the rest of goroutine 0
  obtain ⟨s4, e4, -, -⟩ := finish_eq W L s3 g3 e (gateArgs ck c0 tv) hck.ksk (evs e).poolIdx hst.idx_lt
  rw [t3] at e4
  have r12 := soloSteps_add P (2 * P.tlweLv0.N + 4) 3 (s1, { ev := e, args := gateArgs ck c1 tv })
  simp only [gateArgs] at r12 e3
  rw [r2, Option.bind_some, e3, show 2 * P.tlweLv0.N + 4 + 3 = bootSteps P from rfl] at r12
  refine ⟨List.replicate (2 * P.tlweLv0.N + 4) 0 ++ (List.replicate (bootSteps P) 1 ++ (List.replicate 3 0 ++ [])), ?_⟩
  rw [run_replicate]
  simp only [if_true, gateArgs, r1, Option.bind_some]
  rw [run_replicate]
  simp only [Function.update_of_ne (show (1 : ℕ) ≠ 0 by norm_num), Function.update_self, one_ne_zero, if_false, r12,
    Option.bind_some, Function.update_idem]
  rw [run_replicate]
  simp only [gateArgs] at e4
  simp only [Function.update_of_ne (show (0 : ℕ) ≠ 1 by norm_num), Function.update_self, e4, Option.bind_some,
    BootWorld.run]
  refine ⟨_, rfl, ?_, ?_, ?_, ?_⟩
  · simp
  · simp
  · simp only [Function.update_self]
    rw [v2']; rfl
  · simp only [Function.update_of_ne (show (1 : ℕ) ≠ 0 by norm_num), Function.update_self]
    rw [v2']; rfl

/-- **C70.** So concurrent single gates can decrypt wrongly: if two gates on valid ciphertexts have different truth
values, there is a schedule under which both finish and the first decrypts to the other's value. -/
theorem C70_shared_wrong {P : Params} (W : WellFormed P) (L : FourierLaws O) (hd : O.deg = P.trgswLv1.N)
    {D β κ : ℕ} {ck : CloudKey O} {s0 s1 : List Torus} (K : KeysOK P L D β κ ck s0 s1)
    (htv : ck.blindRotateTestvec = gateTestvec P) (h0 : P.tlweLv0.N ≤ s0.length)
    (evs : ℕ → EvState O) (e : ℕ) (hst : EvGood P L (evs e)) (g : ℕ → Gate2) (a b : ℕ → List Torus) (x y : ℕ → Bool)
    (ea eb : ℕ → Torus) (tv : ℕ) (ht : (evs e).tr (.user tv) = gateTestvec P)
    (hx : ∀ t, Enc P.tlweLv0.N (a t) s0 (x t) (ea t)) (hy : ∀ t, Enc P.tlweLv0.N (b t) s0 (y t) (eb t))
    (hp : ∀ t, gatePrepare P (g t) (a t) (b t) = some ((evs e).lw (.user t)))
    (hm : ∀ t, nrm (ea t) + (g t).mult * nrm (eb t) + drift P (weight P.tlweLv0.N s0) < 2 ^ 29)
    (hn : ∀ t, nrm (bootNoise P L ck s0 s1 (gateTestvec P) ((evs e).lw (.user t))) < 2 ^ 29)
    (hdiff : (g 0).eval (x 0) (y 0) ≠ (g 1).eval (x 1) (y 1)) :
    ∃ ts w', BootWorld.run P ⟨evs, fun t => { ev := e, args := gateArgs ck (if t = 0 then 0 else 1) tv }⟩ ts = some w' ∧
      (w'.ths 0).pc = .done ∧ (w'.ths 1).pc = .done ∧
      tlwe0DecryptBool P (w'.ths 0).res s0 = some (!(g 0).eval (x 0) (y 0)) := by
  have hb := fun t => bootOut_gate W L hd K htv h0 _ hst (g t) (a t) (b t) _ _ _ _ _ (hx t) (hy t) (hp t) (hm t) (hn t)
  obtain ⟨ts, w', h, h1, h2, h3, -⟩ := C70_shared W L hd (ckGood L hd K htv) evs e hst tv 0 1 (by rw [ht, htv])
    (hb 0).1 (hb 1).1
  refine ⟨ts, w', h, h1, h2, ?_⟩
  rw [h3, htv, (hb 1).2]
  congr 1
  cases h : (g 0).eval (x 0) (y 0) <;> cases h' : (g 1).eval (x 1) (y 1) <;> simp_all

/-- Both C70 gate theorems apply at the 128-bit level with noise one in the bootstrapping key: two goroutines computing
`NAND` of noiseless `(true, true)` and `(false, false)`. With an evaluator each, any schedule is right; on a shared
evaluator one schedule decrypts `NAND(true, true)` to `true`. -/
example : ∃ (ck : CloudKey (exactOps 1024)) (st : EvState (exactOps 1024)),
    (∀ ts : List ℕ, ∃ w', BootWorld.run (paramsFor 128) ⟨fun _ => st, fun t => { ev := t, args := gateArgs ck t 0 }⟩ ts = some w' ∧
      ∀ t, (bootSteps (paramsFor 128) ≤ ts.count t → (w'.ths t).pc = .done) ∧
        ((w'.ths t).pc = .done →
          tlwe0DecryptBool (paramsFor 128) (w'.ths t).res (unitKey 700) = some (!(t == 0)))) ∧
    (∃ ts w', BootWorld.run (paramsFor 128) ⟨fun _ => st, fun t =>
        { ev := 0, args := gateArgs ck (if t = 0 then 0 else 1) 0 }⟩ ts = some w' ∧
      (w'.ths 0).pc = .done ∧ (w'.ths 1).pc = .done ∧
      tlwe0DecryptBool (paramsFor 128) (w'.ths 0).res (unitKey 700) = some true) := by
  have W := C63_wellFormed 128
  obtain ⟨ck, K, htv⟩ := exists_keysOK W (unitKey 700) (unitKey 1024) (by simp [unitKey]; rfl)
    (isBinary_unitKey _) (isBinary_unitKey _)
  have w0 : weight (paramsFor 128).tlweLv0.N (unitKey 700) = 1 := weight_unitKey 700 (by norm_num)
  have w1 : weight (paramsFor 128).trgswLv1.N (unitKey 1024) = 1 := weight_unitKey 1024 (by norm_num)
  have h0 : (paramsFor 128).tlweLv0.N ≤ (unitKey 700).length := show 700 ≤ (unitKey 700).length by simp [unitKey]
  -- noiseless encryptions with a zero mask
  let ct : Bool → List Torus := fun b => tab 701 fun i => if i = 700 then bval b else 0
  have hct : ∀ b, Enc (paramsFor 128).tlweLv0.N (ct b) (unitKey 700) b 0 := by
    intro b
    refine ⟨by simp [ct]; rfl, ?_⟩
    show phase 700 (ct b) (unitKey 700) = bval b + 0
    unfold phase
    rw [at'_tab _ _ _ (by norm_num), if_pos rfl, Finset.sum_eq_zero, sub_zero, add_zero]
    intro i hi
    have hi' := Finset.mem_range.1 hi
    rw [at'_tab _ _ _ (by omega), if_neg (by omega), zero_mul]
  let x : ℕ → Bool := fun t => t == 0
  let prep : ℕ → List Torus := fun t => lin (paramsFor 128).tlweLv0.N Gate2.nand.coef.1 Gate2.nand.coef.2.1
    Gate2.nand.coef.2.2 (ct (x t)) (ct (x t))
  obtain ⟨st, -, hst, hu⟩ := newEvaluator_good W (exL W) rfl (fun _ => gateTestvec (paramsFor 128))
    (fun r => match r with | .user t => prep t | _ => [])
  have hp : ∀ t, gatePrepare (paramsFor 128) .nand (ct (x t)) (ct (x t)) = some (st.lw (.user t)) := by
    intro t
    rw [gatePrepare_eq _ _ _ _ (hct _).1 (hct _).1, hu.2.1]
  have hd : drift (paramsFor 128) 1 = 2 ^ 21 := by
    show (1 + 1) * 2 ^ (30 - 10) = 2 ^ 21
    norm_num
  have hm : ∀ _ : ℕ, nrm (0 : Torus) + Gate2.nand.mult * nrm (0 : Torus)
      + drift (paramsFor 128) (weight (paramsFor 128).tlweLv0.N (unitKey 700)) < 2 ^ 29 := by
    intro _
    rw [w0, hd]; decide
  have hB : bootBound (paramsFor 128) 0 1 0 (weight (paramsFor 128).tlweLv0.N (unitKey 700))
      (weight (paramsFor 128).trgswLv1.N (unitKey 1024)) < 2 ^ 29 := by
    rw [w0, w1]
    show (1 + 1) * (1 + 1 * (1 + 2 ^ (32 - 3 * 6))) + 700 * (2 * 3 * 1024 * 2 ^ (6 - 1) * 1 + 0 * (1 + 1)) + 1
          + (1 * 2 ^ (31 - 2 * 9) + 1024 * (9 * 0)) < 2 ^ 29
    norm_num
  have hn : ∀ t, nrm (bootNoise (paramsFor 128) (exL W) ck (unitKey 700) (unitKey 1024) (gateTestvec (paramsFor 128))
      (st.lw (.user t))) < 2 ^ 29 := fun t => (nrm_bootNoise W (exL W) rfl K _ _).trans_lt hB
  have ht : st.tr (.user 0) = gateTestvec (paramsFor 128) := hu.1 0
  refine ⟨ck, st, fun ts => ?_, ?_⟩
  · obtain ⟨w', e, h⟩ := C70_gates W (exL W) rfl K htv h0 (fun _ => st) (fun _ => hst) id Function.injective_id
      (fun _ => .nand) (fun t => ct (x t)) (fun t => ct (x t)) x x (fun _ => 0) (fun _ => 0) 0 (fun _ => hct _) (fun _ => hct _)
      hp (fun _ => ht) hm hn ts
    refine ⟨w', e, fun t => ⟨(h t).1, fun hd => ?_⟩⟩
    rw [(h t).2 hd]
    simp [Gate2.eval, x]
  · obtain ⟨ts, w', e, h1, h2, h3⟩ := C70_shared_wrong W (exL W) rfl K htv h0 (fun _ => st) 0 hst
      (fun _ => .nand) (fun t => ct (x t)) (fun t => ct (x t)) x x (fun _ => 0) (fun _ => 0) 0 ht (fun _ => hct _) (fun _ => hct _)
      hp hm hn (by simp [Gate2.eval, x])
    exact ⟨ts, w', e, h1, h2, by rw [h3]; rfl⟩

end GoTfhe
