import Verif.Props.LookupFailureLevels
import Verif.Props.Session
import Verif.Spec.LookupSession

/-!
# C89: the probability that any look-up of a session, or of the example program `programmable_bootstrap`, fails
-/

namespace GoTfhe

open MeasureTheory ProbabilityTheory Finset

section

variable {O : FourierOps} {P : Params} (W : WellFormed P) (L : FourierLaws O) (hd : O.deg = P.trgswLv1.N)

include W hd

/-- One look-up whose noise is small. -/
theorem bootstrapFunc_bit (fl : ℚ → ℚ) (hfl : IsRound fl) (hN : 4 ∣ P.trgswLv1.N) (ck : CloudKey O) (hck : CkGood P L ck)
    (b0 : Fin P.tlweLv0.N → Bool) (s1 : List Torus) (a : Mask P.tlweLv0.N) (u : ℚ) (msg : ℤ) (f : ℤ → Option ℤ)
    (hf : ∀ x < 2, (f (x : ℕ)).isSome) (hn : DemoNoise fl P 1 L ck (keyOf b0) s1 f [(msg, Mask.draw a, u)])
    (st : EvState O) (hst : EvGood P L st) :
    ∃ st' out, bootstrapFunc fl P (st.setLw (.user 0) (msgCt fl 1 b0 a msg u)) (.user 0) f 2 ck.bootstrappingKey
        ck.keySwitchingKey ck.decompositionOffset = some (st', out) ∧
      decryptLWEMessage P out 2 (keyOf b0) = some (applyBit f msg) ∧ EvGood P L st' := by
  obtain ⟨hn1, hn2⟩ := hn _ List.mem_cons_self
  obtain ⟨c, ec, hE, hlt⟩ := mEnc_of_encrypt fl hfl P (keyOf b0) (by simp [keyOf]) 1 (by norm_num) msg (Mask.draw a) u
  obtain rfl := Option.some.inj ((encryptLWEMessage_msgCt fl P 1 b0 a msg u).symm.trans ec)
  obtain ⟨t, ht⟩ := genLookUpTable_some W fl 1 f hf
  have h2 : ((2 ^ 1 : ℕ) : ℤ) = 2 := by norm_num
  have hlt2 : (msg % 2).toNat < 2 := by simpa [h2] using hlt
  have hab : msgApply (2 ^ 1) f (msg % ((2 ^ 1 : ℕ) : ℤ)).toNat = some (applyBit f msg).toNat := by
    obtain ⟨v, hv⟩ := Option.isSome_iff_exists.1 (hf _ hlt2)
    have h0 : ((msg % 2).toNat : ℤ) = msg % 2 := Int.toNat_of_nonneg (Int.emod_nonneg _ (by norm_num))
    rw [h0] at hv
    rw [msgApply, h2, h0, hv, applyBit, hv]
    rfl
  obtain ⟨hsz, hyM, hO⟩ := MEnc.lookup W L ck (keyOf b0) s1 fl hfl 1 (by norm_num) (by norm_num; exact hN) f hf t ht _ _ _ hE
    hlt hn1 _ hab
  set c := msgCt fl 1 b0 a msg u with hc
  have hlw : ((st.setLw (.user 0) c).setTr (.user 0) t).lw (.user 0) = c := by simp [EvState.setLw, EvState.setTr]
  have htr : ((st.setLw (.user 0) c).setTr (.user 0) t).tr (.user 0) = t := EvState.setTr_tr _ _ _
  obtain ⟨st', e1, g1, -⟩ := bootstrapLUT_eq W L hd _ ((hst.setLw_user 0 c).setTr_user 0 t) ck.bootstrappingKey hck.bsk
    ck.keySwitchingKey hck.ksk ck.decompositionOffset (.user 0) (.user 0) (by rw [hlw]; exact hE.1) (by simp)
    (by rw [htr]; exact hsz)
  rw [htr, hlw] at e1
  have hdec := hO.decrypts (by norm_num) hyM (hn2 c ec t ht) (by simp [keyOf])
  rw [Int.toNat_of_nonneg (by unfold applyBit; exact Int.emod_nonneg _ (by norm_num))] at hdec
  rw [h2] at ht hdec
  refine ⟨st', _, ?_, hdec, g1⟩
  change bootstrapLUT P _ _ _ _ _ _ = some (st', bootOut P L ck t c) at e1
  simp only [bootstrapFunc, ht, e1, Option.bind_eq_bind, Option.bind_some]

/-- The look-ups of a session when the noise of every single one is small. -/
theorem sessionLookups_eq (fl : ℚ → ℚ) (hfl : IsRound fl) (hN : 4 ∣ P.trgswLv1.N) {M : ℕ} (z : SessionDice P M)
    (x : Fin M → ℤ) (u : Fin M → ℚ) (ck : CloudKey O) (hck : CkGood P L ck) (jobs : List ((ℤ → Option ℤ) × Fin M))
    (hf : ∀ t ∈ jobs, ∀ x < 2, (t.1 (x : ℕ)).isSome) : ∀ (st : EvState O) (_ : EvGood P L st)
    (_ : ∀ t ∈ jobs, DemoNoise fl P 1 L ck (keyOf z.coins0) (keyOf z.coins1) t.1
      [(x t.2, (z.masks t.2).draw, u t.2)]),
    sessionLookups fl P ck (keyOf z.coins0) ((List.finRange M).map fun i => msgCt fl 1 z.coins0 (z.masks i) (x i) (u i)) st
      (jobs.map fun t => (t.1, (t.2 : ℕ))) = some (jobs.map fun t => applyBit t.1 (x t.2)) := by
  induction jobs with
  | nil => exact fun _ _ _ => rfl
  | cons t ts ih =>
    intro st hst h
    obtain ⟨f, i⟩ := t
    have hr : ∀ k : Fin M, rd ((List.finRange M).map fun i => msgCt fl 1 z.coins0 (z.masks i) (x i) (u i)) k
        = some (msgCt fl 1 z.coins0 (z.masks k) (x k) (u k)) := by
      intro k
      unfold rd
      rw [List.getElem?_map, List.getElem?_eq_getElem (by simp), List.getElem_finRange]
      simp
    obtain ⟨st', out, e1, e2, hst'⟩ := bootstrapFunc_bit W L hd fl hfl hN ck hck z.coins0 (keyOf z.coins1) (z.masks i) (u i)
      (x i) f (hf _ List.mem_cons_self) (h _ List.mem_cons_self) st hst
    have htl := ih (fun t ht => hf t (List.mem_cons_of_mem _ ht)) st' hst' fun t ht => h t (List.mem_cons_of_mem _ ht)
    simp only [List.map_cons, sessionLookups, hr, Option.bind_eq_bind, Option.bind_some]
    rw [e1]
    simp only [Option.bind_some]
    rw [e2]
    simp only [Option.bind_some]
    rw [htl]
    rfl

/-- A demo never panics, whatever the noise. -/
theorem demoFunction_runs (fl : ℚ → ℚ) (k : ℕ) (hk : k ≤ 31) (ck : CloudKey O) (hck : CkGood P L ck)
    (b0 : Fin P.tlweLv0.N → Bool) (f : ℤ → Option ℤ) (hf : ∀ x < 2 ^ k, (f (x : ℕ)).isSome)
    (inputs : List (ℤ × Mask P.tlweLv0.N × ℚ)) : ∀ (st : EvState O) (_ : EvGood P L st),
    ∃ st' out, demoFunction fl P ((2 ^ k : ℕ) : ℤ) ck (keyOf b0) f st
        (inputs.map fun x => (x.1, Mask.draw x.2.1, x.2.2)) = some (st', out) ∧ out.length = inputs.length ∧ EvGood P L st' := by
  induction inputs with
  | nil => exact fun st hst => ⟨st, [], rfl, rfl, hst⟩
  | cons x xs ih =>
    intro st hst
    obtain ⟨msg, a, u⟩ := x
    obtain ⟨t, ht⟩ := genLookUpTable_some W fl k f hf
    have hm : 1 ≤ 2 ^ k := Nat.one_le_two_pow
    have hF : ∀ x : ℕ, x < 2 ^ k → f x = some ((fun x : ℕ => (f (x : ℕ)).getD 0) x) := by
      intro x hx
      obtain ⟨v, hv⟩ := Option.isSome_iff_exists.1 (hf x hx)
      simp [hv]
    obtain ⟨t', e', hA, hB, -⟩ := C52_table fl W (2 ^ k) hm f _ hF
      (fun x => (newEncoder fl ((2 ^ k : ℕ) : ℤ)).val fl ((f (x : ℕ)).getD 0))
      (fun x _ => Encoder.encode_eq fl (newEncoder fl ((2 ^ k : ℕ) : ℤ)) _ (by show (0 : ℤ) < (2 ^ k : ℕ); positivity))
    obtain rfl : t = t' := Option.some.inj (ht.symm.trans e')
    have ec := encryptLWEMessage_msgCt fl P k b0 a msg u
    set c := msgCt fl k b0 a msg u with hc
    have hlc : c.length = P.tlweLv0.N + 1 := by simp [hc, msgCt, ctOf]
    have hlw : ((st.setLw (.user 0) c).setTr (.user 0) t).lw (.user 0) = c := by simp [EvState.setLw, EvState.setTr]
    have htr : ((st.setLw (.user 0) c).setTr (.user 0) t).tr (.user 0) = t := EvState.setTr_tr _ _ _
    obtain ⟨st', e1, g1, -⟩ := bootstrapLUT_eq W L hd _ ((hst.setLw_user 0 c).setTr_user 0 t) ck.bootstrappingKey hck.bsk
      ck.keySwitchingKey hck.ksk ck.decompositionOffset (.user 0) (.user 0) (by rw [hlw]; exact hlc) (by simp)
      (by rw [htr]; exact ⟨by rw [hA]; simp, hB⟩)
    rw [htr, hlw] at e1
    have hdec := decryptLWEMessage_eq P (bootPure P L ck.decompositionOffset ck.bootstrappingKey ck.keySwitchingKey t c)
      (keyOf b0) (2 ^ k) hm (Nat.pow_le_pow_right (by norm_num) hk) (by simp [keyOf]) (by rw [length_bootPure]; omega)
    obtain ⟨st2, out, e2, hl, g2⟩ := ih st' g1
    refine ⟨st2, (decodeMsg (2 ^ k) (phase P.tlweLv0.N (bootPure P L ck.decompositionOffset ck.bootstrappingKey
      ck.keySwitchingKey t c) (keyOf b0)) : ℤ) :: out, ?_, by rw [List.length_cons, hl, List.length_cons], g2⟩
    simp only [demoFunction, List.map_cons, ec, Option.bind_eq_bind, Option.bind_some, bootstrapFunc, ht, e1, hdec, e2,
      Option.pure_def]

/-- The messages that `programmable_bootstrap` encrypts, in order. -/
def demoMsgs : Fin 17 → ℤ := ![0, 1, 0, 1, 0, 1, 0, 1, 0, 1, 0, 1, 0, 0, 1, 2, 3]

/-- The look-ups of its first five demos and the numbers of the encryptions they use. -/
def demoJobs : List ((ℤ → Option ℤ) × Fin 17) :=
  [(fun x => some x, 0), (fun x => some x, 1), (fun x => some (1 - x), 2), (fun x => some (1 - x), 3), (fun _ => some 1, 4),
    (fun _ => some 1, 5), (fun _ => some 0, 6), (fun _ => some 0, 7), (fun x => some (1 - x), 8), (fun x => some (1 - x), 9),
    (fun x => some (1 - x), 10), (fun x => some (1 - x), 11), (fun x => some (1 - x), 12)]

omit W hd in
theorem demoNoise_list {fl : ℚ → ℚ} {k : ℕ} {ck : CloudKey O} {s0 s1 : List Torus} {f : ℤ → Option ℤ}
    {xs : List (ℤ × (ℕ → Torus) × ℚ)} (h : ∀ x ∈ xs, DemoNoise fl P k L ck s0 s1 f [x]) : DemoNoise fl P k L ck s0 s1 f xs :=
  fun x hx => h x hx x (List.mem_singleton.2 rfl)

theorem pbsMain_right (fl : ℚ → ℚ) (hfl : IsRound fl) (hN : 8 ∣ P.trgswLv1.N) (R : KeyGenRand) (z : SessionDice P 17)
    (u : Fin 17 → ℚ) (y : DrawIx → ℚ) (sK sB : List ℕ) (ck : CloudKey O) (hg : CkGood P L ck)
    (e : newCloudKey P O (keyOf z.coins0) (keyOf z.coins1) ((R.withEntryMasks z.bsk).withDraws y) sK sB = some (true, ck))
    (tr0 : TRef → Trlwe) (lw0 : LRef → List Torus)
    (hall : ∀ t ∈ demoJobs, DemoNoise fl P 1 L ck (keyOf z.coins0) (keyOf z.coins1) t.1
      [(demoMsgs t.2, (z.masks t.2).draw, u t.2)]) :
    ∃ o6 : List ℤ, o6.length = 4 ∧
      pbsMain fl P O (keyCoins z.coins0) (keyCoins z.coins1) ((R.withEntryMasks z.bsk).withDraws y) sK sB tr0 lw0
          (fun d i => ((z.masks (demoIx d i)).draw, u (demoIx d i)))
        = some [[0, 1], [1, 0], [1, 1], [0, 0], [1, 0, 1, 0, 1], o6] := by
  obtain ⟨st, es, hst, -⟩ := newEvaluator_good W L hd tr0 lw0
  have hN2 : 2 * 2 ^ 1 ∣ P.trgswLv1.N := Dvd.dvd.trans (by norm_num) hN
  have hs0 : P.tlweLv0.N ≤ (keyOf z.coins0).length := by simp [keyOf]
  have hh : ∀ (i : ℕ) (hi : i < 13), DemoNoise fl P 1 L ck (keyOf z.coins0) (keyOf z.coins1)
      (demoJobs[i]'(by simpa [demoJobs] using hi)).1
      [(demoMsgs (demoJobs[i]'(by simpa [demoJobs] using hi)).2, (z.masks (demoJobs[i]'(by simpa [demoJobs] using hi)).2).draw,
        u (demoJobs[i]'(by simpa [demoJobs] using hi)).2)] := fun i hi => hall _ (List.getElem_mem _)
  set r : ℕ → ℕ → (ℕ → Torus) × ℚ := fun d i => ((z.masks (demoIx d i)).draw, u (demoIx d i)) with hr
  obtain ⟨st1, e1, g1⟩ := C77_demoFunction W L hd ck hg.bsk hg.ksk (keyOf z.coins0) (keyOf z.coins1) hs0 fl hfl 1 (by norm_num)
    hN2 (fun x => some x) (fun x => x) (fun _ _ => rfl) [(0, r 0 0), (1, r 0 1)] (demoNoise_list L (by
      intro x hx
      simp only [List.mem_cons, List.not_mem_nil, or_false] at hx
      rcases hx with rfl | rfl
      · exact hh 0 (by norm_num)
      · exact hh 1 (by norm_num))) st hst
  obtain ⟨st2, e2, g2⟩ := C77_demoFunction W L hd ck hg.bsk hg.ksk (keyOf z.coins0) (keyOf z.coins1) hs0 fl hfl 1 (by norm_num)
    hN2 (fun x => some (1 - x)) (fun x => 1 - x) (fun _ _ => rfl) [(0, r 1 0), (1, r 1 1)] (demoNoise_list L (by
      intro x hx
      simp only [List.mem_cons, List.not_mem_nil, or_false] at hx
      rcases hx with rfl | rfl
      · exact hh 2 (by norm_num)
      · exact hh 3 (by norm_num))) st1 g1
  obtain ⟨st3, e3, g3⟩ := C77_demoFunction W L hd ck hg.bsk hg.ksk (keyOf z.coins0) (keyOf z.coins1) hs0 fl hfl 1 (by norm_num)
    hN2 (fun _ => some 1) (fun _ => 1) (fun _ _ => rfl) [(0, r 2 0), (1, r 2 1)] (demoNoise_list L (by
      intro x hx
      simp only [List.mem_cons, List.not_mem_nil, or_false] at hx
      rcases hx with rfl | rfl
      · exact hh 4 (by norm_num)
      · exact hh 5 (by norm_num))) st2 g2
  obtain ⟨st4, e4, g4⟩ := C77_demoFunction W L hd ck hg.bsk hg.ksk (keyOf z.coins0) (keyOf z.coins1) hs0 fl hfl 1 (by norm_num)
    hN2 (fun _ => some 0) (fun _ => 0) (fun _ _ => rfl) [(0, r 3 0), (1, r 3 1)] (demoNoise_list L (by
      intro x hx
      simp only [List.mem_cons, List.not_mem_nil, or_false] at hx
      rcases hx with rfl | rfl
      · exact hh 6 (by norm_num)
      · exact hh 7 (by norm_num))) st3 g3
  obtain ⟨st5, e5, g5⟩ := C77_demoLUTReuse W L hd ck hg.bsk hg.ksk (keyOf z.coins0) (keyOf z.coins1) hs0 fl hfl 1 (by norm_num)
    hN2 (fun x => some (1 - x)) (fun x => 1 - x) (fun _ _ => rfl)
    [(0, r 4 0), (1, r 4 1), (0, r 4 2), (1, r 4 3), (0, r 4 4)] (demoNoise_list L (by
      intro x hx
      simp only [List.mem_cons, List.not_mem_nil, or_false] at hx
      rcases hx with rfl | rfl | rfl | rfl | rfl
      · exact hh 8 (by norm_num)
      · exact hh 9 (by norm_num)
      · exact hh 10 (by norm_num)
      · exact hh 11 (by norm_num)
      · exact hh 12 (by norm_num))) st4 g4
  obtain ⟨st6, o6, e6, hl, -⟩ := demoFunction_runs W L hd fl 2 (by norm_num) ck hg z.coins0 (fun x => goMod (x + 1) 4)
    (fun x _ => by simp [goMod])
    [(0, z.masks (demoIx 5 0), u (demoIx 5 0)), (1, z.masks (demoIx 5 1), u (demoIx 5 1)),
      (2, z.masks (demoIx 5 2), u (demoIx 5 2)), (3, z.masks (demoIx 5 3), u (demoIx 5 3))] st5 g5
  refine ⟨o6, hl, ?_⟩
  have h2 : ((2 ^ 1 : ℕ) : ℤ) = 2 := by norm_num
  have h4 : ((2 ^ 2 : ℕ) : ℤ) = 4 := by norm_num
  rw [h2] at e1 e2 e3 e4 e5
  rw [h4] at e6
  simp only [List.map_cons, List.map_nil] at e6
  unfold pbsMain
  rw [newSecretKey_keyOf W]
  simp only [Option.bind_eq_bind, Option.bind_some]
  rw [e]
  simp only [Option.bind_some]
  rw [es]
  simp only [Option.bind_some, pbsDemo, e1, e2, e3, e4, e5, Option.bind_eq_bind]
  rw [hr]
  simp only [e6, Option.bind_some, Option.pure_def, List.map_cons, List.map_nil, Option.some.injEq, List.cons.injEq, and_true]
  decide

end

section

variable {Ω Ωe : Type*} [MeasurableSpace Ω] [MeasurableSpace Ωe] {μ : Measure Ω} [IsProbabilityMeasure μ]
  {μe : Measure Ωe} [IsProbabilityMeasure μe]
variable {fl : ℚ → ℚ} (hfl : IsRound fl) {fu : Fusing} {ce : ℚ → ℚ × ℚ} (hce : CexpAccurate ce (1 / 2 ^ 52))

include hfl hce

/-- The noise of one of the look-ups `jobs` is too large. -/
theorem lookup_jobs (level : SecurityLevel) (hlev : level ≤ 0 ∨ 9 ≤ level) {e : PolyEval ℚ}
    (he : newPolyEval (floatArith fl fu mathPi ce) ((paramsFor level).trgswLv1.N : ℤ) = some e)
    (L : FourierLaws (fftOps (floatArith fl fu mathPi ce) e)) (R : KeyGenRand)
    {q : DrawIx → Ω → ℚ} (hq : NoiseDraws μ q (drawStd (paramsFor level))) {M : ℕ}
    {qe : Fin M → Ωe → ℚ} (hqe : NoiseDraws μe qe fun _ => ((kskAlpha (paramsFor level) : ℚ) : ℝ))
    (schedK schedB : Ω → SessionDice (paramsFor level) M → List ℕ)
    (ck : Ω → SessionDice (paramsFor level) M → CloudKey (fftOps (floatArith fl fu mathPi ce) e))
    (hck : ∀ ω z, newCloudKey (paramsFor level) (fftOps (floatArith fl fu mathPi ce) e) (keyOf z.coins0) (keyOf z.coins1)
        ((R.withEntryMasks z.bsk).withDraws fun d => q d ω) (schedK ω z) (schedB ω z) = some (true, ck ω z))
    (x : Fin M → ℤ) (jobs : List ((ℤ → Option ℤ) × Fin M)) (hj : ∀ t ∈ jobs, ∀ x < 2, (t.1 (x : ℕ)).isSome) :
    ((μ.prod μe).prod (uniformOn (Set.univ : Set (SessionDice (paramsFor level) M))))
      {z | ∃ t ∈ jobs, ¬ DemoNoise fl (paramsFor level) 1 L (ck z.1.1 z.2) (keyOf z.2.coins0) (keyOf z.2.coins1) t.1
        [(x t.2, (z.2.masks t.2).draw, qe t.2 z.1.2)]}
      ≤ jobs.length * ENNReal.ofReal (1 / 2 ^ lookupBits level) := by
  induction jobs with
  | nil => simp
  | cons t ts ih =>
    have h1 := lookup_noise_levels hfl hce level hlev he L R hq hqe schedK schedB ck hck t.2 t.1 (fun x => (t.1 (x : ℕ)).getD 0)
      (fun y hy => by
        obtain ⟨v, hv⟩ := Option.isSome_iff_exists.1 (hj t List.mem_cons_self y hy)
        simp [hv]) (x t.2)
    have h2 := ih fun t ht => hj t (List.mem_cons_of_mem _ ht)
    rw [List.length_cons, Nat.cast_succ, add_mul, one_mul, add_comm]
    refine (measure_mono ?_).trans ((measure_union_le _ _).trans (add_le_add h1 h2))
    rintro z ⟨t', ht, hne⟩
    rcases List.mem_cons.1 ht with rfl | ht
    · exact .inl hne
    · exact .inr ⟨t', ht, hne⟩

/-- **C89**: key generation, any number of encryptions modulo 2 and any sequence of programmable bootstrappings, each with
any function of a bit, under one cloud key and with one evaluator. Some result is wrong with probability at most `2^-18` (80
bits), `2^-25` (110 bits) or `2^-27` (128 bits) times the number of bootstrappings. -/
theorem C89_lookups (level : SecurityLevel) (hlev : level ≤ 0 ∨ 9 ≤ level) {e : PolyEval ℚ}
    (he : newPolyEval (floatArith fl fu mathPi ce) ((paramsFor level).trgswLv1.N : ℤ) = some e) (R : KeyGenRand)
    {q : DrawIx → Ω → ℚ} (hq : NoiseDraws μ q (drawStd (paramsFor level))) {M : ℕ}
    {qe : Fin M → Ωe → ℚ} (hqe : NoiseDraws μe qe fun _ => ((kskAlpha (paramsFor level) : ℚ) : ℝ))
    (schedK schedB : Ω → SessionDice (paramsFor level) M → List ℕ)
    (hsched : ∀ ω z, ∃ sk ck, newSecretKey (paramsFor level) (keyCoins z.coins0) (keyCoins z.coins1) = some sk ∧
      newCloudKey (paramsFor level) (fftOps (floatArith fl fu mathPi ce) e) sk.keyLv0 sk.keyLv1
        ((R.withEntryMasks z.bsk).withDraws fun d => q d ω) (schedK ω z) (schedB ω z) = some (true, ck))
    (x : Fin M → ℤ) (jobs : List ((ℤ → Option ℤ) × Fin M)) (hj : ∀ t ∈ jobs, ∀ x < 2, (t.1 (x : ℕ)).isSome)
    (tr0 : TRef → Trlwe) (lw0 : LRef → List Torus) :
    ((μ.prod μe).prod (uniformOn (Set.univ : Set (SessionDice (paramsFor level) M))))
      {z | lookupRun fl (paramsFor level) (fftOps (floatArith fl fu mathPi ce) e) R tr0 lw0 (schedK z.1.1 z.2)
          (schedB z.1.1 z.2) x (jobs.map fun t => (t.1, (t.2 : ℕ))) (fun d => q d z.1.1) (fun i => qe i z.1.2) z.2
        ≠ some (jobs.map fun t => applyBit t.1 (x t.2))}
      ≤ ENNReal.ofReal (jobs.length / 2 ^ lookupBits level) := by
  have W := C63_wellFormed level
  obtain ⟨⟨L, -⟩, hd, -⟩ := C67_errors hfl hce level he
  have hck : ∀ ω z, ∃ ck, newCloudKey (paramsFor level) (fftOps (floatArith fl fu mathPi ce) e) (keyOf z.coins0)
      (keyOf z.coins1) ((R.withEntryMasks z.bsk).withDraws fun d => q d ω) (schedK ω z) (schedB ω z) = some (true, ck) := by
    intro ω z
    obtain ⟨sk, ck, e1, e2⟩ := hsched ω z
    rw [newSecretKey_keyOf W] at e1
    obtain rfl := Option.some.inj e1
    exact ⟨ck, e2⟩
  choose ck hck using hck
  have main := lookup_jobs hfl hce level hlev he L R hq hqe schedK schedB ck hck x jobs hj
  have hN : 4 ∣ (paramsFor level).trgswLv1.N := by
    rcases paramsFor_cases level with h | h | h | h | h | h | h | h | h | h | h <;> rw [h.2] <;> decide
  rw [div_eq_mul_one_div, ENNReal.ofReal_mul (Nat.cast_nonneg _), ENNReal.ofReal_natCast]
  refine (measure_mono ?_).trans main
  rintro ⟨⟨ω, ω'⟩, z⟩ hne
  by_contra hall
  refine hne ?_
  have hall' : ∀ t ∈ jobs, DemoNoise fl (paramsFor level) 1 L (ck ω z) (keyOf z.coins0) (keyOf z.coins1) t.1
      [(x t.2, (z.masks t.2).draw, qe t.2 ω')] := by
    intro t ht
    by_contra h
    exact hall ⟨t, ht, h⟩
  have hK := float_keys hfl hce level he (keyOf z.coins0) (keyOf z.coins1)
    ((R.withEntryMasks z.bsk).withDraws fun d => q d ω) (by simp [keyOf]) (by simp [keyOf]) (isBinary_keyOf _)
    (isBinary_keyOf _) (fun _ _ _ _ _ _ => nrm_le _) (fun _ _ _ _ _ _ => nrm_le _) _ _ _ (hck ω z)
  obtain ⟨st, es, hst, -⟩ := newEvaluator_good W L hd tr0 lw0
  have hg := sessionLookups_eq W L hd fl hfl hN z x (fun i => qe i ω') (ck ω z) (ckGood L hd (hK.2.2.1 L) hK.2.2.2) jobs hj st
    hst hall'
  show lookupRun fl (paramsFor level) _ R tr0 lw0 (schedK ω z) (schedB ω z) x _ (fun d => q d ω) (fun i => qe i ω') z = _
  unfold lookupRun
  rw [newSecretKey_keyOf W]
  simp only [Option.bind_eq_bind, Option.bind_some]
  rw [hck ω z]
  simp only [Option.bind_some]
  rw [es]
  simp only [Option.bind_some]
  have henc : ∀ i, encryptLWEMessage fl (paramsFor level) (newTLWELv0 (paramsFor level)) (x i) 2 (keyOf z.coins0)
      (z.masks i).draw (qe i ω') = some (msgCt fl 1 z.coins0 (z.masks i) (x i) (qe i ω')) := fun i =>
    encryptLWEMessage_msgCt fl _ 1 _ _ _ _
  rw [mapM_some _ (fun i => msgCt fl 1 z.coins0 (z.masks i) (x i) (qe i ω')) _ fun i _ => henc i]
  exact hg

/-- **C89**: the whole of `programmable_bootstrap`: key generation, 17 encryptions and bootstrappings under one cloud key and
with one evaluator. It finishes, and the first five demos print what they announce, except with probability `13 / 2^18` at
the 80-bit level which the program sets (`13 / 2^25` and `13 / 2^27` at 110 and 128 bits). The sixth demo has four messages. -/
theorem C89_pbsMain (level : SecurityLevel) (hlev : level ≤ 0 ∨ 9 ≤ level) {e : PolyEval ℚ}
    (he : newPolyEval (floatArith fl fu mathPi ce) ((paramsFor level).trgswLv1.N : ℤ) = some e) (R : KeyGenRand)
    {q : DrawIx → Ω → ℚ} (hq : NoiseDraws μ q (drawStd (paramsFor level)))
    {qe : Fin 17 → Ωe → ℚ} (hqe : NoiseDraws μe qe fun _ => ((kskAlpha (paramsFor level) : ℚ) : ℝ))
    (schedK schedB : Ω → SessionDice (paramsFor level) 17 → List ℕ)
    (hsched : ∀ ω z, ∃ sk ck, newSecretKey (paramsFor level) (keyCoins z.coins0) (keyCoins z.coins1) = some sk ∧
      newCloudKey (paramsFor level) (fftOps (floatArith fl fu mathPi ce) e) sk.keyLv0 sk.keyLv1
        ((R.withEntryMasks z.bsk).withDraws fun d => q d ω) (schedK ω z) (schedB ω z) = some (true, ck))
    (tr0 : TRef → Trlwe) (lw0 : LRef → List Torus) :
    ((μ.prod μe).prod (uniformOn (Set.univ : Set (SessionDice (paramsFor level) 17))))
      {z | ¬ ∃ o6 : List ℤ, o6.length = 4 ∧
        pbsMain fl (paramsFor level) (fftOps (floatArith fl fu mathPi ce) e) (keyCoins z.2.coins0) (keyCoins z.2.coins1)
          ((R.withEntryMasks z.2.bsk).withDraws fun d => q d z.1.1) (schedK z.1.1 z.2) (schedB z.1.1 z.2) tr0 lw0
          (fun d i => ((z.2.masks (demoIx d i)).draw, qe (demoIx d i) z.1.2))
        = some [[0, 1], [1, 0], [1, 1], [0, 0], [1, 0, 1, 0, 1], o6]}
      ≤ ENNReal.ofReal (13 / 2 ^ lookupBits level) := by
  have W := C63_wellFormed level
  obtain ⟨⟨L, -⟩, hd, -⟩ := C67_errors hfl hce level he
  have hck : ∀ ω z, ∃ ck, newCloudKey (paramsFor level) (fftOps (floatArith fl fu mathPi ce) e) (keyOf z.coins0)
      (keyOf z.coins1) ((R.withEntryMasks z.bsk).withDraws fun d => q d ω) (schedK ω z) (schedB ω z) = some (true, ck) := by
    intro ω z
    obtain ⟨sk, ck, e1, e2⟩ := hsched ω z
    rw [newSecretKey_keyOf W] at e1
    obtain rfl := Option.some.inj e1
    exact ⟨ck, e2⟩
  choose ck hck using hck
  have main := lookup_jobs hfl hce level hlev he L R hq hqe schedK schedB ck hck demoMsgs demoJobs (by
    intro t ht
    simp only [demoJobs, List.mem_cons, List.not_mem_nil, or_false] at ht
    rcases ht with rfl | rfl | rfl | rfl | rfl | rfl | rfl | rfl | rfl | rfl | rfl | rfl | rfl <;> intro _ _ <;> rfl)
  have hN : 8 ∣ (paramsFor level).trgswLv1.N := by
    rcases paramsFor_cases level with h | h | h | h | h | h | h | h | h | h | h <;> rw [h.2] <;> decide
  rw [show (demoJobs.length : ENNReal) = ENNReal.ofReal 13 by
      rw [show demoJobs.length = 13 from rfl]; simp, ← ENNReal.ofReal_mul (by norm_num), ← div_eq_mul_one_div] at main
  refine (measure_mono ?_).trans main
  rintro ⟨⟨ω, ω'⟩, z⟩ hne
  by_contra hall
  refine hne ?_
  have hK := float_keys hfl hce level he (keyOf z.coins0) (keyOf z.coins1)
    ((R.withEntryMasks z.bsk).withDraws fun d => q d ω) (by simp [keyOf]) (by simp [keyOf]) (isBinary_keyOf _)
    (isBinary_keyOf _) (fun _ _ _ _ _ _ => nrm_le _) (fun _ _ _ _ _ _ => nrm_le _) _ _ _ (hck ω z)
  exact pbsMain_right W L hd fl hfl hN R z (fun i => qe i ω') (fun d => q d ω) _ _ (ck ω z)
    (ckGood L hd (hK.2.2.1 L) hK.2.2.2) (hck ω z) tr0 lw0 fun t ht => by
      by_contra h
      exact hall ⟨t, ht, h⟩

end

/-- Non-vacuity of `C89_pbsMain`: normal noise cut off to 60 binary places, 80 bits as in the program. -/
example (fu : Fusing) (R : KeyGenRand) : ∃ (fl : ℚ → ℚ) (ce : ℚ → ℚ × ℚ) (e : PolyEval ℚ)
    (sK sB : (DrawIx → ℝ) → SessionDice (paramsFor 80) 17 → List ℕ),
    (((normals (drawStd (paramsFor 80))).prod (normals fun _ : Fin 17 => ((kskAlpha (paramsFor 80) : ℚ) : ℝ))).prod
        (uniformOn (Set.univ : Set (SessionDice (paramsFor 80) 17))))
      {z | ¬ ∃ o6 : List ℤ, o6.length = 4 ∧
        pbsMain fl (paramsFor 80) (fftOps (floatArith fl fu mathPi ce) e) (keyCoins z.2.coins0) (keyCoins z.2.coins1)
          ((R.withEntryMasks z.2.bsk).withDraws fun d => cutNormal 60 d z.1.1) (sK z.1.1 z.2) (sB z.1.1 z.2)
          (fun _ => ⟨[], []⟩) (fun _ => []) (fun d i => ((z.2.masks (demoIx d i)).draw, cutNormal 60 (demoIx d i) z.1.2))
        = some [[0, 1], [1, 0], [1, 1], [0, 0], [1, 0, 1, 0, 1], o6]}
      ≤ ENNReal.ofReal (13 / 2 ^ 18) := by
  obtain ⟨ce, hce⟩ := exists_cexp (1 / 2 ^ 52) (by norm_num)
  have he : newPolyEval (floatArith rne fu mathPi ce) ((paramsFor 80).trgswLv1.N : ℤ) = some (pev (floatArith rne fu mathPi ce) 9) :=
    (newPolyEval_some _ 1024 _).2 ⟨9, by norm_num, by norm_num, rfl⟩
  obtain ⟨sK, sB, h⟩ := exists_session_schedules 80 17 he R (cutNormal 60 : DrawIx → (DrawIx → ℝ) → ℚ)
  exact ⟨rne, ce, pev (floatArith rne fu mathPi ce) 9, sK, sB,
    C89_pbsMain isRound_rne hce 80 (by norm_num) he R (noiseDraws_normal (drawStd (paramsFor 80)) 60)
      (noiseDraws_normal (fun _ : Fin 17 => ((kskAlpha (paramsFor 80) : ℚ) : ℝ)) 60) sK sB h _ _⟩

/-- Non-vacuity of `C89_lookups`: a thousand ciphertexts, each negated, 128 bits. -/
example (fu : Fusing) (R : KeyGenRand) (x : Fin 1000 → ℤ) : ∃ (fl : ℚ → ℚ) (ce : ℚ → ℚ × ℚ) (e : PolyEval ℚ)
    (sK sB : (DrawIx → ℝ) → SessionDice (paramsFor 128) 1000 → List ℕ),
    (((normals (drawStd (paramsFor 128))).prod (normals fun _ : Fin 1000 => ((kskAlpha (paramsFor 128) : ℚ) : ℝ))).prod
        (uniformOn (Set.univ : Set (SessionDice (paramsFor 128) 1000))))
      {z | lookupRun fl (paramsFor 128) (fftOps (floatArith fl fu mathPi ce) e) R (fun _ => ⟨[], []⟩) (fun _ => [])
          (sK z.1.1 z.2) (sB z.1.1 z.2) x
          ((((List.finRange 1000).map fun i => (fun y => some (1 - y), i)) : List ((ℤ → Option ℤ) × Fin 1000)).map
            fun t => (t.1, (t.2 : ℕ)))
          (fun d => cutNormal 60 d z.1.1) (fun i => cutNormal 60 i z.1.2) z.2
        ≠ some (((List.finRange 1000).map fun i => (fun y => some (1 - y), i)).map
          fun t : (ℤ → Option ℤ) × Fin 1000 => applyBit t.1 (x t.2))}
      ≤ ENNReal.ofReal ((((List.finRange 1000).map fun i => (fun y => some (1 - y), i)) :
        List ((ℤ → Option ℤ) × Fin 1000)).length / 2 ^ 27) := by
  obtain ⟨ce, hce⟩ := exists_cexp (1 / 2 ^ 52) (by norm_num)
  have he : newPolyEval (floatArith rne fu mathPi ce) ((paramsFor 128).trgswLv1.N : ℤ) = some (pev (floatArith rne fu mathPi ce) 9) :=
    (newPolyEval_some _ 1024 _).2 ⟨9, by norm_num, by norm_num, rfl⟩
  obtain ⟨sK, sB, h⟩ := exists_session_schedules 128 1000 he R (cutNormal 60 : DrawIx → (DrawIx → ℝ) → ℚ)
  refine ⟨rne, ce, pev (floatArith rne fu mathPi ce) 9, sK, sB,
    C89_lookups isRound_rne hce 128 (by norm_num) he R (noiseDraws_normal (drawStd (paramsFor 128)) 60)
      (noiseDraws_normal (fun _ : Fin 1000 => ((kskAlpha (paramsFor 128) : ℚ) : ℝ)) 60) sK sB h x _ ?_ _ _⟩
  intro t ht
  obtain ⟨i, -, rfl⟩ := List.mem_map.1 ht
  exact fun _ _ => rfl

end GoTfhe
