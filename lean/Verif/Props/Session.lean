import Verif.Lemmas.SessionProb
import Verif.Props.GateFailureLevels
import Verif.Props.ReencExample
import Verif.Props.Examples

/-!
# C88: the probability that any gate of a session, or of the example program `simple_gates`, fails
-/

namespace GoTfhe

open MeasureTheory ProbabilityTheory Finset

section

variable {O : FourierOps} {P : Params} (W : WellFormed P) (L : FourierLaws O) (hd : O.deg = P.trgswLv1.N)

include W hd

theorem gateRun_bootOut (g : Gate2) (R : KeyGenRand) (tr0 : TRef → Trlwe) (lw0 : LRef → List Torus) (sK sB : List ℕ)
    (xa xb : Bool) (y : DrawIx → ℚ) (u v : ℚ) (x : GateDice P) (ck : CloudKey O) (hck : CkGood P L ck)
    (e : newCloudKey P O (keyOf x.coins0) (keyOf x.coins1) ((R.withEntryMasks x.bsk).withDraws y) sK sB = some (true, ck)) :
    gateRun P O g R tr0 lw0 sK sB xa xb y u v x
      = tlwe0DecryptBool P (bootOut P L ck ck.blindRotateTestvec (prepOf P g xa xb u v x)) (keyOf x.coins0) := by
  obtain ⟨st, es, hst, -⟩ := newEvaluator_good W L hd tr0 lw0
  obtain ⟨st', eg, -⟩ := gate2_bootOut W L hd hst hck g _ _ _ (gatePrepare_prepOf P g xa xb u v x) (by simp [prepOf, lin])
  unfold gateRun
  rw [newSecretKey_keyOf W]
  simp only [Option.bind_eq_bind, Option.bind_some]
  rw [e]
  simp only [Option.bind_some]
  rw [encryptBool_bitCt, encryptBool_bitCt, es]
  simp only [Option.bind_some]
  rw [eg]
  rfl

/-- The gates of a session when every single one decrypts correctly. -/
theorem sessionGates_eq {M : ℕ} (z : SessionDice P M) (x : Fin M → Bool) (u : Fin M → ℚ) (ck : CloudKey O)
    (hck : CkGood P L ck) (jobs : List (Gate2 × Fin M × Fin M)) : ∀ (st : EvState O) (_ : EvGood P L st)
    (_ : ∀ t ∈ jobs, tlwe0DecryptBool P (bootOut P L ck ck.blindRotateTestvec
      (prepOf P t.1 (x t.2.1) (x t.2.2) (u t.2.1) (u t.2.2) (z.gate t.2.1 t.2.2))) (keyOf z.coins0)
        = some (t.1.eval (x t.2.1) (x t.2.2))),
    sessionGates P ck (keyOf z.coins0) ((List.finRange M).map fun i => bitCt z.coins0 (z.masks i) (x i) (u i)) st
      (jobs.map fun t => (t.1, (t.2.1 : ℕ), (t.2.2 : ℕ))) = some (jobs.map fun t => t.1.eval (x t.2.1) (x t.2.2)) := by
  induction jobs with
  | nil => exact fun _ _ _ => rfl
  | cons t ts ih =>
    intro st hst h
    obtain ⟨g, i, j⟩ := t
    have hr : ∀ k : Fin M, rd ((List.finRange M).map fun i => bitCt z.coins0 (z.masks i) (x i) (u i)) k
        = some (bitCt z.coins0 (z.masks k) (x k) (u k)) := by
      intro k
      unfold rd
      rw [List.getElem?_map, List.getElem?_eq_getElem (by simp), List.getElem_finRange]
      simp
    obtain ⟨st', eg, hst'⟩ := gate2_bootOut W L hd hst hck g _ _ _
      (gatePrepare_prepOf P g (x i) (x j) (u i) (u j) (z.gate i j)) (by simp [prepOf, lin])
    have hdec := h _ List.mem_cons_self
    have htl := ih st' hst' fun t ht => h t (List.mem_cons_of_mem _ ht)
    have eg' : gate2 P g st (bitCt z.coins0 (z.masks i) (x i) (u i)) (bitCt z.coins0 (z.masks j) (x j) (u j)) ck = _ := eg
    simp only [List.map_cons, sessionGates, hr, Option.bind_eq_bind, Option.bind_some]
    rw [eg']
    simp only [Option.bind_some]
    rw [hdec]
    simp only [Option.bind_some]
    rw [htl]
    rfl

/-- The gates of one test case of the example when every single one decrypts correctly. -/
theorem testGates_bootOut (ck : CloudKey O) (hck : CkGood P L ck) (key a b : List Torus) (prep : Gate2 → List Torus)
    (F : Gate2 → Bool) (hp : ∀ g, gatePrepare P g a b = some (prep g)) (hl : ∀ g, (prep g).length = P.tlweLv0.N + 1)
    (gs : List Gate2) : ∀ (st : EvState O) (_ : EvGood P L st)
    (_ : ∀ g ∈ gs, tlwe0DecryptBool P (bootOut P L ck ck.blindRotateTestvec (prep g)) key = some (F g)),
    ∃ st', testGates P ck key a b st gs = some (st', gs.map F) ∧ EvGood P L st' := by
  induction gs with
  | nil => exact fun st hst _ => ⟨st, rfl, hst⟩
  | cons g gs ih =>
    intro st hst h
    obtain ⟨st1, e1, g1⟩ := gate2_bootOut W L hd hst hck g a b _ (hp g) (hl g)
    obtain ⟨st2, e2, g2⟩ := ih st1 g1 fun t ht => h t (List.mem_cons_of_mem _ ht)
    exact ⟨st2, by simp only [testGates, e1, h g List.mem_cons_self, e2, Option.bind_eq_bind, Option.bind_some,
      Option.pure_def, List.map_cons], g2⟩

/-- The bits that the example encrypts, in order. -/
def simpleBits : Fin 10 → Bool := ![false, false, false, true, true, false, true, true, false, true]

/-- The gates of the example and the numbers of the encryptions they use. -/
def simpleJobs : List (Gate2 × Fin 10 × Fin 10) :=
  [(0, 1), (2, 3), (4, 5), (6, 7)].flatMap fun t => simpleGateList.map fun g => (g, t)

theorem simpleMain_right (R : KeyGenRand) (z : SessionDice P 10) (u : Fin 10 → ℚ) (y : DrawIx → ℚ) (sK sB : List ℕ)
    (ck : CloudKey O) (hg : CkGood P L ck)
    (e : newCloudKey P O (keyOf z.coins0) (keyOf z.coins1) ((R.withEntryMasks z.bsk).withDraws y) sK sB = some (true, ck))
    (tr0 : TRef → Trlwe) (lw0 : LRef → List Torus)
    (hall : ∀ t ∈ simpleJobs, tlwe0DecryptBool P (bootOut P L ck ck.blindRotateTestvec
      (prepOf P t.1 (simpleBits t.2.1) (simpleBits t.2.2) (u t.2.1) (u t.2.2) (z.gate t.2.1 t.2.2))) (keyOf z.coins0)
            = some (t.1.eval (simpleBits t.2.1) (simpleBits t.2.2)))
    (h8 : nrm (f64ToTorus (u 8)) < 2 ^ 29) (h9 : nrm (f64ToTorus (u 9)) < 2 ^ 29) :
    simpleGatesMain P O (keyCoins z.coins0) (keyCoins z.coins1) ((R.withEntryMasks z.bsk).withDraws y) sK sB tr0 lw0
        (fun i => ((z.masks (Fin.ofNat 10 i)).draw, u (Fin.ofNat 10 i)))
      = some ([[false, false, true, true, false, true], [false, true, true, false, true, false],
          [false, true, true, false, true, false], [true, true, false, false, false, true]], [true, false]) := by
  obtain ⟨st, es, hst, -⟩ := newEvaluator_good W L hd tr0 lw0
  have row : ∀ (i j : Fin 10) (xa xb : Bool), simpleBits i = xa → simpleBits j = xb →
      (∀ g ∈ simpleGateList, (g, i, j) ∈ simpleJobs) → ∀ st, EvGood P L st →
      ∃ st', testGates P ck (keyOf z.coins0) (bitCt z.coins0 (z.masks i) xa (u i))
        (bitCt z.coins0 (z.masks j) xb (u j)) st simpleGateList
        = some (st', simpleGateList.map fun g => g.eval xa xb) ∧ EvGood P L st' := by
    rintro i j xa xb rfl rfl hmem st hst
    exact testGates_bootOut W L hd ck hg (keyOf z.coins0) _ _
      (fun g => prepOf P g (simpleBits i) (simpleBits j) (u i) (u j) (z.gate i j))
      (fun g => g.eval (simpleBits i) (simpleBits j))
      (fun g => gatePrepare_prepOf P g (simpleBits i) (simpleBits j) (u i) (u j) (z.gate i j))
      (fun g => by simp [prepOf, lin]) simpleGateList st hst fun g hgm => hall (g, i, j) (hmem g hgm)
  obtain ⟨st1, e1, g1⟩ := row 0 1 false false rfl rfl (by decide) st hst
  obtain ⟨st2, e2, g2⟩ := row 2 3 false true rfl rfl (by decide) st1 g1
  obtain ⟨st3, e3, g3⟩ := row 4 5 true false rfl rfl (by decide) st2 g2
  obtain ⟨st4, e4, g4⟩ := row 6 7 true true rfl rfl (by decide) st3 g3
  have hnots := C77_simpleNot (P := P) (s0 := keyOf z.coins0) (by simp [keyOf])
    [(false, (z.masks 8).draw, u 8), (true, (z.masks 9).draw, u 9)] (by
      intro t ht
      simp only [List.mem_cons, List.not_mem_nil, or_false] at ht
      rcases ht with rfl | rfl
      · exact h8
      · exact h9)
  unfold simpleGatesMain
  rw [es]
  simp only [Option.bind_eq_bind, Option.bind_some]
  rw [newSecretKey_keyOf W]
  simp only [Option.bind_some]
  rw [e]
  rw [show (Fin.ofNat 10 0 : Fin 10) = 0 from rfl, show (Fin.ofNat 10 1 : Fin 10) = 1 from rfl,
    show (Fin.ofNat 10 2 : Fin 10) = 2 from rfl, show (Fin.ofNat 10 3 : Fin 10) = 3 from rfl,
    show (Fin.ofNat 10 4 : Fin 10) = 4 from rfl, show (Fin.ofNat 10 5 : Fin 10) = 5 from rfl,
    show (Fin.ofNat 10 6 : Fin 10) = 6 from rfl, show (Fin.ofNat 10 7 : Fin 10) = 7 from rfl,
    show (Fin.ofNat 10 8 : Fin 10) = 8 from rfl, show (Fin.ofNat 10 9 : Fin 10) = 9 from rfl]
  simp only [Option.bind_some, simpleGatesLoop, Option.bind_eq_bind]
  rw [encryptBool_bitCt, encryptBool_bitCt, encryptBool_bitCt, encryptBool_bitCt, encryptBool_bitCt, encryptBool_bitCt,
    encryptBool_bitCt, encryptBool_bitCt]
  simp only [Option.bind_some]
  rw [e1]
  simp only [Option.bind_some]
  rw [e2]
  simp only [Option.bind_some]
  rw [e3]
  simp only [Option.bind_some]
  rw [e4]
  simp only [Option.bind_some, Option.pure_def]
  rw [hnots]
  rfl

end

section

variable {Ω Ωe : Type*} [MeasurableSpace Ω] [MeasurableSpace Ωe] {μ : Measure Ω} [IsProbabilityMeasure μ]
  {μe : Measure Ωe} [IsProbabilityMeasure μe]
variable {fl : ℚ → ℚ} (hfl : IsRound fl) {fu : Fusing} {ce : ℚ → ℚ × ℚ} (hce : CexpAccurate ce (1 / 2 ^ 52))

include hfl hce

/-- One of the gates `jobs` decrypts to a wrong bit. -/
theorem session_jobs (level : SecurityLevel) (hlev : level ≤ 0 ∨ 9 ≤ level) {e : PolyEval ℚ}
    (he : newPolyEval (floatArith fl fu mathPi ce) ((paramsFor level).trgswLv1.N : ℤ) = some e)
    (L : FourierLaws (fftOps (floatArith fl fu mathPi ce) e)) (R : KeyGenRand)
    {q : DrawIx → Ω → ℚ} (hq : NoiseDraws μ q (drawStd (paramsFor level))) {M : ℕ}
    {qe : Fin M → Ωe → ℚ} (hqe : NoiseDraws μe qe fun _ => ((kskAlpha (paramsFor level) : ℚ) : ℝ))
    (schedK schedB : Ω → SessionDice (paramsFor level) M → List ℕ)
    (ck : Ω → SessionDice (paramsFor level) M → CloudKey (fftOps (floatArith fl fu mathPi ce) e))
    (hck : ∀ ω z, newCloudKey (paramsFor level) (fftOps (floatArith fl fu mathPi ce) e) (keyOf z.coins0) (keyOf z.coins1)
        ((R.withEntryMasks z.bsk).withDraws fun d => q d ω) (schedK ω z) (schedB ω z) = some (true, ck ω z))
    (x : Fin M → Bool) (jobs : List (Gate2 × Fin M × Fin M)) (hj : ∀ t ∈ jobs, t.2.1 ≠ t.2.2) :
    ((μ.prod μe).prod (uniformOn (Set.univ : Set (SessionDice (paramsFor level) M))))
      {z | ∃ t ∈ jobs, tlwe0DecryptBool (paramsFor level) (bootOut (paramsFor level) L (ck z.1.1 z.2)
          (ck z.1.1 z.2).blindRotateTestvec (prepOf (paramsFor level) t.1 (x t.2.1) (x t.2.2) (qe t.2.1 z.1.2) (qe t.2.2 z.1.2)
            (z.2.gate t.2.1 t.2.2))) (keyOf z.2.coins0) ≠ some (t.1.eval (x t.2.1) (x t.2.2))}
      ≤ jobs.length * ENNReal.ofReal (1 / 2 ^ gateBits level) := by
  induction jobs with
  | nil => simp
  | cons t ts ih =>
    obtain ⟨g, i, j⟩ := t
    have hij : i ≠ j := hj _ List.mem_cons_self
    have hsub := hqe.precomp (fun b : Bool => if b then i else j) (by
      intro a b hab
      cases a <;> cases b <;> simp at hab ⊢
      · exact hij hab.symm
      · exact hij hab)
    obtain ⟨sK, sB, hs⟩ := exists_schedules level he R q
    have main := C87_gate_levels hfl hce level hlev he R hq hsub sK sB hs g (x i) (x j) (fun _ => ⟨[], []⟩) fun _ => []
    obtain ⟨-, hd, -⟩ := C67_errors hfl hce level he
    have W := C63_wellFormed level
    have key : ∀ (ω : Ω) (z : SessionDice (paramsFor level) M) (u v : ℚ),
        gateRun (paramsFor level) (fftOps (floatArith fl fu mathPi ce) e) g R (fun _ => ⟨[], []⟩) (fun _ => [])
          (sK ω (z.gate i j)) (sB ω (z.gate i j)) (x i) (x j) (fun d => q d ω) u v (z.gate i j)
        = tlwe0DecryptBool (paramsFor level) (bootOut (paramsFor level) L (ck ω z) (ck ω z).blindRotateTestvec
            (prepOf (paramsFor level) g (x i) (x j) u v (z.gate i j))) (keyOf z.coins0) := by
      intro ω z u v
      obtain ⟨sk, ck', e1, e2⟩ := hs ω (z.gate i j)
      rw [newSecretKey_keyOf W] at e1
      obtain rfl := Option.some.inj e1
      have hK := float_keys hfl hce level he (keyOf z.coins0) (keyOf z.coins1)
        ((R.withEntryMasks z.bsk).withDraws fun d => q d ω) (by simp [keyOf]) (by simp [keyOf]) (isBinary_keyOf _)
        (isBinary_keyOf _) (fun _ _ _ _ _ _ => nrm_le _) (fun _ _ _ _ _ _ => nrm_le _) _ _ _ (hck ω z)
      obtain rfl : ck ω z = ck' := newCloudKey_unique W L hd (keyOf z.coins0) (keyOf z.coins1)
        ((R.withEntryMasks z.bsk).withDraws fun d => q d ω) (by simp [keyOf]) (by simp [keyOf]) (isBinary_keyOf _)
        _ _ _ _ _ _ (hck ω z) e2
      exact gateRun_bootOut W L hd g R _ _ _ _ _ _ _ u v (z.gate i j) (ck ω z) (ckGood L hd (hK.2.2.1 L) hK.2.2.2) e2
    have h1 := (session_measure (P := paramsFor level) i j hij (μ.prod μe) _).trans main
    have h2 := ih fun t ht => hj t (List.mem_cons_of_mem _ ht)
    rw [List.length_cons, Nat.cast_succ, add_mul, one_mul, add_comm]
    refine (measure_mono ?_).trans ((measure_union_le _ _).trans (add_le_add h1 h2))
    rintro ⟨⟨ω, ω'⟩, z⟩ ⟨t, ht, hne⟩
    rcases List.mem_cons.1 ht with rfl | ht
    · refine .inl ?_
      show gateRun _ _ g R _ _ (sK ω (z.gate i j)) (sB ω (z.gate i j)) (x i) (x j) _ (qe i ω') (qe j ω') (z.gate i j) ≠ _
      rw [key]
      exact hne
    · exact .inr ⟨t, ht, hne⟩

/-- **C88**: key generation, any number of encryptions and any sequence of gates, each on two different ciphertexts, under
one cloud key and with one evaluator. Some gate gives a wrong bit with probability at most `2^-20` (80 bits), `2^-27` (110
bits) or `2^-30` (128 bits) times the number of gates. -/
theorem C88_session (level : SecurityLevel) (hlev : level ≤ 0 ∨ 9 ≤ level) {e : PolyEval ℚ}
    (he : newPolyEval (floatArith fl fu mathPi ce) ((paramsFor level).trgswLv1.N : ℤ) = some e) (R : KeyGenRand)
    {q : DrawIx → Ω → ℚ} (hq : NoiseDraws μ q (drawStd (paramsFor level))) {M : ℕ}
    {qe : Fin M → Ωe → ℚ} (hqe : NoiseDraws μe qe fun _ => ((kskAlpha (paramsFor level) : ℚ) : ℝ))
    (schedK schedB : Ω → SessionDice (paramsFor level) M → List ℕ)
    (hsched : ∀ ω z, ∃ sk ck, newSecretKey (paramsFor level) (keyCoins z.coins0) (keyCoins z.coins1) = some sk ∧
      newCloudKey (paramsFor level) (fftOps (floatArith fl fu mathPi ce) e) sk.keyLv0 sk.keyLv1
        ((R.withEntryMasks z.bsk).withDraws fun d => q d ω) (schedK ω z) (schedB ω z) = some (true, ck))
    (x : Fin M → Bool) (jobs : List (Gate2 × Fin M × Fin M)) (hj : ∀ t ∈ jobs, t.2.1 ≠ t.2.2)
    (tr0 : TRef → Trlwe) (lw0 : LRef → List Torus) :
    ((μ.prod μe).prod (uniformOn (Set.univ : Set (SessionDice (paramsFor level) M))))
      {z | sessionRun (paramsFor level) (fftOps (floatArith fl fu mathPi ce) e) R tr0 lw0 (schedK z.1.1 z.2) (schedB z.1.1 z.2)
          x (jobs.map fun t => (t.1, (t.2.1 : ℕ), (t.2.2 : ℕ))) (fun d => q d z.1.1) (fun i => qe i z.1.2) z.2
        ≠ some (jobs.map fun t => t.1.eval (x t.2.1) (x t.2.2))}
      ≤ ENNReal.ofReal (jobs.length / 2 ^ gateBits level) := by
  have W := C63_wellFormed level
  obtain ⟨⟨L, -⟩, hd, -⟩ := C67_errors hfl hce level he
  have hck : ∀ ω z, ∃ ck, newCloudKey (paramsFor level) (fftOps (floatArith fl fu mathPi ce) e) (keyOf z.coins0)
      (keyOf z.coins1) ((R.withEntryMasks z.bsk).withDraws fun d => q d ω) (schedK ω z) (schedB ω z) = some (true, ck) := by
    intro ω z
    obtain ⟨sk, ck, e1, e2⟩ := hsched ω z
    rw [newSecretKey_keyOf W] at e1
    obtain rfl := Option.some.inj e1
    exact ⟨ck, e2⟩
  choose ck hck using hck
  have main := session_jobs hfl hce level hlev he L R hq hqe schedK schedB ck hck x jobs hj
  rw [div_eq_mul_one_div, ENNReal.ofReal_mul (Nat.cast_nonneg _), ENNReal.ofReal_natCast]
  refine (measure_mono ?_).trans main
  rintro ⟨⟨ω, ω'⟩, z⟩ hne
  by_contra hall
  refine hne ?_
  have hall' : ∀ t ∈ jobs, tlwe0DecryptBool (paramsFor level) (bootOut (paramsFor level) L (ck ω z)
      (ck ω z).blindRotateTestvec (prepOf (paramsFor level) t.1 (x t.2.1) (x t.2.2) (qe t.2.1 ω') (qe t.2.2 ω')
        (z.gate t.2.1 t.2.2))) (keyOf z.coins0) = some (t.1.eval (x t.2.1) (x t.2.2)) := by
    intro t ht
    by_contra h
    exact hall ⟨t, ht, h⟩
  have hK := float_keys hfl hce level he (keyOf z.coins0) (keyOf z.coins1)
    ((R.withEntryMasks z.bsk).withDraws fun d => q d ω) (by simp [keyOf]) (by simp [keyOf]) (isBinary_keyOf _)
    (isBinary_keyOf _) (fun _ _ _ _ _ _ => nrm_le _) (fun _ _ _ _ _ _ => nrm_le _) _ _ _ (hck ω z)
  obtain ⟨st, es, hst, -⟩ := newEvaluator_good W L hd tr0 lw0
  have hg := sessionGates_eq W L hd z x (fun i => qe i ω') (ck ω z) (ckGood L hd (hK.2.2.1 L) hK.2.2.2) jobs st hst hall'
  show sessionRun (paramsFor level) _ R tr0 lw0 (schedK ω z) (schedB ω z) x _ (fun d => q d ω) (fun i => qe i ω') z = _
  unfold sessionRun
  rw [es]
  simp only [Option.bind_eq_bind, Option.bind_some]
  rw [newSecretKey_keyOf W]
  simp only [Option.bind_some]
  rw [hck ω z]
  simp only [Option.bind_some]
  rw [mapM_some _ (fun i => bitCt z.coins0 (z.masks i) (x i) (qe i ω')) _ fun i _ => encryptBool_bitCt _ _ _ _ _]
  exact hg

/-- **C88**: the whole of `simple_gates`: key generation, ten encryptions, 24 gates under one cloud key and with one
evaluator, and two `NOT`s. It prints the six truth tables and that of `NOT`, except with probability `25 / 2^30` (128 bits),
`25 / 2^27` (110 bits) or `25 / 2^20` (80 bits). -/
theorem C88_simpleGates (level : SecurityLevel) (hlev : level ≤ 0 ∨ 9 ≤ level) {e : PolyEval ℚ}
    (he : newPolyEval (floatArith fl fu mathPi ce) ((paramsFor level).trgswLv1.N : ℤ) = some e) (R : KeyGenRand)
    {q : DrawIx → Ω → ℚ} (hq : NoiseDraws μ q (drawStd (paramsFor level)))
    {qe : Fin 10 → Ωe → ℚ} (hqe : NoiseDraws μe qe fun _ => ((kskAlpha (paramsFor level) : ℚ) : ℝ))
    (schedK schedB : Ω → SessionDice (paramsFor level) 10 → List ℕ)
    (hsched : ∀ ω z, ∃ sk ck, newSecretKey (paramsFor level) (keyCoins z.coins0) (keyCoins z.coins1) = some sk ∧
      newCloudKey (paramsFor level) (fftOps (floatArith fl fu mathPi ce) e) sk.keyLv0 sk.keyLv1
        ((R.withEntryMasks z.bsk).withDraws fun d => q d ω) (schedK ω z) (schedB ω z) = some (true, ck))
    (tr0 : TRef → Trlwe) (lw0 : LRef → List Torus) :
    ((μ.prod μe).prod (uniformOn (Set.univ : Set (SessionDice (paramsFor level) 10))))
      {z | simpleGatesMain (paramsFor level) (fftOps (floatArith fl fu mathPi ce) e) (keyCoins z.2.coins0) (keyCoins z.2.coins1)
          ((R.withEntryMasks z.2.bsk).withDraws fun d => q d z.1.1) (schedK z.1.1 z.2) (schedB z.1.1 z.2) tr0 lw0
          (fun i => ((z.2.masks (Fin.ofNat 10 i)).draw, qe (Fin.ofNat 10 i) z.1.2))
        ≠ some ([[false, false, true, true, false, true], [false, true, true, false, true, false],
          [false, true, true, false, true, false], [true, true, false, false, false, true]], [true, false])}
      ≤ ENNReal.ofReal (25 / 2 ^ gateBits level) := by
  have W := C63_wellFormed level
  obtain ⟨⟨L, -⟩, hd, -⟩ := C67_errors hfl hce level he
  have hck : ∀ ω z, ∃ ck, newCloudKey (paramsFor level) (fftOps (floatArith fl fu mathPi ce) e) (keyOf z.coins0)
      (keyOf z.coins1) ((R.withEntryMasks z.bsk).withDraws fun d => q d ω) (schedK ω z) (schedB ω z) = some (true, ck) := by
    intro ω z
    obtain ⟨sk, ck, e1, e2⟩ := hsched ω z
    rw [newSecretKey_keyOf W] at e1
    obtain rfl := Option.some.inj e1
    exact ⟨ck, e2⟩
  choose ck hck using hck
  have iS : IsProbabilityMeasure (uniformOn (Set.univ : Set (SessionDice (paramsFor level) 10))) :=
    uniformOn_isProbabilityMeasure Set.finite_univ Set.univ_nonempty
  have main := session_jobs hfl hce level hlev he L R hq hqe schedK schedB ck hck simpleBits simpleJobs (by decide)
  have hnot : ∀ i, ((μ.prod μe).prod (uniformOn (Set.univ : Set (SessionDice (paramsFor level) 10))))
      {z | 2 ^ 29 ≤ nrm (f64ToTorus (qe i z.1.2))} ≤ ENNReal.ofReal (1 / 2 ^ 1000) := by
    intro i
    have h := C79_noise level (hqe.precomp (fun _ : Unit => i) fun _ _ _ => rfl)
    rw [(msgBits_gate level hlev).2] at h
    exact prod_fst_le (fun ω : Ω × Ωe => 2 ^ 29 ≤ nrm (f64ToTorus (qe i ω.2))) _
      (prod_snd_le (fun ω : Ωe => 2 ^ 29 ≤ nrm (f64ToTorus (qe i ω))) _ h)
  have cover : {z : (Ω × Ωe) × SessionDice (paramsFor level) 10 |
        simpleGatesMain (paramsFor level) (fftOps (floatArith fl fu mathPi ce) e) (keyCoins z.2.coins0) (keyCoins z.2.coins1)
          ((R.withEntryMasks z.2.bsk).withDraws fun d => q d z.1.1) (schedK z.1.1 z.2) (schedB z.1.1 z.2) tr0 lw0
          (fun i => ((z.2.masks (Fin.ofNat 10 i)).draw, qe (Fin.ofNat 10 i) z.1.2))
        ≠ some ([[false, false, true, true, false, true], [false, true, true, false, true, false],
          [false, true, true, false, true, false], [true, true, false, false, false, true]], [true, false])} ⊆
      {z | ∃ t ∈ simpleJobs, tlwe0DecryptBool (paramsFor level) (bootOut (paramsFor level) L (ck z.1.1 z.2)
          (ck z.1.1 z.2).blindRotateTestvec (prepOf (paramsFor level) t.1 (simpleBits t.2.1) (simpleBits t.2.2)
            (qe t.2.1 z.1.2) (qe t.2.2 z.1.2) (z.2.gate t.2.1 t.2.2))) (keyOf z.2.coins0)
              ≠ some (t.1.eval (simpleBits t.2.1) (simpleBits t.2.2))}
        ∪ ({z | 2 ^ 29 ≤ nrm (f64ToTorus (qe 8 z.1.2))} ∪ {z | 2 ^ 29 ≤ nrm (f64ToTorus (qe 9 z.1.2))}) := by
    rintro ⟨⟨ω, ω'⟩, z⟩ hne
    by_contra hcon
    have h8 : nrm (f64ToTorus (qe 8 ω')) < 2 ^ 29 := not_le.1 fun h => hcon (.inr (.inl h))
    have h9 : nrm (f64ToTorus (qe 9 ω')) < 2 ^ 29 := not_le.1 fun h => hcon (.inr (.inr h))
    have hall : ∀ t ∈ simpleJobs, tlwe0DecryptBool (paramsFor level) (bootOut (paramsFor level) L (ck ω z)
        (ck ω z).blindRotateTestvec (prepOf (paramsFor level) t.1 (simpleBits t.2.1) (simpleBits t.2.2)
          (qe t.2.1 ω') (qe t.2.2 ω') (z.gate t.2.1 t.2.2))) (keyOf z.coins0)
            = some (t.1.eval (simpleBits t.2.1) (simpleBits t.2.2)) := by
      intro t ht
      by_contra h
      exact hcon (.inl ⟨t, ht, h⟩)
    refine hne ?_
    have hK := float_keys hfl hce level he (keyOf z.coins0) (keyOf z.coins1)
      ((R.withEntryMasks z.bsk).withDraws fun d => q d ω) (by simp [keyOf]) (by simp [keyOf]) (isBinary_keyOf _)
      (isBinary_keyOf _) (fun _ _ _ _ _ _ => nrm_le _) (fun _ _ _ _ _ _ => nrm_le _) _ _ _ (hck ω z)
    have hg := ckGood L hd (hK.2.2.1 L) hK.2.2.2
    exact simpleMain_right W L hd R z (fun i => qe i ω') (fun d => q d ω) _ _ (ck ω z) hg (hck ω z) tr0 lw0 hall h8 h9
  refine (measure_mono cover).trans ((measure_union_le _ _).trans ((add_le_add main ((measure_union_le _ _).trans
    (add_le_add (hnot 8) (hnot 9)))).trans ?_))
  have hb : gateBits level ≤ 30 := by unfold gateBits; split_ifs <;> omega
  rw [show (simpleJobs.length : ENNReal) = ENNReal.ofReal 24 by
      rw [show simpleJobs.length = 24 from by decide]; simp, ← ENNReal.ofReal_mul (by norm_num),
    ← ENNReal.ofReal_add (by positivity) (by positivity), ← ENNReal.ofReal_add (by positivity) (by positivity)]
  refine ENNReal.ofReal_le_ofReal ?_
  have h1 : (1 : ℝ) / 2 ^ 1000 ≤ 1 / 2 ^ (gateBits level + 1) :=
    one_div_le_one_div_of_le (by positivity) (pow_le_pow_right₀ (by norm_num) (by omega))
  have h2 : (1 : ℝ) / 2 ^ (gateBits level + 1) = 1 / 2 ^ gateBits level / 2 := by rw [pow_succ, div_div]
  have h3 : (25 : ℝ) / 2 ^ gateBits level = 25 * (1 / 2 ^ gateBits level) := by ring
  rw [h3]
  linarith

end

/-- Key generation can finish, for every outcome of the random numbers. -/
theorem exists_session_schedules {fl : ℚ → ℚ} {fu : Fusing} {ce : ℚ → ℚ × ℚ} (level : SecurityLevel) (M : ℕ) {e : PolyEval ℚ}
    (he : newPolyEval (floatArith fl fu mathPi ce) ((paramsFor level).trgswLv1.N : ℤ) = some e) (R : KeyGenRand) {Ω : Type*}
    (q : DrawIx → Ω → ℚ) : ∃ schedK schedB : Ω → SessionDice (paramsFor level) M → List ℕ,
      ∀ ω z, ∃ sk ck, newSecretKey (paramsFor level) (keyCoins z.coins0) (keyCoins z.coins1) = some sk ∧
      newCloudKey (paramsFor level) (fftOps (floatArith fl fu mathPi ce) e) sk.keyLv0 sk.keyLv1
        ((R.withEntryMasks z.bsk).withDraws fun d => q d ω) (schedK ω z) (schedB ω z) = some (true, ck) := by
  obtain ⟨sK, sB, h⟩ := exists_schedules level he R q
  exact ⟨fun ω z => sK ω ⟨z.coins0, z.coins1, z.bsk, 0, 0⟩, fun ω z => sB ω ⟨z.coins0, z.coins1, z.bsk, 0, 0⟩,
    fun ω z => h ω ⟨z.coins0, z.coins1, z.bsk, 0, 0⟩⟩

/-- Non-vacuity of `C88_simpleGates`: normal noise cut off to 60 binary places, 128 bits. -/
example (fu : Fusing) (R : KeyGenRand) : ∃ (fl : ℚ → ℚ) (ce : ℚ → ℚ × ℚ) (e : PolyEval ℚ)
    (sK sB : (DrawIx → ℝ) → SessionDice (paramsFor 128) 10 → List ℕ),
    (((normals (drawStd (paramsFor 128))).prod (normals fun _ : Fin 10 => ((kskAlpha (paramsFor 128) : ℚ) : ℝ))).prod
        (uniformOn (Set.univ : Set (SessionDice (paramsFor 128) 10))))
      {z | simpleGatesMain (paramsFor 128) (fftOps (floatArith fl fu mathPi ce) e) (keyCoins z.2.coins0) (keyCoins z.2.coins1)
          ((R.withEntryMasks z.2.bsk).withDraws fun d => cutNormal 60 d z.1.1) (sK z.1.1 z.2) (sB z.1.1 z.2)
          (fun _ => ⟨[], []⟩) (fun _ => []) (fun i => ((z.2.masks (Fin.ofNat 10 i)).draw, cutNormal 60 (Fin.ofNat 10 i) z.1.2))
        ≠ some ([[false, false, true, true, false, true], [false, true, true, false, true, false],
          [false, true, true, false, true, false], [true, true, false, false, false, true]], [true, false])}
      ≤ ENNReal.ofReal (25 / 2 ^ 30) := by
  obtain ⟨ce, hce⟩ := exists_cexp (1 / 2 ^ 52) (by norm_num)
  have he : newPolyEval (floatArith rne fu mathPi ce) ((paramsFor 128).trgswLv1.N : ℤ) = some (pev (floatArith rne fu mathPi ce) 9) :=
    (newPolyEval_some _ 1024 _).2 ⟨9, by norm_num, by norm_num, rfl⟩
  obtain ⟨sK, sB, h⟩ := exists_session_schedules 128 10 he R (cutNormal 60 : DrawIx → (DrawIx → ℝ) → ℚ)
  exact ⟨rne, ce, pev (floatArith rne fu mathPi ce) 9, sK, sB,
    C88_simpleGates isRound_rne hce 128 (by norm_num) he R (noiseDraws_normal (drawStd (paramsFor 128)) 60)
      (noiseDraws_normal (fun _ : Fin 10 => ((kskAlpha (paramsFor 128) : ℚ) : ℝ)) 60) sK sB h _ _⟩

/-- Non-vacuity of `C88_session`: a thousand ciphertexts, and the NAND of the first with every other one, 128 bits. -/
example (fu : Fusing) (R : KeyGenRand) (x : Fin 1000 → Bool) : ∃ (fl : ℚ → ℚ) (ce : ℚ → ℚ × ℚ) (e : PolyEval ℚ)
    (sK sB : (DrawIx → ℝ) → SessionDice (paramsFor 128) 1000 → List ℕ),
    (((normals (drawStd (paramsFor 128))).prod (normals fun _ : Fin 1000 => ((kskAlpha (paramsFor 128) : ℚ) : ℝ))).prod
        (uniformOn (Set.univ : Set (SessionDice (paramsFor 128) 1000))))
      {z | sessionRun (paramsFor 128) (fftOps (floatArith fl fu mathPi ce) e) R (fun _ => ⟨[], []⟩) (fun _ => [])
          (sK z.1.1 z.2) (sB z.1.1 z.2) x
          ((((List.finRange 999).map fun i => (Gate2.nand, (0 : Fin 1000), i.succ)) : List (Gate2 × Fin 1000 × Fin 1000)).map
            fun t => (t.1, (t.2.1 : ℕ), (t.2.2 : ℕ)))
          (fun d => cutNormal 60 d z.1.1) (fun i => cutNormal 60 i z.1.2) z.2
        ≠ some (((List.finRange 999).map fun i => (Gate2.nand, (0 : Fin 1000), i.succ)).map
          fun t : Gate2 × Fin 1000 × Fin 1000 => t.1.eval (x t.2.1) (x t.2.2))}
      ≤ ENNReal.ofReal (((List.finRange 999).map fun i => (Gate2.nand, (0 : Fin 1000), i.succ)).length / 2 ^ 30) := by
  obtain ⟨ce, hce⟩ := exists_cexp (1 / 2 ^ 52) (by norm_num)
  have he : newPolyEval (floatArith rne fu mathPi ce) ((paramsFor 128).trgswLv1.N : ℤ) = some (pev (floatArith rne fu mathPi ce) 9) :=
    (newPolyEval_some _ 1024 _).2 ⟨9, by norm_num, by norm_num, rfl⟩
  obtain ⟨sK, sB, h⟩ := exists_session_schedules 128 1000 he R (cutNormal 60 : DrawIx → (DrawIx → ℝ) → ℚ)
  refine ⟨rne, ce, pev (floatArith rne fu mathPi ce) 9, sK, sB,
    C88_session isRound_rne hce 128 (by norm_num) he R (noiseDraws_normal (drawStd (paramsFor 128)) 60)
      (noiseDraws_normal (fun _ : Fin 1000 => ((kskAlpha (paramsFor 128) : ℚ) : ℝ)) 60) sK sB h x _ ?_ _ _⟩
  intro t ht
  obtain ⟨i, -, rfl⟩ := List.mem_map.1 ht
  exact (Fin.succ_ne_zero i).symm

end GoTfhe
