import Verif.Props.LostBits
import Verif.Props.NoiseProb

/-!
# C87: the probability that a gate fails, from key generation to decryption
-/

namespace GoTfhe

open MeasureTheory ProbabilityTheory Finset

/-- The bound on the rounding errors. -/
def roundLimit (P : Params) (W0 W1 B T : ℕ) : ℕ := 8192 * B + (T + 8192 * W1 + 160 * (W0 * W1)) + roundRest P 29 W0 W1

/-- The bound on the probability of failure: weights of the two keys, noise of the two encryptions, noise of the cloud key,
mean and fluctuation of the lost bits. -/
noncomputable def gateFail (P : Params) (W0 W1 B T E : ℕ) (lam X η : ℝ) : ℝ :=
  Real.exp (-(2 * (W0 + 1 - P.tlweLv0.N / 2 : ℝ) ^ 2 / P.tlweLv0.N))
    + Real.exp (-(2 * (W1 + 1 - P.trgswLv1.N / 2 : ℝ) ^ 2 / P.trgswLv1.N))
    + 2 * (2 * Real.exp (-((E : ℝ) ^ 2 / (2 * (2 ^ 32 * ((kskAlpha P : ℚ) : ℝ)) ^ 2))))
    + 2 * Real.exp (-(((2 ^ 29 - roundLimit P W0 W1 B T : ℕ) : ℝ) ^ 2 / (2 * keyVar P)))
    + 2 * Real.exp (-(lam * B) + lam * W1 + biasExp P.tlweLv0.N P.trgswLv1.N lam X η)
    + (2 * Real.exp (-((T : ℝ) ^ 2 / (8 * 8320 ^ 2 * (W0 * W1))))
          + 2 * (P.tlweLv0.N * (1 / 2) ^ 2 ^ (P.trgswLv1.NBIT - 1)))

theorem lostBias_prepOf (P : Params) (g : Gate2) (xa xb : Bool) (u v u' v' : ℚ) (x : GateDice P) (s0 s1 : List Torus) :
    lostBias P (prepOf P g xa xb u v x) s0 s1 = lostBias P (prepOf P g xa xb u' v' x) s0 s1 := by
  refine lostBias_congr P _ _ _ _ fun i hi => ?_
  unfold prepOf lin
  rw [at'_tab _ _ _ (by omega), at'_tab _ _ _ (by omega), at'_bitCt _ _ _ _ _ hi, at'_bitCt _ _ _ _ _ hi,
    at'_bitCt _ _ _ _ _ hi, at'_bitCt _ _ _ _ _ hi]

/-- The draws of the bootstrapping key as a finite family. -/
abbrev BskDraws (P : Params) := Fin P.tlweLv0.N → Fin (P.trgswLv1.L * 2) → Fin P.trgswLv1.N → ℚ

/-- The family as draws of key generation. -/
def BskDraws.ext {P : Params} (z : BskDraws P) : DrawIx → ℚ
  | .inl (i, j, k) => if h : i < P.tlweLv0.N ∧ j < P.trgswLv1.L * 2 ∧ k < P.trgswLv1.N
      then z ⟨i, h.1⟩ ⟨j, h.2.1⟩ ⟨k, h.2.2⟩ else 0
  | .inr _ => 0

theorem mult_le (g : Gate2) : g.mult ≤ 2 := by cases g <;> decide

section

variable {Ω Ωe : Type*} [MeasurableSpace Ω] [MeasurableSpace Ωe] {μ : Measure Ω} [IsProbabilityMeasure μ]
  {μe : Measure Ωe} [IsProbabilityMeasure μe]
variable {fl : ℚ → ℚ} (hfl : IsRound fl) {fu : Fusing} {ce : ℚ → ℚ × ℚ} (hce : CexpAccurate ce (1 / 2 ^ 52))

include hfl hce

/-- The noise of the cloud key, everything else fixed. -/
theorem gateRun_noise (level : SecurityLevel) {e : PolyEval ℚ}
    (he : newPolyEval (floatArith fl fu mathPi ce) ((paramsFor level).trgswLv1.N : ℤ) = some e)
    (L : FourierLaws (fftOps (floatArith fl fu mathPi ce) e)) (R : KeyGenRand)
    {q : DrawIx → Ω → ℚ} (hq : NoiseDraws μ q (drawStd (paramsFor level))) (x : GateDice (paramsFor level))
    (schedK schedB : Ω → List ℕ) (ck : Ω → CloudKey (fftOps (floatArith fl fu mathPi ce) e))
    (hck : ∀ ω, newCloudKey (paramsFor level) _ (keyOf x.coins0) (keyOf x.coins1)
      ((R.withEntryMasks x.bsk).withDraws fun d => q d ω) (schedK ω) (schedB ω) = some (true, ck ω))
    (g : Gate2) (xa xb : Bool) (tr0 : TRef → Trlwe) (lw0 : LRef → List Torus) (u v : ℚ)
    (hm : nrm (f64ToTorus u) + g.mult * nrm (f64ToTorus v)
      + drift (paramsFor level) (weight (paramsFor level).tlweLv0.N (keyOf x.coins0)) < 2 ^ 29)
    (ρ : ℕ) (hρ : ρ ≤ 2 ^ 29) :
    μ {ω | gateRun (paramsFor level) (fftOps (floatArith fl fu mathPi ce) e) g R tr0 lw0 (schedK ω) (schedB ω) xa xb
          (fun d => q d ω) u v x ≠ some (g.eval xa xb) ∧
        nrm (bootRound (paramsFor level) L (ck ω) (keyOf x.coins0) (keyOf x.coins1) (gateTestvec (paramsFor level))
          (prepOf (paramsFor level) g xa xb u v x) fun d => q d ω) ≤ ρ}
      ≤ ENNReal.ofReal (2 * Real.exp (-(((2 ^ 29 - ρ : ℕ) : ℝ) ^ 2 / (2 * keyVar (paramsFor level))))) := by
  have W := C63_wellFormed level
  have enc : ∀ (m : Mask (paramsFor level).tlweLv0.N) (b : Bool) (t : ℚ),
      Enc (paramsFor level).tlweLv0.N (bitCt x.coins0 m b t) (keyOf x.coins0) b (f64ToTorus t) := by
    intro m b t
    obtain ⟨c, e1, e2⟩ := enc_of_encryptBool (paramsFor level) (newTLWELv0 (paramsFor level)) (keyOf x.coins0) b m.draw t
      (by simp [keyOf]) (by simp [newTLWELv0])
    rw [encryptBool_bitCt] at e1
    exact Option.some.inj e1 ▸ e2
  obtain ⟨st, prep, out, est, eprep, eout, h⟩ := C78_gate hfl hce level he (keyOf x.coins0) (keyOf x.coins1) (by simp [keyOf])
    (by simp [keyOf]) (isBinary_keyOf _) (isBinary_keyOf _) (R.withEntryMasks x.bsk) hq schedK schedB ck hck g
    (bitCt x.coins0 x.maskA xa u) (bitCt x.coins0 x.maskB xb v) xa xb _ _ (enc _ _ _) (enc _ _ _) hm tr0 lw0
  obtain rfl := Option.some.inj ((gatePrepare_prepOf (paramsFor level) g xa xb u v x).symm.trans eprep)
  refine le_trans (measure_mono ?_) (h L ρ hρ)
  rintro ω ⟨h1, h2⟩
  refine ⟨fun h3 => h1 ?_, h2⟩
  obtain ⟨st', eg⟩ := eout ω
  unfold gateRun
  rw [newSecretKey_keyOf W]
  simp only [Option.bind_eq_bind, Option.bind_some]
  rw [hck ω]
  simp only [Option.bind_some]
  rw [encryptBool_bitCt, encryptBool_bitCt, est]
  simp only [Option.bind_some]
  rw [eg]
  exact h3

/-- **C87**: all the random numbers at once. The coins of the secret keys, the masks of the bootstrapping key and of the
ciphertexts are uniform; the noise of the cloud key and of the encryptions is Gaussian. The bit that is decrypted is wrong
with probability at most `gateFail`. -/
theorem C87_gate (level : SecurityLevel) (hlev : level ≤ 0 ∨ 9 ≤ level) {e : PolyEval ℚ}
    (he : newPolyEval (floatArith fl fu mathPi ce) ((paramsFor level).trgswLv1.N : ℤ) = some e) (R : KeyGenRand)
    {q : DrawIx → Ω → ℚ} (hq : NoiseDraws μ q (drawStd (paramsFor level)))
    {qe : Bool → Ωe → ℚ} (hqe : NoiseDraws μe qe fun _ => ((kskAlpha (paramsFor level) : ℚ) : ℝ))
    (schedK schedB : Ω → GateDice (paramsFor level) → List ℕ)
    (hsched : ∀ ω x, ∃ sk ck, newSecretKey (paramsFor level) (keyCoins x.coins0) (keyCoins x.coins1) = some sk ∧
      newCloudKey (paramsFor level) (fftOps (floatArith fl fu mathPi ce) e) sk.keyLv0 sk.keyLv1
        ((R.withEntryMasks x.bsk).withDraws fun d => q d ω) (schedK ω x) (schedB ω x) = some (true, ck))
    (g : Gate2) (xa xb : Bool) (tr0 : TRef → Trlwe) (lw0 : LRef → List Torus)
    (W0 W1 B T E : ℕ) (hw0 : (paramsFor level).tlweLv0.N ≤ 2 * W0) (hw1 : (paramsFor level).trgswLv1.N ≤ 2 * W1)
    (hT : T ≤ 16640 * (W0 * W1)) (hE : 3 * E + drift (paramsFor level) W0 ≤ 2 ^ 29)
    (hρ : roundLimit (paramsFor level) W0 W1 B T ≤ 2 ^ 29) (lam X η : ℝ) (hl : 0 ≤ lam)
    (hX : lam * W1 ≤ X) (hX1 : X ≤ 1) (hη : 0 < η)
    (hs : 2 * (1 + 1 / η) * (paramsFor level).trgswLv1.N
      * ((paramsFor level).tlweLv0.N * (1 + 5 / 48 * X ^ 2) * lam ^ 2 / 4 / 4) < 1) :
    ((μ.prod μe).prod (uniformOn (Set.univ : Set (GateDice (paramsFor level)))))
      {z | gateRun (paramsFor level) (fftOps (floatArith fl fu mathPi ce) e) g R tr0 lw0 (schedK z.1.1 z.2) (schedB z.1.1 z.2)
        xa xb (fun d => q d z.1.1) (qe true z.1.2) (qe false z.1.2) z.2 ≠ some (g.eval xa xb)}
      ≤ ENNReal.ofReal (gateFail (paramsFor level) W0 W1 B T E lam X η) := by
  have hσ : 0 < ((kskAlpha (paramsFor level) : ℚ) : ℝ) := by exact_mod_cast (alpha_levels level).1.1
  obtain ⟨hL, hb6, -, hfe⟩ := gate_digits level hlev
  obtain ⟨⟨L, -⟩, hd, hacc⟩ := C67_errors hfl hce level he
  have hacc0 := float_accurate0 hfl hce level he L
  have hA := hacc L
  have W := C63_wellFormed level
  rw [hfe] at hA
  have hck : ∀ ω x, ∃ ck, newCloudKey (paramsFor level) (fftOps (floatArith fl fu mathPi ce) e) (keyOf x.coins0)
      (keyOf x.coins1) ((R.withEntryMasks x.bsk).withDraws fun d => q d ω) (schedK ω x) (schedB ω x) = some (true, ck) := by
    intro ω x
    obtain ⟨sk, ck, e1, e2⟩ := hsched ω x
    rw [newSecretKey_keyOf W] at e1
    obtain rfl := Option.some.inj e1
    exact ⟨ck, e2⟩
  choose ck hck using hck
  have noise := fun x => gateRun_noise hfl hce level he L R hq x (fun ω => schedK ω x) (fun ω => schedB ω x)
    (fun ω => ck ω x) (fun ω => hck ω x) g xa xb tr0 lw0
  generalize paramsFor level = P at *
  have hN : 0 < P.trgswLv1.N := by have := W.min_degree; omega
  have h0 := W.lv0_pos
  have hW01 : 0 < W0 * W1 := Nat.mul_pos (by omega) (by omega)
  set U := uniformOn (Set.univ : Set (GateDice P)) with hU
  have iU : IsProbabilityMeasure U := uniformOn_isProbabilityMeasure Set.finite_univ Set.univ_nonempty
  set M := (μ.prod μe).prod U with hM
  set ρ := roundLimit P W0 W1 B T with hρd
  -- the events
  have u0 : M {z | W0 < weight P.tlweLv0.N (keyOf z.2.coins0)} ≤ ENNReal.ofReal _ :=
    prod_snd_le (fun x : GateDice P => W0 < weight P.tlweLv0.N (keyOf x.coins0)) _ ((le_of_eq (uniformOn_uprob _)).trans <| ENNReal.ofReal_le_ofReal (dice_weight0 P h0 W0 hw0))
  have u1 : M {z | W1 < weight P.trgswLv1.N (keyOf z.2.coins1)} ≤ ENNReal.ofReal _ :=
    prod_snd_le (fun x : GateDice P => W1 < weight P.trgswLv1.N (keyOf x.coins1)) _ ((le_of_eq (uniformOn_uprob _)).trans <| ENNReal.ofReal_le_ofReal (dice_weight1 P hN W1 hw1))
  have u2 : ∀ b, M {z | E ≤ nrm (f64ToTorus (qe b z.1.2))} ≤ ENNReal.ofReal _ := fun b =>
    prod_fst_le (fun ω : Ω × Ωe => E ≤ nrm (f64ToTorus (qe b ω.2))) _
      (prod_snd_le (fun ω : Ωe => E ≤ nrm (f64ToTorus (qe b ω))) _ (C79_draw hqe b hσ E))
  have u3 : M {z | weight P.trgswLv1.N (keyOf z.2.coins1) ≤ W1 ∧
      (B : ℝ) ≤ |((lostBias P (prepOf P g xa xb 0 0 z.2) (keyOf z.2.coins0) (keyOf z.2.coins1) : ℤ) : ℝ)|} ≤ ENNReal.ofReal _ :=
    prod_snd_le (fun x : GateDice P => weight P.trgswLv1.N (keyOf x.coins1) ≤ W1 ∧
      (B : ℝ) ≤ |((lostBias P (prepOf P g xa xb 0 0 x) (keyOf x.coins0) (keyOf x.coins1) : ℤ) : ℝ)|) _ ((le_of_eq (uniformOn_uprob _)).trans <| ENNReal.ofReal_le_ofReal (dice_bias W g xa xb 0 0 lam X η hl W1 hX hX1 hη hs B))
  let f : Ω × Ωe → BskDraws P × ℚ × ℚ := fun ω =>
    (fun i j k => q (.inl (i, j, k)) ω.1, qe true ω.2, qe false ω.2)
  have hf : ∀ z, MeasurableSet (f ⁻¹' {z}) := fun z => by
    have : Measurable f := by
      refine Measurable.prodMk ?_ (Measurable.prodMk ((hqe.measurable true).comp measurable_snd)
        ((hqe.measurable false).comp measurable_snd))
      exact measurable_pi_lambda _ fun i => measurable_pi_lambda _ fun j => measurable_pi_lambda _ fun k =>
        (hq.measurable _).comp measurable_fst
    exact this (measurableSet_singleton z)
  have u4 : M {z | weight P.tlweLv0.N (keyOf z.2.coins0) ≤ W0 ∧ weight P.trgswLv1.N (keyOf z.2.coins1) ≤ W1 ∧
      (T : ℝ) + 8192 * W1 + 160 * (W0 * W1) ≤ |(lostFluct P L (keyOf z.2.coins0) (keyOf z.2.coins1)
        (R.withDraws (f z.1).1.ext) (gateTv P) (prepOf P g xa xb (f z.1).2.1 (f z.1).2.2 z.2) z.2.bsk : ℝ)|} ≤ ENNReal.ofReal _ :=
    prod_discrete_le f hf (fun z (x : GateDice P) => weight P.tlweLv0.N (keyOf x.coins0) ≤ W0 ∧
      weight P.trgswLv1.N (keyOf x.coins1) ≤ W1 ∧
      (T : ℝ) + 8192 * W1 + 160 * (W0 * W1) ≤ |(lostFluct P L (keyOf x.coins0) (keyOf x.coins1)
        (R.withDraws z.1.ext) (gateTv P) (prepOf P g xa xb z.2.1 z.2.2 x) x.bsk : ℝ)|) _ fun z =>
      (le_of_eq (uniformOn_uprob _)).trans <| ENNReal.ofReal_le_ofReal (dice_fluct W L hd hacc0 (by norm_num : 29 ≤ 32) hA.1 hL hb6 (R.withDraws z.1.ext)
        g xa xb z.2.1 z.2.2 W0 W1 hW01 (T : ℝ) (Nat.cast_nonneg T) (by exact_mod_cast hT))
  have u5 : M {z | (weight P.tlweLv0.N (keyOf z.2.coins0) ≤ W0 ∧ nrm (f64ToTorus (qe true z.1.2)) < E ∧
        nrm (f64ToTorus (qe false z.1.2)) < E) ∧
      gateRun P (fftOps (floatArith fl fu mathPi ce) e) g R tr0 lw0 (schedK z.1.1 z.2) (schedB z.1.1 z.2)
        xa xb (fun d => q d z.1.1) (qe true z.1.2) (qe false z.1.2) z.2 ≠ some (g.eval xa xb) ∧
      nrm (bootRound P L (ck z.1.1 z.2) (keyOf z.2.coins0) (keyOf z.2.coins1) (gateTestvec P)
          (prepOf P g xa xb (qe true z.1.2) (qe false z.1.2) z.2) fun d => q d z.1.1) ≤ ρ}
      ≤ ENNReal.ofReal (2 * Real.exp (-(((2 ^ 29 - ρ : ℕ) : ℝ) ^ 2 / (2 * keyVar P)))) := by
    refine prod_uniform_le' (fun (ω : Ω × Ωe) (x : GateDice P) => (weight P.tlweLv0.N (keyOf x.coins0) ≤ W0 ∧
        nrm (f64ToTorus (qe true ω.2)) < E ∧ nrm (f64ToTorus (qe false ω.2)) < E) ∧
      gateRun P (fftOps (floatArith fl fu mathPi ce) e) g R tr0 lw0 (schedK ω.1 x) (schedB ω.1 x)
        xa xb (fun d => q d ω.1) (qe true ω.2) (qe false ω.2) x ≠ some (g.eval xa xb) ∧
      nrm (bootRound P L (ck ω.1 x) (keyOf x.coins0) (keyOf x.coins1) (gateTestvec P)
          (prepOf P g xa xb (qe true ω.2) (qe false ω.2) x) fun d => q d ω.1) ≤ ρ) _ ?_
    refine (Finset.sum_le_card_nsmul univ _ _ fun x _ => ?_).trans (le_of_eq (nsmul_eq_mul _ _))
    refine prod_discrete_le' (fun ω : Ωe => (qe true ω, qe false ω)) (fun z =>
      ((hqe.measurable true).prodMk (hqe.measurable false)) (measurableSet_singleton z))
      (fun (t : ℚ × ℚ) (ω : Ω) => (weight P.tlweLv0.N (keyOf x.coins0) ≤ W0 ∧
        nrm (f64ToTorus t.1) < E ∧ nrm (f64ToTorus t.2) < E) ∧
      gateRun P (fftOps (floatArith fl fu mathPi ce) e) g R tr0 lw0 (schedK ω x) (schedB ω x)
        xa xb (fun d => q d ω) t.1 t.2 x ≠ some (g.eval xa xb) ∧
      nrm (bootRound P L (ck ω x) (keyOf x.coins0) (keyOf x.coins1) (gateTestvec P)
          (prepOf P g xa xb t.1 t.2 x) fun d => q d ω) ≤ ρ) _ fun t => ?_
    by_cases ht : weight P.tlweLv0.N (keyOf x.coins0) ≤ W0 ∧ nrm (f64ToTorus t.1) < E ∧ nrm (f64ToTorus t.2) < E
    · refine (measure_mono fun ω hω => hω.2).trans (noise x t.1 t.2 ?_ ρ hρ)
      obtain ⟨g0, g1, g2⟩ := ht
      have := Nat.mul_le_mul (mult_le g) g2.le
      have h3 : drift P (weight P.tlweLv0.N (keyOf x.coins0)) ≤ drift P W0 := by
        unfold drift
        gcongr
      omega
    · rw [show {ω : Ω | _} = (∅ : Set Ω) from Set.eq_empty_of_forall_notMem fun ω hω => ht hω.1, measure_empty]
      exact zero_le
  -- the cover
  have cover : {z : (Ω × Ωe) × GateDice P | gateRun P (fftOps (floatArith fl fu mathPi ce) e) g R tr0 lw0 (schedK z.1.1 z.2)
        (schedB z.1.1 z.2) xa xb (fun d => q d z.1.1) (qe true z.1.2) (qe false z.1.2) z.2 ≠ some (g.eval xa xb)} ⊆
      (((({z | W0 < weight P.tlweLv0.N (keyOf z.2.coins0)} ∪ {z | W1 < weight P.trgswLv1.N (keyOf z.2.coins1)})
        ∪ ({z | E ≤ nrm (f64ToTorus (qe true z.1.2))} ∪ {z | E ≤ nrm (f64ToTorus (qe false z.1.2))}))
        ∪ {z | (weight P.tlweLv0.N (keyOf z.2.coins0) ≤ W0 ∧ nrm (f64ToTorus (qe true z.1.2)) < E ∧
              nrm (f64ToTorus (qe false z.1.2)) < E) ∧
            gateRun P (fftOps (floatArith fl fu mathPi ce) e) g R tr0 lw0 (schedK z.1.1 z.2) (schedB z.1.1 z.2)
              xa xb (fun d => q d z.1.1) (qe true z.1.2) (qe false z.1.2) z.2 ≠ some (g.eval xa xb) ∧
            nrm (bootRound P L (ck z.1.1 z.2) (keyOf z.2.coins0) (keyOf z.2.coins1) (gateTestvec P)
                (prepOf P g xa xb (qe true z.1.2) (qe false z.1.2) z.2) fun d => q d z.1.1) ≤ ρ})
        ∪ {z | weight P.trgswLv1.N (keyOf z.2.coins1) ≤ W1 ∧
            (B : ℝ) ≤ |((lostBias P (prepOf P g xa xb 0 0 z.2) (keyOf z.2.coins0) (keyOf z.2.coins1) : ℤ) : ℝ)|})
        ∪ {z | weight P.tlweLv0.N (keyOf z.2.coins0) ≤ W0 ∧ weight P.trgswLv1.N (keyOf z.2.coins1) ≤ W1 ∧
            (T : ℝ) + 8192 * W1 + 160 * (W0 * W1) ≤ |(lostFluct P L (keyOf z.2.coins0) (keyOf z.2.coins1)
              (R.withDraws (f z.1).1.ext) (gateTv P) (prepOf P g xa xb (f z.1).2.1 (f z.1).2.2 z.2) z.2.bsk : ℝ)|} := by
    rintro ⟨⟨ω, ω'⟩, x⟩ hz
    by_cases c0 : W0 < weight P.tlweLv0.N (keyOf x.coins0)
    · exact .inl (.inl (.inl (.inl (.inl c0))))
    by_cases c1 : W1 < weight P.trgswLv1.N (keyOf x.coins1)
    · exact .inl (.inl (.inl (.inl (.inr c1))))
    by_cases c2 : E ≤ nrm (f64ToTorus (qe true ω'))
    · exact .inl (.inl (.inl (.inr (.inl c2))))
    by_cases c3 : E ≤ nrm (f64ToTorus (qe false ω'))
    · exact .inl (.inl (.inl (.inr (.inr c3))))
    have c0 := not_lt.1 c0
    have c1 := not_lt.1 c1
    by_cases c4 : nrm (bootRound P L (ck ω x) (keyOf x.coins0) (keyOf x.coins1) (gateTestvec P)
                (prepOf P g xa xb (qe true ω') (qe false ω') x) fun d => q d ω) ≤ ρ
    · exact .inl (.inl (.inr ⟨⟨c0, not_le.1 c2, not_le.1 c3⟩, hz, c4⟩))
    have h2 := bootRound_le W L hd hA.1 hA.2 hL hb6 (keyOf x.coins0) (keyOf x.coins1) (by simp [keyOf])
      (by simp [keyOf]) (isBinary_keyOf _) (isBinary_keyOf _) R (fun d => q d ω) x.bsk _ _ _ (hck ω x) (gateTestvec P)
      (prepOf P g xa xb (qe true ω') (qe false ω') x)
    have h3 := roundRest_mono P 29 c0 c1
    rw [lostBias_prepOf P g xa xb _ _ 0 0] at h2
    rw [lostFluct_congr P L _ _ (R.withDraws fun d => q d ω) (R.withDraws (f (ω, ω')).1.ext) _ _ _ (fun i hi j hj k hk => by
      show q (.inl (i, j, k)) ω = (f (ω, ω')).1.ext (.inl (i, j, k))
      unfold BskDraws.ext
      simp only
      rw [dif_pos ⟨hi, hj, hk⟩])] at h2
    have c4 := not_le.1 c4
    rw [hρd] at c4
    unfold roundLimit at c4
    by_cases c5 : B ≤ (lostBias P (prepOf P g xa xb 0 0 x) (keyOf x.coins0) (keyOf x.coins1)).natAbs
    · refine .inl (.inr ⟨c1, ?_⟩)
      show (B : ℝ) ≤ |((lostBias P (prepOf P g xa xb 0 0 x) (keyOf x.coins0) (keyOf x.coins1) : ℤ) : ℝ)|
      rw [← Int.cast_abs, ← Int.natCast_natAbs]
      exact_mod_cast c5
    · refine .inr ⟨c0, c1, ?_⟩
      have h6 : T + 8192 * W1 + 160 * (W0 * W1) ≤ (lostFluct P L (keyOf x.coins0) (keyOf x.coins1)
          (R.withDraws (f (ω, ω')).1.ext) (gateTestvec P) (prepOf P g xa xb (qe true ω') (qe false ω') x) x.bsk).natAbs := by
        omega
      show (T : ℝ) + 8192 * W1 + 160 * (W0 * W1) ≤ |((lostFluct P L (keyOf x.coins0) (keyOf x.coins1)
          (R.withDraws (f (ω, ω')).1.ext) (gateTestvec P) (prepOf P g xa xb (qe true ω') (qe false ω') x) x.bsk : ℤ) : ℝ)|
      rw [← Int.cast_abs, ← Int.natCast_natAbs]
      exact_mod_cast h6
  refine (measure_mono cover).trans ?_
  have hv : (0 : ℝ) ≤ keyVar P := by unfold keyVar; positivity
  unfold gateFail
  rw [ENNReal.ofReal_add (by positivity) (by positivity), ENNReal.ofReal_add (by positivity) (by positivity),
    ENNReal.ofReal_add (by positivity) (by positivity), ENNReal.ofReal_add (by positivity) (by positivity),
    ENNReal.ofReal_add (by positivity) (by positivity)]
  refine (measure_union_le _ _).trans (add_le_add ?_ u4)
  refine (measure_union_le _ _).trans (add_le_add ?_ u3)
  refine (measure_union_le _ _).trans (add_le_add ?_ u5)
  refine (measure_union_le _ _).trans (add_le_add ?_ ?_)
  · exact (measure_union_le _ _).trans (add_le_add u0 u1)
  · rw [two_mul, ENNReal.ofReal_add (by positivity) (by positivity)]
    exact (measure_union_le _ _).trans (add_le_add (u2 true) (u2 false))

end

end GoTfhe
