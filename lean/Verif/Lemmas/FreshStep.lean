import Verif.Lemmas.FreshProb
import Verif.Props.GateFailure
import Verif.Props.Drift

/-!
# How likely the next gate is to fail, whatever its first input
-/

namespace GoTfhe

open MeasureTheory ProbabilityTheory Finset

variable {O : FourierOps}

/-- The ciphertext with the mask `a` and a body that rounds to `r` steps. -/
def stepCt {n : ℕ} (a : Mask n) (r : ℕ) : List Torus := tab n a.draw ++ [repBody r]

theorem at'_stepCt {n : ℕ} (a : Mask n) (r i : ℕ) (hi : i < n) : at' (stepCt a r) i = a.draw i := by
  unfold stepCt at'
  rw [List.getD_eq_getElem?_getD, List.getElem?_append_left (by simpa using hi), ← List.getD_eq_getElem?_getD]
  exact at'_tab n a.draw i hi

/-- The rounding errors of the mask add up to little. -/
def SmallDrift (P : Params) (a : Mask P.tlweLv0.N) (s : List Torus) (d : ℕ) : Prop :=
  2 ^ (30 - P.trgswLv1.NBIT) + |∑ i ∈ range P.tlweLv0.N, ((at' s i).toNat : ℤ) * roundErr P (a.draw i).toNat| ≤ d

/-- The bound on the probability that a gate fails whose second input is fresh: rounding of the mask, mean of the lost bits,
and, for each of the 2049 bodies, fluctuation of the lost bits and noise of the cloud key. -/
noncomputable def stepFail (P : Params) (W0 W1 B T S d : ℕ) (lam X η : ℝ) : ℝ :=
  driftTail P W0 d + 2 * Real.exp (-(lam * B) + lam * W1 + biasExp P.tlweLv0.N P.trgswLv1.N lam X η)
    + 2049 * (2 * Real.exp (-((T : ℝ) ^ 2 / (8 * 8320 ^ 2 * (W0 * W1))))
          + 2 * (P.tlweLv0.N * (1 / 2) ^ 2 ^ (P.trgswLv1.NBIT - 1))
        + 2 * Real.exp (-(((S - roundLimit P W0 W1 B T : ℕ) : ℝ) ^ 2 / (2 * keyVar P))))

theorem uprob_of_maskProb {n : ℕ} (E : Mask n → Prop) (δ : ℝ) (h : MaskProbLe E δ) : uprob E ≤ δ := by
  unfold MaskProbLe at h
  unfold uprob
  have hc : (Fintype.card (Mask n) : ℝ) = (2 ^ 32) ^ n := by
    rw [Fintype.card_fun, Fintype.card_fin, Fintype.card_fin]
    norm_num
  rw [hc, div_le_iff₀ (by positivity)]
  exact h

theorem step_drift {P : Params} (W : WellFormed P) (W0 d : ℕ) (hw0 : 0 < W0) (hd : 2 ^ (30 - P.trgswLv1.NBIT) + W0 ≤ d) :
    uprob (fun x : StepDice P => weight P.tlweLv0.N (keyOf x.coins0) ≤ W0 ∧ ¬ SmallDrift P x.mask (keyOf x.coins0) d)
      ≤ driftTail P W0 d := by
  classical
  have hpos : 0 ≤ driftTail P W0 d := by unfold driftTail; positivity
  rw [uprob_avg, avg_step]
  refine avg_le fun b0 => avg_le fun b1 => ?_
  have : Nonempty (KeyMasks P) := ⟨fun _ _ _ => 0⟩
  refine avg_le fun m => ?_
  by_cases h0 : weight P.tlweLv0.N (keyOf b0) ≤ W0
  · have key : MaskProbLe (fun a => ¬ SmallDrift P a (keyOf b0) d) (driftTail P W0 d) :=
      maskProb_of_bad _ _ fun bad hb => card_not_small W (keyOf b0) (isBinary_keyOf _) W0 d hw0 h0 hd
        (fun a => stepCt a 0) (fun _ => toFinEquiv.symm) (fun a i => by
          rw [at'_stepCt _ _ _ i.2]
          unfold Mask.draw
          rw [dif_pos i.2]
          rfl) bad fun a ha hs => hb a ha (by
          unfold SmallDrift
          refine le_trans (le_of_eq ?_) hs
          congr 2
          exact sum_congr rfl fun i hi => by rw [at'_stepCt _ _ _ (mem_range.1 hi)])
    have := uprob_of_maskProb _ _ key
    rw [uprob_avg] at this
    simpa only [h0, true_and] using this
  · refine le_trans (le_of_eq ?_) hpos
    simp only [h0, false_and, if_false]
    exact avg_mask _ 0

theorem step_bias {P : Params} (W : WellFormed P) (lam X η : ℝ) (hl : 0 ≤ lam) (W1 : ℕ)
    (hX : lam * W1 ≤ X) (hX1 : X ≤ 1) (hη : 0 < η)
    (hs : 2 * (1 + 1 / η) * P.trgswLv1.N * (P.tlweLv0.N * (1 + 5 / 48 * X ^ 2) * lam ^ 2 / 4 / 4) < 1) (B : ℝ) :
    uprob (fun x : StepDice P => weight P.trgswLv1.N (keyOf x.coins1) ≤ W1 ∧
        B ≤ |((lostBias P (stepCt x.mask 0) (keyOf x.coins0) (keyOf x.coins1) : ℤ) : ℝ)|)
      ≤ 2 * Real.exp (-(lam * B) + lam * W1 + biasExp P.tlweLv0.N P.trgswLv1.N lam X η) := by
  classical
  have key := bias_tail W 1 (.inl rfl) (fun _ => 0) (fun a => stepCt a 0)
    (fun a i hi => by rw [at'_stepCt _ _ _ hi, one_mul, add_zero]) lam X η hl W1 hX hX1 hη hs B
  rw [uprob_avg, avg_step]
  refine le_trans (le_of_eq ?_) key
  refine congrArg avg (funext fun b0 => congrArg avg (funext fun b1 => ?_))
  refine Eq.trans (congrArg avg (funext fun m => congrArg avg (funext fun a => ?_))) (avg_keyMasks P _)
  congr 1

theorem step_fluct {P : Params} (W : WellFormed P) (L : FourierLaws O) (hd : O.deg = P.trgswLv1.N)
    (hacc0 : L.Accurate (P.trgswLv1.L * 2) 0 0) {D : ℕ} (hD : D ≤ 32)
    (hacc : L.Accurate (P.trgswLv1.L * 2) (2 ^ (P.trgswLv1.BGBIT - 1)) D) (hL : P.trgswLv1.L = 3)
    (hb : P.trgswLv1.BGBIT = 6) (R : KeyGenRand) (r : ℕ) (W0 W1 : ℕ) (hv : 0 < W0 * W1) (T : ℝ)
    (hT0 : 0 ≤ T) (hT : T ≤ 16640 * (W0 * W1)) :
    uprob (fun x : StepDice P => weight P.tlweLv0.N (keyOf x.coins0) ≤ W0 ∧ weight P.trgswLv1.N (keyOf x.coins1) ≤ W1 ∧
        T + 8192 * W1 + 160 * (W0 * W1) ≤ |(lostFluct P L (keyOf x.coins0) (keyOf x.coins1) R (gateTv P)
          (stepCt x.mask r) x.bsk : ℝ)|)
      ≤ 2 * Real.exp (-(T ^ 2 / (8 * 8320 ^ 2 * (W0 * W1)))) + 2 * (P.tlweLv0.N * (1 / 2) ^ 2 ^ (P.trgswLv1.NBIT - 1)) := by
  classical
  have hpos : 0 ≤ 2 * Real.exp (-(T ^ 2 / (8 * 8320 ^ 2 * (W0 * W1))))
      + 2 * (P.tlweLv0.N * (1 / 2) ^ 2 ^ (P.trgswLv1.NBIT - 1)) := by positivity
  rw [uprob_avg, avg_step]
  refine avg_le fun b0 => avg_le fun b1 => ?_
  rw [avg_swap]
  have : Nonempty (Mask P.tlweLv0.N) := ⟨fun _ => 0⟩
  have : Nonempty (KeyMasks P) := ⟨fun _ _ _ => 0⟩
  refine avg_le fun a => ?_
  by_cases h0 : weight P.tlweLv0.N (keyOf b0) ≤ W0
  · by_cases h1 : weight P.trgswLv1.N (keyOf b1) ≤ W1
    · refine le_trans (le_of_eq (congrArg avg (funext fun m => ?_))) (lostFluct_tail W L hd hacc0 hD hacc hL hb (keyOf b0)
        (keyOf b1) (isBinary_keyOf _) (isBinary_keyOf _) R (stepCt a r) W0 W1 h0 h1 hv T hT0 hT)
      by_cases h2 : T + 8192 * W1 + 160 * (W0 * W1) ≤ |(lostFluct P L (keyOf b0) (keyOf b1) R (gateTv P) (stepCt a r) m : ℝ)|
      · rw [if_pos h2]; exact if_pos ⟨h0, h1, h2⟩
      · rw [if_neg h2]; exact if_neg fun h => h2 h.2.2
    · refine le_trans (avg_le (c := 0) fun m => le_of_eq (if_neg fun h => h1 h.2.1)) hpos
  · refine le_trans (avg_le (c := 0) fun m => le_of_eq (if_neg fun h => h0 h.1)) hpos

section

variable {Ω : Type*} [MeasurableSpace Ω] {μ : Measure Ω} [IsProbabilityMeasure μ]

/-- The rounding of the mask is fine, and so is the noise of the bootstrapping whatever the body. -/
def StepGood (P : Params) (L : FourierLaws O) (ck : CloudKey O) (S d : ℕ) (x : StepDice P) : Prop :=
  SmallDrift P x.mask (keyOf x.coins0) d ∧
    ∀ r < 2049, nrm (bootNoise P L ck (keyOf x.coins0) (keyOf x.coins1) (gateTestvec P) (stepCt x.mask r)) < S

theorem step_fail {P : Params} (W : WellFormed P) (L : FourierLaws O) (hd : O.deg = P.trgswLv1.N)
    (hacc0 : L.Accurate (P.trgswLv1.L * 2) 0 0)
    (hacc : L.Accurate (P.trgswLv1.L * 2) (2 ^ (P.trgswLv1.BGBIT - 1)) 29) (hacc1 : L.MulAccurate 1 0)
    (hL : P.trgswLv1.L = 3) (hb6 : P.trgswLv1.BGBIT = 6) (R : KeyGenRand)
    {q : DrawIx → Ω → ℚ} (hq : NoiseDraws μ q (drawStd P)) (hV : 0 < keyVar P)
    (schedK schedB : Ω → StepDice P → List ℕ) (ck : Ω → StepDice P → CloudKey O)
    (hck : ∀ ω x, newCloudKey P O (keyOf x.coins0) (keyOf x.coins1)
      ((R.withEntryMasks x.bsk).withDraws fun d => q d ω) (schedK ω x) (schedB ω x) = some (true, ck ω x))
    (W0 W1 B T S d : ℕ) (hw0 : 0 < W0) (hw1 : 0 < W1) (hdd : 2 ^ (30 - P.trgswLv1.NBIT) + W0 ≤ d)
    (hT : T ≤ 16640 * (W0 * W1)) (hρ : roundLimit P W0 W1 B T ≤ S) (lam X η : ℝ) (hl : 0 ≤ lam)
    (hX : lam * W1 ≤ X) (hX1 : X ≤ 1) (hη : 0 < η)
    (hs : 2 * (1 + 1 / η) * P.trgswLv1.N * (P.tlweLv0.N * (1 + 5 / 48 * X ^ 2) * lam ^ 2 / 4 / 4) < 1) :
    (μ.prod (uniformOn (Set.univ : Set (StepDice P)))) {z | weight P.tlweLv0.N (keyOf z.2.coins0) ≤ W0 ∧
        weight P.trgswLv1.N (keyOf z.2.coins1) ≤ W1 ∧ ¬ StepGood P L (ck z.1 z.2) S d z.2}
      ≤ ENNReal.ofReal (stepFail P W0 W1 B T S d lam X η) := by
  have hW01 : 0 < W0 * W1 := Nat.mul_pos hw0 hw1
  set U := uniformOn (Set.univ : Set (StepDice P)) with hU
  have iU : IsProbabilityMeasure U := uniformOn_isProbabilityMeasure Set.finite_univ Set.univ_nonempty
  set M := μ.prod U with hM
  set ρ := roundLimit P W0 W1 B T with hρd
  have u1 : M {z | weight P.tlweLv0.N (keyOf z.2.coins0) ≤ W0 ∧ ¬ SmallDrift P z.2.mask (keyOf z.2.coins0) d}
      ≤ ENNReal.ofReal _ :=
    prod_snd_le (fun x : StepDice P => weight P.tlweLv0.N (keyOf x.coins0) ≤ W0 ∧ ¬ SmallDrift P x.mask (keyOf x.coins0) d) _
      ((le_of_eq (uniformOn_uprob _)).trans <| ENNReal.ofReal_le_ofReal (step_drift W W0 d hw0 hdd))
  have u2 : M {z | weight P.trgswLv1.N (keyOf z.2.coins1) ≤ W1 ∧
      (B : ℝ) ≤ |((lostBias P (stepCt z.2.mask 0) (keyOf z.2.coins0) (keyOf z.2.coins1) : ℤ) : ℝ)|} ≤ ENNReal.ofReal _ :=
    prod_snd_le (fun x : StepDice P => weight P.trgswLv1.N (keyOf x.coins1) ≤ W1 ∧
      (B : ℝ) ≤ |((lostBias P (stepCt x.mask 0) (keyOf x.coins0) (keyOf x.coins1) : ℤ) : ℝ)|) _
      ((le_of_eq (uniformOn_uprob _)).trans <| ENNReal.ofReal_le_ofReal (step_bias W lam X η hl W1 hX hX1 hη hs B))
  let f : Ω → BskDraws P := fun ω i j k => q (.inl (i, j, k)) ω
  have hf : ∀ z, MeasurableSet (f ⁻¹' {z}) := fun z => by
    have : Measurable f := measurable_pi_lambda _ fun i => measurable_pi_lambda _ fun j => measurable_pi_lambda _ fun k =>
      hq.measurable _
    exact this (measurableSet_singleton z)
  have u3 : ∀ r, M {z | weight P.tlweLv0.N (keyOf z.2.coins0) ≤ W0 ∧ weight P.trgswLv1.N (keyOf z.2.coins1) ≤ W1 ∧
      (T : ℝ) + 8192 * W1 + 160 * (W0 * W1) ≤ |(lostFluct P L (keyOf z.2.coins0) (keyOf z.2.coins1)
        (R.withDraws (f z.1).ext) (gateTv P) (stepCt z.2.mask r) z.2.bsk : ℝ)|} ≤ ENNReal.ofReal _ := fun r =>
    prod_discrete_le f hf (fun y (x : StepDice P) => weight P.tlweLv0.N (keyOf x.coins0) ≤ W0 ∧
      weight P.trgswLv1.N (keyOf x.coins1) ≤ W1 ∧
      (T : ℝ) + 8192 * W1 + 160 * (W0 * W1) ≤ |(lostFluct P L (keyOf x.coins0) (keyOf x.coins1)
        (R.withDraws y.ext) (gateTv P) (stepCt x.mask r) x.bsk : ℝ)|) _ fun y =>
      (le_of_eq (uniformOn_uprob _)).trans <| ENNReal.ofReal_le_ofReal (step_fluct W L hd hacc0 (by norm_num : 29 ≤ 32) hacc hL hb6
        (R.withDraws y.ext) r W0 W1 hW01 (T : ℝ) (Nat.cast_nonneg T) (by exact_mod_cast hT))
  have u4 : ∀ r, M {z | nrm (bootRound P L (ck z.1 z.2) (keyOf z.2.coins0) (keyOf z.2.coins1) (gateTestvec P)
          (stepCt z.2.mask r) fun d => q d z.1) + (S - ρ)
        ≤ nrm (bootNoise P L (ck z.1 z.2) (keyOf z.2.coins0) (keyOf z.2.coins1) (gateTestvec P) (stepCt z.2.mask r))}
      ≤ ENNReal.ofReal (2 * Real.exp (-(((S - ρ : ℕ) : ℝ) ^ 2 / (2 * keyVar P)))) := by
    intro r
    refine prod_uniform_le' (fun (ω : Ω) (x : StepDice P) =>
      nrm (bootRound P L (ck ω x) (keyOf x.coins0) (keyOf x.coins1) (gateTestvec P)
          (stepCt x.mask r) fun d => q d ω) + (S - ρ)
        ≤ nrm (bootNoise P L (ck ω x) (keyOf x.coins0) (keyOf x.coins1) (gateTestvec P) (stepCt x.mask r))) _ ?_
    refine (Finset.sum_le_card_nsmul univ _ _ fun x _ => ?_).trans (le_of_eq (nsmul_eq_mul _ _))
    exact C78_tail W L hd hacc hacc1 (keyOf x.coins0) (keyOf x.coins1) (by simp [keyOf]) (by simp [keyOf])
      (isBinary_keyOf _) (isBinary_keyOf _) (R.withEntryMasks x.bsk) hq (fun ω => schedK ω x) (fun ω => schedB ω x)
      (fun ω => ck ω x) (fun ω => hck ω x) hV (gateTestvec P) (stepCt x.mask r) (S - ρ)
  have cover : {z : Ω × StepDice P | weight P.tlweLv0.N (keyOf z.2.coins0) ≤ W0 ∧
        weight P.trgswLv1.N (keyOf z.2.coins1) ≤ W1 ∧ ¬ StepGood P L (ck z.1 z.2) S d z.2} ⊆
      ({z | weight P.tlweLv0.N (keyOf z.2.coins0) ≤ W0 ∧ ¬ SmallDrift P z.2.mask (keyOf z.2.coins0) d}
        ∪ {z | weight P.trgswLv1.N (keyOf z.2.coins1) ≤ W1 ∧
            (B : ℝ) ≤ |((lostBias P (stepCt z.2.mask 0) (keyOf z.2.coins0) (keyOf z.2.coins1) : ℤ) : ℝ)|})
        ∪ ⋃ r ∈ range 2049, ({z | weight P.tlweLv0.N (keyOf z.2.coins0) ≤ W0 ∧ weight P.trgswLv1.N (keyOf z.2.coins1) ≤ W1 ∧
            (T : ℝ) + 8192 * W1 + 160 * (W0 * W1) ≤ |(lostFluct P L (keyOf z.2.coins0) (keyOf z.2.coins1)
              (R.withDraws (f z.1).ext) (gateTv P) (stepCt z.2.mask r) z.2.bsk : ℝ)|}
          ∪ {z | nrm (bootRound P L (ck z.1 z.2) (keyOf z.2.coins0) (keyOf z.2.coins1) (gateTestvec P)
              (stepCt z.2.mask r) fun d => q d z.1) + (S - ρ)
            ≤ nrm (bootNoise P L (ck z.1 z.2) (keyOf z.2.coins0) (keyOf z.2.coins1) (gateTestvec P) (stepCt z.2.mask r))}) := by
    rintro ⟨ω, x⟩ ⟨c0, c1, hng⟩
    have c0 : weight P.tlweLv0.N (keyOf x.coins0) ≤ W0 := c0
    have c1 : weight P.trgswLv1.N (keyOf x.coins1) ≤ W1 := c1
    by_cases c2 : SmallDrift P x.mask (keyOf x.coins0) d
    swap
    · exact .inl (.inl ⟨c0, c2⟩)
    by_cases c5 : B ≤ (lostBias P (stepCt x.mask 0) (keyOf x.coins0) (keyOf x.coins1)).natAbs
    · refine .inl (.inr ⟨c1, ?_⟩)
      show (B : ℝ) ≤ |((lostBias P (stepCt x.mask 0) (keyOf x.coins0) (keyOf x.coins1) : ℤ) : ℝ)|
      rw [← Int.cast_abs, ← Int.natCast_natAbs]
      exact_mod_cast c5
    have hex : ∃ r < 2049, S ≤ nrm (bootNoise P L (ck ω x) (keyOf x.coins0) (keyOf x.coins1) (gateTestvec P) (stepCt x.mask r)) := by
      by_contra hcon
      push Not at hcon
      exact hng ⟨c2, hcon⟩
    obtain ⟨r, hr, hS⟩ := hex
    refine .inr (Set.mem_iUnion₂.2 ⟨r, mem_range.2 hr, ?_⟩)
    by_cases c4 : nrm (bootRound P L (ck ω x) (keyOf x.coins0) (keyOf x.coins1) (gateTestvec P)
                (stepCt x.mask r) fun d => q d ω) ≤ ρ
    · refine .inr ?_
      show _ + (S - ρ) ≤ _
      exact (Nat.add_le_add_right c4 _).trans ((le_of_eq (Nat.add_sub_cancel' hρ)).trans hS)
    have h2 := bootRound_le W L hd hacc hacc1 hL hb6 (keyOf x.coins0) (keyOf x.coins1) (by simp [keyOf])
      (by simp [keyOf]) (isBinary_keyOf _) (isBinary_keyOf _) R (fun d => q d ω) x.bsk _ _ _ (hck ω x) (gateTestvec P)
      (stepCt x.mask r)
    have h3 := roundRest_mono P 29 c0 c1
    rw [lostBias_congr P (stepCt x.mask r) (stepCt x.mask 0) _ _ fun i hi => by
      rw [at'_stepCt _ _ _ hi, at'_stepCt _ _ _ hi]] at h2
    rw [lostFluct_congr P L _ _ (R.withDraws fun d => q d ω) (R.withDraws (f ω).ext) _ _ _ (fun i hi j hj k hk => by
      show q (.inl (i, j, k)) ω = (f ω).ext (.inl (i, j, k))
      unfold BskDraws.ext
      simp only
      rw [dif_pos ⟨hi, hj, hk⟩])] at h2
    have c4 := not_le.1 c4
    rw [hρd] at c4
    unfold roundLimit at c4
    refine .inl ⟨c0, c1, ?_⟩
    have h6 : T + 8192 * W1 + 160 * (W0 * W1) ≤ (lostFluct P L (keyOf x.coins0) (keyOf x.coins1)
        (R.withDraws (f ω).ext) (gateTestvec P) (stepCt x.mask r) x.bsk).natAbs := by
      omega
    show (T : ℝ) + 8192 * W1 + 160 * (W0 * W1) ≤ |((lostFluct P L (keyOf x.coins0) (keyOf x.coins1)
        (R.withDraws (f ω).ext) (gateTestvec P) (stepCt x.mask r) x.bsk : ℤ) : ℝ)|
    rw [← Int.cast_abs, ← Int.natCast_natAbs]
    exact_mod_cast h6
  refine (measure_mono cover).trans ?_
  have hd0 : 0 ≤ driftTail P W0 d := by unfold driftTail; positivity
  unfold stepFail
  rw [ENNReal.ofReal_add (by positivity) (by positivity), ENNReal.ofReal_add hd0 (by positivity)]
  refine (measure_union_le _ _).trans (add_le_add ((measure_union_le _ _).trans (add_le_add u1 u2)) ?_)
  refine (measure_biUnion_finset_le _ _).trans ?_
  refine (Finset.sum_le_card_nsmul _ _ _ fun r _ => (measure_union_le _ _).trans (add_le_add (u3 r) (u4 r))).trans (le_of_eq ?_)
  rw [card_range, ← ENNReal.ofReal_add (by positivity) (by positivity), nsmul_eq_mul, ENNReal.ofReal_mul (by norm_num)]
  congr 1
  norm_num

end

end GoTfhe
