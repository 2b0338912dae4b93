import Verif.Lemmas.LutProb
import Verif.Props.GateFailureLevels
import Verif.Props.Examples

/-!
# C89: the probability that a table look-up fails, from key generation to decryption
-/

namespace GoTfhe

open MeasureTheory ProbabilityTheory Finset

/-- The bound on the rounding errors of a look-up. -/
def lookupLimit (P : Params) (W0 W1 B T : ℕ) : ℕ :=
  8192 * B + (T + 8192 * W1 + 192 * (W0 * W1)) + W0 * W1 + roundRest P 29 W0 W1

/-- The bound on the probability of failure: weights of the two keys, noise of the encryption, noise of the cloud key, mean
and fluctuation of the lost bits. -/
noncomputable def lookupFail (P : Params) (W0 W1 B T E : ℕ) (lam X η : ℝ) : ℝ :=
  Real.exp (-(2 * (W0 + 1 - P.tlweLv0.N / 2 : ℝ) ^ 2 / P.tlweLv0.N))
    + Real.exp (-(2 * (W1 + 1 - P.trgswLv1.N / 2 : ℝ) ^ 2 / P.trgswLv1.N))
    + 2 * Real.exp (-((E : ℝ) ^ 2 / (2 * (2 ^ 32 * ((kskAlpha P : ℚ) : ℝ)) ^ 2)))
    + 2 * Real.exp (-(((2 ^ 29 - lookupLimit P W0 W1 B T : ℕ) : ℝ) ^ 2 / (2 * keyVar P)))
    + 8 * Real.exp (-(lam * B) + lam * W1 + biasExp P.tlweLv0.N P.trgswLv1.N lam X η)
    + (2 * Real.exp (-((T : ℝ) ^ 2 / (8 * 8320 ^ 2 * (W0 * W1))))
          + 2 * (P.tlweLv0.N * (1 / 2) ^ 2 ^ (P.trgswLv1.NBIT - 1)))

section

variable {Ω Ωe : Type*} [MeasurableSpace Ω] [MeasurableSpace Ωe] {μ : Measure Ω} [IsProbabilityMeasure μ]
  {μe : Measure Ωe} [IsProbabilityMeasure μe]
variable {fl : ℚ → ℚ} (hfl : IsRound fl) {fu : Fusing} {ce : ℚ → ℚ × ℚ} (hce : CexpAccurate ce (1 / 2 ^ 52))

include hfl hce

/-- The noise of one look-up among `M` encryptions is too large with probability at most `lookupFail`. -/
theorem lookup_noise (level : SecurityLevel) (hlev : level ≤ 0 ∨ 9 ≤ level) {e : PolyEval ℚ}
    (he : newPolyEval (floatArith fl fu mathPi ce) ((paramsFor level).trgswLv1.N : ℤ) = some e)
    (L : FourierLaws (fftOps (floatArith fl fu mathPi ce) e)) (R : KeyGenRand)
    {q : DrawIx → Ω → ℚ} (hq : NoiseDraws μ q (drawStd (paramsFor level))) {M : ℕ}
    {qe : Fin M → Ωe → ℚ} (hqe : NoiseDraws μe qe fun _ => ((kskAlpha (paramsFor level) : ℚ) : ℝ))
    (schedK schedB : Ω → SessionDice (paramsFor level) M → List ℕ)
    (ck : Ω → SessionDice (paramsFor level) M → CloudKey (fftOps (floatArith fl fu mathPi ce) e))
    (hck : ∀ ω z, newCloudKey (paramsFor level) (fftOps (floatArith fl fu mathPi ce) e) (keyOf z.coins0) (keyOf z.coins1)
        ((R.withEntryMasks z.bsk).withDraws fun d => q d ω) (schedK ω z) (schedB ω z) = some (true, ck ω z))
    (i : Fin M) (f : ℤ → Option ℤ) (F : ℕ → ℤ) (hF : ∀ x < 2 ^ 1, f (x : ℕ) = some (F x)) (msg : ℤ)
    (W0 W1 B T E : ℕ) (hw0 : (paramsFor level).tlweLv0.N ≤ 2 * W0) (hw1 : (paramsFor level).trgswLv1.N ≤ 2 * W1)
    (hT : T ≤ 16640 * (W0 * W1)) (hE : E + drift (paramsFor level) W0 ≤ 2 ^ 29) (hB : 0 < B)
    (hρ : lookupLimit (paramsFor level) W0 W1 B T < 2 ^ 29) (lam X η : ℝ) (hl : 0 ≤ lam)
    (hX : lam * W1 ≤ X) (hX1 : X ≤ 1) (hη : 0 < η)
    (hs : 2 * (1 + 1 / η) * (paramsFor level).trgswLv1.N
      * ((paramsFor level).tlweLv0.N * (1 + 5 / 48 * X ^ 2) * lam ^ 2 / 4 / 4) < 1) :
    ((μ.prod μe).prod (uniformOn (Set.univ : Set (SessionDice (paramsFor level) M))))
      {z | ¬ DemoNoise fl (paramsFor level) 1 L (ck z.1.1 z.2) (keyOf z.2.coins0) (keyOf z.2.coins1) f
        [(msg, (z.2.masks i).draw, qe i z.1.2)]}
      ≤ ENNReal.ofReal (lookupFail (paramsFor level) W0 W1 B T E lam X η) := by
  have hσ : 0 < ((kskAlpha (paramsFor level) : ℚ) : ℝ) := by exact_mod_cast (alpha_levels level).1.1
  obtain ⟨hL, hb6, -, hfe⟩ := gate_digits level hlev
  obtain ⟨-, hd, hacc⟩ := C67_errors hfl hce level he
  have hacc0 := float_accurate0 hfl hce level he L
  have hA := hacc L
  have W := C63_wellFormed level
  have hN16 : (paramsFor level).trgswLv1.N ≤ 65536 := by
    rcases paramsFor_cases level with h | h | h | h | h | h | h | h | h | h | h <;> rw [h.2] <;> decide
  have hV := (keyVar_levels level).1
  rw [hfe] at hA
  generalize paramsFor level = P at *
  obtain ⟨t, ht⟩ := genLookUpTable_some W fl 1 f fun x hx => by rw [hF x hx]; rfl
  have hok := tvOk_two W hN16 fl hfl f F hF t ht
  have hN : 0 < P.trgswLv1.N := by have := W.min_degree; omega
  have h0 := W.lv0_pos
  have hW01 : 0 < W0 * W1 := Nat.mul_pos (by omega) (by omega)
  set U := uniformOn (Set.univ : Set (SessionDice P M)) with hU
  have iU : IsProbabilityMeasure U := uniformOn_isProbabilityMeasure Set.finite_univ Set.univ_nonempty
  set MM := (μ.prod μe).prod U with hM
  set ρ := lookupLimit P W0 W1 B T with hρd
  -- the events
  have u0 : MM {z | W0 < weight P.tlweLv0.N (keyOf z.2.coins0)} ≤ ENNReal.ofReal _ :=
    prod_snd_le (fun x : SessionDice P M => W0 < weight P.tlweLv0.N (keyOf x.coins0)) _ ((le_of_eq (uniformOn_uprob _)).trans <| ENNReal.ofReal_le_ofReal (session_weight0 i h0 W0 hw0))
  have u1 : MM {z | W1 < weight P.trgswLv1.N (keyOf z.2.coins1)} ≤ ENNReal.ofReal _ :=
    prod_snd_le (fun x : SessionDice P M => W1 < weight P.trgswLv1.N (keyOf x.coins1)) _ ((le_of_eq (uniformOn_uprob _)).trans <| ENNReal.ofReal_le_ofReal (session_weight1 i hN W1 hw1))
  have u2 : MM {z | E ≤ nrm (f64ToTorus (qe i z.1.2))} ≤ ENNReal.ofReal _ :=
    prod_fst_le (fun ω : Ω × Ωe => E ≤ nrm (f64ToTorus (qe i ω.2))) _
      (prod_snd_le (fun ω : Ωe => E ≤ nrm (f64ToTorus (qe i ω))) _ (C79_draw hqe i hσ E))
  have u3 : MM {z | BiasBad P W1 B z.2.coins0 z.2.coins1 (z.2.masks i)} ≤ ENNReal.ofReal _ :=
    prod_snd_le (fun x : SessionDice P M => BiasBad P W1 B x.coins0 x.coins1 (x.masks i)) _ ((le_of_eq (uniformOn_uprob _)).trans <| ENNReal.ofReal_le_ofReal (session_bias W i lam X η hl W1 hX hX1 hη hs B))
  let g : Ω × Ωe → BskDraws P × ℚ := fun ω => (fun i j k => q (.inl (i, j, k)) ω.1, qe i ω.2)
  have hg : ∀ z, MeasurableSet (g ⁻¹' {z}) := fun z => by
    have : Measurable g := by
      refine Measurable.prodMk ?_ ((hqe.measurable i).comp measurable_snd)
      exact measurable_pi_lambda _ fun i => measurable_pi_lambda _ fun j => measurable_pi_lambda _ fun k =>
        (hq.measurable _).comp measurable_fst
    exact this (measurableSet_singleton z)
  let ct : SessionDice P M → ℚ → List Torus := fun z u => msgCt fl 1 z.coins0 (z.masks i) msg u
  have u4 : MM {z | weight P.tlweLv0.N (keyOf z.2.coins0) ≤ W0 ∧ weight P.trgswLv1.N (keyOf z.2.coins1) ≤ W1 ∧
      (T : ℝ) + 8192 * W1 + 192 * (W0 * W1) ≤ |(lostFluctFrom P L (keyOf z.2.coins0) (keyOf z.2.coins1)
        (R.withDraws (g z.1).1.ext) t (ct z.2 (g z.1).2) (firstMove P t (ct z.2 (g z.1).2)) z.2.bsk : ℝ)|} ≤ ENNReal.ofReal _ :=
    prod_discrete_le g hg (fun y (z : SessionDice P M) => weight P.tlweLv0.N (keyOf z.coins0) ≤ W0 ∧
      weight P.trgswLv1.N (keyOf z.coins1) ≤ W1 ∧
      (T : ℝ) + 8192 * W1 + 192 * (W0 * W1) ≤ |(lostFluctFrom P L (keyOf z.coins0) (keyOf z.coins1)
        (R.withDraws y.1.ext) t (ct z y.2) (firstMove P t (ct z y.2)) z.bsk : ℝ)|) _ fun y =>
      (le_of_eq (uniformOn_uprob _)).trans <| ENNReal.ofReal_le_ofReal (session_fluct W L hd hacc0 (by norm_num : 29 ≤ 32) hA.1 hL hb6 (R.withDraws y.1.ext)
        i fl msg y.2 t W0 W1 hW01 (T : ℝ) (Nat.cast_nonneg T) (by exact_mod_cast hT))
  have u5 : MM {z | nrm (bootRound P L (ck z.1.1 z.2) (keyOf z.2.coins0) (keyOf z.2.coins1) t (ct z.2 (qe i z.1.2))
          fun d => q d z.1.1) + (2 ^ 29 - ρ) ≤ nrm (bootNoise P L (ck z.1.1 z.2) (keyOf z.2.coins0) (keyOf z.2.coins1) t
            (ct z.2 (qe i z.1.2)))}
      ≤ ENNReal.ofReal (2 * Real.exp (-(((2 ^ 29 - ρ : ℕ) : ℝ) ^ 2 / (2 * keyVar P)))) := by
    refine prod_uniform_le' (fun (ω : Ω × Ωe) (z : SessionDice P M) =>
      nrm (bootRound P L (ck ω.1 z) (keyOf z.coins0) (keyOf z.coins1) t (ct z (qe i ω.2))
          fun d => q d ω.1) + (2 ^ 29 - ρ) ≤ nrm (bootNoise P L (ck ω.1 z) (keyOf z.coins0) (keyOf z.coins1) t
            (ct z (qe i ω.2)))) _ ?_
    refine (Finset.sum_le_card_nsmul univ _ _ fun z _ => ?_).trans (le_of_eq (nsmul_eq_mul _ _))
    refine prod_discrete_le' (fun ω : Ωe => qe i ω) (fun y => (hqe.measurable i) (measurableSet_singleton y))
      (fun (u : ℚ) (ω : Ω) => nrm (bootRound P L (ck ω z) (keyOf z.coins0) (keyOf z.coins1) t (ct z u)
          fun d => q d ω) + (2 ^ 29 - ρ) ≤ nrm (bootNoise P L (ck ω z) (keyOf z.coins0) (keyOf z.coins1) t (ct z u))) _ fun u => ?_
    exact C78_tail W L hd hA.1 hA.2 (keyOf z.coins0) (keyOf z.coins1) (by simp [keyOf]) (by simp [keyOf]) (isBinary_keyOf _)
      (isBinary_keyOf _) (R.withEntryMasks z.bsk) hq (fun ω => schedK ω z) (fun ω => schedB ω z) (fun ω => ck ω z)
      (fun ω => hck ω z) hV t (ct z u) (2 ^ 29 - ρ)
  -- the cover
  have cover : {z : (Ω × Ωe) × SessionDice P M | ¬ DemoNoise fl P 1 L (ck z.1.1 z.2) (keyOf z.2.coins0) (keyOf z.2.coins1) f
        [(msg, (z.2.masks i).draw, qe i z.1.2)]} ⊆
      (((({z | W0 < weight P.tlweLv0.N (keyOf z.2.coins0)} ∪ {z | W1 < weight P.trgswLv1.N (keyOf z.2.coins1)})
        ∪ {z | E ≤ nrm (f64ToTorus (qe i z.1.2))})
        ∪ {z | nrm (bootRound P L (ck z.1.1 z.2) (keyOf z.2.coins0) (keyOf z.2.coins1) t (ct z.2 (qe i z.1.2))
          fun d => q d z.1.1) + (2 ^ 29 - ρ) ≤ nrm (bootNoise P L (ck z.1.1 z.2) (keyOf z.2.coins0) (keyOf z.2.coins1) t
            (ct z.2 (qe i z.1.2)))})
        ∪ {z | BiasBad P W1 B z.2.coins0 z.2.coins1 (z.2.masks i)})
        ∪ {z | weight P.tlweLv0.N (keyOf z.2.coins0) ≤ W0 ∧ weight P.trgswLv1.N (keyOf z.2.coins1) ≤ W1 ∧
      (T : ℝ) + 8192 * W1 + 192 * (W0 * W1) ≤ |(lostFluctFrom P L (keyOf z.2.coins0) (keyOf z.2.coins1)
        (R.withDraws (g z.1).1.ext) t (ct z.2 (g z.1).2) (firstMove P t (ct z.2 (g z.1).2)) z.2.bsk : ℝ)|} := by
    rintro ⟨⟨ω, ω'⟩, z⟩ hz
    by_cases c0 : W0 < weight P.tlweLv0.N (keyOf z.coins0)
    · exact .inl (.inl (.inl (.inl (.inl c0))))
    by_cases c1 : W1 < weight P.trgswLv1.N (keyOf z.coins1)
    · exact .inl (.inl (.inl (.inl (.inr c1))))
    by_cases c2 : E ≤ nrm (f64ToTorus (qe i ω'))
    · exact .inl (.inl (.inl (.inr c2)))
    have c0 := not_lt.1 c0
    have c1 := not_lt.1 c1
    have c2 := not_le.1 c2
    by_cases c4 : nrm (bootRound P L (ck ω z) (keyOf z.coins0) (keyOf z.coins1) t (ct z (qe i ω')) fun d => q d ω)
        + (2 ^ 29 - ρ) ≤ nrm (bootNoise P L (ck ω z) (keyOf z.coins0) (keyOf z.coins1) t (ct z (qe i ω')))
    · exact .inl (.inl (.inr c4))
    have c4 := not_le.1 c4
    by_cases c5 : nrm (bootRound P L (ck ω z) (keyOf z.coins0) (keyOf z.coins1) t (ct z (qe i ω')) fun d => q d ω) ≤ ρ
    · refine absurd ?_ hz
      intro x hx
      obtain rfl := List.mem_singleton.1 hx
      refine ⟨?_, fun ct' ect t' et' => ?_⟩
      · have h3 : drift P (weight P.tlweLv0.N (keyOf z.coins0)) ≤ drift P W0 := by
          unfold drift
          gcongr
        show nrm (f64ToTorus (qe i ω')) + drift P (weight P.tlweLv0.N (keyOf z.coins0)) < 2 ^ 30 / 2 ^ 1
        omega
      · obtain rfl := Option.some.inj (ht.symm.trans et')
        obtain rfl : ct z (qe i ω') = ct' := Option.some.inj ((encryptLWEMessage_msgCt fl P 1 z.coins0 (z.masks i) msg (qe i ω')).symm.trans ect)
        show nrm (bootNoise P L (ck ω z) (keyOf z.coins0) (keyOf z.coins1) t (ct z (qe i ω'))) < 2 ^ 30 / 2 ^ 1
        omega
    have c5 := not_le.1 c5
    have h2 := bootRound_lost W L hd hA.1 hA.2 (keyOf z.coins0) (keyOf z.coins1) (by simp [keyOf])
      (by simp [keyOf]) (isBinary_keyOf _) (isBinary_keyOf _) R (fun d => q d ω) z.bsk _ _ _ (hck ω z) t (ct z (qe i ω'))
    have h3 := roundRest_mono P 29 c0 c1
    have h4 := lostSum_move P L (keyOf z.coins0) (keyOf z.coins1) (R.withDraws fun d => q d ω) t (ct z (qe i ω')) W hd hacc0
      (isBinary_keyOf _) z.bsk hL hb6 hok
    have h5 : weight P.tlweLv0.N (keyOf z.coins0) * weight P.trgswLv1.N (keyOf z.coins1) ≤ W0 * W1 := Nat.mul_le_mul c0 c1
    rw [lostFluctFrom_congr P L _ _ t (ct z (qe i ω')) (R.withDraws fun d => q d ω) (R.withDraws (g (ω, ω')).1.ext) _ _ (fun i hi j hj k hk => by
      show q (.inl (i, j, k)) ω = (g (ω, ω')).1.ext (.inl (i, j, k))
      unfold BskDraws.ext
      simp only
      rw [dif_pos ⟨hi, hj, hk⟩])] at h4
    rw [hρd] at c5
    unfold lookupLimit at c5
    by_cases c6 : B ≤ (lostBias P (ct z (qe i ω')) (dropKey (firstMove P t (ct z (qe i ω'))) (keyOf z.coins0)) (keyOf z.coins1)).natAbs
    · exact .inl (.inr (msgCt_bias P fl W1 B hB z.coins0 z.coins1 (z.masks i) msg (qe i ω') t W hL hb6 hok c1 c6))
    · refine .inr ⟨c0, c1, ?_⟩
      have h6 : T + 8192 * W1 + 192 * (W0 * W1) ≤ (lostFluctFrom P L (keyOf z.coins0) (keyOf z.coins1)
          (R.withDraws (g (ω, ω')).1.ext) t (ct z (qe i ω')) (firstMove P t (ct z (qe i ω'))) z.bsk).natAbs := by
        omega
      show (T : ℝ) + 8192 * W1 + 192 * (W0 * W1) ≤ |((lostFluctFrom P L (keyOf z.coins0) (keyOf z.coins1)
          (R.withDraws (g (ω, ω')).1.ext) t (ct z (qe i ω')) (firstMove P t (ct z (qe i ω'))) z.bsk : ℤ) : ℝ)|
      rw [← Int.cast_abs, ← Int.natCast_natAbs]
      exact_mod_cast h6
  refine (measure_mono cover).trans ?_
  unfold lookupFail
  rw [ENNReal.ofReal_add (by positivity) (by positivity), ENNReal.ofReal_add (by positivity) (by positivity),
    ENNReal.ofReal_add (by positivity) (by positivity), ENNReal.ofReal_add (by positivity) (by positivity),
    ENNReal.ofReal_add (by positivity) (by positivity)]
  refine (measure_union_le _ _).trans (add_le_add ?_ u4)
  refine (measure_union_le _ _).trans (add_le_add ?_ u3)
  refine (measure_union_le _ _).trans (add_le_add ?_ u5)
  refine (measure_union_le _ _).trans (add_le_add ?_ u2)
  exact (measure_union_le _ _).trans (add_le_add u0 u1)

end

end GoTfhe
