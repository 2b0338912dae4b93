import Verif.Props.CloudKey
import Verif.Lemmas.Evaluator

/-!
# C37: the cloud key for testing, without keys
-/

namespace GoTfhe

variable {O : FourierOps}

/-- **C37**, `NewCloudKeyNoKSK`: the offset and the test vector of a real cloud key, a key-switching table of full size
with zero entries, and `n` cleared bootstrapping-key entries. -/
theorem C37_noKSK {P : Params} (W : WellFormed P) (L : FourierLaws O) :
    newCloudKeyNoKSK P O = some
      ⟨∑ i ∈ Finset.range P.trgswLv1.L, ((P.trgswLv1.BG / 2 * 2 ^ (32 - (i + 1) * P.trgswLv1.BGBIT) : ℕ) : Torus),
        ⟨mkSlice P.trgswLv1.N 0, tab P.trgswLv1.N fun _ => 536870912#32⟩,
        List.replicate (2 ^ P.trgswLv1.BASEBIT * P.trgswLv1.IKS_T * P.trgswLv1.N) (mkSlice (P.tlweLv0.N + 1) 0),
        List.replicate P.tlweLv0.N (List.replicate (P.trgswLv1.L * 2) ⟨L.Z, L.Z⟩)⟩ := by
  have e1 : newTRGSWLv1FFTDummy P O = some (List.replicate (P.trgswLv1.L * 2) ⟨L.Z, L.Z⟩) := by
    unfold newTRGSWLv1FFTDummy
    rw [L.newF_eq]
    simp only [Option.bind_eq_bind, Option.bind_some, Option.pure_def]
    rw [mapM_const, List.length_range]
  unfold newCloudKeyNoKSK
  rw [e1, mapM_const, genDecompositionOffset_eq P W.bg W.bgbit_pos W.gadget_fits, genTestvec_eq W]
  simp only [Option.bind_eq_bind, Option.bind_some, Option.pure_def, List.length_range, newTLWELv0]
  congr 2
  unfold gadgetOffset
  apply Finset.sum_congr rfl
  intro i _
  have : P.trgswLv1.BG / 2 = 2 ^ (P.trgswLv1.BGBIT - 1) := by
    rw [W.bg]
    have := W.bgbit_pos
    obtain ⟨m, hm⟩ : ∃ m, P.trgswLv1.BGBIT = m + 1 := ⟨P.trgswLv1.BGBIT - 1, by omega⟩
    rw [hm, pow_succ]; simp
  rw [this]
  push_cast
  rfl

/-- **C37**: with that key every bootstrapping runs to the end, and its output has the mask zero: the result is in the
clear, so the key is fit for testing only. -/
theorem C37_noKSK_bootstrap {P : Params} (W : WellFormed P) (L : FourierLaws O) (hd : O.deg = P.trgswLv1.N)
    (st : EvState O) (hst : EvGood P L st) (ck : CloudKey O) (hck : newCloudKeyNoKSK P O = some ck)
    (ctIn : LRef) (testvec : TRef) (ctOut : LRef) (hin : (st.lw ctIn).length = P.tlweLv0.N + 1)
    (htv : testvec ≠ .acc1) (ht : (st.tr testvec).Sized P.trgswLv1.N)
    (hoe : ctOut ≠ .extracted) (ho : (st.lw ctOut).length = P.tlweLv0.N + 1) :
    ∃ st', bootstrapAssign P st ctIn testvec ck.bootstrappingKey ck.keySwitchingKey ck.decompositionOffset ctOut
        = some st' ∧ EvGood P L st' ∧ ∀ i < P.tlweLv0.N, at' (st'.lw ctOut) i = 0 := by
  rw [C37_noKSK W L] at hck
  obtain rfl := Option.some.inj hck
  obtain ⟨st', e, hg, hv, -⟩ := bootstrapAssign_eq W L hd st hst
    (List.replicate P.tlweLv0.N (List.replicate (P.trgswLv1.L * 2) ⟨L.Z, L.Z⟩))
    ⟨by simp, fun g h => by
      rw [(List.mem_replicate.1 h).2]
      exact ⟨by simp, fun row hr => by rw [(List.mem_replicate.1 hr).2]; exact ⟨L.ok_Z, L.ok_Z⟩⟩⟩
    (List.replicate (2 ^ P.trgswLv1.BASEBIT * P.trgswLv1.IKS_T * P.trgswLv1.N) (mkSlice (P.tlweLv0.N + 1) 0))
    ⟨by simp, fun c h => by rw [(List.mem_replicate.1 h).2]; simp⟩ _ ctIn testvec ctOut hin htv ht hoe ho
  refine ⟨st', e, hg, fun i hi => ?_⟩
  have hz : ∀ m x, at' (entry (List.replicate (2 ^ P.trgswLv1.BASEBIT * P.trgswLv1.IKS_T * P.trgswLv1.N)
      (mkSlice (P.tlweLv0.N + 1) (0 : Torus))) m) x = 0 := by
    intro m x
    unfold entry at' mkSlice
    rw [List.getD_eq_getElem?_getD, List.getD_eq_getElem?_getD, List.getElem?_replicate]
    split_ifs
    · rw [Option.getD_some, List.getElem?_replicate]
      split_ifs <;> rfl
    · rfl
  rw [hv, bootPure, ksOut, at'_tab _ _ _ (by omega), if_neg (by omega), Finset.sum_eq_zero, sub_zero]
  intro a _
  apply Finset.sum_eq_zero
  intro b _
  rw [hz]
  split_ifs <;> rfl

/-- Satisfiable: such a key and an evaluator to use it exist at every level. -/
example (level : SecurityLevel) : ∃ ck st, newCloudKeyNoKSK (paramsFor level) (exactOps (paramsFor level).trgswLv1.N)
    = some ck ∧ EvGood (paramsFor level) (exL (C63_wellFormed level)) st := by
  obtain ⟨st, -, hg, -⟩ := newEvaluator_good (C63_wellFormed level) (exL (C63_wellFormed level)) rfl
    (fun _ => ⟨[], []⟩) (fun _ => [])
  exact ⟨_, st, C37_noKSK (C63_wellFormed level) (exL (C63_wellFormed level)), hg⟩

end GoTfhe
