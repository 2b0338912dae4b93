import Verif.Lemmas.ExtProd
import Verif.Lemmas.PoolEval
import Verif.Props.KeySwitch
import Verif.Props.Trgsw

/-!
# Blind rotation and bootstrapping: errors; construction of evaluators
-/

namespace GoTfhe

variable {O : FourierOps}

theorem nrm_mulXk (N : ℕ) (f : ℕ → Torus) (B : ℕ) (h : ∀ i < N, nrm (f i) ≤ B) (hN : 0 < N) (e : ℤ) (k : ℕ) :
    nrm (mulXk N f e k) ≤ B := by
  unfold mulXk
  exact nrm_ext N hN f B h _

theorem mapM_const {α β : Type} (l : List α) (b : β) :
    l.mapM (m := Option) (fun _ => some b) = some (List.replicate l.length b) := by
  induction l with
  | nil => rfl
  | cons a l ih => rw [List.mapM_cons, ih]; rfl

theorem newDecomposer_eq (L : FourierLaws O) (m : ℕ) :
    newDecomposer O O.deg m = some (List.replicate m (mkSlice O.deg 0), List.replicate m L.Z) := by
  unfold newDecomposer
  rw [L.newPoly_eq, L.newF_eq, mapM_const, mapM_const]
  simp

theorem newEvState_good {P : Params} (W : WellFormed P) (L : FourierLaws O) (hd : O.deg = P.trgswLv1.N)
    (m : ℕ) (tr0 : TRef → Trlwe) (lw0 : LRef → List Torus) :
    ∃ st, newEvState P O m tr0 lw0 = some st ∧ st.polyDec = List.replicate m (mkSlice O.deg 0) ∧
      st.fourDec = List.replicate m L.Z ∧
      (P.trgswLv1.L * 2 ≤ m → EvGood P L st) ∧
      (∀ k, st.tr (.user k) = tr0 (.user k)) ∧ (∀ k, st.lw (.user k) = lw0 (.user k)) ∧ st.poolIdx = 0 := by
  unfold newEvState
  rw [newDecomposer_eq L, L.newF_eq]
  refine ⟨_, rfl, rfl, rfl, ?_, fun _ => rfl, fun _ => rfl, rfl⟩
  intro hm
  refine ⟨by simpa using hm, ?_, by simpa using hm, ?_, L.ok_Z, L.ok_Z, ?_, ?_, ?_, by norm_num⟩
  · intro row h
    rw [List.eq_of_mem_replicate h, ← hd]; simp
  · intro f h
    rw [List.eq_of_mem_replicate h]; exact L.ok_Z
  · intro r hr
    have : (newTRLWELv1 P).Sized P.trgswLv1.N := by
      constructor <;> simp [newTRLWELv1, W.trlwe_eq]
    cases r <;> first | exact this | exact absurd hr (by simp [TRef.internal])
  · simp [newTLWELv1, W.lv1_eq]
  · intro i _
    simp [newTLWELv0]

theorem newEvaluator_good {P : Params} (W : WellFormed P) (L : FourierLaws O) (hd : O.deg = P.trgswLv1.N)
    (tr0 : TRef → Trlwe) (lw0 : LRef → List Torus) :
    ∃ st, newEvaluator P O tr0 lw0 = some st ∧ EvGood P L st ∧
      (∀ k, st.tr (.user k) = tr0 (.user k)) ∧ (∀ k, st.lw (.user k) = lw0 (.user k)) ∧ st.poolIdx = 0 := by
  obtain ⟨st, h1, -, -, h2, h3⟩ := newEvState_good W L hd (P.trgswLv1.L * 2) tr0 lw0
  exact ⟨st, h1, h2 le_rfl, h3⟩

theorem newPEState_good {P : Params} (W : WellFormed P) (L : FourierLaws O) (hd : O.deg = P.trgswLv1.N)
    (mem0 : PRef → List Torus) :
    ∃ st, newPEState O mem0 = some st ∧ PEGood P L st ∧
      (∀ k, st.mem (.user k) = mem0 (.user k)) ∧ st.rotIdx = 0 ∧ st.trIdx = 0 := by
  unfold newPEState
  rw [L.newPoly_eq, L.newF_eq, mapM_const, mapM_const]
  refine ⟨_, rfl, ?_, fun _ => rfl, rfl, rfl⟩
  have := W.decomp_buffers
  refine ⟨by simp; omega, ?_, by simp; omega, ?_, L.ok_Z, L.ok_Z, ?_, ?_, ?_, by norm_num, by norm_num⟩
  · intro row h
    rw [List.eq_of_mem_replicate h, ← hd]; simp
  · intro f h
    rw [List.eq_of_mem_replicate h]; exact L.ok_Z
  all_goals
    intro i _
    simp [hd]

theorem goodBsk_of_isBsk {P : Params} (L : FourierLaws O) (hd : O.deg = P.trgswLv1.N) {bsk : List (TrgswF O)}
    {s0 s1 : List Torus} {err : ℕ → ℕ → ℕ → Torus}
    (h : IsBsk L P.tlweLv0.N P.trgswLv1.N P.trgswLv1.L P.trgswLv1.BGBIT bsk s0 s1 err) : GoodBsk P L bsk := by
  refine ⟨h.1.ge, ?_⟩
  intro g hg
  obtain ⟨i, hi, rfl⟩ := List.getElem_of_mem hg
  obtain ⟨t, ht, hf⟩ := h.2 i (by rw [← h.1]; exact hi)
  rw [List.getD_eq_getElem?_getD, List.getElem?_eq_getElem hi, Option.getD_some] at hf
  exact goodG_of_isFft hd ht hf

/-- Error bound of step `i` of a blind rotation, `bit` being the key bit of the step. -/
def stepBound (P : Params) (β D w : ℕ) (bit : ℕ) : ℕ :=
  bit * (1 + w) * (1 + 2 ^ (32 - P.trgswLv1.L * P.trgswLv1.BGBIT))
    + 2 * P.trgswLv1.L * P.trgswLv1.N * 2 ^ (P.trgswLv1.BGBIT - 1) * β + D * (1 + w)

theorem nrm_stepErr {P : Params} (W : WellFormed P) (L : FourierLaws O) (hd : O.deg = P.trgswLv1.N)
    {D : ℕ} (hacc : L.Accurate (P.trgswLv1.L * 2) (2 ^ (P.trgswLv1.BGBIT - 1)) D)
    (bsk : List (TrgswF O)) (tv : Trlwe) (c : List Torus) (s0 s1 : List Torus) (hs0 : IsBinary s0)
    (hs1 : IsBinary s1) (ts : ℕ → Trgsw) (err : ℕ → ℕ → ℕ → Torus) (β : ℕ)
    (hβ : ∀ i j k, nrm (err i j k) ≤ β) (i : ℕ) {err' : ℕ → ℕ → Torus}
    (hts : IsTrgsw P.trgswLv1.N P.trgswLv1.L P.trgswLv1.BGBIT (ts i) (at' s0 i) s1 err')
    (hf : IsFft L (ts i) (bsk.getD i [])) (k : ℕ) (hk : k < P.trgswLv1.N) :
    nrm (stepErr P L bsk tv c s0 s1 ts err i k)
      ≤ stepBound P β D (weight P.trgswLv1.N s1) (at' s0 i).toNat := by
  unfold stepErr
  simp only
  have h1 := extErr_bound W L hd hacc (gadgetOffset P.trgswLv1.BGBIT P.trgswLv1.L) (ts i) _ _ s1 hs1 (err i) β
    (hβ i) hts hf (Trlwe.sub P.trgswLv1.N (rot P.trgswLv1.N (aTilda P.trgswLv1.NBIT (at' c i))
      (blindAcc P L (gadgetOffset P.trgswLv1.BGBIT P.trgswLv1.L) bsk tv c i))
      (blindAcc P L (gadgetOffset P.trgswLv1.BGBIT P.trgswLv1.L) bsk tv c i)) k hk
  have h2 := nrm_rotErr P.trgswLv1.N s1 (isBinary_at' hs1) (aTilda P.trgswLv1.NBIT (at' c i)) k hk
  have h3 := nrm_mul (at' s0 i) (rotErr P.trgswLv1.N s1 (aTilda P.trgswLv1.NBIT (at' c i)) k)
  rw [nrm_bit (isBinary_at' hs0 i)] at h1 h3
  refine (nrm_add _ _).trans ((Nat.add_le_add (h3.trans (Nat.mul_le_mul_left _ h2)) h1).trans (le_of_eq ?_))
  unfold extBound stepBound
  ring

/-- Error bound of a whole blind rotation. -/
def rotBound (P : Params) (β D w0 w1 : ℕ) : ℕ :=
  (1 + w1) * (1 + w0 * (1 + 2 ^ (32 - P.trgswLv1.L * P.trgswLv1.BGBIT)))
    + P.tlweLv0.N * (2 * P.trgswLv1.L * P.trgswLv1.N * 2 ^ (P.trgswLv1.BGBIT - 1) * β + D * (1 + w1))

theorem nrm_accErr {P : Params} (W : WellFormed P) (L : FourierLaws O) (hd : O.deg = P.trgswLv1.N)
    {D : ℕ} (hacc : L.Accurate (P.trgswLv1.L * 2) (2 ^ (P.trgswLv1.BGBIT - 1)) D)
    (bsk : List (TrgswF O)) (tv : Trlwe) (c : List Torus) (s0 s1 : List Torus) (hs0 : IsBinary s0)
    (hs1 : IsBinary s1) (ts : ℕ → Trgsw) (err : ℕ → ℕ → ℕ → Torus) (β : ℕ)
    (hβ : ∀ i j k, nrm (err i j k) ≤ β) {err' : ℕ → ℕ → ℕ → Torus}
    (hts : ∀ i < P.tlweLv0.N, IsTrgsw P.trgswLv1.N P.trgswLv1.L P.trgswLv1.BGBIT (ts i) (at' s0 i) s1 (err' i))
    (hf : ∀ i < P.tlweLv0.N, IsFft L (ts i) (bsk.getD i [])) (k : ℕ) (hk : k < P.trgswLv1.N) :
    nrm (accErr P L bsk tv c s0 s1 ts err P.tlweLv0.N k)
      ≤ rotBound P β D (weight P.tlweLv0.N s0) (weight P.trgswLv1.N s1) := by
  have hN : 0 < P.trgswLv1.N := by omega
  rw [accErr_eq P L bsk tv c s0 s1 ts err P.tlweLv0.N hN k hk]
  refine (nrm_add _ _).trans ?_
  have h1 := nrm_mulXk P.trgswLv1.N (rotErr P.trgswLv1.N s1 (bTilda P.trgswLv1.N P.trgswLv1.NBIT
    (at' c P.tlweLv0.N))) (1 + weight P.trgswLv1.N s1)
    (fun j hj => nrm_rotErr _ s1 (isBinary_at' hs1) _ j hj) hN
    (accExp P c s0 P.tlweLv0.N - accExp P c s0 0) k
  have h2 : nrm (∑ i ∈ Finset.range P.tlweLv0.N, mulXk P.trgswLv1.N (stepErr P L bsk tv c s0 s1 ts err i)
      (accExp P c s0 P.tlweLv0.N - accExp P c s0 (i + 1)) k)
      ≤ ∑ i ∈ Finset.range P.tlweLv0.N, stepBound P β D (weight P.trgswLv1.N s1) (at' s0 i).toNat := by
    refine (nrm_sum _ _).trans (Finset.sum_le_sum fun i hi => ?_)
    have hi := Finset.mem_range.1 hi
    exact nrm_mulXk _ _ _ (fun j hj => nrm_stepErr W L hd hacc bsk tv c s0 s1 hs0 hs1 ts err β hβ i
      (hts i hi) (hf i hi) j hj) hN _ _
  refine (Nat.add_le_add h1 h2).trans (le_of_eq ?_)
  unfold stepBound rotBound
  rw [Finset.sum_add_distrib, Finset.sum_add_distrib]
  simp only [Finset.sum_const, Finset.card_range, smul_eq_mul, weight, ← Finset.sum_mul]
  ring

/-- `IsBsk` as functions. -/
theorem isBsk_choose {L : FourierLaws O} {n0 N l b : ℕ} {bsk : List (TrgswF O)} {s0 s1 : List Torus}
    {err : ℕ → ℕ → ℕ → Torus} (h : IsBsk L n0 N l b bsk s0 s1 err) :
    ∃ ts : ℕ → Trgsw, (∀ i < n0, IsTrgsw N l b (ts i) (at' s0 i) s1 (err i)) ∧
      ∀ i < n0, IsFft L (ts i) (bsk.getD i []) := by
  choose! ts h1 h2 using h.2
  exact ⟨ts, h1, h2⟩

end GoTfhe
