import Verif.Lemmas.ExtProd
import Verif.Lemmas.Trgsw
import Verif.Lemmas.PoolEval
import Verif.Spec.ExactBackend

/-!
# C27 – C29: TRGSW encryption, external product, CMUX
-/

namespace GoTfhe

variable {O : FourierOps}

theorem isBinary_at' {s : List Torus} (h : IsBinary s) (i : ℕ) : at' s i = 0 ∨ at' s i = 1 := by
  unfold at'
  by_cases hi : i < s.length
  · rw [List.getD_eq_getElem?_getD, List.getElem?_eq_getElem hi]
    exact h _ (List.getElem_mem hi)
  · rw [List.getD_eq_getElem?_getD, List.getElem?_eq_none (by omega)]
    exact Or.inl rfl

theorem offset_eq {P : Params} (W : WellFormed P) {off : Torus} (h : genDecompositionOffset P = some off) :
    off = gadgetOffset P.trgswLv1.BGBIT P.trgswLv1.L := by
  rw [genDecompositionOffset_eq P W.bg W.bgbit_pos W.gadget_fits] at h
  exact (Option.some.inj h).symm

/-! ### C27 -/

/-- **C27.** `EncryptTorus` returns `2L` rows of `N` coefficients; row `i < L` has phase
`e_i - p * 2^(32-(i+1)*BGBIT) * s`, row `L + i` has phase `e_(L+i) + p * 2^(32-(i+1)*BGBIT)`
(a constant polynomial), where `e_i` is the Gaussian error of row `i` plus the rounding error of the
backend's product, at most `D` per coefficient. For every `p`, key, randomness. -/
theorem C27_encryptTorus {P : Params} (W : WellFormed P) (L : FourierLaws O)
    (hd : O.deg = P.trgswLv1.N) (p : Torus) (key : List Torus) (hk : key.length = P.trgswLv1.N)
    (hbin : IsBinary key) {D : ℕ} (hacc : L.MulAccurate 1 D) (draw : ℕ → ℕ → Torus) (samples : ℕ → ℕ → ℚ) :
    ∃ (t : Trgsw) (r : ℕ → ℕ → Torus),
      trgswEncryptTorus P O (newTRGSWLv1 P) p key draw samples = some t ∧
      IsTrgsw P.trgswLv1.N P.trgswLv1.L P.trgswLv1.BGBIT t p key
        (fun i k => f64ToTorus (samples i k) + r i k) ∧
      ∀ i k, k < P.trgswLv1.N → nrm (r i k) ≤ D := by
  refine ⟨_, _, trgswEncryptTorus_eq W L hd _ (by simp [newTRGSWLv1]; ring) p key hk draw samples,
    isTrgsw_gswRow P L p key draw samples, ?_⟩
  intro i k hk'
  unfold encErr
  have h := hacc (tab P.trgswLv1.N (draw i)) key (by simp [hd]) (by rw [hk, hd])
    (fun j => by rcases isBinary_at' hbin j with e | e <;> rw [e] <;> decide) k (by rw [hd]; exact hk')
  rw [hd, negMul_congr _ _ (draw i) _ (at' key) (fun j hj => at'_tab _ _ _ hj) (fun _ _ => rfl) k hk'] at h
  exact h

/-- **C27**: `NewTRGSWLv1FFT` transforms every row. -/
theorem C27_fft (L : FourierLaws O) {N l b : ℕ} (hd : O.deg = N) {t : Trgsw} {p : Torus} {s : List Torus}
    {err : ℕ → ℕ → Torus} (ht : IsTrgsw N l b t p s err) :
    ∃ g, newTRGSWLv1FFT O t = some g ∧ IsFft L t g :=
  ⟨_, newTRGSWLv1FFT_eq L t (fun r h => by rw [ht.sizedA r h, hd]) (fun r h => by rw [ht.sizedB r h, hd]), rfl⟩

/-- The exact backend at a well-formed parameter set. -/
theorem WellFormed.newPoly {P : Params} (W : WellFormed P) :
    newPoly (P.trgswLv1.N : ℤ) = some (mkSlice P.trgswLv1.N 0) := by
  have h := W.pow2
  have h4 : 4 ≤ P.trgswLv1.NBIT := by
    by_contra hc
    have : P.trgswLv1.NBIT ≤ 3 := by omega
    have h2 : 2 ^ P.trgswLv1.NBIT ≤ 2 ^ 3 := Nat.pow_le_pow_right (by norm_num) this
    have := W.min_degree
    omega
  rw [h]
  exact newPoly_pow2 _ h4

/-- Laws of the schoolbook backend at the degree of `P`. -/
def exL {P : Params} (W : WellFormed P) : FourierLaws (exactOps P.trgswLv1.N) :=
  exactLaws P.trgswLv1.N W.newPoly (by have := W.min_degree; omega)

theorem exL_accurate {P : Params} (W : WellFormed P) (cnt bnd : ℕ) : (exL W).Accurate cnt bnd 0 :=
  exactLaws_accurate _ _ _ _ _
theorem exL_mulAccurate {P : Params} (W : WellFormed P) (bnd : ℕ) : (exL W).MulAccurate bnd 0 :=
  exactLaws_mulAccurate _ _ _ _

/-- Noise of one unit in every coefficient is a Gaussian sample of `2^-32`. -/
theorem f64ToTorus_unit : f64ToTorus (1 / 2 ^ 32) = 1 := by
  have := f64ToTorus_int_div 1 (by norm_num) (by norm_num)
  simpa using this

/-- TRGSW samples with noise one in every coefficient exist, at every well-formed parameter set, for
every message, key and mask randomness. -/
theorem exists_trgsw {P : Params} (W : WellFormed P) (p : Torus) (key : List Torus)
    (hk : key.length = P.trgswLv1.N) (hbin : IsBinary key) (draw : ℕ → ℕ → Torus) :
    ∃ t g, newTRGSWLv1FFT (exactOps P.trgswLv1.N) t = some g ∧ IsFft (exL W) t g ∧
      IsTrgsw P.trgswLv1.N P.trgswLv1.L P.trgswLv1.BGBIT t p key (fun _ k => if k < P.trgswLv1.N then 1 else 0) := by
  obtain ⟨t, r, e, ht, hr⟩ := C27_encryptTorus W (exL W) rfl p key hk hbin (exL_mulAccurate W 1) draw
    (fun _ _ => 1 / 2 ^ 32)
  obtain ⟨g, hg, hf⟩ := C27_fft (exL W) (show (exactOps P.trgswLv1.N).deg = P.trgswLv1.N from rfl) ht
  refine ⟨t, g, hg, hf, ht.rows, ht.sizedA, ht.sizedB, ?_, ?_⟩
  all_goals
    intro i hi k hk
    first | rw [ht.phaseA i hi k hk] | rw [ht.phaseB i hi k hk]
    have h0 : ∀ j, r j k = 0 := by
      intro j
      have := hr j k hk
      have h1 : (r j k).toInt = 0 := by
        unfold nrm at this; omega
      exact BitVec.eq_of_toInt_eq (by rw [h1]; rfl)
    simp only [h0, f64ToTorus_unit, if_pos hk, add_zero]

/-- At the 128-bit level, a noisy TRGSW encryption of 1 exists. -/
example : ∃ t g, IsFft (exL (C63_wellFormed 128)) t g ∧
    IsTrgsw 1024 (paramsFor 128).trgswLv1.L (paramsFor 128).trgswLv1.BGBIT t 1
      (tab 1024 fun i => if i % 2 = 0 then 1 else 0) (fun _ k => if k < 1024 then 1 else 0) := by
  obtain ⟨t, g, -, h2, h3⟩ := exists_trgsw (C63_wellFormed 128) 1 (tab 1024 fun i => if i % 2 = 0 then 1 else 0)
    (by rw [length_tab]; rfl) (by
      intro x hx
      obtain ⟨i, -, rfl⟩ := List.mem_map.1 hx
      by_cases h : i % 2 = 0 <;> simp [h]) (fun i j => BitVec.ofNat 32 (i * 77777 + j * 1234567))
  exact ⟨t, g, h2, h3⟩

/-! ### C28 -/

/-- The error bound of one external product with a message of size `q`. -/
def extBound (P : Params) (β D q w : ℕ) : ℕ :=
  2 * P.trgswLv1.L * P.trgswLv1.N * 2 ^ (P.trgswLv1.BGBIT - 1) * β
    + q * (1 + w) * 2 ^ (32 - P.trgswLv1.L * P.trgswLv1.BGBIT) + D * (1 + w)

theorem extErr_bound {P : Params} (W : WellFormed P) (L : FourierLaws O) (hd : O.deg = P.trgswLv1.N)
    {D : ℕ} (hacc : L.Accurate (P.trgswLv1.L * 2) (2 ^ (P.trgswLv1.BGBIT - 1)) D) (off : Torus)
    (t : Trgsw) (g : TrgswF O) (p : Torus) (s : List Torus) (hs : IsBinary s)
    (err : ℕ → ℕ → Torus) (β : ℕ) (hβ : ∀ i k, nrm (err i k) ≤ β) {err' : ℕ → ℕ → Torus}
    (ht : IsTrgsw P.trgswLv1.N P.trgswLv1.L P.trgswLv1.BGBIT t p s err') (hg : IsFft L t g) (c : Trlwe)
    (k : ℕ) (hk : k < P.trgswLv1.N) :
    nrm (extErr P L off t g p s err c k) ≤ extBound P β D (nrm p) (weight P.trgswLv1.N s) := by
  refine (nrm_extErr W L hd hacc off t g p s (isBinary_at' hs) err β hβ ht hg c k hk).trans (le_of_eq ?_)
  unfold extBound
  ring

/-- The value of an external product has the right phase. -/
theorem extProd_phase {P : Params} (W : WellFormed P) (L : FourierLaws O) (hd : O.deg = P.trgswLv1.N)
    {D : ℕ} (hacc : L.Accurate (P.trgswLv1.L * 2) (2 ^ (P.trgswLv1.BGBIT - 1)) D) {off : Torus}
    (hoff : genDecompositionOffset P = some off) {t : Trgsw} {g : TrgswF O} {p : Torus} {s : List Torus}
    {err : ℕ → ℕ → Torus} (ht : IsTrgsw P.trgswLv1.N P.trgswLv1.L P.trgswLv1.BGBIT t p s err)
    (hg : IsFft L t g) (c : Trlwe) :
    ∃ eA eB : ℕ → Torus, (∀ k < P.trgswLv1.N, nrm (eA k) ≤ D ∧ nrm (eB k) ≤ D) ∧
      ∀ k < P.trgswLv1.N,
        trPhase P.trgswLv1.N (extProd P L off g c).A (extProd P L off g c).B s k
          = p * trPhase P.trgswLv1.N c.A c.B s k
            + ∑ i ∈ Finset.range (P.trgswLv1.L * 2), negMul P.trgswLv1.N (at' (digitPoly P off c i)) (err i) k
            - p * (lowBits P.trgswLv1.L P.trgswLv1.BGBIT (at' c.B k)
                - negMul P.trgswLv1.N (fun i => lowBits P.trgswLv1.L P.trgswLv1.BGBIT (at' c.A i)) (at' s) k)
            + (eB k - negMul P.trgswLv1.N eA (at' s) k) := by
  refine ⟨backendErrA P L off t g c, backendErrB P L off t g c,
    fun k hk => nrm_backendErr W L hd hacc off t g p s err ht hg c k hk, ?_⟩
  intro k hk
  rw [offset_eq W hoff, trPhase_extProd W L t g p s err ht c k hk]
  unfold extErr
  ring

/-- **C28** for `Evaluator.ExternalProductAssign`: from every evaluator state and for every aliasing of
input and output, the phase of the result is `p` times the phase of the input, plus the digits times
the row errors, minus `p` times the phase of the low bits lost by the decomposition, plus the phase of
the backend's errors (`D` per coefficient). -/
theorem C28_externalProductAssign {P : Params} (W : WellFormed P) (L : FourierLaws O)
    (hd : O.deg = P.trgswLv1.N) {D : ℕ}
    (hacc : L.Accurate (P.trgswLv1.L * 2) (2 ^ (P.trgswLv1.BGBIT - 1)) D) {off : Torus}
    (hoff : genDecompositionOffset P = some off) {t : Trgsw} {g : TrgswF O} {p : Torus} {s : List Torus}
    {err : ℕ → ℕ → Torus} (ht : IsTrgsw P.trgswLv1.N P.trgswLv1.L P.trgswLv1.BGBIT t p s err)
    (hg : IsFft L t g) (st : EvState O) (hst : EvGood P L st) (ctIn ctOut : TRef)
    (hin : (st.tr ctIn).Sized P.trgswLv1.N) (hout : (st.tr ctOut).Sized P.trgswLv1.N) :
    ∃ st', externalProductAssign P st g ctIn off ctOut = some st' ∧
      ∃ eA eB : ℕ → Torus, (∀ k < P.trgswLv1.N, nrm (eA k) ≤ D ∧ nrm (eB k) ≤ D) ∧
      ∀ k < P.trgswLv1.N,
        trPhase P.trgswLv1.N (st'.tr ctOut).A (st'.tr ctOut).B s k
          = p * trPhase P.trgswLv1.N (st.tr ctIn).A (st.tr ctIn).B s k
            + ∑ i ∈ Finset.range (P.trgswLv1.L * 2),
                negMul P.trgswLv1.N (at' (digitPoly P off (st.tr ctIn) i)) (err i) k
            - p * (lowBits P.trgswLv1.L P.trgswLv1.BGBIT (at' (st.tr ctIn).B k)
                - negMul P.trgswLv1.N
                    (fun i => lowBits P.trgswLv1.L P.trgswLv1.BGBIT (at' (st.tr ctIn).A i)) (at' s) k)
            + (eB k - negMul P.trgswLv1.N eA (at' s) k) := by
  obtain ⟨st', e, -, h, -, -⟩ := externalProductAssign_eq W L hd st hst g (goodG_of_isFft hd ht hg) off ctIn
    ctOut hin hout
  refine ⟨st', e, ?_⟩
  rw [h, Function.update_self]
  exact extProd_phase W L hd hacc hoff ht hg _

/-- **C28**, bound: the deviation from `p * phase` is at most
`2*L*N*(Bg/2)*β + |p|*(1+|s|)*2^(32-L*BGBIT) + D*(1+|s|)` in every coefficient. -/
theorem C28_externalProductAssign_bound {P : Params} (W : WellFormed P) (L : FourierLaws O)
    (hd : O.deg = P.trgswLv1.N) {D : ℕ}
    (hacc : L.Accurate (P.trgswLv1.L * 2) (2 ^ (P.trgswLv1.BGBIT - 1)) D) {off : Torus}
    (hoff : genDecompositionOffset P = some off) {t : Trgsw} {g : TrgswF O} {p : Torus} {s : List Torus}
    (hs : IsBinary s) {err : ℕ → ℕ → Torus} {β : ℕ} (hβ : ∀ i k, nrm (err i k) ≤ β)
    (ht : IsTrgsw P.trgswLv1.N P.trgswLv1.L P.trgswLv1.BGBIT t p s err)
    (hg : IsFft L t g) (st : EvState O) (hst : EvGood P L st) (ctIn ctOut : TRef)
    (hin : (st.tr ctIn).Sized P.trgswLv1.N) (hout : (st.tr ctOut).Sized P.trgswLv1.N) :
    ∃ st', externalProductAssign P st g ctIn off ctOut = some st' ∧
      ∀ k < P.trgswLv1.N,
        nrm (trPhase P.trgswLv1.N (st'.tr ctOut).A (st'.tr ctOut).B s k
          - p * trPhase P.trgswLv1.N (st.tr ctIn).A (st.tr ctIn).B s k)
        ≤ 2 * P.trgswLv1.L * P.trgswLv1.N * 2 ^ (P.trgswLv1.BGBIT - 1) * β
          + nrm p * (1 + weight P.trgswLv1.N s) * 2 ^ (32 - P.trgswLv1.L * P.trgswLv1.BGBIT)
          + D * (1 + weight P.trgswLv1.N s) := by
  obtain ⟨st', e, -, h, -, -⟩ := externalProductAssign_eq W L hd st hst g (goodG_of_isFft hd ht hg) off ctIn
    ctOut hin hout
  refine ⟨st', e, ?_⟩
  intro k hk
  rw [h, Function.update_self, offset_eq W hoff, trPhase_extProd W L t g p s err ht _ k hk,
    add_sub_cancel_left]
  exact extErr_bound W L hd hacc _ t g p s hs err β hβ ht hg _ k hk

/-- **C28** for `trgsw.ExternalProductWithFFT`: the same for the pooled implementation, from every
state of the pools. The result is in a pooled buffer. -/
theorem C28_externalProductWithFFT {P : Params} (W : WellFormed P) (L : FourierLaws O)
    (hd : O.deg = P.trgswLv1.N) {D : ℕ}
    (hacc : L.Accurate (P.trgswLv1.L * 2) (2 ^ (P.trgswLv1.BGBIT - 1)) D) {off : Torus}
    (hoff : genDecompositionOffset P = some off) {t : Trgsw} {g : TrgswF O} {p : Torus} {s : List Torus}
    (hs : IsBinary s) {err : ℕ → ℕ → Torus} {β : ℕ} (hβ : ∀ i k, nrm (err i k) ≤ β)
    (ht : IsTrgsw P.trgswLv1.N P.trgswLv1.L P.trgswLv1.BGBIT t p s err)
    (hg : IsFft L t g) (st : PEState O) (hst : PEGood P L st) (x : PRef × PRef)
    (hA : (st.mem x.1).length = P.trgswLv1.N) (hB : (st.mem x.2).length = P.trgswLv1.N) :
    ∃ st' out, externalProductWithFFT P st g x off = some (st', out) ∧
      ∀ k < P.trgswLv1.N,
        nrm (trPhase P.trgswLv1.N (st'.mem out.1) (st'.mem out.2) s k
          - p * trPhase P.trgswLv1.N (st.mem x.1) (st.mem x.2) s k)
        ≤ 2 * P.trgswLv1.L * P.trgswLv1.N * 2 ^ (P.trgswLv1.BGBIT - 1) * β
          + nrm p * (1 + weight P.trgswLv1.N s) * 2 ^ (32 - P.trgswLv1.L * P.trgswLv1.BGBIT)
          + D * (1 + weight P.trgswLv1.N s) := by
  obtain ⟨st', e, -, m1, m2, -⟩ := externalProductWithFFT_eq L hd st hst g (goodG_of_isFft hd ht hg) x off hA hB
  refine ⟨st', _, e, ?_⟩
  intro k hk
  simp only
  rw [m1, m2, offset_eq W hoff, trPhase_extProd W L t g p s err ht _ k hk, add_sub_cancel_left]
  exact extErr_bound W L hd hacc _ t g p s hs err β hβ ht hg _ k hk

/-! ### C29 -/

theorem cmux_phase {P : Params} (W : WellFormed P) (L : FourierLaws O)
    (hd : O.deg = P.trgswLv1.N) {D : ℕ}
    (hacc : L.Accurate (P.trgswLv1.L * 2) (2 ^ (P.trgswLv1.BGBIT - 1)) D) {off : Torus}
    (hoff : genDecompositionOffset P = some off) {t : Trgsw} {g : TrgswF O} {bit : Bool} {s : List Torus}
    (hs : IsBinary s) {err : ℕ → ℕ → Torus} {β : ℕ} (hβ : ∀ i k, nrm (err i k) ≤ β)
    (ht : IsTrgsw P.trgswLv1.N P.trgswLv1.L P.trgswLv1.BGBIT t (if bit then 1 else 0) s err)
    (hg : IsFft L t g) (c0 c1 : Trlwe) (k : ℕ) (hk : k < P.trgswLv1.N) :
    nrm (trPhase P.trgswLv1.N (cmux P L off g c0 c1).A (cmux P L off g c0 c1).B s k
      - (if bit then trPhase P.trgswLv1.N c1.A c1.B s k else trPhase P.trgswLv1.N c0.A c0.B s k))
    ≤ 2 * P.trgswLv1.L * P.trgswLv1.N * 2 ^ (P.trgswLv1.BGBIT - 1) * β
      + (if bit then (1 + weight P.trgswLv1.N s) * 2 ^ (32 - P.trgswLv1.L * P.trgswLv1.BGBIT) else 0)
      + D * (1 + weight P.trgswLv1.N s) := by
  have h := extErr_bound W L hd hacc off t g _ s hs err β hβ ht hg (Trlwe.sub P.trgswLv1.N c1 c0) k hk
  rw [offset_eq W hoff] at h ⊢
  rw [trPhase_cmux W L t g _ s err ht c0 c1 k hk]
  unfold extBound at h
  cases bit
  · simp only [Bool.false_eq_true, if_false] at h ⊢
    rw [zero_mul, add_zero, add_sub_cancel_left]
    have : nrm (0 : Torus) = 0 := by decide
    rw [this] at h
    simpa using h
  · simp only [if_true] at h ⊢
    rw [show ∀ a b e : Torus, a + 1 * (b - a) + e - b = e by intro a b e; ring]
    have : nrm (1 : Torus) = 1 := by decide
    rw [this] at h
    simpa using h

/-- **C29** for `Evaluator.CMuxAssign`: with a TRGSW encryption of the bit `bit`, the result has the
phase of `ct1` if the bit is set and that of `ct0` otherwise, up to the external product's error. The
output may be `ct0` but not `ct1` (see C30), and no argument may be the evaluator's own scratch. -/
theorem C29_cMuxAssign {P : Params} (W : WellFormed P) (L : FourierLaws O)
    (hd : O.deg = P.trgswLv1.N) {D : ℕ}
    (hacc : L.Accurate (P.trgswLv1.L * 2) (2 ^ (P.trgswLv1.BGBIT - 1)) D) {off : Torus}
    (hoff : genDecompositionOffset P = some off) {t : Trgsw} {g : TrgswF O} {bit : Bool} {s : List Torus}
    (hs : IsBinary s) {err : ℕ → ℕ → Torus} {β : ℕ} (hβ : ∀ i k, nrm (err i k) ≤ β)
    (ht : IsTrgsw P.trgswLv1.N P.trgswLv1.L P.trgswLv1.BGBIT t (if bit then 1 else 0) s err)
    (hg : IsFft L t g) (st : EvState O) (hst : EvGood P L st) (ct0 ct1 ctOut : TRef)
    (hs0 : ct0 ≠ .cmuxTmp ∧ ct0 ≠ .extRes) (hs1 : ct1 ≠ .cmuxTmp ∧ ct1 ≠ .extRes)
    (hso : ctOut ≠ .cmuxTmp ∧ ctOut ≠ .extRes) (hne : ct1 ≠ ctOut)
    (h0 : (st.tr ct0).Sized P.trgswLv1.N) (h1 : (st.tr ct1).Sized P.trgswLv1.N)
    (ho : (st.tr ctOut).Sized P.trgswLv1.N) :
    ∃ st', cMuxAssign P st g ct0 ct1 off ctOut = some st' ∧
      ∀ k < P.trgswLv1.N, nrm (trPhase P.trgswLv1.N (st'.tr ctOut).A (st'.tr ctOut).B s k
        - (if bit then trPhase P.trgswLv1.N (st.tr ct1).A (st.tr ct1).B s k
            else trPhase P.trgswLv1.N (st.tr ct0).A (st.tr ct0).B s k))
      ≤ 2 * P.trgswLv1.L * P.trgswLv1.N * 2 ^ (P.trgswLv1.BGBIT - 1) * β
        + (if bit then (1 + weight P.trgswLv1.N s) * 2 ^ (32 - P.trgswLv1.L * P.trgswLv1.BGBIT) else 0)
        + D * (1 + weight P.trgswLv1.N s) := by
  obtain ⟨st', e, -, h, -⟩ := cMuxAssign_eq W L hd st hst g (goodG_of_isFft hd ht hg) off ct0 ct1 ctOut
    hs0 hs1 hso h0 h1 ho
  refine ⟨st', e, fun k hk => ?_⟩
  rw [h, if_neg hne]
  exact cmux_phase W L hd hacc hoff hs hβ ht hg _ _ k hk

/-- **C29** for `trgsw.CMUX`: the same for the pooled implementation, when the inputs are not in the two
TRLWE buffers that the pool hands out next. -/
theorem C29_cmux {P : Params} (W : WellFormed P) (L : FourierLaws O)
    (hd : O.deg = P.trgswLv1.N) {D : ℕ}
    (hacc : L.Accurate (P.trgswLv1.L * 2) (2 ^ (P.trgswLv1.BGBIT - 1)) D) {off : Torus}
    (hoff : genDecompositionOffset P = some off) {t : Trgsw} {g : TrgswF O} {bit : Bool} {s : List Torus}
    (hs : IsBinary s) {err : ℕ → ℕ → Torus} {β : ℕ} (hβ : ∀ i k, nrm (err i k) ≤ β)
    (ht : IsTrgsw P.trgswLv1.N P.trgswLv1.L P.trgswLv1.BGBIT t (if bit then 1 else 0) s err)
    (hg : IsFft L t g) (st : PEState O) (hst : PEGood P L st) (in1 in2 : PRef × PRef)
    (l1A : (st.mem in1.1).length = P.trgswLv1.N) (l1B : (st.mem in1.2).length = P.trgswLv1.N)
    (l2A : (st.mem in2.1).length = P.trgswLv1.N) (l2B : (st.mem in2.2).length = P.trgswLv1.N)
    (hne : ∀ r, (r = in1.1 ∨ r = in1.2 ∨ r = in2.1 ∨ r = in2.2) →
      r ≠ .trA st.trIdx ∧ r ≠ .trB st.trIdx ∧ r ≠ .trA ((st.trIdx + 1) % 4) ∧ r ≠ .trB ((st.trIdx + 1) % 4)) :
    ∃ st' out, cmuxPooled P st in1 in2 g off = some (st', out) ∧
      ∀ k < P.trgswLv1.N, nrm (trPhase P.trgswLv1.N (st'.mem out.1) (st'.mem out.2) s k
        - (if bit then trPhase P.trgswLv1.N (st.mem in2.1) (st.mem in2.2) s k
            else trPhase P.trgswLv1.N (st.mem in1.1) (st.mem in1.2) s k))
      ≤ 2 * P.trgswLv1.L * P.trgswLv1.N * 2 ^ (P.trgswLv1.BGBIT - 1) * β
        + (if bit then (1 + weight P.trgswLv1.N s) * 2 ^ (32 - P.trgswLv1.L * P.trgswLv1.BGBIT) else 0)
        + D * (1 + weight P.trgswLv1.N s) := by
  obtain ⟨st', e, -, h, -⟩ := cmuxPooled_eq L hd st hst g (goodG_of_isFft hd ht hg) in1 in2 off
    l1A l1B l2A l2B hne
  refine ⟨st', _, e, fun k hk => ?_⟩
  have := cmux_phase W L hd hacc hoff hs hβ ht hg ⟨st.mem in1.1, st.mem in1.2⟩
    ⟨st.mem in2.1, st.mem in2.2⟩ k hk
  rw [← h] at this
  exact this

end GoTfhe
