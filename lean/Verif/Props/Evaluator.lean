import Verif.Lemmas.EvCalls

/-!
# C30, C32, C38 – C42: the evaluator
-/

namespace GoTfhe

variable {O : FourierOps}

/-! ### Concrete keys, used to show that the hypotheses below can be met -/

theorem getD_tab {α : Type*} (n : ℕ) (g : ℕ → α) (i : ℕ) (d : α) (h : i < n) : (tab n g).getD i d = g i := by
  rw [List.getD_eq_getElem?_getD, getElem?_tab, if_pos h]; rfl

theorem at'_zeros (n i : ℕ) : at' (mkSlice n (0 : Torus)) i = 0 := by
  unfold at' mkSlice
  by_cases h : i < n
  · rw [List.getD_eq_getElem?_getD, List.getElem?_replicate, if_pos h]; rfl
  · rw [List.getD_eq_getElem?_getD, List.getElem?_replicate, if_neg h]; rfl

theorem weight_zeros (n m : ℕ) : weight n (mkSlice m (0 : Torus)) = 0 := by
  unfold weight
  exact Finset.sum_eq_zero fun i _ => by rw [at'_zeros]; rfl

/-- For all key pairs (the second binary) there are a bootstrapping key with noise one in every coefficient and
an exact key-switching key. -/
theorem exists_keys {P : Params} (W : WellFormed P) (s0 s1 : List Torus)
    (hk : s1.length = P.trgswLv1.N) (h1 : IsBinary s1) :
    ∃ (bsk : List (TrgswF (exactOps P.trgswLv1.N))) (ksk : List (List Torus)),
      IsBsk (exL W) P.tlweLv0.N P.trgswLv1.N P.trgswLv1.L P.trgswLv1.BGBIT bsk s0 s1
        (fun _ _ k => if k < P.trgswLv1.N then 1 else 0) ∧
      GoodKsk P ksk ∧
      IsKsk P.tlweLv0.N P.trgswLv1.N P.trgswLv1.BASEBIT P.trgswLv1.IKS_T ksk s0 s1 (fun _ _ _ => 0) := by
  have key := fun i : ℕ => exists_trgsw W (at' s0 i) s1 hk h1 (fun a b => BitVec.ofNat 32 (a * 31 + b * 17 + i))
  choose t g hg hf ht using key
  obtain ⟨ksk, k1, k2, k3⟩ := isKsk_trivial P.tlweLv0.N P.trgswLv1.N P.trgswLv1.BASEBIT P.trgswLv1.IKS_T s0 s1
  refine ⟨tab P.tlweLv0.N g, ksk, ⟨by simp, fun i hi => ⟨t i, ht i, ?_⟩⟩,
    ⟨k1.ge, fun e he => (k2 e he).ge⟩, k3⟩
  rw [getD_tab _ _ _ _ hi]
  exact hf i

/-! ### C30 -/

/-- **C30.** With `ctOut` the same object as `ct0`, `CMuxAssign` writes exactly what it writes into a
separate output object. -/
theorem C30_out_is_ct0 {P : Params} (W : WellFormed P) (L : FourierLaws O)
    (hd : O.deg = P.trgswLv1.N) (st : EvState O) (hst : EvGood P L st) (g : TrgswF O)
    (hg : GoodG L P.trgswLv1.L g) (off : Torus) (ct0 ct1 out : TRef)
    (hs0 : ct0 ≠ .cmuxTmp ∧ ct0 ≠ .extRes) (hs1 : ct1 ≠ .cmuxTmp ∧ ct1 ≠ .extRes)
    (hso : out ≠ .cmuxTmp ∧ out ≠ .extRes) (hne : ct1 ≠ ct0) (hne' : ct1 ≠ out)
    (h0 : (st.tr ct0).Sized P.trgswLv1.N) (h1 : (st.tr ct1).Sized P.trgswLv1.N)
    (ho : (st.tr out).Sized P.trgswLv1.N) :
    ∃ sa sb, cMuxAssign P st g ct0 ct1 off ct0 = some sa ∧ cMuxAssign P st g ct0 ct1 off out = some sb ∧
      sa.tr ct0 = sb.tr out := by
  obtain ⟨sa, ea, -, va, -⟩ := cMuxAssign_eq W L hd st hst g hg off ct0 ct1 ct0 hs0 hs1 hs0 h0 h1 h0
  obtain ⟨sb, eb, -, vb, -⟩ := cMuxAssign_eq W L hd st hst g hg off ct0 ct1 out hs0 hs1 hso h0 h1 ho
  exact ⟨sa, sb, ea, eb, by rw [va, vb, if_neg hne, if_neg hne']⟩

/-- **C30.** With `ctOut` the same object as `ct1`, `CMuxAssign` writes what it writes into a separate
output when it is given `ct0` twice: the value of `ct1` is lost. -/
theorem C30_out_is_ct1 {P : Params} (W : WellFormed P) (L : FourierLaws O)
    (hd : O.deg = P.trgswLv1.N) (st : EvState O) (hst : EvGood P L st) (g : TrgswF O)
    (hg : GoodG L P.trgswLv1.L g) (off : Torus) (ct0 ct1 out : TRef)
    (hs0 : ct0 ≠ .cmuxTmp ∧ ct0 ≠ .extRes) (hs1 : ct1 ≠ .cmuxTmp ∧ ct1 ≠ .extRes)
    (hso : out ≠ .cmuxTmp ∧ out ≠ .extRes)
    (h0 : (st.tr ct0).Sized P.trgswLv1.N) (h1 : (st.tr ct1).Sized P.trgswLv1.N)
    (ho : (st.tr out).Sized P.trgswLv1.N) :
    ∃ sa sb, cMuxAssign P st g ct0 ct1 off ct1 = some sa ∧ cMuxAssign P st g ct0 ct0 off out = some sb ∧
      sa.tr ct1 = sb.tr out := by
  obtain ⟨sa, ea, -, va, -⟩ := cMuxAssign_eq W L hd st hst g hg off ct0 ct1 ct1 hs0 hs1 hs1 h0 h1 h1
  obtain ⟨sb, eb, -, vb, -⟩ := cMuxAssign_eq W L hd st hst g hg off ct0 ct0 out hs0 hs0 hso h0 h0 ho
  refine ⟨sa, sb, ea, eb, ?_⟩
  rw [va, vb, if_pos rfl]
  split_ifs <;> rfl

theorem trPhase_trivial (N : ℕ) (B s : List Torus) (k : ℕ) (hk : k < N) :
    trPhase N (mkSlice N 0) B s k = at' B k := by
  unfold trPhase
  rw [negMul_congr N _ (fun _ => (0 : Torus) * 0) _ (at' s) (fun i hi => by
    rw [at'_zeros, zero_mul]) (fun _ _ => rfl) k hk, negMul_smul_left]
  simp

/-- **C30**, concrete failure at the 128-bit level: a TRGSW encryption of 1 with noise one, `ct0` zero,
`ct1` the trivial encryption of 1/2, output onto `ct1`: the result's phase is more than 1/4 away from the
phase of `ct1`, which the selector chose. -/
theorem C30_out_is_ct1_wrong :
    ∃ (st : EvState (exactOps 1024)) (g : TrgswF (exactOps 1024)) (t : Trgsw) (off : Torus),
      EvGood (paramsFor 128) (exL (C63_wellFormed 128)) st ∧
      IsTrgsw 1024 (paramsFor 128).trgswLv1.L (paramsFor 128).trgswLv1.BGBIT t 1 (mkSlice 1024 0)
        (fun _ k => if k < 1024 then 1 else 0) ∧
      IsFft (exL (C63_wellFormed 128)) t g ∧ genDecompositionOffset (paramsFor 128) = some off ∧
      (st.tr (.user 0)).Sized 1024 ∧ (st.tr (.user 1)).Sized 1024 ∧
      ∃ st', cMuxAssign (paramsFor 128) st g (.user 0) (.user 1) off (.user 1) = some st' ∧
        2 ^ 30 < nrm (trPhase 1024 (st'.tr (.user 1)).A (st'.tr (.user 1)).B (mkSlice 1024 0) 0
          - trPhase 1024 (st.tr (.user 1)).A (st.tr (.user 1)).B (mkSlice 1024 0) 0) := by
  have W := C63_wellFormed 128
  set c1 : Trlwe := ⟨mkSlice 1024 0, tab 1024 fun _ => 0x80000000#32⟩ with hc1
  set c0 : Trlwe := ⟨mkSlice 1024 0, mkSlice 1024 0⟩ with hc0
  obtain ⟨st, e, hg, hu, -, -⟩ := newEvaluator_good W (exL W) rfl
    (fun r => if r = .user 0 then c0 else c1) (fun _ => [])
  have u0 : st.tr (.user 0) = c0 := by rw [hu]; simp
  have u1 : st.tr (.user 1) = c1 := by rw [hu]; simp
  have hbin : IsBinary (mkSlice 1024 (0 : Torus)) := fun x hx => Or.inl (List.eq_of_mem_replicate hx)
  obtain ⟨t, g, -, hf, ht⟩ := exists_trgsw W 1 (mkSlice 1024 0) (by simp; rfl) hbin
    (fun i j => BitVec.ofNat 32 (i * 77777 + j * 1234567))
  have hoff := genDecompositionOffset_eq (paramsFor 128) W.bg W.bgbit_pos W.gadget_fits
  have s0 : (st.tr (.user 0)).Sized 1024 := by rw [u0]; simp [Trlwe.Sized, hc0]
  have s1 : (st.tr (.user 1)).Sized 1024 := by rw [u1]; simp [Trlwe.Sized, hc1]
  refine ⟨st, g, t, _, hg, ht, hf, hoff, s0, s1, ?_⟩
  obtain ⟨st', e', -, v, -⟩ := cMuxAssign_eq W (exL W) rfl st hg g (goodG_of_isFft rfl ht hf)
    (gadgetOffset (paramsFor 128).trgswLv1.BGBIT (paramsFor 128).trgswLv1.L) (.user 0) (.user 1) (.user 1)
    (by simp) (by simp) (by simp) s0 s1 s1
  refine ⟨st', e', ?_⟩
  rw [if_pos rfl] at v
  have hb := cmux_phase W (exL W) rfl (exL_accurate W _ _) hoff (bit := true) hbin (β := 1)
    (fun _ k => by split_ifs <;> decide) ht hf (st.tr (.user 0)) (st.tr (.user 0)) 0 (by
      have := W.min_degree; omega)
  rw [← v] at hb
  simp only [if_true] at hb
  rw [weight_zeros] at hb
  have hz : trPhase (paramsFor 128).trgswLv1.N (st.tr (.user 0)).A (st.tr (.user 0)).B (mkSlice 1024 0) 0 = 0 := by
    rw [u0]
    exact (trPhase_trivial 1024 _ _ 0 (by norm_num)).trans (at'_zeros 1024 0)
  have hone : trPhase 1024 (st.tr (.user 1)).A (st.tr (.user 1)).B (mkSlice 1024 0) 0 = 0x80000000#32 := by
    rw [u1]
    rw [hc1, trPhase_trivial 1024 _ _ 0 (by norm_num), at'_tab _ _ _ (by norm_num)]
  rw [hz, sub_zero] at hb
  rw [hone]
  have hbound : 2 * (paramsFor 128).trgswLv1.L * (paramsFor 128).trgswLv1.N * 2 ^ ((paramsFor 128).trgswLv1.BGBIT - 1) * 1
      + (1 + 0) * 2 ^ (32 - (paramsFor 128).trgswLv1.L * (paramsFor 128).trgswLv1.BGBIT) + 0 * (1 + 0) < 2 ^ 29 := by
    show 2 * 3 * 1024 * 2 ^ (6 - 1) * 1 + (1 + 0) * 2 ^ (32 - 3 * 6) + 0 * (1 + 0) < 2 ^ 29
    norm_num
  have hlt := lt_of_le_of_lt hb hbound
  have tri : nrm (0x80000000#32 : Torus) ≤ nrm (trPhase 1024 (st'.tr (.user 1)).A (st'.tr (.user 1)).B
      (mkSlice 1024 0) 0) + nrm (trPhase 1024 (st'.tr (.user 1)).A (st'.tr (.user 1)).B
      (mkSlice 1024 0) 0 - 0x80000000#32) := by
    refine le_trans (le_of_eq ?_) (nrm_sub _ _)
    congr 1; ring
  have h31 : nrm (0x80000000#32 : Torus) = 2 ^ 31 := by decide
  rw [h31] at tri
  have : nrm (trPhase 1024 (st'.tr (.user 1)).A (st'.tr (.user 1)).B (mkSlice 1024 0) 0) < 2 ^ 29 := hlt
  omega

/-! ### C32 -/

/-- The value of a blind rotation has the phase of the rotated test vector, plus errors. -/
theorem blindRot_phase {P : Params} (W : WellFormed P) (L : FourierLaws O) (hd : O.deg = P.trgswLv1.N) {D : ℕ}
    (hacc : L.Accurate (P.trgswLv1.L * 2) (2 ^ (P.trgswLv1.BGBIT - 1)) D) {off : Torus}
    (hoff : genDecompositionOffset P = some off) {bsk : List (TrgswF O)} {s0 s1 : List Torus}
    {err : ℕ → ℕ → ℕ → Torus}
    (hbsk : IsBsk L P.tlweLv0.N P.trgswLv1.N P.trgswLv1.L P.trgswLv1.BGBIT bsk s0 s1 err)
    (hs0 : IsBinary s0) (hs1 : IsBinary s1) {β : ℕ} (hβ : ∀ i j k, nrm (err i j k) ≤ β)
    (tv : Trlwe) (c : List Torus) :
    ∃ (b : ℤ) (a : ℕ → ℤ) (e0 : ℕ → Torus) (e : ℕ → ℕ → Torus),
      IsNearest2N P.trgswLv1.N (at' c P.tlweLv0.N).toNat b ∧
      (∀ i, IsNearest2N P.trgswLv1.N (at' c i).toNat (a i)) ∧
      (∀ k < P.trgswLv1.N, nrm (e0 k) ≤ 1 + weight P.trgswLv1.N s1) ∧
      (∀ i < P.tlweLv0.N, ∀ k < P.trgswLv1.N, nrm (e i k)
        ≤ (at' s0 i).toNat * (1 + weight P.trgswLv1.N s1) * (1 + 2 ^ (32 - P.trgswLv1.L * P.trgswLv1.BGBIT))
          + 2 * P.trgswLv1.L * P.trgswLv1.N * 2 ^ (P.trgswLv1.BGBIT - 1) * β
          + D * (1 + weight P.trgswLv1.N s1)) ∧
      ∀ k < P.trgswLv1.N,
        trPhase P.trgswLv1.N (blindRot P L off bsk tv c).A (blindRot P L off bsk tv c).B s1 k
          = mulXk P.trgswLv1.N (trPhase P.trgswLv1.N tv.A tv.B s1)
              (-(b - ∑ i ∈ Finset.range P.tlweLv0.N, ((at' s0 i).toNat : ℤ) * a i)) k
            + mulXk P.trgswLv1.N e0 (∑ i ∈ Finset.range P.tlweLv0.N, ((at' s0 i).toNat : ℤ) * a i) k
            + ∑ i ∈ Finset.range P.tlweLv0.N, mulXk P.trgswLv1.N (e i)
                (∑ j ∈ Finset.Ico (i + 1) P.tlweLv0.N, ((at' s0 j).toNat : ℤ) * a j) k := by
  obtain ⟨ts, hts, hf⟩ := isBsk_choose hbsk
  have hN : 0 < P.trgswLv1.N := by have := W.min_degree; omega
  choose τ hτ hA hB using fun x => modswitch_core W x
  refine ⟨τ (at' c P.tlweLv0.N), fun i => τ (at' c i),
    rotErr P.trgswLv1.N s1 (bTilda P.trgswLv1.N P.trgswLv1.NBIT (at' c P.tlweLv0.N)),
    stepErr P L bsk tv c s0 s1 ts err, hτ _, fun i => hτ _,
    fun k hk => nrm_rotErr _ s1 (isBinary_at' hs1) _ k hk,
    fun i hi k hk => nrm_stepErr W L hd hacc bsk tv c s0 s1 hs0 hs1 ts err β hβ i (hts i hi) (hf i hi) k hk, ?_⟩
  intro k hk
  unfold blindRot
  rw [offset_eq W hoff, trPhase_blindAcc P L bsk tv c s0 s1 ts err W (isBinary_at' hs0) P.tlweLv0.N hts k hk,
    accErr_eq P L bsk tv c s0 s1 ts err P.tlweLv0.N hN k hk, ← add_assoc]
  have hdvd : ∀ s : Finset ℕ, (2 * P.trgswLv1.N : ℤ) ∣
      (∑ j ∈ s, ((at' s0 j).toNat : ℤ) * aTilda P.trgswLv1.NBIT (at' c j))
        - ∑ j ∈ s, ((at' s0 j).toNat : ℤ) * τ (at' c j) := by
    intro s
    rw [← Finset.sum_sub_distrib]
    apply Finset.dvd_sum
    intro j _
    rw [← mul_sub]
    exact Dvd.dvd.mul_left (hA _).2.2 _
  congr 1
  · congr 1
    · apply mulXk_mod _ hN
      unfold accExp
      rw [(hB _).1]
      obtain ⟨q, hq⟩ := hdvd (Finset.range P.tlweLv0.N)
      exact ⟨1 + q, by linarith⟩
    · apply mulXk_mod _ hN
      unfold accExp
      obtain ⟨q, hq⟩ := hdvd (Finset.range P.tlweLv0.N)
      exact ⟨q, by rw [Finset.sum_range_zero]; linarith⟩
  · apply Finset.sum_congr rfl
    intro i hi
    have hi := Finset.mem_range.1 hi
    apply mulXk_mod _ hN
    unfold accExp
    obtain ⟨q, hq⟩ := hdvd (Finset.Ico (i + 1) P.tlweLv0.N)
    refine ⟨q, ?_⟩
    have := Finset.sum_range_add_sum_Ico (fun j => ((at' s0 j).toNat : ℤ) * aTilda P.trgswLv1.NBIT (at' c j))
      (show i + 1 ≤ P.tlweLv0.N by omega)
    linarith

/-- **C32** for `Evaluator.BlindRotateAssign`: from every evaluator state, for every input, the phase of
the result is the phase of the test vector times `X^-(b - Σ s_i a_i)`, where `b` and the `a_i` are the
nearest integers to the input's coefficients times `2N/2^32`, plus the error `e0` of the first rotation
and the errors `e_i` of the steps, each rotated by the later steps. The bounds of the errors are part of
the statement. -/
theorem C32_blindRotateAssign {P : Params} (W : WellFormed P) (L : FourierLaws O) (hd : O.deg = P.trgswLv1.N)
    {D : ℕ} (hacc : L.Accurate (P.trgswLv1.L * 2) (2 ^ (P.trgswLv1.BGBIT - 1)) D) {off : Torus}
    (hoff : genDecompositionOffset P = some off) {bsk : List (TrgswF O)} {s0 s1 : List Torus}
    {err : ℕ → ℕ → ℕ → Torus}
    (hbsk : IsBsk L P.tlweLv0.N P.trgswLv1.N P.trgswLv1.L P.trgswLv1.BGBIT bsk s0 s1 err)
    (hs0 : IsBinary s0) (hs1 : IsBinary s1) {β : ℕ} (hβ : ∀ i j k, nrm (err i j k) ≤ β)
    (st : EvState O) (hst : EvGood P L st) (ctIn : LRef) (tv ctOut : TRef)
    (hin : (st.lw ctIn).length = P.tlweLv0.N + 1) (htv : tv ≠ .acc1) (hco : ¬ ctOut.scratch)
    (ht : (st.tr tv).Sized P.trgswLv1.N) (ho : (st.tr ctOut).Sized P.trgswLv1.N) :
    ∃ st', blindRotateAssign P st ctIn tv bsk off ctOut = some st' ∧
    ∃ (b : ℤ) (a : ℕ → ℤ) (e0 : ℕ → Torus) (e : ℕ → ℕ → Torus),
      IsNearest2N P.trgswLv1.N (at' (st.lw ctIn) P.tlweLv0.N).toNat b ∧
      (∀ i, IsNearest2N P.trgswLv1.N (at' (st.lw ctIn) i).toNat (a i)) ∧
      (∀ k < P.trgswLv1.N, nrm (e0 k) ≤ 1 + weight P.trgswLv1.N s1) ∧
      (∀ i < P.tlweLv0.N, ∀ k < P.trgswLv1.N, nrm (e i k)
        ≤ (at' s0 i).toNat * (1 + weight P.trgswLv1.N s1) * (1 + 2 ^ (32 - P.trgswLv1.L * P.trgswLv1.BGBIT))
          + 2 * P.trgswLv1.L * P.trgswLv1.N * 2 ^ (P.trgswLv1.BGBIT - 1) * β
          + D * (1 + weight P.trgswLv1.N s1)) ∧
      ∀ k < P.trgswLv1.N,
        trPhase P.trgswLv1.N (st'.tr ctOut).A (st'.tr ctOut).B s1 k
          = mulXk P.trgswLv1.N (trPhase P.trgswLv1.N (st.tr tv).A (st.tr tv).B s1)
              (-(b - ∑ i ∈ Finset.range P.tlweLv0.N, ((at' s0 i).toNat : ℤ) * a i)) k
            + mulXk P.trgswLv1.N e0 (∑ i ∈ Finset.range P.tlweLv0.N, ((at' s0 i).toNat : ℤ) * a i) k
            + ∑ i ∈ Finset.range P.tlweLv0.N, mulXk P.trgswLv1.N (e i)
                (∑ j ∈ Finset.Ico (i + 1) P.tlweLv0.N, ((at' s0 j).toNat : ℤ) * a j) k := by
  obtain ⟨st', e, -, h, -⟩ := blindRotateAssign_eq W L hd st hst bsk (goodBsk_of_isBsk L hd hbsk) off ctIn tv
    ctOut hin htv hco ht ho
  refine ⟨st', e, ?_⟩
  rw [h]
  exact blindRot_phase W L hd hacc hoff hbsk hs0 hs1 hβ _ _

/-- The hypotheses of C32 can be met for all well-formed parameters: noisy bootstrapping key, non-trivial keys, any
ciphertext. -/
example {P : Params} (W : WellFormed P) (c : List Torus) :
    ∃ (s0 s1 : List Torus) (bsk : List (TrgswF (exactOps P.trgswLv1.N))) (off : Torus)
      (st : EvState (exactOps P.trgswLv1.N)),
      IsBinary s0 ∧ IsBinary s1 ∧ at' s0 0 = 1 ∧ at' s1 1 = 1 ∧
      IsBsk (exL W) P.tlweLv0.N P.trgswLv1.N
        P.trgswLv1.L P.trgswLv1.BGBIT bsk s0 s1
        (fun _ _ k => if k < P.trgswLv1.N then 1 else 0) ∧
      genDecompositionOffset P = some off ∧
      EvGood P (exL W) st ∧ st.lw (.user 0) = c := by
  have hN := W.min_degree
  have h1 : IsBinary (tab P.trgswLv1.N fun i => if i % 2 = 1 then (1 : Torus) else 0) := by
    intro x hx
    obtain ⟨i, -, rfl⟩ := List.mem_map.1 hx
    by_cases h : i % 2 = 1 <;> simp [h]
  have h0 : IsBinary (tab P.tlweLv0.N fun i => if i % 3 = 0 then (1 : Torus) else 0) := by
    intro x hx
    obtain ⟨i, -, rfl⟩ := List.mem_map.1 hx
    by_cases h : i % 3 = 0 <;> simp [h]
  obtain ⟨bsk, ksk, hb, -, -⟩ := exists_keys W _ _ (by simp) h1
  obtain ⟨st, -, hg, -, hl, -⟩ := newEvaluator_good W (exL W) rfl (fun _ => newTRLWELv1 P) (fun _ => c)
  refine ⟨_, _, bsk, _, st, h0, h1, ?_, ?_, hb,
    genDecompositionOffset_eq P W.bg W.bgbit_pos W.gadget_fits, hg, hl 0⟩
  · rw [at'_tab _ _ _ W.lv0_pos]; simp
  · rw [at'_tab _ _ _ (by omega)]; simp

/-! ### C38, C39 -/

/-- **C38.** Take any evaluator made by `NewEvaluator` and any sequence of well-sized calls on it (any
mixture of external products, CMUXes, blind rotations, bootstraps into caller objects or pooled results,
resets, changes of the caller's own objects, with any keys). Then `BootstrapAssign` succeeds and writes
exactly the value that a brand-new evaluator writes for equal inputs; it changes no other caller-visible
LWE object and no TRLWE object of the caller. -/
theorem C38_history_independent {P : Params} (W : WellFormed P) (L : FourierLaws O)
    (hd : O.deg = P.trgswLv1.N) (tr0 : TRef → Trlwe) (lw0 : LRef → List Torus) (cs : List (EvCall O))
    (st0 st : EvState O) (h0 : newEvaluator P O tr0 lw0 = some st0) (hcs : AllSized P L st0 cs)
    (hrun : runCalls P st0 cs = some st)
    (tr1 : TRef → Trlwe) (lw1 : LRef → List Torus) (fresh : EvState O)
    (h1 : newEvaluator P O tr1 lw1 = some fresh)
    (bsk : List (TrgswF O)) (hb : GoodBsk P L bsk) (ksk : List (List Torus)) (hk : GoodKsk P ksk)
    (off : Torus) (ctIn ctOut : LRef) (tv ctIn' ctOut' tv' : ℕ)
    (hin : (st.lw ctIn).length = P.tlweLv0.N + 1) (ht : (st.tr (.user tv)).Sized P.trgswLv1.N)
    (hoc : ctOut.callable) (ho : (st.lw ctOut).length = P.tlweLv0.N + 1)
    (heq : fresh.lw (.user ctIn') = st.lw ctIn) (heqt : fresh.tr (.user tv') = st.tr (.user tv))
    (ho' : (fresh.lw (.user ctOut')).length = P.tlweLv0.N + 1) :
    ∃ sa sb, bootstrapAssign P st ctIn (.user tv) bsk ksk off ctOut = some sa ∧
      bootstrapAssign P fresh (.user ctIn') (.user tv') bsk ksk off (.user ctOut') = some sb ∧
      sa.lw ctOut = sb.lw (.user ctOut') ∧
      (∀ r, r.callable → r ≠ ctOut → sa.lw r = st.lw r) ∧
      (∀ k, sa.tr (.user k) = st.tr (.user k)) := by
  obtain ⟨x, e, hg0, -⟩ := newEvaluator_good W L hd tr0 lw0
  obtain rfl := Option.some.inj (e.symm.trans h0)
  obtain ⟨y, e', hg⟩ := runCalls_good W L hd cs x hg0 hcs
  obtain rfl := Option.some.inj (e'.symm.trans hrun)
  obtain ⟨z, e'', hgf, -⟩ := newEvaluator_good W L hd tr1 lw1
  obtain rfl := Option.some.inj (e''.symm.trans h1)
  have hne : ctOut ≠ .extracted := by rintro rfl; exact hoc
  obtain ⟨sa, ea, -, va, fa, ta, -⟩ := bootstrapAssign_eq W L hd y hg bsk hb ksk hk off ctIn (.user tv) ctOut
    hin (by simp) ht hne ho
  obtain ⟨sb, eb, -, vb, -⟩ := bootstrapAssign_eq W L hd z hgf bsk hb ksk hk off (.user ctIn') (.user tv')
    (.user ctOut') (by rw [heq]; exact hin) (by simp) (by rw [heqt]; exact ht) (by simp) ho'
  refine ⟨sa, sb, ea, eb, ?_, ?_, ?_⟩
  · rw [va, vb, heq, heqt]
  · intro r hr h
    exact fa r h (by rintro rfl; exact hr)
  · intro k
    exact ta _ (by simp [TRef.internal])

/-- A history with seven calls of five kinds that meets the hypotheses of C38 for all well-formed parameters. -/
example {P : Params} (W : WellFormed P) :
    ∃ (bsk : List (TrgswF (exactOps P.trgswLv1.N))) (ksk : List (List Torus))
      (st0 : EvState (exactOps P.trgswLv1.N)),
      newEvaluator P _ (fun _ => newTRLWELv1 P)
        (fun _ => newTLWELv0 P) = some st0 ∧
      AllSized P (exL W) st0
        [.putLw 3 (tab (P.tlweLv0.N + 1) fun i => BitVec.ofNat 32 (i * 1000003)),
         .boot (.user 3) 0 bsk ksk 5, .bootCopy (.pool 0) 1 bsk ksk 6 3, .boot (.pool 1) 0 bsk ksk 5,
         .bootAssign (.pool 0) 0 bsk ksk 5 (.pool 0), .reset, .boot (.user 3) 0 bsk ksk 5] := by
  obtain ⟨bsk, ksk, hb, hk, -⟩ := exists_keys W (mkSlice P.tlweLv0.N 0) (mkSlice P.trgswLv1.N 0)
    (by simp) (fun x hx => Or.inl (List.eq_of_mem_replicate hx))
  obtain ⟨st, e, hg, ht, hl, hp⟩ := newEvaluator_good W (exL W) rfl (fun _ => newTRLWELv1 P)
    (fun _ => newTLWELv0 P)
  have hB := goodBsk_of_isBsk (exL W) rfl hb
  refine ⟨bsk, ksk, st, e, ?_⟩
  have hs : (newTRLWELv1 P).Sized P.trgswLv1.N := by constructor <;> simp [newTRLWELv1, W.trlwe_eq]
  -- an invariant kept by every call: the caller's test vectors and object 3 stay well sized
  have inv : ∀ (cs : List (EvCall (exactOps P.trgswLv1.N))) (s : EvState (exactOps P.trgswLv1.N)),
      EvGood P (exL W) s → (∀ k, (s.tr (.user k)).Sized P.trgswLv1.N) →
      (s.lw (.user 3)).length = P.tlweLv0.N + 1 →
      (∀ c ∈ cs, c = .putLw 3 (tab (P.tlweLv0.N + 1) fun i => BitVec.ofNat 32 (i * 1000003)) ∨ c = .reset ∨
        (∃ r tv off, (r = .user 3 ∨ r = .pool 0 ∨ r = .pool 1) ∧ c = .boot r tv bsk ksk off) ∨
        (∃ r tv off, (r = .user 3 ∨ r = .pool 0 ∨ r = .pool 1) ∧ c = .bootCopy r tv bsk ksk off 3) ∨
        (∃ r tv off, (r = .user 3 ∨ r = .pool 0 ∨ r = .pool 1) ∧ c = .bootAssign r tv bsk ksk off (.pool 0))) →
      AllSized P (exL W) s cs := by
    intro cs
    induction cs with
    | nil => intros; trivial
    | cons c cs ih =>
      intro s hg ht h3 hc
      have hlen : ∀ r, (r = LRef.user 3 ∨ r = .pool 0 ∨ r = .pool 1) → (s.lw r).length = P.tlweLv0.N + 1 := by
        rintro r (rfl | rfl | rfl)
        · exact h3
        · exact hg.pool_len 0 (by norm_num)
        · exact hg.pool_len 1 (by norm_num)
      have hsz : c.Sized P (exL W) s := by
        rcases hc c List.mem_cons_self with rfl | rfl | ⟨r, tv, off, hr, rfl⟩ | ⟨r, tv, off, hr, rfl⟩ |
          ⟨r, tv, off, hr, rfl⟩
        · trivial
        · trivial
        · exact ⟨hB, hk, hlen r hr, ht _⟩
        · exact ⟨hB, hk, hlen r hr, ht _⟩
        · exact ⟨hB, hk, hlen r hr, ht _, by norm_num [LRef.callable], hg.pool_len 0 (by norm_num)⟩
      refine ⟨hsz, fun s' hs' => ih s' ?_ ?_ ?_ fun c h => hc c (List.mem_cons_of_mem _ h)⟩
      · obtain ⟨x, ex, hx, -⟩ := run_good W (exL W) rfl s hg c hsz
        obtain rfl := Option.some.inj (ex.symm.trans hs')
        exact hx
      · intro k
        rcases hc c List.mem_cons_self with rfl | rfl | ⟨r, tv, off, hr, rfl⟩ | ⟨r, tv, off, hr, rfl⟩ |
          ⟨r, tv, off, hr, rfl⟩
        · obtain rfl := Option.some.inj hs'; exact ht k
        · obtain rfl := Option.some.inj hs'; exact ht k
        · obtain ⟨x, ex, -, -, -, h, -⟩ := bootstrapPooled_eq W (exL W) rfl s hg bsk hB ksk hk off r (.user tv)
            (hlen r hr) (by simp) (ht _)
          simp only [EvCall.run, ex, Option.map_some, Option.some.injEq] at hs'
          subst hs'
          rw [h _ (by simp [TRef.internal])]; exact ht k
        · obtain ⟨x, ex, -, -, h, -⟩ := bootstrapLUT_eq W (exL W) rfl s hg bsk hB ksk hk off r (.user tv)
            (hlen r hr) (by simp) (ht _)
          simp only [EvCall.run, ex, Option.map_some, Option.some.injEq] at hs'
          subst hs'
          show (x.tr (.user k)).Sized _
          rw [h _ (by simp [TRef.internal])]; exact ht k
        · obtain ⟨x, ex, -, -, -, h, -⟩ := bootstrapAssign_eq W (exL W) rfl s hg bsk hB ksk hk off r (.user tv)
            (.pool 0) (hlen r hr) (by simp) (ht _) (by simp) (hg.pool_len 0 (by norm_num))
          simp only [EvCall.run, ex, Option.some.injEq] at hs'
          subst hs'
          rw [h _ (by simp [TRef.internal])]; exact ht k
      · rcases hc c List.mem_cons_self with rfl | rfl | ⟨r, tv, off, hr, rfl⟩ | ⟨r, tv, off, hr, rfl⟩ |
          ⟨r, tv, off, hr, rfl⟩
        · obtain rfl := Option.some.inj hs'; simp [EvState.setLw]
        · obtain rfl := Option.some.inj hs'; exact h3
        · obtain ⟨x, ex, -, -, h, -⟩ := bootstrapPooled_eq W (exL W) rfl s hg bsk hB ksk hk off r (.user tv)
            (hlen r hr) (by simp) (ht _)
          simp only [EvCall.run, ex, Option.map_some, Option.some.injEq] at hs'
          subst hs'
          rw [h _ (by simp) (by simp)]; exact h3
        · obtain ⟨x, ex, -, -⟩ := bootstrapLUT_eq W (exL W) rfl s hg bsk hB ksk hk off r (.user tv)
            (hlen r hr) (by simp) (ht _)
          simp only [EvCall.run, ex, Option.map_some, Option.some.injEq] at hs'
          subst hs'
          simp [EvState.setLw, length_bootPure]
        · obtain ⟨x, ex, -, -, h, -⟩ := bootstrapAssign_eq W (exL W) rfl s hg bsk hB ksk hk off r (.user tv)
            (.pool 0) (hlen r hr) (by simp) (ht _) (by simp) (hg.pool_len 0 (by norm_num))
          simp only [EvCall.run, ex, Option.some.injEq] at hs'
          subst hs'
          rw [h _ (by simp) (by simp)]; exact h3
  apply inv _ _ hg
  · intro k; rw [ht]; exact hs
  · rw [hl]; simp [newTLWELv0]
  · intro c hc
    simp only [List.mem_cons, List.not_mem_nil, or_false] at hc
    rcases hc with rfl | rfl | rfl | rfl | rfl | rfl | rfl
    · exact Or.inl rfl
    · exact Or.inr (Or.inr (Or.inl ⟨_, _, _, Or.inl rfl, rfl⟩))
    · exact Or.inr (Or.inr (Or.inr (Or.inl ⟨_, _, _, Or.inr (Or.inl rfl), rfl⟩)))
    · exact Or.inr (Or.inr (Or.inl ⟨_, _, _, Or.inr (Or.inr rfl), rfl⟩))
    · exact Or.inr (Or.inr (Or.inr (Or.inr ⟨_, _, _, Or.inr (Or.inl rfl), rfl⟩)))
    · exact Or.inr (Or.inl rfl)
    · exact Or.inr (Or.inr (Or.inl ⟨_, _, _, Or.inl rfl, rfl⟩))

/-- **C39.** `BootstrapAssign` with `ctOut` the same object as `ctIn` writes exactly what it writes into a
separate object, in every evaluator state; this includes a pooled result bootstrapped onto itself. -/
theorem C39_out_is_in {P : Params} (W : WellFormed P) (L : FourierLaws O)
    (hd : O.deg = P.trgswLv1.N) (st : EvState O) (hst : EvGood P L st) (bsk : List (TrgswF O))
    (hb : GoodBsk P L bsk) (ksk : List (List Torus)) (hk : GoodKsk P ksk) (off : Torus)
    (c out : LRef) (tv : TRef) (hc : c.callable) (hout : out.callable) (hne : out ≠ c)
    (hin : (st.lw c).length = P.tlweLv0.N + 1) (ho : (st.lw out).length = P.tlweLv0.N + 1)
    (htv : tv ≠ .acc1) (ht : (st.tr tv).Sized P.trgswLv1.N) :
    ∃ sa sb, bootstrapAssign P st c tv bsk ksk off c = some sa ∧
      bootstrapAssign P st c tv bsk ksk off out = some sb ∧ sa.lw c = sb.lw out ∧ sb.lw c = st.lw c := by
  obtain ⟨sa, ea, -, va, -⟩ := bootstrapAssign_eq W L hd st hst bsk hb ksk hk off c tv c hin htv ht
    (by rintro rfl; exact hc) hin
  obtain ⟨sb, eb, -, vb, f, -⟩ := bootstrapAssign_eq W L hd st hst bsk hb ksk hk off c tv out hin htv ht
    (by rintro rfl; exact hout) ho
  exact ⟨sa, sb, ea, eb, by rw [va, vb], f c (Ne.symm hne) (by rintro rfl; exact hc)⟩

/-! ### C40 -/

/-- **C40.** The object returned by `Bootstrap` / `BootstrapLUTTemp` still holds the bootstrapped value
after any further sequence of well-sized calls that does not name it as an output, contains no
`ResetBuffers` and takes at most three further results. -/
theorem C40_lifetime {P : Params} (W : WellFormed P) (L : FourierLaws O)
    (hd : O.deg = P.trgswLv1.N) (st : EvState O) (hst : EvGood P L st) (bsk : List (TrgswF O))
    (hb : GoodBsk P L bsk) (ksk : List (List Torus)) (hk : GoodKsk P ksk) (off : Torus)
    (ctIn : LRef) (tv : ℕ) (hin : (st.lw ctIn).length = P.tlweLv0.N + 1)
    (ht : (st.tr (.user tv)).Sized P.trgswLv1.N) :
    ∃ st1 r, bootstrapPooled P st ctIn (.user tv) bsk ksk off = some (st1, r) ∧
      ∀ (cs : List (EvCall O)) (st2 : EvState O), AllSized P L st1 cs → (∀ c ∈ cs, c.Spares r) →
        (∀ c ∈ cs, c ≠ .reset) → cs.countP EvCall.takesResult ≤ 3 → runCalls P st1 cs = some st2 →
        st2.lw r = st1.lw r := by
  obtain ⟨s, e, hg, -, -, -, hp⟩ := bootstrapPooled_eq W L hd st hst bsk hb ksk hk off ctIn (.user tv) hin
    (by simp) ht
  refine ⟨s, _, e, ?_⟩
  intro cs st2 hc hs hr hn hrun
  have := hst.idx_lt
  exact runCalls_keeps W L hd _ hst.idx_lt cs s st2 hg hc hs hr (by rw [hp]; omega) hrun

/-- **C40.** The fourth further result is the same object: after any sequence of well-sized calls without
reset that takes exactly three results, the next `Bootstrap` returns the first object again and
overwrites it with the new value. -/
theorem C40_overwritten {P : Params} (W : WellFormed P) (L : FourierLaws O)
    (hd : O.deg = P.trgswLv1.N) (st : EvState O) (hst : EvGood P L st) (bsk : List (TrgswF O))
    (hb : GoodBsk P L bsk) (ksk : List (List Torus)) (hk : GoodKsk P ksk) (off : Torus)
    (ctIn : LRef) (tv : ℕ) (hin : (st.lw ctIn).length = P.tlweLv0.N + 1)
    (ht : (st.tr (.user tv)).Sized P.trgswLv1.N) (st1 : EvState O) (r : LRef)
    (h1 : bootstrapPooled P st ctIn (.user tv) bsk ksk off = some (st1, r))
    (cs : List (EvCall O)) (st2 : EvState O) (hc : AllSized P L st1 cs) (hr : ∀ c ∈ cs, c ≠ .reset)
    (hn : cs.countP EvCall.takesResult = 3) (hrun : runCalls P st1 cs = some st2)
    (ctIn' : LRef) (tv' : ℕ) (hin' : (st2.lw ctIn').length = P.tlweLv0.N + 1)
    (ht' : (st2.tr (.user tv')).Sized P.trgswLv1.N) :
    ∃ st3, bootstrapPooled P st2 ctIn' (.user tv') bsk ksk off = some (st3, r) ∧
      st3.lw r = bootPure P L off bsk ksk (st2.tr (.user tv')) (st2.lw ctIn') := by
  obtain ⟨s, e, hg, -, -, -, hp⟩ := bootstrapPooled_eq W L hd st hst bsk hb ksk hk off ctIn (.user tv) hin
    (by simp) ht
  obtain ⟨rfl, rfl⟩ : s = st1 ∧ LRef.pool st.poolIdx = r := by
    have := e.symm.trans h1
    simpa using this
  obtain ⟨x, ex, hgx⟩ := runCalls_good W L hd cs s hg hc
  obtain rfl := Option.some.inj (ex.symm.trans hrun)
  have hidx := runCalls_poolIdx W L hd cs s x hg hc hr hrun
  have := hst.idx_lt
  have hx : x.poolIdx = st.poolIdx := by rw [hidx, hp, hn]; omega
  obtain ⟨s3, e3, -, v3, -⟩ := bootstrapPooled_eq W L hd x hgx bsk hb ksk hk off ctIn' (.user tv') hin'
    (by simp) ht'
  rw [hx] at e3 v3
  exact ⟨s3, e3, v3⟩

/-- **C40.** Results of `BootstrapLUT` / `BootstrapFunc` are copies: the caller's new object holding one
keeps its value through every sequence of well-sized calls that does not name it as output, however
many results are taken and whether or not buffers are reset. -/
theorem C40_copies {P : Params} (W : WellFormed P) (L : FourierLaws O)
    (hd : O.deg = P.trgswLv1.N) (o : ℕ) (cs : List (EvCall O)) (st st' : EvState O) (hst : EvGood P L st)
    (hc : AllSized P L st cs) (hs : ∀ c ∈ cs, c.Spares (.user o)) (hrun : runCalls P st cs = some st') :
    st'.lw (.user o) = st.lw (.user o) := by
  induction cs generalizing st with
  | nil =>
    simp only [runCalls, Option.some.injEq] at hrun
    rw [hrun]
  | cons c cs ih =>
    obtain ⟨s, e, hg, hl, -⟩ := run_good W L hd st hst c hc.1
    simp only [runCalls, e, Option.bind_some] at hrun
    rw [← hl _ (by simp) (hs c List.mem_cons_self) (by simp)]
    exact ih s hg (hc.2 s e) (fun c h => hs c (List.mem_cons_of_mem _ h)) hrun

/-- **C40.** `ResetBuffers` shortens the lifetime: on an evaluator whose pool index is 0 (for example a
new one), a result followed by a reset is overwritten by the very next result. -/
theorem C40_reset {P : Params} (W : WellFormed P) (L : FourierLaws O)
    (hd : O.deg = P.trgswLv1.N) (st : EvState O) (hst : EvGood P L st) (h0 : st.poolIdx = 0)
    (bsk : List (TrgswF O)) (hb : GoodBsk P L bsk) (ksk : List (List Torus)) (hk : GoodKsk P ksk) (off : Torus)
    (ctIn ctIn' : ℕ) (tv tv' : ℕ) (hin : (st.lw (.user ctIn)).length = P.tlweLv0.N + 1)
    (hin' : (st.lw (.user ctIn')).length = P.tlweLv0.N + 1)
    (ht : (st.tr (.user tv)).Sized P.trgswLv1.N) (ht' : (st.tr (.user tv')).Sized P.trgswLv1.N) :
    ∃ st1 st2 r, bootstrapPooled P st (.user ctIn) (.user tv) bsk ksk off = some (st1, r) ∧
      bootstrapPooled P (resetBuffers st1) (.user ctIn') (.user tv') bsk ksk off = some (st2, r) ∧
      st1.lw r = bootPure P L off bsk ksk (st.tr (.user tv)) (st.lw (.user ctIn)) ∧
      st2.lw r = bootPure P L off bsk ksk (st.tr (.user tv')) (st.lw (.user ctIn')) := by
  obtain ⟨s, e, hg, v, f, t, hp⟩ := bootstrapPooled_eq W L hd st hst bsk hb ksk hk off (.user ctIn) (.user tv) hin
    (by simp) ht
  have hg2 : EvGood P L (resetBuffers s) := ⟨hg.dec_len, hg.dec_row, hg.four_len, hg.four_ok, hg.okA, hg.okB,
    hg.tr_len, hg.ext_len, hg.pool_len, by simp [resetBuffers]⟩
  have l1 : (resetBuffers s).lw (.user ctIn') = st.lw (.user ctIn') := f _ (by simp) (by simp)
  have l2 : (resetBuffers s).tr (.user tv') = st.tr (.user tv') := t _ (by simp [TRef.internal])
  obtain ⟨s2, e2, -, v2, -⟩ := bootstrapPooled_eq W L hd (resetBuffers s) hg2 bsk hb ksk hk off
    (.user ctIn') (.user tv') (by rw [l1]; exact hin') (by simp) (by rw [l2]; exact ht')
  have hz : (resetBuffers s).poolIdx = 0 := rfl
  rw [h0] at e v
  rw [hz] at e2 v2
  exact ⟨s, s2, _, e, e2, v, by rw [v2, l1, l2]⟩

/-! ### C41 -/

theorem forRange_none_first {σ : Type} (n : ℕ) (hn : 0 < n) (s : σ) (body : ℕ → σ → Option σ)
    (h : body 0 s = none) : forRange 0 n s body = none := by
  rw [forRange_succ_left _ _ hn, h]; rfl

theorem externalProductAssign_short {P : Params} (st : EvState O) (h : st.polyDec.length < P.trgswLv1.L * 2)
    (g : TrgswF O) (ctIn : TRef) (off : Torus) (ctOut : TRef) :
    externalProductAssign P st g ctIn off ctOut = none := by
  unfold externalProductAssign
  simp only
  rw [if_pos (by omega)]

theorem forRange_polyDec (n : ℕ) (s : EvState O) (body : ℕ → EvState O → Option (EvState O))
    (h : ∀ i s s', body i s = some s' → s'.polyDec = s.polyDec) (s' : EvState O)
    (e : forRange 0 n s body = some s') : s'.polyDec = s.polyDec := by
  have : ∀ m k s, (forRange k (k + m) s body = some s') → s'.polyDec = s.polyDec := by
    intro m
    induction m with
    | zero =>
      intro k s e
      rw [forRange_empty _ _ (by omega)] at e
      rw [Option.some.inj e]
    | succ m ih =>
      intro k s e
      rw [forRange_succ_left _ _ (by omega)] at e
      cases hb : body k s with
      | none => rw [hb] at e; simp at e
      | some s1 =>
        rw [hb] at e
        rw [← h k s s1 hb]
        refine ih (k + 1) s1 ?_
        rw [show k + 1 + m = k + (m + 1) by ring]
        exact e
  exact this n 0 s (by rwa [Nat.zero_add])

theorem wrA_polyDec (st st' : EvState O) (r : TRef) (i : ℕ) (v : Torus) (h : st.wrA r i v = some st') :
    st'.polyDec = st.polyDec := by
  unfold EvState.wrA at h
  cases hw : wr (st.tr r).A i v with
  | none => rw [hw] at h; simp at h
  | some a => rw [hw] at h; simp only [Option.bind_eq_bind, Option.bind_some, Option.pure_def, Option.some.injEq] at h; rw [← h]; rfl

theorem wrB_polyDec (st st' : EvState O) (r : TRef) (i : ℕ) (v : Torus) (h : st.wrB r i v = some st') :
    st'.polyDec = st.polyDec := by
  unfold EvState.wrB at h
  cases hw : wr (st.tr r).B i v with
  | none => rw [hw] at h; simp at h
  | some a => rw [hw] at h; simp only [Option.bind_eq_bind, Option.bind_some, Option.pure_def, Option.some.injEq] at h; rw [← h]; rfl

theorem cMuxAssign_short {P : Params} (st : EvState O) (h : st.polyDec.length < P.trgswLv1.L * 2)
    (g : TrgswF O) (ct0 ct1 : TRef) (off : Torus) (ctOut : TRef) :
    cMuxAssign P st g ct0 ct1 off ctOut = none := by
  unfold cMuxAssign
  simp only [Option.bind_eq_bind]
  rw [Option.bind_eq_none_iff]
  intro s hs
  have hp : s.polyDec = st.polyDec := by
    refine (forRange_polyDec _ _ _ ?_ s hs).trans rfl
    intro i a b hb
    rw [Option.bind_eq_some_iff] at hb; obtain ⟨x, -, hb⟩ := hb
    rw [Option.bind_eq_some_iff] at hb; obtain ⟨y, -, hb⟩ := hb
    rw [Option.bind_eq_some_iff] at hb; obtain ⟨a1, h1, hb⟩ := hb
    rw [Option.bind_eq_some_iff] at hb; obtain ⟨x', -, hb⟩ := hb
    rw [Option.bind_eq_some_iff] at hb; obtain ⟨y', -, hb⟩ := hb
    rw [wrB_polyDec _ _ _ _ _ hb, wrA_polyDec _ _ _ _ _ h1]
  rw [externalProductAssign_short s (by rw [hp]; exact h)]
  rfl

theorem rotateInto_polyDec (st st' : EvState O) (a b : TRef) (k : ℤ) (h : rotateInto st a k b = some st') :
    st'.polyDec = st.polyDec := by
  unfold rotateInto at h
  simp only [Option.bind_eq_bind] at h
  split_ifs at h <;>
  · rw [Option.bind_eq_some_iff] at h; obtain ⟨x, -, h⟩ := h
    rw [Option.bind_eq_some_iff] at h; obtain ⟨y, -, h⟩ := h
    simp only [Option.pure_def, Option.some.injEq] at h
    rw [← h]; rfl

theorem blindRotateAssign_short {P : Params} (hn : 0 < P.tlweLv0.N) (st : EvState O)
    (h : st.polyDec.length < P.trgswLv1.L * 2) (ctIn : LRef) (tv : TRef) (bsk : List (TrgswF O)) (off : Torus)
    (ctOut : TRef) : blindRotateAssign P st ctIn tv bsk off ctOut = none := by
  unfold blindRotateAssign
  simp only [Option.bind_eq_bind]
  rw [Option.bind_eq_none_iff]
  intro b _
  rw [Option.bind_eq_none_iff]
  intro s hs
  rw [forRange_none_first _ hn, Option.bind_none]
  rw [Option.bind_eq_none_iff]
  intro a _
  rw [Option.bind_eq_none_iff]
  intro s2 hs2
  rw [Option.bind_eq_none_iff]
  intro g _
  apply cMuxAssign_short
  rw [rotateInto_polyDec _ _ _ _ _ hs2, rotateInto_polyDec _ _ _ _ _ hs]
  exact h

/-- **C41 is false of the code.** On every copy made by `ShallowCopy`, from every evaluator state and for
all arguments, `ExternalProductAssign`, `CMuxAssign`, `BlindRotateAssign`, `BootstrapAssign`, `Bootstrap`
and `BootstrapLUT` panic. -/
theorem C41_shallowCopy_panics {P : Params} (W : WellFormed P) (L : FourierLaws O)
    (hd : O.deg = P.trgswLv1.N) (st copy : EvState O) (hcopy : shallowCopy P st = some copy) :
    (∀ g ctIn off ctOut, externalProductAssign P copy g ctIn off ctOut = none) ∧
    (∀ g ct0 ct1 off ctOut, cMuxAssign P copy g ct0 ct1 off ctOut = none) ∧
    (∀ ctIn tv bsk off ctOut, blindRotateAssign P copy ctIn tv bsk off ctOut = none) ∧
    (∀ ctIn tv bsk ksk off ctOut, bootstrapAssign P copy ctIn tv bsk ksk off ctOut = none) ∧
    (∀ ctIn tv bsk ksk off, bootstrapPooled P copy ctIn tv bsk ksk off = none) ∧
    (∀ ctIn tv bsk ksk off, bootstrapLUT P copy ctIn tv bsk ksk off = none) := by
  have hlen : copy.polyDec.length < P.trgswLv1.L * 2 := by
    unfold shallowCopy at hcopy
    split_ifs at hcopy with h
    obtain ⟨s, e, hp, -⟩ := newEvState_good W L hd (st.polyDec.take 1).length st.tr st.lw
    obtain rfl := Option.some.inj (e.symm.trans hcopy)
    rw [hp, List.length_replicate, List.length_take]
    have := W.l_pos
    omega
  have hblind := fun (s : EvState O) (h : s.polyDec.length < P.trgswLv1.L * 2) =>
    blindRotateAssign_short W.lv0_pos s h
  have hboot : ∀ (s : EvState O), s.polyDec.length < P.trgswLv1.L * 2 → ∀ ctIn tv bsk ksk off ctOut,
      bootstrapAssign P s ctIn tv bsk ksk off ctOut = none := by
    intro s hs ctIn tv bsk ksk off ctOut
    unfold bootstrapAssign
    rw [hblind s hs]; rfl
  have hpool : ∀ ctIn tv bsk ksk off, bootstrapPooled P copy ctIn tv bsk ksk off = none := by
    intro ctIn tv bsk ksk off
    unfold bootstrapPooled getNextResult
    simp only
    rw [hboot _ (by exact hlen)]; rfl
  refine ⟨externalProductAssign_short copy hlen, cMuxAssign_short copy hlen, hblind copy hlen,
    hboot copy hlen, hpool, ?_⟩
  intro ctIn tv bsk ksk off
  unfold bootstrapLUT
  rw [hpool]; rfl

/-- **C41**, the part that holds: `ShallowCopy` of a usable evaluator itself succeeds and shares no buffer
contents with it (its buffers are new and its pool starts at 0). Missing, because false: that calls on the
copy return what they return on the original. -/
theorem C41_shallowCopy_partial {P : Params} (W : WellFormed P) (L : FourierLaws O)
    (hd : O.deg = P.trgswLv1.N) (st : EvState O) (hst : EvGood P L st) :
    ∃ copy, shallowCopy P st = some copy ∧ copy.poolIdx = 0 ∧
      (∀ k, copy.tr (.user k) = st.tr (.user k)) ∧ (∀ k, copy.lw (.user k) = st.lw (.user k)) := by
  unfold shallowCopy
  have := hst.dec_len
  have := W.l_pos
  rw [if_neg (by omega)]
  obtain ⟨s, e, -, -, -, h1, h2, h3⟩ := newEvState_good W L hd (st.polyDec.take 1).length st.tr st.lw
  exact ⟨s, e, h3, h1, h2⟩

/-! ### C42 -/

/-- **C42.** `trgsw.BlindRotate` on pooled buffers, from every state of the pools, returns bit for bit what
`Evaluator.BlindRotateAssign` writes, from every state of the evaluator, for equal ciphertext and test
vector values; it does not modify any slice of the caller. The test vector may even be an earlier
pooled result (but not a rotation buffer). -/
theorem C42_blindRotate_agree {P : Params} (W : WellFormed P) (L : FourierLaws O)
    (hd : O.deg = P.trgswLv1.N) (bsk : List (TrgswF O)) (hb : GoodBsk P L bsk) (off : Torus)
    (st : EvState O) (hst : EvGood P L st) (ctIn : LRef) (tv ctOut : TRef)
    (hin : (st.lw ctIn).length = P.tlweLv0.N + 1) (htv : tv ≠ .acc1) (hco : ¬ ctOut.scratch)
    (ht : (st.tr tv).Sized P.trgswLv1.N) (ho : (st.tr ctOut).Sized P.trgswLv1.N)
    (ps : PEState O) (hps : PEGood P L ps) (x : PRef × PRef)
    (hr1 : ∀ i, x.1 ≠ .rot i) (hr2 : ∀ i, x.2 ≠ .rot i)
    (hx1 : ps.mem x.1 = (st.tr tv).A) (hx2 : ps.mem x.2 = (st.tr tv).B) :
    ∃ st' ps' res, blindRotateAssign P st ctIn tv bsk off ctOut = some st' ∧
      blindRotatePooled P ps (st.lw ctIn) x bsk off = some (ps', res) ∧
      ps'.mem res.1 = (st'.tr ctOut).A ∧ ps'.mem res.2 = (st'.tr ctOut).B ∧
      ∀ k, ps'.mem (.user k) = ps.mem (.user k) := by
  obtain ⟨st', e, -, v, -⟩ := blindRotateAssign_eq W L hd st hst bsk hb off ctIn tv ctOut hin htv hco ht ho
  obtain ⟨ps', res, e', -, v', u, -⟩ := blindRotatePooled_eq W L hd ps hps bsk hb off (st.lw ctIn) hin x hr1 hr2
    (by rw [hx1]; exact ht.1) (by rw [hx2]; exact ht.2)
  rw [hx1, hx2] at v'
  have v'' : (⟨ps'.mem res.1, ps'.mem res.2⟩ : Trlwe) = st'.tr ctOut := by rw [v', v]
  exact ⟨st', ps', res, e, e', congrArg Trlwe.A v'', congrArg Trlwe.B v'', u⟩

/-- **C32** for `trgsw.BlindRotate`: the pooled blind rotation has the phase of C32. -/
theorem C32_blindRotate {P : Params} (W : WellFormed P) (L : FourierLaws O) (hd : O.deg = P.trgswLv1.N)
    {D : ℕ} (hacc : L.Accurate (P.trgswLv1.L * 2) (2 ^ (P.trgswLv1.BGBIT - 1)) D) {off : Torus}
    (hoff : genDecompositionOffset P = some off) {bsk : List (TrgswF O)} {s0 s1 : List Torus}
    {err : ℕ → ℕ → ℕ → Torus}
    (hbsk : IsBsk L P.tlweLv0.N P.trgswLv1.N P.trgswLv1.L P.trgswLv1.BGBIT bsk s0 s1 err)
    (hs0 : IsBinary s0) (hs1 : IsBinary s1) {β : ℕ} (hβ : ∀ i j k, nrm (err i j k) ≤ β)
    (ps : PEState O) (hps : PEGood P L ps) (src : List Torus) (x : PRef × PRef)
    (hin : src.length = P.tlweLv0.N + 1) (hr1 : ∀ i, x.1 ≠ .rot i) (hr2 : ∀ i, x.2 ≠ .rot i)
    (lA : (ps.mem x.1).length = P.trgswLv1.N) (lB : (ps.mem x.2).length = P.trgswLv1.N) :
    ∃ ps' res, blindRotatePooled P ps src x bsk off = some (ps', res) ∧
    ∃ (b : ℤ) (a : ℕ → ℤ), IsNearest2N P.trgswLv1.N (at' src P.tlweLv0.N).toNat b ∧
      (∀ i, IsNearest2N P.trgswLv1.N (at' src i).toNat (a i)) ∧
      ∀ k < P.trgswLv1.N,
        nrm (trPhase P.trgswLv1.N (ps'.mem res.1) (ps'.mem res.2) s1 k
          - mulXk P.trgswLv1.N (trPhase P.trgswLv1.N (ps.mem x.1) (ps.mem x.2) s1)
              (-(b - ∑ i ∈ Finset.range P.tlweLv0.N, ((at' s0 i).toNat : ℤ) * a i)) k)
        ≤ (1 + weight P.trgswLv1.N s1)
            * (1 + weight P.tlweLv0.N s0 * (1 + 2 ^ (32 - P.trgswLv1.L * P.trgswLv1.BGBIT)))
          + P.tlweLv0.N * (2 * P.trgswLv1.L * P.trgswLv1.N * 2 ^ (P.trgswLv1.BGBIT - 1) * β
              + D * (1 + weight P.trgswLv1.N s1)) := by
  obtain ⟨ps', res, e', -, v', -⟩ := blindRotatePooled_eq W L hd ps hps bsk (goodBsk_of_isBsk L hd hbsk) off src
    hin x hr1 hr2 lA lB
  refine ⟨ps', res, e', ?_⟩
  obtain ⟨b, a, e0, e, h1, h2, h3, h4, h5⟩ := blindRot_phase W L hd hacc hoff hbsk hs0 hs1 hβ
    ⟨ps.mem x.1, ps.mem x.2⟩ src
  refine ⟨b, a, h1, h2, ?_⟩
  intro k hk
  have hN : 0 < P.trgswLv1.N := by omega
  have := h5 k hk
  rw [← v'] at this
  simp only at this
  rw [this, add_assoc, add_sub_cancel_left]
  refine (nrm_add _ _).trans ?_
  have n1 := nrm_mulXk P.trgswLv1.N e0 _ h3 hN
    (∑ i ∈ Finset.range P.tlweLv0.N, ((at' s0 i).toNat : ℤ) * a i) k
  have n2 : nrm (∑ i ∈ Finset.range P.tlweLv0.N, mulXk P.trgswLv1.N (e i)
      (∑ j ∈ Finset.Ico (i + 1) P.tlweLv0.N, ((at' s0 j).toNat : ℤ) * a j) k)
      ≤ ∑ i ∈ Finset.range P.tlweLv0.N, stepBound P β D (weight P.trgswLv1.N s1) (at' s0 i).toNat := by
    refine (nrm_sum _ _).trans (Finset.sum_le_sum fun i hi => ?_)
    have hi := Finset.mem_range.1 hi
    exact nrm_mulXk _ _ _ (h4 i hi) hN _ _
  refine (Nat.add_le_add n1 n2).trans (le_of_eq ?_)
  unfold stepBound
  rw [Finset.sum_add_distrib, Finset.sum_add_distrib]
  simp only [Finset.sum_const, Finset.card_range, smul_eq_mul, weight, ← Finset.sum_mul]
  ring

/-- Pools in a usable state exist at every level. -/
example (level : SecurityLevel) (mem0 : PRef → List Torus) :
    ∃ ps, newPEState (exactOps (paramsFor level).trgswLv1.N) mem0 = some ps ∧
      PEGood (paramsFor level) (exL (C63_wellFormed level)) ps := by
  obtain ⟨ps, h1, h2, -⟩ := newPEState_good (C63_wellFormed level) (exL (C63_wellFormed level)) rfl mem0
  exact ⟨ps, h1, h2⟩

end GoTfhe
