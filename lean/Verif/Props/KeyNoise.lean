import Verif.Lemmas.KeyNoise
import Verif.Lemmas.SubGauss
import Verif.Props.FloatGates
import Mathlib.Analysis.SpecialFunctions.Log.Basic

/-!
# How likely the noise of the keys is to matter

The normal numbers of key generation are random; the secret keys, the masks, the test vector and the input ciphertext
are arbitrary but fixed.
-/

namespace GoTfhe

open MeasureTheory ProbabilityTheory

variable {O : FourierOps}

/-! ### What the coefficients of the draws depend on -/

theorem gswRow_congr (P : Params) (L : FourierLaws O) (p : Torus) (key : List Torus) (draw : ℕ → ℕ → Torus)
    (s s' : ℕ → ℕ → ℚ) (j : ℕ) (h : ∀ k < P.trgswLv1.N, s j k = s' j k) :
    gswRow P L p key draw s j = gswRow P L p key draw s' j := by
  have e : zeroRow P L key draw s j = zeroRow P L key draw s' j := by
    unfold zeroRow
    congr 1
    exact tab_congr fun k hk => by rw [h k hk]
  unfold gswRow
  rw [e]

theorem bskEntry_congr {P : Params} (W : WellFormed P) (L : FourierLaws O) (hd : O.deg = P.trgswLv1.N)
    (k0 k1 : List Torus) (h1 : k1.length = P.trgswLv1.N) (R : KeyGenRand) (y y' : DrawIx → ℚ) (i : ℕ)
    (h : ∀ j < P.trgswLv1.L * 2, ∀ k < P.trgswLv1.N, y (.inl (i, j, k)) = y' (.inl (i, j, k))) :
    bskEntry P O k0 k1 (R.withDraws y) i = bskEntry P O k0 k1 (R.withDraws y') i := by
  unfold bskEntry
  rcases rd k0 i with _ | s
  · rfl
  · simp only [Option.bind_eq_bind, Option.bind_some]
    rw [trgswEncryptTorus_eq W L hd _ (by simp [newTRGSWLv1]; ring) s k1 h1,
      trgswEncryptTorus_eq W L hd _ (by simp [newTRGSWLv1]; ring) s k1 h1]
    refine congrArg (fun t => (some t).bind _) (tab_congr fun j hj => ?_)
    exact gswRow_congr P L s k1 _ _ _ j fun k hk => h j (by omega) k hk

/-- The bootstrapping key generated with the draws `y`. -/
def bskOf (P : Params) (O : FourierOps) (k0 k1 : List Torus) (R : KeyGenRand) (y : DrawIx → ℚ) : List (TrgswF O) :=
  tab P.tlweLv0.N fun i => (bskEntry P O k0 k1 (R.withDraws y) i).getD []

theorem bskOf_getD (P : Params) (O : FourierOps) (k0 k1 : List Torus) (R : KeyGenRand) (y : DrawIx → ℚ) (i : ℕ)
    (hi : i < P.tlweLv0.N) : (bskOf P O k0 k1 R y).getD i [] = (bskEntry P O k0 k1 (R.withDraws y) i).getD [] := by
  unfold bskOf
  rw [List.getD_eq_getElem?_getD, getElem?_tab, if_pos hi]
  rfl

theorem blindAcc_congr (P : Params) (L : FourierLaws O) (off : Torus) (bsk bsk' : List (TrgswF O)) (tv : Trlwe)
    (c : List Torus) (n : ℕ) (h : ∀ i < n, bsk.getD i [] = bsk'.getD i []) :
    blindAcc P L off bsk tv c n = blindAcc P L off bsk' tv c n := by
  induction n with
  | zero => rfl
  | succ n ih =>
    simp only [blindAcc]
    rw [ih fun i hi => h i (by omega), h n (by omega)]

/-- The order in which the draws matter. -/
def drawRank (P : Params) : DrawIx → ℕ
  | .inl (i, _, _) => i
  | .inr _ => P.tlweLv0.N

theorem mem_drawIxs_inl {P : Params} {i j k : ℕ} :
    (.inl (i, j, k) : DrawIx) ∈ drawIxs P ↔ i < P.tlweLv0.N ∧ j < P.trgswLv1.L * 2 ∧ k < P.trgswLv1.N := by
  unfold drawIxs
  rw [Finset.inl_mem_disjSum]
  simp only [Finset.mem_product, Finset.mem_range]

theorem keyCoef_congr {P : Params} (W : WellFormed P) (L : FourierLaws O) (hd : O.deg = P.trgswLv1.N)
    (k0 k1 : List Torus) (h1 : k1.length = P.trgswLv1.N) (R : KeyGenRand) (off : Torus) (tv : Trlwe) (c : List Torus)
    (d : DrawIx) (hd' : d ∈ drawIxs P) (y y' : DrawIx → ℚ)
    (h : ∀ d' ∈ drawIxs P, drawRank P d' < drawRank P d → y d' = y' d') :
    keyCoef P L off (bskOf P O k0 k1 R y) tv c k0 d = keyCoef P L off (bskOf P O k0 k1 R y') tv c k0 d := by
  have acc : ∀ n ≤ P.tlweLv0.N, n ≤ drawRank P d →
      blindAcc P L off (bskOf P O k0 k1 R y) tv c n = blindAcc P L off (bskOf P O k0 k1 R y') tv c n := by
    intro n hn hr
    refine blindAcc_congr P L off _ _ tv c n fun i hi => ?_
    rw [bskOf_getD _ _ _ _ _ _ _ (by omega), bskOf_getD _ _ _ _ _ _ _ (by omega)]
    congr 1
    refine bskEntry_congr W L hd k0 k1 h1 R y y' i fun j hj k hk => ?_
    exact h _ (mem_drawIxs_inl.2 ⟨by omega, hj, hk⟩) (by simp only [drawRank] at hr ⊢; omega)
  rcases d with ⟨i, j, k⟩ | ⟨i, j, k⟩
  · have hi := (mem_drawIxs_inl.1 hd').1
    simp only [keyCoef, stepIn]
    rw [acc i hi.le le_rfl]
  · have e := acc P.tlweLv0.N le_rfl (le_refl P.tlweLv0.N)
    exact congrArg (fun b => if ksDigit P.trgswLv1.BASEBIT P.trgswLv1.IKS_T (extracted P.trgswLv1.N b 0) i j = k ∧ k ≠ 0
      then (-1 : ℤ) else 0) e

/-! ### The sizes of the coefficients -/

theorem toInt_sq_le {x : Torus} {B : ℕ} (h : nrm x ≤ B) : ((x.toInt : ℤ) : ℝ) ^ 2 ≤ (B : ℝ) ^ 2 := by
  have : |((x.toInt : ℤ) : ℝ)| ≤ (B : ℝ) := by
    have h1 : (((x.toInt.natAbs : ℕ) : ℤ) : ℝ) ≤ ((B : ℤ) : ℝ) := by exact_mod_cast h
    rw [Int.natCast_natAbs] at h1
    push_cast at h1
    exact h1
  exact sq_le_sq' (abs_le.1 this).1 (abs_le.1 this).2

theorem keyCoef_inl_le {P : Params} (W : WellFormed P) (L : FourierLaws O) (off : Torus) (bsk : List (TrgswF O))
    (tv : Trlwe) (c s0 : List Torus) (i j k : ℕ) (hj : j < P.trgswLv1.L * 2) :
    ((keyCoef P L off bsk tv c s0 (.inl (i, j, k)) : ℤ) : ℝ) ^ 2 ≤ (2 ^ (P.trgswLv1.BGBIT - 1)) ^ 2 := by
  have hN : 0 < P.trgswLv1.N := by have := W.min_degree; omega
  have hm : ∀ m, nrm (mulXk P.trgswLv1.N (at' (digitPoly P off (stepIn P L off bsk tv c i) j))
      (accExp P c s0 P.tlweLv0.N - accExp P c s0 (i + 1)) m) ≤ 2 ^ (P.trgswLv1.BGBIT - 1) := fun m =>
    nrm_mulXk _ _ _ (fun x _ => nrm_digitPoly W off _ j hj x) hN _ m
  simp only [keyCoef]
  refine (toInt_sq_le (B := 2 ^ (P.trgswLv1.BGBIT - 1)) ?_).trans (by push_cast; exact le_rfl)
  split_ifs
  · exact hm 0
  · rw [nrm_neg]; exact hm _

theorem sum_keyCoef_inr (P : Params) (L : FourierLaws O) (off : Torus) (bsk : List (TrgswF O))
    (tv : Trlwe) (c s0 : List Torus) (i j n : ℕ) :
    ∑ k ∈ Finset.range n, ((keyCoef P L off bsk tv c s0 (.inr (i, j, k)) : ℤ) : ℝ) ^ 2 ≤ 1 := by
  simp only [keyCoef]
  set dg := ksDigit P.trgswLv1.BASEBIT P.trgswLv1.IKS_T (extracted P.trgswLv1.N (blindRot P L off bsk tv c) 0) i j
  calc _ ≤ ∑ k ∈ Finset.range n, if dg = k then (1 : ℝ) else 0 := by
        refine Finset.sum_le_sum fun k _ => ?_
        by_cases h : dg = k
        · rw [if_pos h]
          split_ifs <;> norm_num
        · rw [if_neg (fun h' => h h'.1), if_neg h]
          norm_num
    _ ≤ 1 := by
        rw [Finset.sum_ite_eq]
        split_ifs <;> norm_num

/-- The standard deviations that key generation passes to its draws
(`/repo/cloudkey/cloudkey.go:112`, `134-136`). -/
noncomputable def drawStd (P : Params) : DrawIx → ℝ
  | .inl _ => ((bskAlpha P : ℚ) : ℝ)
  | .inr _ => ((kskAlpha P : ℚ) : ℝ)

/-- Variance proxy of the keys' part of the noise of a bootstrapping, in units of the torus. -/
noncomputable def keyVar (P : Params) : ℝ :=
  (2 ^ 32) ^ 2 * (P.tlweLv0.N * (P.trgswLv1.L * 2) * P.trgswLv1.N * (2 ^ (P.trgswLv1.BGBIT - 1)) ^ 2
    * ((bskAlpha P : ℚ) : ℝ) ^ 2 + P.trgswLv1.N * P.trgswLv1.IKS_T * ((kskAlpha P : ℚ) : ℝ) ^ 2)

theorem sum_keyCoef_le {P : Params} (W : WellFormed P) (L : FourierLaws O) (off : Torus) (bsk : List (TrgswF O))
    (tv : Trlwe) (c s0 : List Torus) :
    ∑ d ∈ drawIxs P, (2 ^ 32 * drawStd P d) ^ 2 * ((keyCoef P L off bsk tv c s0 d : ℤ) : ℝ) ^ 2 ≤ keyVar P := by
  unfold drawIxs
  rw [Finset.sum_disjSum, Finset.sum_product, Finset.sum_product]
  simp only [Finset.sum_product, drawStd]
  have h1 : ∑ i ∈ Finset.range P.tlweLv0.N, ∑ j ∈ Finset.range (P.trgswLv1.L * 2), ∑ k ∈ Finset.range P.trgswLv1.N,
      (2 ^ 32 * ((bskAlpha P : ℚ) : ℝ)) ^ 2 * ((keyCoef P L off bsk tv c s0 (.inl (i, j, k)) : ℤ) : ℝ) ^ 2
      ≤ ∑ _i ∈ Finset.range P.tlweLv0.N, ∑ _j ∈ Finset.range (P.trgswLv1.L * 2), ∑ _k ∈ Finset.range P.trgswLv1.N,
      (2 ^ 32 * ((bskAlpha P : ℚ) : ℝ)) ^ 2 * (2 ^ (P.trgswLv1.BGBIT - 1)) ^ 2 := by
    refine Finset.sum_le_sum fun i _ => Finset.sum_le_sum fun j hj => Finset.sum_le_sum fun k _ => ?_
    exact mul_le_mul_of_nonneg_left (keyCoef_inl_le W L off bsk tv c s0 i j k (Finset.mem_range.1 hj)) (by positivity)
  have h2 : ∑ i ∈ Finset.range P.trgswLv1.N, ∑ j ∈ Finset.range P.trgswLv1.IKS_T,
      ∑ k ∈ Finset.range (2 ^ P.trgswLv1.BASEBIT),
      (2 ^ 32 * ((kskAlpha P : ℚ) : ℝ)) ^ 2 * ((keyCoef P L off bsk tv c s0 (.inr (i, j, k)) : ℤ) : ℝ) ^ 2
      ≤ ∑ _i ∈ Finset.range P.trgswLv1.N, ∑ _j ∈ Finset.range P.trgswLv1.IKS_T,
      (2 ^ 32 * ((kskAlpha P : ℚ) : ℝ)) ^ 2 * 1 := by
    refine Finset.sum_le_sum fun i _ => Finset.sum_le_sum fun j _ => ?_
    rw [← Finset.mul_sum]
    exact mul_le_mul_of_nonneg_left (sum_keyCoef_inr P L off bsk tv c s0 i j _) (by positivity)
  refine (add_le_add h1 h2).trans (le_of_eq ?_)
  simp only [Finset.sum_const, Finset.card_range, nsmul_eq_mul]
  unfold keyVar
  push_cast
  ring

/-! ### The integer part of a draw -/

theorem truncQ_odd (x : ℚ) : ((truncQ (-x * 2 ^ 32) : ℤ) : ℝ) = -((truncQ (x * 2 ^ 32) : ℤ) : ℝ) := by
  rw [neg_mul, truncQ_neg]; push_cast; rfl

theorem truncQ_abs (x : ℚ) : |((truncQ (x * 2 ^ 32) : ℤ) : ℝ)| ≤ |2 ^ 32 * (x : ℝ)| := by
  have h := truncQ_abs_le (x * 2 ^ 32)
  have h' : ((|((truncQ (x * 2 ^ 32) : ℤ) : ℚ)| : ℚ) : ℝ) ≤ ((|x * 2 ^ 32| : ℚ) : ℝ) := by exact_mod_cast h
  push_cast at h'
  rw [mul_comm (2 ^ 32 : ℝ)]
  exact h'

theorem NoiseDraws.trunc {ι Ω : Type*} [MeasurableSpace Ω] {μ : Measure Ω} {q : ι → Ω → ℚ} {σ : ι → ℝ}
    (h : NoiseDraws μ q σ) (i : ι) (t : ℝ) :
    ∫⁻ ω, ENNReal.ofReal (Real.exp (t * ((truncQ (q i ω * 2 ^ 32) : ℤ) : ℝ))) ∂μ
      ≤ ENNReal.ofReal (Real.exp (t ^ 2 * (2 ^ 32 * σ i) ^ 2 / 2)) :=
  mgf_odd (h.measurable i) (h.symm i) (h.mgf i) (fun x => ((truncQ (x * 2 ^ 32) : ℤ) : ℝ)) truncQ_odd _ truncQ_abs t

/-! ### C78 -/

section

variable {Ω : Type*} [MeasurableSpace Ω] {μ : Measure Ω} [IsProbabilityMeasure μ]

/-- The part of the noise of a bootstrapping that does not come from the draws: the truncation of the gadget
decomposition and of the key switching, and the error of the transform. -/
def bootRound (P : Params) (L : FourierLaws O) (ck : CloudKey O) (k0 k1 : List Torus) (tv : Trlwe) (c : List Torus)
    (y : DrawIx → ℚ) : Torus :=
  bootNoise P L ck k0 k1 tv c - ((keyNoise P L ck.decompositionOffset ck.bootstrappingKey tv c k0 y : ℤ) : Torus)

theorem nrm_bootNoise_le (P : Params) (L : FourierLaws O) (ck : CloudKey O) (k0 k1 : List Torus) (tv : Trlwe)
    (c : List Torus) (y : DrawIx → ℚ) :
    nrm (bootNoise P L ck k0 k1 tv c) ≤ nrm (bootRound P L ck k0 k1 tv c y)
      + (keyNoise P L ck.decompositionOffset ck.bootstrappingKey tv c k0 y).natAbs := by
  have e : bootNoise P L ck k0 k1 tv c = bootRound P L ck k0 k1 tv c y
      + ((keyNoise P L ck.decompositionOffset ck.bootstrappingKey tv c k0 y : ℤ) : Torus) := by
    unfold bootRound; exact (sub_add_cancel _ _).symm
  rw [e]
  exact (nrm_add _ _).trans (Nat.add_le_add_left (nrm_ofInt _) _)

/-- **C78.** For all secret keys, masks, schedules, test vectors and input ciphertexts, the noise of a bootstrapping is
an integer that comes from the noise of the keys, plus rounding errors that are bounded whatever that noise is. Over
the noise of the keys, the integer exceeds `T` with probability at most `2 exp (-T²/2V)`. -/
theorem C78_keyNoise {P : Params} (W : WellFormed P) (L : FourierLaws O) (hd : O.deg = P.trgswLv1.N)
    {D D1 : ℕ} (hacc : L.Accurate (P.trgswLv1.L * 2) (2 ^ (P.trgswLv1.BGBIT - 1)) D) (hacc1 : L.MulAccurate 1 D1)
    (k0 k1 : List Torus) (h0 : P.tlweLv0.N ≤ k0.length) (h1 : k1.length = P.trgswLv1.N) (hb0 : IsBinary k0)
    (hb1 : IsBinary k1) (R : KeyGenRand) {q : DrawIx → Ω → ℚ} (hq : NoiseDraws μ q (drawStd P))
    (schedK schedB : Ω → List ℕ) (ck : Ω → CloudKey O)
    (hck : ∀ ω, newCloudKey P O k0 k1 (R.withDraws fun d => q d ω) (schedK ω) (schedB ω) = some (true, ck ω))
    (hV : 0 < keyVar P) (tv : Trlwe) (c : List Torus) :
    (∀ ω, nrm (bootRound P L (ck ω) k0 k1 tv c fun d => q d ω)
      ≤ bootBound P D D1 0 (weight P.tlweLv0.N k0) (weight P.trgswLv1.N k1)) ∧
    ∀ T : ℝ, 0 ≤ T → μ {ω | T ≤ |((keyNoise P L (ck ω).decompositionOffset (ck ω).bootstrappingKey tv c k0
        (fun d => q d ω) : ℤ) : ℝ)|} ≤ ENNReal.ofReal (2 * Real.exp (-(T ^ 2 / (2 * keyVar P)))) := by
  have hoff : ∀ ω, genDecompositionOffset P = some (ck ω).decompositionOffset := fun ω =>
    (keysOK_of_newCloudKey W L hd hacc hacc1 k0 k1 _ h0 h1 hb0 hb1 (fun _ _ _ _ _ _ => nrm_le _)
      (fun _ _ _ _ _ _ => nrm_le _) _ _ _ (hck ω)).1.off
  constructor
  · intro ω
    obtain ⟨done, ck', e, -, -, h⟩ := C37_newCloudKey W L hd hacc1 k0 k1 (R.withDraws fun d => q d ω) h0 h1 hb1
      (schedK ω) (schedB ω)
    obtain ⟨rfl, rfl⟩ : true = done ∧ ck ω = ck' := by
      rw [hck ω] at e; simpa using e
    obtain ⟨-, hksk, r, hr, hbsk⟩ := h rfl
    exact bootNoise_split W L hd hacc (hoff ω) hb0 hb1 (fun d => q d ω) hksk hr hbsk tv c
  · intro T hT
    set off := gadgetOffset P.trgswLv1.BGBIT P.trgswLv1.L
    have hbsk : ∀ ω, (ck ω).bootstrappingKey = bskOf P O k0 k1 R fun d => q d ω := by
      intro ω
      obtain ⟨ths, res, e, hl, h⟩ := C36_bootstrappingKey W L hd k0 k1 (R.withDraws fun d => q d ω) h0 h1 (schedB ω)
      have hc := hck ω
      unfold newCloudKey at hc
      rw [e] at hc
      rcases hA : genDecompositionOffset P with _ | a
      · rw [hA] at hc; simp at hc
      rcases hB : genTestvec P with _ | b
      · rw [hA, hB] at hc; simp at hc
      rcases hC : genKeySwitchingKey P k0 k1 (R.withDraws fun d => q d ω) (schedK ω) with _ | ⟨tk, kk⟩
      · rw [hA, hB, hC] at hc; simp at hc
      rw [hA, hB, hC] at hc
      simp only [Option.bind_eq_bind, Option.bind_some, Option.pure_def, Option.some.injEq, Prod.mk.injEq,
        Bool.and_eq_true] at hc
      obtain ⟨⟨-, hdn⟩, hck'⟩ := hc
      rw [← hck']
      show res = _
      apply List.ext_getElem?
      intro x
      unfold bskOf
      rw [getElem?_tab]
      split_ifs with hx
      · rw [h hdn x hx]
        rcases hE : bskEntry P O k0 k1 (R.withDraws fun d => q d ω) x with _ | g
        · have := h hdn x hx
          rw [hE, List.getElem?_eq_getElem (by omega)] at this
          exact absurd this (by simp)
        · rfl
      · rw [List.getElem?_eq_none (by omega)]
    have hoff' : ∀ ω, (ck ω).decompositionOffset = off := fun ω => offset_eq W (hoff ω)
    have htail := adaptive_tail (q := q) hq.measurable hq.indep
      (fun _ x => ((truncQ (x * 2 ^ 32) : ℤ) : ℝ)) (fun d => 2 ^ 32 * drawStd P d) (fun d t => hq.trunc d t)
      (drawRank P) (drawIxs P)
      (fun d y => ((keyCoef P L off (bskOf P O k0 k1 R y) tv c k0 d : ℤ) : ℝ))
      (fun d hd' y y' h => by rw [keyCoef_congr W L hd k0 k1 h1 R off tv c d hd' y y' h]) hV
      (fun y => sum_keyCoef_le W L off _ tv c k0) hT
    refine le_trans (measure_mono ?_) htail
    intro ω hω
    simp only [Set.mem_setOf_eq, hbsk, hoff', keyNoise] at hω ⊢
    push_cast at hω
    exact hω

/-- **C78**, the tail of the noise of one bootstrapping: it is unlikely to exceed the part that comes from rounding by
more than `T`. -/
theorem C78_tail {P : Params} (W : WellFormed P) (L : FourierLaws O) (hd : O.deg = P.trgswLv1.N)
    {D D1 : ℕ} (hacc : L.Accurate (P.trgswLv1.L * 2) (2 ^ (P.trgswLv1.BGBIT - 1)) D) (hacc1 : L.MulAccurate 1 D1)
    (k0 k1 : List Torus) (h0 : P.tlweLv0.N ≤ k0.length) (h1 : k1.length = P.trgswLv1.N) (hb0 : IsBinary k0)
    (hb1 : IsBinary k1) (R : KeyGenRand) {q : DrawIx → Ω → ℚ} (hq : NoiseDraws μ q (drawStd P))
    (schedK schedB : Ω → List ℕ) (ck : Ω → CloudKey O)
    (hck : ∀ ω, newCloudKey P O k0 k1 (R.withDraws fun d => q d ω) (schedK ω) (schedB ω) = some (true, ck ω))
    (hV : 0 < keyVar P) (tv : Trlwe) (c : List Torus) (T : ℕ) :
    μ {ω | nrm (bootRound P L (ck ω) k0 k1 tv c fun d => q d ω) + T ≤ nrm (bootNoise P L (ck ω) k0 k1 tv c)}
      ≤ ENNReal.ofReal (2 * Real.exp (-((T : ℝ) ^ 2 / (2 * keyVar P)))) := by
  refine le_trans (measure_mono ?_) ((C78_keyNoise W L hd hacc hacc1 k0 k1 h0 h1 hb0 hb1 R hq schedK schedB ck hck hV
    tv c).2 (T : ℝ) (Nat.cast_nonneg T))
  intro ω hω
  have hω' : nrm (bootRound P L (ck ω) k0 k1 tv c fun d => q d ω) + T ≤ nrm (bootNoise P L (ck ω) k0 k1 tv c) := hω
  have := nrm_bootNoise_le P L (ck ω) k0 k1 tv c (fun d => q d ω)
  have h : T ≤ (keyNoise P L (ck ω).decompositionOffset (ck ω).bootstrappingKey tv c k0 (fun d => q d ω)).natAbs := by
    omega
  show (T : ℝ) ≤ |((_ : ℤ) : ℝ)|
  rw [← Int.cast_abs, Int.abs_eq_natAbs]
  exact_mod_cast h

/-- **C78**, the tail of the key switching, without any condition on the rounding: for a fixed ciphertext the phase is
preserved up to the rounding of the mask and `T`, except with probability `2 exp (-T²/2V)`. -/
theorem C78_keySwitching (level : SecurityLevel) (L : FourierLaws O) (hd : O.deg = (paramsFor level).trgswLv1.N)
    {D1 : ℕ} (hacc1 : L.MulAccurate 1 D1)
    (k0 k1 : List Torus) (h0 : (paramsFor level).tlweLv0.N ≤ k0.length) (h1 : k1.length = (paramsFor level).trgswLv1.N)
    (hb1 : IsBinary k1) (R : KeyGenRand) {q : DrawIx → Ω → ℚ} (hq : NoiseDraws μ q (drawStd (paramsFor level)))
    (schedK schedB : Ω → List ℕ) (ck : Ω → CloudKey O)
    (hck : ∀ ω, newCloudKey (paramsFor level) O k0 k1 (R.withDraws fun d => q d ω) (schedK ω) (schedB ω)
      = some (true, ck ω))
    (src : List Torus) (hsrc : src.length = (paramsFor level).trgswLv1.N + 1) :
    ∃ out : Ω → List Torus,
      (∀ ω, identityKeySwitching (paramsFor level) src (ck ω).keySwitchingKey = some (out ω)) ∧
      ∀ T : ℕ, μ {ω | weight (paramsFor level).trgswLv1.N k1
          * 2 ^ (31 - (paramsFor level).trgswLv1.BASEBIT * (paramsFor level).trgswLv1.IKS_T) + T
          ≤ nrm (phase (paramsFor level).tlweLv0.N (out ω) k0 - phase (paramsFor level).trgswLv1.N src k1)}
        ≤ ENNReal.ofReal (2 * Real.exp (-((T : ℝ) ^ 2 / (2 * ((2 ^ 32) ^ 2 * ((paramsFor level).trgswLv1.N
          * (paramsFor level).trgswLv1.IKS_T * ((kskAlpha (paramsFor level) : ℚ) : ℝ) ^ 2)))))) := by
  have hα : (0 : ℝ) < ((kskAlpha (paramsFor level) : ℚ) : ℝ) := by
    have : (0 : ℚ) < kskAlpha (paramsFor level) := by
      rcases paramsFor_cases level with ⟨-, h⟩ | ⟨-, h⟩ | ⟨-, h⟩ | ⟨-, h⟩ | ⟨-, h⟩ | ⟨-, h⟩ | ⟨-, h⟩ |
        ⟨-, h⟩ | ⟨-, h⟩ | ⟨-, h⟩ | ⟨-, h⟩ <;> rw [h] <;>
        norm_num [kskAlpha, params80Bit, params110Bit, params128Bit, paramsUint1, paramsUint2, paramsUint3, paramsUint4,
          paramsUint5, paramsUint6, paramsUint7, paramsUint8]
    exact_mod_cast this
  have W := C63_wellFormed level
  generalize paramsFor level = P at *
  have hN : 0 < P.trgswLv1.N := by have := W.min_degree; omega
  have hT' := W.iks_pos
  set dig := ksDigit P.trgswLv1.BASEBIT P.trgswLv1.IKS_T src with hdig
  have key : ∀ ω, GoodKsk P (ck ω).keySwitchingKey ∧ IsKsk P.tlweLv0.N P.trgswLv1.N P.trgswLv1.BASEBIT P.trgswLv1.IKS_T
      (ck ω).keySwitchingKey k0 k1 fun i j k => f64ToTorus (q (.inr (i, j, k)) ω) := by
    intro ω
    obtain ⟨done, ck', e, -, -, h⟩ := C37_newCloudKey W L hd hacc1 k0 k1 (R.withDraws fun d => q d ω) h0 h1 hb1
      (schedK ω) (schedB ω)
    obtain ⟨rfl, rfl⟩ : true = done ∧ ck ω = ck' := by
      rw [hck ω] at e; simpa using e
    exact ⟨(h rfl).1, (h rfl).2.1⟩
  refine ⟨fun ω => ksOut P.tlweLv0.N P.trgswLv1.N P.trgswLv1.BASEBIT P.trgswLv1.IKS_T src (ck ω).keySwitchingKey,
    fun ω => identityKeySwitching_eq P src _ W.basebit_pos W.ks_fits hsrc (key ω).1.1.ge (fun e he => ((key ω).1.2 e he).ge),
    fun T => ?_⟩
  set A : DrawIx → ℝ := fun d => match d with
    | .inl _ => 0
    | .inr (i, j, k) => if dig i j = k ∧ k ≠ 0 then -1 else 0 with hA
  have htail := adaptive_tail (q := q) hq.measurable hq.indep
    (fun _ x => ((truncQ (x * 2 ^ 32) : ℤ) : ℝ)) (fun d => 2 ^ 32 * drawStd P d) (fun d t => hq.trunc d t)
    (drawRank P) (drawIxs P) (fun d _ => A d) (fun _ _ _ _ _ => rfl)
    (V := (2 ^ 32) ^ 2 * (P.trgswLv1.N * P.trgswLv1.IKS_T * ((kskAlpha P : ℚ) : ℝ) ^ 2)) (by positivity)
    (fun _ => by
      unfold drawIxs
      rw [Finset.sum_disjSum]
      simp only [hA]
      rw [Finset.sum_eq_zero (fun _ _ => by ring), zero_add]
      simp only [Finset.sum_product, drawStd]
      calc _ ≤ ∑ _i ∈ Finset.range P.trgswLv1.N, ∑ _j ∈ Finset.range P.trgswLv1.IKS_T,
            (2 ^ 32 * ((kskAlpha P : ℚ) : ℝ)) ^ 2 * 1 := by
            refine Finset.sum_le_sum fun i _ => Finset.sum_le_sum fun j _ => ?_
            rw [← Finset.mul_sum]
            refine mul_le_mul_of_nonneg_left ?_ (by positivity)
            calc _ ≤ ∑ k ∈ Finset.range (2 ^ P.trgswLv1.BASEBIT), if dig i j = k then (1 : ℝ) else 0 := by
                  refine Finset.sum_le_sum fun k _ => ?_
                  by_cases h : dig i j = k
                  · rw [if_pos h]
                    split_ifs <;> norm_num
                  · rw [if_neg (fun h' => h h'.1), if_neg h]
                    norm_num
              _ ≤ 1 := by
                  rw [Finset.sum_ite_eq]
                  split_ifs <;> norm_num
        _ = _ := by
            simp only [Finset.sum_const, Finset.card_range, nsmul_eq_mul]
            ring
        _ ≤ _ := le_rfl) (Nat.cast_nonneg T)
  refine le_trans (measure_mono ?_) htail
  intro ω hω
  have hω' : weight P.trgswLv1.N k1 * 2 ^ (31 - P.trgswLv1.BASEBIT * P.trgswLv1.IKS_T) + T
      ≤ nrm (phase P.tlweLv0.N (ksOut P.tlweLv0.N P.trgswLv1.N P.trgswLv1.BASEBIT P.trgswLv1.IKS_T src
        (ck ω).keySwitchingKey) k0 - phase P.trgswLv1.N src k1) := hω
  set K : ℤ := ∑ i ∈ Finset.range P.trgswLv1.N, ∑ j ∈ Finset.range P.trgswLv1.IKS_T,
    if dig i j ≠ 0 then truncQ (q (.inr (i, j, dig i j)) ω * 2 ^ 32) else 0 with hK
  have eK : (K : Torus) = ∑ i ∈ Finset.range P.trgswLv1.N, ∑ j ∈ Finset.range P.trgswLv1.IKS_T,
      if dig i j ≠ 0 then f64ToTorus (q (.inr (i, j, dig i j)) ω) else 0 := by
    rw [hK, Int.cast_sum]
    refine Finset.sum_congr rfl fun i _ => ?_
    rw [Int.cast_sum]
    refine Finset.sum_congr rfl fun j _ => ?_
    by_cases h : dig i j ≠ 0
    · rw [if_pos h, if_pos h, f64ToTorus_eq_trunc]
    · rw [if_neg h, if_neg h, Int.cast_zero]
  rw [phase_ksOut _ _ _ _ _ _ _ k1 _ W.ks_fits (key ω).2, ← hdig, ← eK] at hω'
  have hb := ksRound_bound W src k1 hb1
  have hle : T ≤ K.natAbs := by
    have h2 : ∀ a x y : Torus, nrm (a - x - y - a) ≤ nrm x + nrm y := by
      intro a x y
      have : a - x - y - a = -(x + y) := by abel
      rw [this, nrm_neg]
      exact nrm_add _ _
    have h3 := h2 (phase P.trgswLv1.N src k1)
      (∑ i ∈ Finset.range P.trgswLv1.N, ksRound P.trgswLv1.BASEBIT P.trgswLv1.IKS_T (at' src i) * at' k1 i) (K : Torus)
    have h4 : nrm (K : Torus) ≤ K.natAbs := nrm_ofInt K
    omega
  have eS : ∑ d ∈ drawIxs P, A d * ((truncQ (q d ω * 2 ^ 32) : ℤ) : ℝ) = -(K : ℝ) := by
    unfold drawIxs
    rw [Finset.sum_disjSum]
    simp only [hA]
    rw [Finset.sum_eq_zero (fun _ _ => by ring), zero_add]
    simp only [Finset.sum_product]
    rw [hK, Int.cast_sum, ← Finset.sum_neg_distrib]
    refine Finset.sum_congr rfl fun i _ => ?_
    rw [Int.cast_sum, ← Finset.sum_neg_distrib]
    refine Finset.sum_congr rfl fun j _ => ?_
    have hlt : dig i j < 2 ^ P.trgswLv1.BASEBIT := Nat.mod_lt _ (by positivity)
    rw [Finset.sum_eq_single (dig i j)]
    · by_cases h : dig i j ≠ 0
      · rw [if_pos ⟨rfl, h⟩, if_pos h]; ring
      · rw [if_neg (fun h' => h h'.2), if_neg h]; simp
    · intro k _ hk
      rw [if_neg (fun h' => hk h'.1.symm), zero_mul]
    · intro h
      exact absurd (Finset.mem_range.2 hlt) h
  show (T : ℝ) ≤ |∑ d ∈ drawIxs P, A d * ((truncQ (q d ω * 2 ^ 32) : ℤ) : ℝ)|
  rw [eS, abs_neg, ← Int.cast_abs, Int.abs_eq_natAbs]
  exact_mod_cast hle

end

end GoTfhe
