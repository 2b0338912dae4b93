import Verif.Lemmas.LostChain
import Verif.Lemmas.Wave

/-!
# The lost bits: their mean, and how far they are from it
-/

namespace GoTfhe

open Finset

variable {O : FourierOps}

/-- The mean of the lost bits, in units of `2^13`. -/
def lostBias (P : Params) (c s0 s1 : List Torus) : ℤ :=
  ∑ i ∈ range P.tlweLv0.N, ((at' s0 i).toNat : ℤ) * (if aTilda P.trgswLv1.NBIT (at' c i) = 0 then 0
    else wave P.trgswLv1.N s1 (accExp P c s0 P.tlweLv0.N - accExp P c s0 (i + 1)))

/-- The lost bits, less their mean. -/
noncomputable def lostFluct (P : Params) (L : FourierLaws O) (k0 k1 : List Torus) (R : KeyGenRand) (tv : Trlwe)
    (c : List Torus) (ω : KeyMasks P) : ℤ :=
  open Classical in ∑ r ∈ range P.tlweLv0.N, if nzM P c r then fluctM P L k0 k1 R tv c 1 ω r else 0

theorem lostSum_split (P : Params) (L : FourierLaws O) (k0 k1 : List Torus) (R : KeyGenRand) (tv : Trlwe)
    (c : List Torus) (ω : KeyMasks P) (hL : P.trgswLv1.L = 3) (hb : P.trgswLv1.BGBIT = 6) :
    lostSum P L (gadgetOffset P.trgswLv1.BGBIT P.trgswLv1.L) (bskM P L k0 k1 R ω) tv c k0 k1
      = 8192 * lostBias P c k0 k1 + lostFluct P L k0 k1 R tv c ω := by
  classical
  unfold lostSum lostBias lostFluct
  rw [mul_sum, ← sum_add_distrib]
  refine sum_congr rfl fun i hi => ?_
  have hi := mem_range.1 hi
  have h14 : (2 : ℕ) ^ (32 - P.trgswLv1.L * P.trgswLv1.BGBIT) = 16384 := by rw [hL, hb]; rfl
  rw [h14]
  by_cases ha : aTilda P.trgswLv1.NBIT (at' c i) = 0
  · rw [if_pos ha, if_neg (fun h => h.2 ha)]
    have : ∀ k ∈ range P.trgswLv1.N, waveCoef P.trgswLv1.N k1 (accExp P c k0 P.tlweLv0.N - accExp P c k0 (i + 1)) k
        * (((at' (stepIn P L (gadgetOffset P.trgswLv1.BGBIT P.trgswLv1.L) (bskM P L k0 k1 R ω) tv c i).A k).toNat
          % 16384 : ℕ) : ℤ) = 0 := by
      intro k hk
      have := inM_A P L k0 k1 R tv c ω i k (mem_range.1 hk)
      rw [ha, dif_zero _ _ _ (mem_range.1 hk)] at this
      unfold inM at this
      rw [this]
      simp
    rw [sum_eq_zero this]
    simp
  · rw [if_neg ha, if_pos ⟨hi, ha⟩]
    unfold fluctM cfM wave
    rw [mul_sum, mul_sum, mul_sum, ← sum_add_distrib]
    refine sum_congr rfl fun k _ => ?_
    show _ = _ + 1 * _ * ((((at' (stepIn P L (gadgetOffset P.trgswLv1.BGBIT P.trgswLv1.L) (bskM P L k0 k1 R ω) tv c i).A
      k).toNat % 16384 : ℕ) : ℤ) - 8192)
    ring

/-- The lost bits of the steps from `τ` on, less their mean. -/
noncomputable def lostFluctFrom (P : Params) (L : FourierLaws O) (k0 k1 : List Torus) (R : KeyGenRand) (tv : Trlwe)
    (c : List Torus) (τ : ℕ) (ω : KeyMasks P) : ℤ :=
  open Classical in ∑ r ∈ range P.tlweLv0.N, if τ ≤ r ∧ nzM P c r then fluctM P L k0 k1 R tv c 1 ω r else 0

theorem lostFluctFrom_zero (P : Params) (L : FourierLaws O) (k0 k1 : List Torus) (R : KeyGenRand) (tv : Trlwe)
    (c : List Torus) (ω : KeyMasks P) : lostFluctFrom P L k0 k1 R tv c 0 ω = lostFluct P L k0 k1 R tv c ω := by
  unfold lostFluctFrom lostFluct
  refine sum_congr rfl fun r _ => ?_
  by_cases h : nzM P c r
  · rw [if_pos h, if_pos ⟨Nat.zero_le _, h⟩]
  · rw [if_neg h, if_neg fun h' => h h'.2]

/-- How far the lost bits are from their mean, over the masks of the bootstrapping key. -/
theorem lostFluctFrom_tail {P : Params} (W : WellFormed P) (L : FourierLaws O) (hd : O.deg = P.trgswLv1.N)
    (hacc0 : L.Accurate (P.trgswLv1.L * 2) 0 0) {D : ℕ} (hD : D ≤ 32)
    (hacc : L.Accurate (P.trgswLv1.L * 2) (2 ^ (P.trgswLv1.BGBIT - 1)) D) (hL : P.trgswLv1.L = 3)
    (hb : P.trgswLv1.BGBIT = 6) (k0 k1 : List Torus) (hk0 : IsBinary k0) (hk1 : IsBinary k1) (R : KeyGenRand)
    (tv : Trlwe) (c : List Torus) (g τ : ℕ) (hg : g = 32 ∨ g = 64)
    (hfirst : ∀ ω i, τ ≤ i → nzM P c i → (∀ q, τ ≤ q → q < i → ¬ nzM P c q) →
      accM P L k0 k1 R tv c ω i = accM P L k0 k1 R tv c ω τ → GoodM P L k0 k1 R tv c g ω i)
    (w0 w1 : ℕ) (h0 : weight P.tlweLv0.N k0 ≤ w0) (h1 : weight P.trgswLv1.N k1 ≤ w1)
    (hv : 0 < w0 * w1) (T : ℝ) (hT0 : 0 ≤ T) (hT : T ≤ 16640 * (w0 * w1)) :
    open Classical in
    avg (fun ω : KeyMasks P => if T + 8192 * w1 + (128 + g : ℕ) * (w0 * w1) ≤ |(lostFluctFrom P L k0 k1 R tv c τ ω : ℝ)|
        then (1 : ℝ) else 0)
      ≤ 2 * Real.exp (-(T ^ 2 / (8 * 8320 ^ 2 * (w0 * w1)))) + 2 * (P.tlweLv0.N * (1 / 2) ^ 2 ^ (P.trgswLv1.NBIT - 1)) := by
  classical
  have hv' : (0 : ℝ) < w0 * w1 := by exact_mod_cast hv
  set v : ℝ := w0 * w1 with hvd
  have hW : (weight P.tlweLv0.N k0 : ℝ) * weight P.trgswLv1.N k1 ≤ v := by
    rw [hvd]
    exact_mod_cast Nat.mul_le_mul h0 h1
  set lam : ℝ := T / (4 * 8320 ^ 2 * v) with hlam
  have hl : 0 ≤ lam := by positivity
  have hl2 : 2 * lam * 8320 ≤ 1 := by
    rw [hlam, show 2 * (T / (4 * 8320 ^ 2 * v)) * 8320 = T / (16640 * v) by field_simp; ring]
    exact (div_le_one (by positivity)).2 hT
  set T' : ℝ := T + 8192 * w1 + (128 + g : ℕ) * v with hT'
  have one : ∀ σ : ℤ, σ = 1 ∨ σ = -1 → avg (fun ω : KeyMasks P => if T' ≤ ∑ r ∈ range P.tlweLv0.N,
        (if τ ≤ r ∧ nzM P c r then (fluctM P L k0 k1 R tv c σ ω r : ℝ) else 0) then (1 : ℝ) else 0)
      ≤ Real.exp (-(T ^ 2 / (8 * 8320 ^ 2 * v))) + P.tlweLv0.N * (1 / 2) ^ 2 ^ (P.trgswLv1.NBIT - 1) := by
    intro σ hσ
    refine le_trans (le_of_eq ?_) ((lost_tail P L k0 k1 R tv c σ g τ hg W hd hacc0 hD hacc hL hb hk0 hk1 hfirst hσ lam hl
      hl2 T').trans (add_le_add_left (Real.exp_le_exp.2 ?_) _))
    · congr 1
    · have e1 : lam * (8192 * (weight P.trgswLv1.N k1 : ℝ)) ≤ lam * (8192 * w1) := by
        refine mul_le_mul_of_nonneg_left ?_ hl
        have : (weight P.trgswLv1.N k1 : ℝ) ≤ w1 := by exact_mod_cast h1
        linarith
      have e2 : (weight P.tlweLv0.N k0 : ℝ) * weight P.trgswLv1.N k1 * ((128 + g : ℕ) * lam + 2 * 8320 ^ 2 * lam ^ 2)
          ≤ v * ((128 + g : ℕ) * lam + 2 * 8320 ^ 2 * lam ^ 2) := mul_le_mul_of_nonneg_right hW (by positivity)
      have e3 : lam * T = 2 * (T ^ 2 / (8 * 8320 ^ 2 * v)) := by rw [hlam]; field_simp; ring
      have e4 : v * (2 * 8320 ^ 2 * lam ^ 2) = T ^ 2 / (8 * 8320 ^ 2 * v) := by rw [hlam]; field_simp; ring
      have e5 : lam * T' = lam * T + lam * (8192 * w1) + v * ((128 + g : ℕ) * lam) := by rw [hT']; ring
      rw [mul_add v] at e2
      linarith
  have split : ∀ ω : KeyMasks P, (if T' ≤ |(lostFluctFrom P L k0 k1 R tv c τ ω : ℝ)| then (1 : ℝ) else 0)
      ≤ (if T' ≤ ∑ r ∈ range P.tlweLv0.N, (if τ ≤ r ∧ nzM P c r then (fluctM P L k0 k1 R tv c 1 ω r : ℝ) else 0) then (1 : ℝ) else 0)
        + (if T' ≤ ∑ r ∈ range P.tlweLv0.N, (if τ ≤ r ∧ nzM P c r then (fluctM P L k0 k1 R tv c (-1) ω r : ℝ) else 0) then (1 : ℝ) else 0) := by
    intro ω
    have e1 : (lostFluctFrom P L k0 k1 R tv c τ ω : ℝ) = ∑ r ∈ range P.tlweLv0.N,
        (if τ ≤ r ∧ nzM P c r then (fluctM P L k0 k1 R tv c 1 ω r : ℝ) else 0) := by
      unfold lostFluctFrom
      push_cast
      exact sum_congr rfl fun r _ => by split_ifs <;> simp
    have e2 : ∑ r ∈ range P.tlweLv0.N, (if τ ≤ r ∧ nzM P c r then (fluctM P L k0 k1 R tv c (-1) ω r : ℝ) else 0)
        = -(lostFluctFrom P L k0 k1 R tv c τ ω : ℝ) := by
      rw [e1, ← sum_neg_distrib]
      refine sum_congr rfl fun r _ => ?_
      split_ifs
      · unfold fluctM cfM
        rw [← Int.cast_neg, ← sum_neg_distrib]
        congr 1
        exact sum_congr rfl fun k _ => by ring
      · simp
    rw [← e1, e2]
    have n1 : ∀ p : Prop, (0 : ℝ) ≤ if p then 1 else 0 := fun p => by split_ifs <;> norm_num
    by_cases h1 : T' ≤ |(lostFluctFrom P L k0 k1 R tv c τ ω : ℝ)|
    · rw [if_pos h1]
      rcases le_abs.1 h1 with h | h
      · rw [if_pos h]
        linarith [n1 (T' ≤ -(lostFluctFrom P L k0 k1 R tv c τ ω : ℝ))]
      · rw [if_pos h]
        linarith [n1 (T' ≤ (lostFluctFrom P L k0 k1 R tv c τ ω : ℝ))]
    · rw [if_neg h1]
      exact add_nonneg (n1 _) (n1 _)
  refine (avg_mono split).trans ?_
  rw [avg_add]
  have := add_le_add (one 1 (Or.inl rfl)) (one (-1) (Or.inr rfl))
  linarith

/-- The same for the test vector of the gates. -/
theorem lostFluct_tail {P : Params} (W : WellFormed P) (L : FourierLaws O) (hd : O.deg = P.trgswLv1.N)
    (hacc0 : L.Accurate (P.trgswLv1.L * 2) 0 0) {D : ℕ} (hD : D ≤ 32)
    (hacc : L.Accurate (P.trgswLv1.L * 2) (2 ^ (P.trgswLv1.BGBIT - 1)) D) (hL : P.trgswLv1.L = 3)
    (hb : P.trgswLv1.BGBIT = 6) (k0 k1 : List Torus) (hk0 : IsBinary k0) (hk1 : IsBinary k1) (R : KeyGenRand)
    (c : List Torus) (w0 w1 : ℕ) (h0 : weight P.tlweLv0.N k0 ≤ w0) (h1 : weight P.trgswLv1.N k1 ≤ w1)
    (hv : 0 < w0 * w1) (T : ℝ) (hT0 : 0 ≤ T) (hT : T ≤ 16640 * (w0 * w1)) :
    open Classical in
    avg (fun ω : KeyMasks P => if T + 8192 * w1 + 160 * (w0 * w1) ≤ |(lostFluct P L k0 k1 R (gateTv P) c ω : ℝ)|
        then (1 : ℝ) else 0)
      ≤ 2 * Real.exp (-(T ^ 2 / (8 * 8320 ^ 2 * (w0 * w1)))) + 2 * (P.tlweLv0.N * (1 / 2) ^ 2 ^ (P.trgswLv1.NBIT - 1)) := by
  have := lostFluctFrom_tail W L hd hacc0 hD hacc hL hb k0 k1 hk0 hk1 R (gateTv P) c 32 0 (Or.inl rfl)
    (fun ω i _ h _ h' => good_first P L k0 k1 R c W hL hb ω i h h') w0 w1 h0 h1 hv T hT0 hT
  simp only [lostFluctFrom_zero] at this
  norm_num at this ⊢
  exact this

/-- The bootstrapping key that key generation gives. -/
theorem bsk_of_newCloudKey {P : Params} (W : WellFormed P) (L : FourierLaws O) (hd : O.deg = P.trgswLv1.N)
    (k0 k1 : List Torus) (h0 : P.tlweLv0.N ≤ k0.length) (h1 : k1.length = P.trgswLv1.N) (R : KeyGenRand) (ω : KeyMasks P)
    (schedK schedB : List ℕ) (ck : CloudKey O)
    (hck : newCloudKey P O k0 k1 (R.withEntryMasks ω) schedK schedB = some (true, ck)) :
    ck.bootstrappingKey = bskM P L k0 k1 R ω := by
  obtain ⟨ths, res, e, hl, h⟩ := C36_bootstrappingKey W L hd k0 k1 (R.withEntryMasks ω) h0 h1 schedB
  have hc := hck
  unfold newCloudKey at hc
  rw [e] at hc
  rcases hA : genDecompositionOffset P with _ | a
  · rw [hA] at hc; simp at hc
  rcases hB : genTestvec P with _ | b
  · rw [hA, hB] at hc; simp at hc
  rcases hC : genKeySwitchingKey P k0 k1 (R.withEntryMasks ω) schedK with _ | ⟨tk, kk⟩
  · rw [hA, hB, hC] at hc; simp at hc
  rw [hA, hB, hC] at hc
  simp only [Option.bind_eq_bind, Option.bind_some, Option.pure_def, Option.some.injEq, Prod.mk.injEq,
    Bool.and_eq_true] at hc
  obtain ⟨⟨-, hdn⟩, hck'⟩ := hc
  rw [← hck']
  show res = _
  apply List.ext_getElem?
  intro x
  unfold bskM
  rw [getElem?_tab]
  split_ifs with hx
  · rw [h hdn x hx]
    have e := trgswEncryptTorus_eq W L hd (newTRGSWLv1 P) (by simp [newTRGSWLv1]; ring) (at' k0 x) k1 h1
      (maskDraw ω x) (R.bskSample x)
    have ht := gswOf_isTrgsw P L k0 k1 R ω x
    have ef := newTRGSWLv1FFT_eq L (gswOf P L k0 k1 R ω x) (fun r h => by rw [ht.sizedA r h, hd])
      (fun r h => by rw [ht.sizedB r h, hd])
    unfold bskEntry
    rw [rd_at' k0 x (by omega)]
    show (trgswEncryptTorus P O (newTRGSWLv1 P) (at' k0 x) k1 (maskDraw ω x) (R.bskSample x)).bind _ = _
    rw [e]
    exact ef
  · rw [List.getElem?_eq_none (by omega)]

/-- What remains beside the lost bits. -/
def roundRest (P : Params) (D w0 w1 : ℕ) : ℕ :=
  lostRest P D w0 w1 + w1 + w1 * 2 ^ (31 - P.trgswLv1.BASEBIT * P.trgswLv1.IKS_T)

theorem roundRest_mono (P : Params) (D : ℕ) {w0 w1 v0 v1 : ℕ} (h0 : w0 ≤ v0) (h1 : w1 ≤ v1) :
    roundRest P D w0 w1 ≤ roundRest P D v0 v1 := by
  unfold roundRest lostRest
  gcongr

/-- The rounding errors of a bootstrapping, in terms of the lost bits. -/
theorem bootRound_lost {P : Params} (W : WellFormed P) (L : FourierLaws O) (hd : O.deg = P.trgswLv1.N)
    {D : ℕ} (hacc : L.Accurate (P.trgswLv1.L * 2) (2 ^ (P.trgswLv1.BGBIT - 1)) D) (hacc1 : L.MulAccurate 1 0)
    (k0 k1 : List Torus) (h0 : P.tlweLv0.N ≤ k0.length) (h1 : k1.length = P.trgswLv1.N) (hb0 : IsBinary k0)
    (hb1 : IsBinary k1) (R : KeyGenRand) (y : DrawIx → ℚ) (ω : KeyMasks P) (schedK schedB : List ℕ) (ck : CloudKey O)
    (hck : newCloudKey P O k0 k1 ((R.withEntryMasks ω).withDraws y) schedK schedB = some (true, ck)) (tv : Trlwe)
    (c : List Torus) :
    nrm (bootRound P L ck k0 k1 tv c y)
      ≤ (lostSum P L (gadgetOffset P.trgswLv1.BGBIT P.trgswLv1.L) (bskM P L k0 k1 (R.withDraws y) ω) tv c k0 k1).natAbs
        + roundRest P D (weight P.tlweLv0.N k0) (weight P.trgswLv1.N k1) := by
  have hsw : (R.withEntryMasks ω).withDraws y = (R.withDraws y).withEntryMasks ω := rfl
  rw [hsw] at hck
  have hoff : genDecompositionOffset P = some ck.decompositionOffset :=
    (keysOK_of_newCloudKey W L hd hacc hacc1 k0 k1 _ h0 h1 hb0 hb1 (fun _ _ _ _ _ _ => nrm_le _)
      (fun _ _ _ _ _ _ => nrm_le _) _ _ _ hck).1.off
  obtain ⟨done, ck', e, -, -, h⟩ := C37_newCloudKey W L hd hacc1 k0 k1 ((R.withDraws y).withEntryMasks ω) h0 h1 hb1
    schedK schedB
  obtain ⟨rfl, rfl⟩ : true = done ∧ ck = ck' := by
    rw [hck] at e; simpa using e
  obtain ⟨-, hksk, r, hr, hbsk⟩ := h rfl
  have key := bootNoise_lost W L hd hacc hoff hb0 hb1 y hksk hr hbsk tv c
  have ebsk := bsk_of_newCloudKey W L hd k0 k1 h0 h1 (R.withDraws y) ω schedK schedB ck hck
  rw [← offset_eq W hoff, ← ebsk]
  generalize lostSum P L ck.decompositionOffset ck.bootstrappingKey tv c k0 k1 = S at *
  have e1 : bootRound P L ck k0 k1 tv c y
      = (bootNoise P L ck k0 k1 tv c - ((keyNoise P L ck.decompositionOffset ck.bootstrappingKey tv c k0 y : ℤ) : Torus)
          - ((S : ℤ) : Torus)) + ((S : ℤ) : Torus) := by
    unfold bootRound; exact (sub_add_cancel _ _).symm
  rw [e1]
  refine (nrm_add _ _).trans ((Nat.add_le_add key (nrm_ofInt _)).trans ?_)
  unfold roundRest
  omega

/-- The rounding errors of a bootstrapping, in terms of mean and fluctuation of the lost bits. -/
theorem bootRound_le {P : Params} (W : WellFormed P) (L : FourierLaws O) (hd : O.deg = P.trgswLv1.N)
    {D : ℕ} (hacc : L.Accurate (P.trgswLv1.L * 2) (2 ^ (P.trgswLv1.BGBIT - 1)) D) (hacc1 : L.MulAccurate 1 0)
    (hL : P.trgswLv1.L = 3) (hb : P.trgswLv1.BGBIT = 6)
    (k0 k1 : List Torus) (h0 : P.tlweLv0.N ≤ k0.length) (h1 : k1.length = P.trgswLv1.N) (hb0 : IsBinary k0)
    (hb1 : IsBinary k1) (R : KeyGenRand) (y : DrawIx → ℚ) (ω : KeyMasks P) (schedK schedB : List ℕ) (ck : CloudKey O)
    (hck : newCloudKey P O k0 k1 ((R.withEntryMasks ω).withDraws y) schedK schedB = some (true, ck)) (tv : Trlwe)
    (c : List Torus) :
    nrm (bootRound P L ck k0 k1 tv c y)
      ≤ 8192 * (lostBias P c k0 k1).natAbs + (lostFluct P L k0 k1 (R.withDraws y) tv c ω).natAbs
        + roundRest P D (weight P.tlweLv0.N k0) (weight P.trgswLv1.N k1) := by
  have key := bootRound_lost W L hd hacc hacc1 k0 k1 h0 h1 hb0 hb1 R y ω schedK schedB ck hck tv c
  rw [lostSum_split P L k0 k1 (R.withDraws y) tv c ω hL hb] at key
  have e2 := Int.natAbs_add_le (8192 * lostBias P c k0 k1) (lostFluct P L k0 k1 (R.withDraws y) tv c ω)
  rw [Int.natAbs_mul, show Int.natAbs 8192 = 8192 from rfl] at e2
  omega

end GoTfhe
