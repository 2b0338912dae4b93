import Verif.Lemmas.KeyNoise

/-!
# The bits that the gadget decomposition loses, in the noise of a bootstrapping
-/

namespace GoTfhe

open Finset

variable {O : FourierOps}

/-- The factor with which coefficient `k` of a polynomial enters coefficient 0 of `X^e` times its product with `s`. -/
def waveCoef (N : ℕ) (s : List Torus) (e : ℤ) (k : ℕ) : ℤ := (ext N (at' s) (-k - e)).toInt

theorem mulXk_negMul_ext (N : ℕ) (hN : 0 < N) (d n : ℕ → Torus) (e : ℤ) :
    mulXk N (negMul N n d) e 0 = ∑ k ∈ range N, ext N d (-k - e) * n k := by
  rw [mulXk_congr N hN _ (negMul N d n) (fun k hk => negMul_comm N n d k hk), mulXk_negMul_zero N hN]
  refine sum_congr rfl fun k hk => ?_
  have hk := mem_range.1 hk
  congr 1
  by_cases h : k = 0
  · subst h
    rw [if_pos rfl]
    unfold mulXk
    congr 1
  · rw [if_neg h]
    unfold mulXk
    rw [show ((N - k : ℕ) : ℤ) - e = (-k - e) + N by omega, ext_add_N N hN, neg_neg]

theorem waveCoef_cases (N : ℕ) (s : List Torus) (hs : IsBinary s) (e : ℤ) (k : ℕ) :
    waveCoef N s e k = 1 ∨ waveCoef N s e k = -1 ∨ waveCoef N s e k = 0 := by
  unfold waveCoef ext extG
  simp only
  rcases isBinary_at' hs (((-k - e : ℤ) % N).toNat) with h | h <;> rw [h] <;> split_ifs <;> decide

/-- As many coefficients matter as the key has ones. -/
theorem card_waveCoef (N : ℕ) (hN : 0 < N) (s : List Torus) (hs : IsBinary s) (e : ℤ) :
    ∑ k ∈ range N, (waveCoef N s e k).natAbs = weight N s := by
  unfold weight
  have habs : ∀ k, (waveCoef N s e k).natAbs = (at' s (((-k - e : ℤ) % N).toNat)).toNat := by
    intro k
    unfold waveCoef ext extG
    simp only
    rcases isBinary_at' hs (((-k - e : ℤ) % N).toNat) with h | h <;> rw [h] <;> split_ifs <;> decide
  simp only [habs]
  have hN' : (N : ℤ) ≠ 0 := by omega
  have hlt : ∀ z : ℤ, (z % N).toNat < N := fun z => by
    have := Int.emod_nonneg z hN'
    have := Int.emod_lt_of_pos z (show (0 : ℤ) < N by omega)
    omega
  have hinv : ∀ k : ℕ, k < N → ((-(((-k - e : ℤ) % N).toNat : ℤ) - e) % N).toNat = k := by
    intro k hk
    rw [Int.toNat_of_nonneg (Int.emod_nonneg _ hN')]
    have h1 : (-((-k - e : ℤ) % N) - e) % N = (k : ℤ) % N := by
      apply Int.emod_emod_of_dvd _ dvd_rfl |>.symm.trans
      rw [Int.emod_emod_of_dvd _ dvd_rfl]
      apply Int.emod_eq_emod_iff_emod_sub_eq_zero.2
      apply Int.emod_eq_zero_of_dvd
      have := Int.mul_ediv_add_emod (-k - e : ℤ) N
      exact ⟨(-k - e : ℤ) / N, by linarith⟩
    rw [h1, Int.emod_eq_of_lt (by omega) (by omega)]
    simp
  refine sum_nbij' (fun k => (((-k - e : ℤ) % N).toNat)) (fun k => (((-k - e : ℤ) % N).toNat)) ?_ ?_ ?_ ?_ ?_
  · intro k _; exact mem_range.2 (hlt _)
  · intro k _; exact mem_range.2 (hlt _)
  · intro k hk; exact hinv k (mem_range.1 hk)
  · intro k hk; exact hinv k (mem_range.1 hk)
  · intro k _; rfl

/-- The part of the noise of a blind rotation that comes from the lost bits of the masks. -/
def lostSum (P : Params) (L : FourierLaws O) (off : Torus) (bsk : List (TrgswF O)) (tv : Trlwe) (c s0 s1 : List Torus) :
    ℤ :=
  ∑ i ∈ range P.tlweLv0.N, ((at' s0 i).toNat : ℤ) * ∑ k ∈ range P.trgswLv1.N,
    waveCoef P.trgswLv1.N s1 (accExp P c s0 P.tlweLv0.N - accExp P c s0 (i + 1)) k
      * ((at' (stepIn P L off bsk tv c i).A k).toNat % 2 ^ (32 - P.trgswLv1.L * P.trgswLv1.BGBIT) : ℕ)

/-- A bound for the rest. -/
def lostRest (P : Params) (D w0 w1 : ℕ) : ℕ :=
  (1 + w1) + w0 * ((1 + w1) + 2 ^ (32 - P.trgswLv1.L * P.trgswLv1.BGBIT)) + P.tlweLv0.N * (D * (1 + w1))

section

variable (P : Params) (L : FourierLaws O) (bsk : List (TrgswF O)) (tv : Trlwe) (c : List Torus)
  (s0 s1 : List Torus) (ts : ℕ → Trgsw)

/-- Step `i` without the lost bits of the mask. -/
def restStep (i k : ℕ) : Torus :=
  let off := gadgetOffset P.trgswLv1.BGBIT P.trgswLv1.L
  at' s0 i * rotErr P.trgswLv1.N s1 (aTilda P.trgswLv1.NBIT (at' c i)) k
  - at' s0 i * lowBits P.trgswLv1.L P.trgswLv1.BGBIT (at' (stepIn P L off bsk tv c i).B k)
  + (backendErrB P L off (ts i) (bsk.getD i []) (stepIn P L off bsk tv c i) k
    - negMul P.trgswLv1.N (backendErrA P L off (ts i) (bsk.getD i []) (stepIn P L off bsk tv c i)) (at' s1) k)

theorem negMul_zero_right (N : ℕ) (a : ℕ → Torus) (k : ℕ) : negMul N a (fun _ => 0) k = 0 := by
  unfold negMul
  refine sum_eq_zero fun i _ => ?_
  split_ifs <;> simp only [mul_zero, neg_zero]

theorem mulXk_smul (N : ℕ) (x : Torus) (f : ℕ → Torus) (e : ℤ) (k : ℕ) :
    mulXk N (fun k => x * f k) e k = x * mulXk N f e k := ext_smul N x f _

theorem stepErr_lost (i k : ℕ) :
    stepErr P L bsk tv c s0 s1 ts (fun _ _ _ => 0) i k = restStep P L bsk tv c s0 s1 ts i k
      + at' s0 i * negMul P.trgswLv1.N (fun m => lowBits P.trgswLv1.L P.trgswLv1.BGBIT (at' (stepIn P L
          (gadgetOffset P.trgswLv1.BGBIT P.trgswLv1.L) bsk tv c i).A m)) (at' s1) k := by
  unfold stepErr restStep extErr stepIn
  simp only [negMul_zero_right, sum_const_zero]
  ring

theorem accErr_lost (hN : 0 < P.trgswLv1.N) (hb0 : IsBinary s0) :
    accErr P L bsk tv c s0 s1 ts (fun _ _ _ => 0) P.tlweLv0.N 0
      = mulXk P.trgswLv1.N (rotErr P.trgswLv1.N s1 (bTilda P.trgswLv1.N P.trgswLv1.NBIT (at' c P.tlweLv0.N)))
          (accExp P c s0 P.tlweLv0.N - accExp P c s0 0) 0
        + ∑ i ∈ range P.tlweLv0.N, mulXk P.trgswLv1.N (restStep P L bsk tv c s0 s1 ts i)
            (accExp P c s0 P.tlweLv0.N - accExp P c s0 (i + 1)) 0
        + ((lostSum P L (gadgetOffset P.trgswLv1.BGBIT P.trgswLv1.L) bsk tv c s0 s1 : ℤ) : Torus) := by
  rw [accErr_eq _ _ _ _ _ _ _ _ _ _ hN 0 hN, add_assoc]
  congr 1
  unfold lostSum
  rw [Int.cast_sum, ← sum_add_distrib]
  refine sum_congr rfl fun i _ => ?_
  rw [mulXk_congr _ hN _ _ (fun k _ => stepErr_lost P L bsk tv c s0 s1 ts i k), mulXk_add, mulXk_smul,
    mulXk_negMul_ext _ hN]
  congr 1
  rw [Int.cast_mul, Int.cast_sum]
  congr 1
  · rcases isBinary_at' hb0 i with h | h <;> rw [h] <;> decide
  · refine sum_congr rfl fun k _ => ?_
    rw [Int.cast_mul]
    congr 1
    exact (toInt_cast _).symm

theorem nrm_restStep {P : Params} (W : WellFormed P) (L : FourierLaws O) (hd : O.deg = P.trgswLv1.N)
    {D : ℕ} (hacc : L.Accurate (P.trgswLv1.L * 2) (2 ^ (P.trgswLv1.BGBIT - 1)) D)
    (bsk : List (TrgswF O)) (tv : Trlwe) (c : List Torus) (s0 s1 : List Torus) (hs0 : IsBinary s0)
    (hs1 : IsBinary s1) (ts : ℕ → Trgsw) (i : ℕ) {err' : ℕ → ℕ → Torus}
    (hts : IsTrgsw P.trgswLv1.N P.trgswLv1.L P.trgswLv1.BGBIT (ts i) (at' s0 i) s1 err')
    (hf : IsFft L (ts i) (bsk.getD i [])) (k : ℕ) (hk : k < P.trgswLv1.N) :
    nrm (restStep P L bsk tv c s0 s1 ts i k)
      ≤ (at' s0 i).toNat * ((1 + weight P.trgswLv1.N s1) + 2 ^ (32 - P.trgswLv1.L * P.trgswLv1.BGBIT))
        + D * (1 + weight P.trgswLv1.N s1) := by
  have hlb : 1 ≤ P.trgswLv1.L * P.trgswLv1.BGBIT := Nat.mul_pos W.l_pos W.bgbit_pos
  set off := gadgetOffset P.trgswLv1.BGBIT P.trgswLv1.L
  set x := stepIn P L off bsk tv c i with hx
  have e1 := nrm_rotErr P.trgswLv1.N s1 (isBinary_at' hs1) (aTilda P.trgswLv1.NBIT (at' c i)) k hk
  have e2 := (nrm_lowBits P.trgswLv1.L P.trgswLv1.BGBIT (at' x.B k) hlb).le
  have e4 := nrm_backendErr W L hd hacc off (ts i) (bsk.getD i []) (at' s0 i) s1 err' hts hf x
  have e5 := nrm_negMul_weight P.trgswLv1.N (backendErrA P L off (ts i) (bsk.getD i []) x) (at' s1) D
    (fun i hi => (e4 i hi).1) k hk
  rw [sum_nrm_key _ s1 (isBinary_at' hs1)] at e5
  have e6 := (e4 k hk).2
  have hb := nrm_bit (isBinary_at' hs0 i)
  unfold restStep
  simp only
  refine (nrm_add _ _).trans (Nat.add_le_add ((nrm_sub _ _).trans ?_) ((nrm_sub _ _).trans ?_))
  · refine (Nat.add_le_add (nrm_mul _ _) (nrm_mul _ _)).trans ?_
    rw [hb, ← Nat.mul_add]
    exact Nat.mul_le_mul_left _ (Nat.add_le_add e1 e2)
  · calc _ ≤ D + D * weight P.trgswLv1.N s1 := Nat.add_le_add e6 e5
      _ = _ := by ring

theorem nrm_accErr_lost {P : Params} (W : WellFormed P) (L : FourierLaws O) (hd : O.deg = P.trgswLv1.N)
    {D : ℕ} (hacc : L.Accurate (P.trgswLv1.L * 2) (2 ^ (P.trgswLv1.BGBIT - 1)) D)
    (bsk : List (TrgswF O)) (tv : Trlwe) (c : List Torus) (s0 s1 : List Torus) (hs0 : IsBinary s0)
    (hs1 : IsBinary s1) (ts : ℕ → Trgsw) {err' : ℕ → ℕ → ℕ → Torus}
    (hts : ∀ i < P.tlweLv0.N, IsTrgsw P.trgswLv1.N P.trgswLv1.L P.trgswLv1.BGBIT (ts i) (at' s0 i) s1 (err' i))
    (hf : ∀ i < P.tlweLv0.N, IsFft L (ts i) (bsk.getD i [])) :
    nrm (accErr P L bsk tv c s0 s1 ts (fun _ _ _ => 0) P.tlweLv0.N 0
        - ((lostSum P L (gadgetOffset P.trgswLv1.BGBIT P.trgswLv1.L) bsk tv c s0 s1 : ℤ) : Torus))
      ≤ lostRest P D (weight P.tlweLv0.N s0) (weight P.trgswLv1.N s1) := by
  have hN : 0 < P.trgswLv1.N := by have := W.min_degree; omega
  rw [accErr_lost P L bsk tv c s0 s1 ts hN hs0, add_sub_cancel_right]
  refine (nrm_add _ _).trans ?_
  have h1 := nrm_mulXk P.trgswLv1.N (rotErr P.trgswLv1.N s1 (bTilda P.trgswLv1.N P.trgswLv1.NBIT
    (at' c P.tlweLv0.N))) (1 + weight P.trgswLv1.N s1)
    (fun j hj => nrm_rotErr _ s1 (isBinary_at' hs1) _ j hj) hN
    (accExp P c s0 P.tlweLv0.N - accExp P c s0 0) 0
  have h2 : nrm (∑ i ∈ range P.tlweLv0.N, mulXk P.trgswLv1.N (restStep P L bsk tv c s0 s1 ts i)
      (accExp P c s0 P.tlweLv0.N - accExp P c s0 (i + 1)) 0)
      ≤ ∑ i ∈ range P.tlweLv0.N, ((at' s0 i).toNat * ((1 + weight P.trgswLv1.N s1)
          + 2 ^ (32 - P.trgswLv1.L * P.trgswLv1.BGBIT)) + D * (1 + weight P.trgswLv1.N s1)) := by
    refine (nrm_sum _ _).trans (sum_le_sum fun i hi => ?_)
    have hi := mem_range.1 hi
    exact nrm_mulXk _ _ _ (fun j hj => nrm_restStep W L hd hacc bsk tv c s0 s1 hs0 hs1 ts i
      (hts i hi) (hf i hi) j hj) hN _ _
  refine (Nat.add_le_add h1 h2).trans (le_of_eq ?_)
  unfold lostRest
  rw [sum_add_distrib, sum_const, card_range, smul_eq_mul, ← sum_mul]
  unfold weight
  ring

end

/-- The noise of a bootstrapping is the noise of the keys, multiplied by the digits, plus the lost bits of the masks,
plus small errors. -/
theorem bootNoise_lost {P : Params} (W : WellFormed P) (L : FourierLaws O) (hd : O.deg = P.trgswLv1.N)
    {D : ℕ} (hacc : L.Accurate (P.trgswLv1.L * 2) (2 ^ (P.trgswLv1.BGBIT - 1)) D) {ck : CloudKey O}
    (hoff : genDecompositionOffset P = some ck.decompositionOffset) {s0 s1 : List Torus} (hb0 : IsBinary s0)
    (hb1 : IsBinary s1) (y : DrawIx → ℚ)
    (hksk : IsKsk P.tlweLv0.N P.trgswLv1.N P.trgswLv1.BASEBIT P.trgswLv1.IKS_T ck.keySwitchingKey s0 s1
      (fun i j k => f64ToTorus (y (.inr (i, j, k)))))
    {r : ℕ → ℕ → ℕ → Torus} (hr : ∀ i j k, k < P.trgswLv1.N → nrm (r i j k) ≤ 0)
    (hbsk : IsBsk L P.tlweLv0.N P.trgswLv1.N P.trgswLv1.L P.trgswLv1.BGBIT ck.bootstrappingKey s0 s1
      (fun i j k => f64ToTorus (y (.inl (i, j, k))) + r i j k)) (tv : Trlwe) (c : List Torus) :
    nrm (bootNoise P L ck s0 s1 tv c
        - ((keyNoise P L ck.decompositionOffset ck.bootstrappingKey tv c s0 y : ℤ) : Torus)
        - ((lostSum P L ck.decompositionOffset ck.bootstrappingKey tv c s0 s1 : ℤ) : Torus))
      ≤ lostRest P D (weight P.tlweLv0.N s0) (weight P.trgswLv1.N s1) + weight P.trgswLv1.N s1
        + weight P.trgswLv1.N s1 * 2 ^ (31 - P.trgswLv1.BASEBIT * P.trgswLv1.IKS_T) := by
  have hN : 0 < P.trgswLv1.N := by have := W.min_degree; omega
  obtain ⟨ts, hts, hf⟩ := isBsk_choose hbsk
  have hr0 : ∀ i j k, k < P.trgswLv1.N → r i j k = 0 := by
    intro i j k hk
    have := hr i j k hk
    unfold nrm at this
    have h0 : (r i j k).toInt = 0 := by omega
    exact BitVec.eq_of_toInt_eq h0
  set nz : ℕ → ℕ → ℕ → Torus := fun i j k => f64ToTorus (y (.inl (i, j, k))) with hnz
  have hts' : ∀ i < P.tlweLv0.N, IsTrgsw P.trgswLv1.N P.trgswLv1.L P.trgswLv1.BGBIT (ts i) (at' s0 i) s1
      (fun j k => nz i j k + (fun _ _ _ => 0 : ℕ → ℕ → ℕ → Torus) i j k) := by
    intro i hi
    have ht := hts i hi
    refine ⟨ht.rows, ht.sizedA, ht.sizedB, ?_, ?_⟩
    · intro j hj k hk
      rw [ht.phaseA j hj k hk]
      simp only [hr0 _ _ _ hk, hnz]
    · intro j hj k hk
      rw [ht.phaseB j hj k hk]
      simp only [hr0 _ _ _ hk, hnz]
  have hoff' := offset_eq W hoff
  have hrot := trPhase_blindAcc P L ck.bootstrappingKey tv c s0 s1 ts
    (fun i j k => nz i j k + (fun _ _ _ => 0 : ℕ → ℕ → ℕ → Torus) i j k) W
    (isBinary_at' hb0) P.tlweLv0.N hts' 0 hN
  rw [mulXk_accExp W, accErr_split P L _ tv c s0 s1 ts hN nz (fun _ _ _ => 0)] at hrot
  have hA := nrm_accErr_lost W L hd hacc ck.bootstrappingKey tv c s0 s1 hb0 hb1 ts hts' hf
  have hks := phase_ksOut P.tlweLv0.N P.trgswLv1.N P.trgswLv1.BASEBIT P.trgswLv1.IKS_T (extracted P.trgswLv1.N
    (blindRot P L ck.decompositionOffset ck.bootstrappingKey tv c) 0) ck.keySwitchingKey s0 s1 _ W.ks_fits hksk
  have hR := ksRound_bound W (extracted P.trgswLv1.N
    (blindRot P L ck.decompositionOffset ck.bootstrappingKey tv c) 0) s1 hb1
  have hex := phase_extracted P.trgswLv1.N (blindRot P L ck.decompositionOffset ck.bootstrappingKey tv c) 0 s1 hN
  have hw := nrm_sum_weight s1 hb1 P.trgswLv1.N
  have hkn := keyNoise_cast P L ck.decompositionOffset ck.bootstrappingKey tv c s0 y
  rw [hkn]
  simp only [hnz] at hrot
  unfold bootNoise bootOut bootPure
  rw [hks, hex]
  rw [← hoff'] at hrot hA
  change trPhase P.trgswLv1.N (blindRot P L ck.decompositionOffset ck.bootstrappingKey tv c).A
    (blindRot P L ck.decompositionOffset ck.bootstrappingKey tv c).B s1 0 = _ at hrot
  rw [hrot]
  have e : ∀ a b c d e f g : Torus, a + (b + c) + d - e - f - a - (c - f) - g = (b - g) + d - e := by intros; ring
  rw [e]
  exact (nrm_sub _ _).trans (Nat.add_le_add ((nrm_add _ _).trans (Nat.add_le_add hA hw)) hR)

end GoTfhe
