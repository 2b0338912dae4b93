import Verif.Spec.KeyMasks
import Verif.Lemmas.Bootstrap
import Verif.Props.CloudKey

/-!
# The part of the noise of a bootstrapping that comes from the noise of the keys
-/

namespace GoTfhe

variable {O : FourierOps}

/-- The draws that key generation makes. -/
def drawIxs (P : Params) : Finset DrawIx :=
  (Finset.range P.tlweLv0.N ×ˢ Finset.range (P.trgswLv1.L * 2) ×ˢ Finset.range P.trgswLv1.N).disjSum
    (Finset.range P.trgswLv1.N ×ˢ Finset.range P.trgswLv1.IKS_T ×ˢ Finset.range (2 ^ P.trgswLv1.BASEBIT))

/-- The input of the external product of step `i` of a blind rotation. -/
def stepIn (P : Params) (L : FourierLaws O) (off : Torus) (bsk : List (TrgswF O)) (tv : Trlwe) (c : List Torus)
    (i : ℕ) : Trlwe :=
  Trlwe.sub P.trgswLv1.N (rot P.trgswLv1.N (aTilda P.trgswLv1.NBIT (at' c i)) (blindAcc P L off bsk tv c i))
    (blindAcc P L off bsk tv c i)

/-- The factor with which a draw enters the noise of the bootstrapping. For the bootstrapping key it is a coefficient of
a digit polynomial, up to sign; for the key-switching key it is `-1` for the entries that are used. -/
def keyCoef (P : Params) (L : FourierLaws O) (off : Torus) (bsk : List (TrgswF O)) (tv : Trlwe) (c : List Torus)
    (s0 : List Torus) : DrawIx → ℤ
  | .inl (i, j, k) =>
    let a := mulXk P.trgswLv1.N (at' (digitPoly P off (stepIn P L off bsk tv c i) j))
      (accExp P c s0 P.tlweLv0.N - accExp P c s0 (i + 1))
    (if k = 0 then a 0 else -a (P.trgswLv1.N - k)).toInt
  | .inr (i, j, k) =>
    if ksDigit P.trgswLv1.BASEBIT P.trgswLv1.IKS_T (extracted P.trgswLv1.N (blindRot P L off bsk tv c) 0) i j = k ∧ k ≠ 0
    then -1 else 0

/-- The part of the noise that comes from the draws `y`. -/
def keyNoise (P : Params) (L : FourierLaws O) (off : Torus) (bsk : List (TrgswF O)) (tv : Trlwe) (c : List Torus)
    (s0 : List Torus) (y : DrawIx → ℚ) : ℤ :=
  ∑ d ∈ drawIxs P, keyCoef P L off bsk tv c s0 d * truncQ (y d * 2 ^ 32)

/-- A sample enters a ciphertext as the integer part of `2^32` times its value. -/
theorem f64ToTorus_eq_trunc (d : ℚ) : f64ToTorus d = ((truncQ (d * 2 ^ 32) : ℤ) : Torus) := by
  have pos : ∀ d : ℚ, 0 ≤ d → f64ToTorus d = ((truncQ (d * 2 ^ 32) : ℤ) : Torus) := by
    intro d h
    have e1 : truncQ d = ⌊d⌋ := if_pos h
    have e2 : 0 ≤ (d - ⌊d⌋) * 2 ^ 32 := mul_nonneg (sub_nonneg.2 (Int.floor_le d)) (by positivity)
    have e3 : truncQ (d * 2 ^ 32) = ⌊(d - ⌊d⌋) * 2 ^ 32⌋ + ⌊d⌋ * 2 ^ 32 := by
      unfold truncQ
      rw [if_pos (by positivity), ← Int.floor_add_intCast]
      congr 1
      push_cast
      ring
    unfold f64ToTorus fmod1
    rw [e1, e3]
    unfold truncQ
    rw [if_pos e2, ← cast_int_eq]
    rw [Int.cast_add, Int.cast_mul, show (((2 ^ 32 : ℤ)) : Torus) = 0 by decide, mul_zero, add_zero]
  rcases le_or_gt 0 d with h | h
  · exact pos d h
  · have := pos (-d) (by linarith)
    rw [f64ToTorus_neg, neg_mul, truncQ_neg] at this
    push_cast at this
    exact neg_inj.1 this

theorem toInt_cast (x : Torus) : ((x.toInt : ℤ) : Torus) = x := ofInt_toInt32 x

/-- Coefficient `0` of a rotated product, as a linear form in the second factor. -/
theorem mulXk_negMul_zero (N : ℕ) (hN : 0 < N) (d n : ℕ → Torus) (e : ℤ) :
    mulXk N (negMul N d n) e 0
      = ∑ k ∈ Finset.range N, (if k = 0 then mulXk N d e 0 else -mulXk N d e (N - k)) * n k := by
  rw [mulXk_negMul N _ _ _ _ hN, negMul_comm N _ _ _ hN]
  unfold negMul
  refine Finset.sum_congr rfl fun k _ => ?_
  by_cases h : k = 0
  · subst h
    rw [if_pos le_rfl, if_pos rfl, mul_comm]
  · rw [if_neg (by omega), if_neg h, zero_add]
    ring

section

variable (P : Params) (L : FourierLaws O) (bsk : List (TrgswF O)) (tv : Trlwe) (c : List Torus)
  (s0 s1 : List Torus) (ts : ℕ → Trgsw)

theorem stepErr_split (nz r : ℕ → ℕ → ℕ → Torus) (i k : ℕ) :
    stepErr P L bsk tv c s0 s1 ts (fun i j k => nz i j k + r i j k) i k
      = stepErr P L bsk tv c s0 s1 ts r i k
        + ∑ j ∈ Finset.range (P.trgswLv1.L * 2), negMul P.trgswLv1.N (at' (digitPoly P
            (gadgetOffset P.trgswLv1.BGBIT P.trgswLv1.L)
            (stepIn P L (gadgetOffset P.trgswLv1.BGBIT P.trgswLv1.L) bsk tv c i) j)) (nz i j) k := by
  unfold stepErr stepIn extErr
  simp only [negMul_add_right, Finset.sum_add_distrib]
  ring

theorem accErr_split (hN : 0 < P.trgswLv1.N) (nz r : ℕ → ℕ → ℕ → Torus) :
    accErr P L bsk tv c s0 s1 ts (fun i j k => nz i j k + r i j k) P.tlweLv0.N 0
      = accErr P L bsk tv c s0 s1 ts r P.tlweLv0.N 0
        + ∑ i ∈ Finset.range P.tlweLv0.N, ∑ j ∈ Finset.range (P.trgswLv1.L * 2), ∑ k ∈ Finset.range P.trgswLv1.N,
            ((keyCoef P L (gadgetOffset P.trgswLv1.BGBIT P.trgswLv1.L) bsk tv c s0 (.inl (i, j, k)) : ℤ) : Torus)
              * nz i j k := by
  rw [accErr_eq _ _ _ _ _ _ _ _ _ _ hN 0 hN, accErr_eq _ _ _ _ _ _ _ _ _ _ hN 0 hN, add_assoc, ← Finset.sum_add_distrib]
  congr 1
  refine Finset.sum_congr rfl fun i _ => ?_
  rw [mulXk_congr _ hN _ _ (fun k _ => stepErr_split P L bsk tv c s0 s1 ts nz r i k), mulXk_add]
  congr 1
  rw [show mulXk P.trgswLv1.N (fun k => ∑ j ∈ Finset.range (P.trgswLv1.L * 2), negMul P.trgswLv1.N (at' (digitPoly P
      (gadgetOffset P.trgswLv1.BGBIT P.trgswLv1.L)
      (stepIn P L (gadgetOffset P.trgswLv1.BGBIT P.trgswLv1.L) bsk tv c i) j)) (nz i j) k)
      (accExp P c s0 P.tlweLv0.N - accExp P c s0 (i + 1)) 0 = _ from ext_sum _ _ _ _]
  refine Finset.sum_congr rfl fun j _ => ?_
  refine (mulXk_negMul_zero _ hN _ _ _).trans (Finset.sum_congr rfl fun k _ => ?_)
  simp only [keyCoef, toInt_cast]

end

theorem ksRound_bound {P : Params} (W : WellFormed P) (src s1 : List Torus) (hb1 : IsBinary s1) :
    nrm (∑ i ∈ Finset.range P.trgswLv1.N, ksRound P.trgswLv1.BASEBIT P.trgswLv1.IKS_T (at' src i) * at' s1 i)
      ≤ weight P.trgswLv1.N s1 * 2 ^ (31 - P.trgswLv1.BASEBIT * P.trgswLv1.IKS_T) := by
  refine (nrm_sum _ _).trans ?_
  unfold weight
  rw [Finset.sum_mul]
  refine Finset.sum_le_sum fun i _ => ?_
  refine (nrm_mul _ _).trans ?_
  rw [nrm_bit (isBinary_at' hb1 i), mul_comm]
  exact Nat.mul_le_mul_left _ (nrm_ksRound _ _ _ W.ks_fits)

/-- The exponent of the blind rotation selects the coefficient of the rounded phase. -/
theorem mulXk_accExp {P : Params} (W : WellFormed P) (c s0 : List Torus) (f : ℕ → Torus) :
    mulXk P.trgswLv1.N f (accExp P c s0 P.tlweLv0.N) 0 = ext P.trgswLv1.N f (msPhase P.trgswLv1.N P.tlweLv0.N c s0) := by
  have hN : 0 < P.trgswLv1.N := by have := W.min_degree; omega
  choose τ hτ hA hB using fun x => modswitch_core W x
  have hms : msPhase P.trgswLv1.N P.tlweLv0.N c s0
      = τ (at' c P.tlweLv0.N) - ∑ i ∈ Finset.range P.tlweLv0.N, ((at' s0 i).toNat : ℤ) * τ (at' c i) := by
    unfold msPhase
    rw [isNearest2N_unique (hτ (at' c P.tlweLv0.N)) (nearest2N_spec _ _)]
    congr 1
    refine Finset.sum_congr rfl fun i _ => ?_
    rw [isNearest2N_unique (hτ (at' c i)) (nearest2N_spec _ _)]
  rw [show ext P.trgswLv1.N f (msPhase P.trgswLv1.N P.tlweLv0.N c s0)
    = mulXk P.trgswLv1.N f (-msPhase P.trgswLv1.N P.tlweLv0.N c s0) 0 by unfold mulXk; congr 1; simp]
  apply mulXk_mod _ hN
  rw [hms]
  have hdvd : (2 * P.trgswLv1.N : ℤ) ∣
      (∑ j ∈ Finset.range P.tlweLv0.N, ((at' s0 j).toNat : ℤ) * aTilda P.trgswLv1.NBIT (at' c j))
        - ∑ j ∈ Finset.range P.tlweLv0.N, ((at' s0 j).toNat : ℤ) * τ (at' c j) := by
    rw [← Finset.sum_sub_distrib]
    apply Finset.dvd_sum
    intro j _
    rw [← mul_sub]
    exact Dvd.dvd.mul_left (hA _).2.2 _
  obtain ⟨q, hq⟩ := hdvd
  unfold accExp
  rw [(hB _).1]
  exact ⟨1 + q, by linarith⟩

theorem keyNoise_cast (P : Params) (L : FourierLaws O) (off : Torus) (bsk : List (TrgswF O)) (tv : Trlwe) (c : List Torus)
    (s0 : List Torus) (y : DrawIx → ℚ) :
    ((keyNoise P L off bsk tv c s0 y : ℤ) : Torus)
      = (∑ i ∈ Finset.range P.tlweLv0.N, ∑ j ∈ Finset.range (P.trgswLv1.L * 2), ∑ k ∈ Finset.range P.trgswLv1.N,
          ((keyCoef P L off bsk tv c s0 (.inl (i, j, k)) : ℤ) : Torus) * f64ToTorus (y (.inl (i, j, k))))
        - ∑ i ∈ Finset.range P.trgswLv1.N, ∑ j ∈ Finset.range P.trgswLv1.IKS_T,
            if ksDigit P.trgswLv1.BASEBIT P.trgswLv1.IKS_T (extracted P.trgswLv1.N
              (blindRot P L off bsk tv c) 0) i j ≠ 0
            then f64ToTorus (y (.inr (i, j, ksDigit P.trgswLv1.BASEBIT P.trgswLv1.IKS_T (extracted P.trgswLv1.N
              (blindRot P L off bsk tv c) 0) i j))) else 0 := by
  unfold keyNoise drawIxs
  rw [Finset.sum_disjSum, Finset.sum_product, Finset.sum_product, sub_eq_add_neg]
  simp only [Finset.sum_product]
  rw [Int.cast_add]
  simp only [Int.cast_sum, Int.cast_mul]
  refine congrArg₂ (· + ·) ?_ ?_
  · refine Finset.sum_congr rfl fun i _ => Finset.sum_congr rfl fun j _ => Finset.sum_congr rfl fun k _ => ?_
    rw [f64ToTorus_eq_trunc]
  · rw [← Finset.sum_neg_distrib]
    refine Finset.sum_congr rfl fun i _ => ?_
    rw [← Finset.sum_neg_distrib]
    refine Finset.sum_congr rfl fun j _ => ?_
    simp only [keyCoef]
    set dg := ksDigit P.trgswLv1.BASEBIT P.trgswLv1.IKS_T (extracted P.trgswLv1.N
      (blindRot P L off bsk tv c) 0) i j with hdg
    have hlt : dg < 2 ^ P.trgswLv1.BASEBIT := Nat.mod_lt _ (by positivity)
    rw [Finset.sum_eq_single dg]
    · by_cases h : dg = 0
      · rw [if_neg (by rw [h]; simp), if_neg (by rw [h]; simp), Int.cast_zero, zero_mul, neg_zero]
      · rw [if_pos ⟨rfl, h⟩, if_pos h, f64ToTorus_eq_trunc, Int.cast_neg, Int.cast_one, neg_one_mul]
    · intro k _ hk
      rw [if_neg (fun h => hk h.1.symm), Int.cast_zero, zero_mul]
    · intro h
      exact absurd (Finset.mem_range.2 hlt) h

/-- The noise of a bootstrapping is the noise of the keys, multiplied by the digits, plus rounding errors that do not
depend on the size of the keys' noise. -/
theorem bootNoise_split {P : Params} (W : WellFormed P) (L : FourierLaws O) (hd : O.deg = P.trgswLv1.N)
    {D D1 : ℕ} (hacc : L.Accurate (P.trgswLv1.L * 2) (2 ^ (P.trgswLv1.BGBIT - 1)) D) {ck : CloudKey O}
    (hoff : genDecompositionOffset P = some ck.decompositionOffset) {s0 s1 : List Torus} (hb0 : IsBinary s0)
    (hb1 : IsBinary s1) (y : DrawIx → ℚ)
    (hksk : IsKsk P.tlweLv0.N P.trgswLv1.N P.trgswLv1.BASEBIT P.trgswLv1.IKS_T ck.keySwitchingKey s0 s1
      (fun i j k => f64ToTorus (y (.inr (i, j, k)))))
    {r : ℕ → ℕ → ℕ → Torus} (hr : ∀ i j k, k < P.trgswLv1.N → nrm (r i j k) ≤ D1)
    (hbsk : IsBsk L P.tlweLv0.N P.trgswLv1.N P.trgswLv1.L P.trgswLv1.BGBIT ck.bootstrappingKey s0 s1
      (fun i j k => f64ToTorus (y (.inl (i, j, k))) + r i j k)) (tv : Trlwe) (c : List Torus) :
    nrm (bootNoise P L ck s0 s1 tv c
        - ((keyNoise P L ck.decompositionOffset ck.bootstrappingKey tv c s0 y : ℤ) : Torus))
      ≤ bootBound P D D1 0 (weight P.tlweLv0.N s0) (weight P.trgswLv1.N s1) := by
  have hN : 0 < P.trgswLv1.N := by have := W.min_degree; omega
  obtain ⟨ts, hts, hf⟩ := isBsk_choose hbsk
  set r' : ℕ → ℕ → ℕ → Torus := fun i j k => if k < P.trgswLv1.N then r i j k else 0 with hr'
  have hr'b : ∀ i j k, nrm (r' i j k) ≤ D1 := by
    intro i j k
    simp only [hr']
    split_ifs with h
    · exact hr i j k h
    · exact (le_of_eq nrm_zero).trans (Nat.zero_le _)
  set nz : ℕ → ℕ → ℕ → Torus := fun i j k => f64ToTorus (y (.inl (i, j, k))) with hnz
  have hts' : ∀ i < P.tlweLv0.N, IsTrgsw P.trgswLv1.N P.trgswLv1.L P.trgswLv1.BGBIT (ts i) (at' s0 i) s1
      (fun j k => nz i j k + r' i j k) := by
    intro i hi
    have ht := hts i hi
    refine ⟨ht.rows, ht.sizedA, ht.sizedB, ?_, ?_⟩
    · intro j hj k hk
      rw [ht.phaseA j hj k hk]
      simp only [hr', if_pos hk, hnz]
    · intro j hj k hk
      rw [ht.phaseB j hj k hk]
      simp only [hr', if_pos hk, hnz]
  have hoff' := offset_eq W hoff
  have hrot := trPhase_blindAcc P L ck.bootstrappingKey tv c s0 s1 ts (fun i j k => nz i j k + r' i j k) W
    (isBinary_at' hb0) P.tlweLv0.N hts' 0 hN
  rw [mulXk_accExp W, accErr_split P L _ tv c s0 s1 ts hN nz r'] at hrot
  have hA := nrm_accErr W L hd hacc ck.bootstrappingKey tv c s0 s1 hb0 hb1 ts r' D1 hr'b hts' hf 0 hN
  have hks := phase_ksOut P.tlweLv0.N P.trgswLv1.N P.trgswLv1.BASEBIT P.trgswLv1.IKS_T (extracted P.trgswLv1.N
    (blindRot P L ck.decompositionOffset ck.bootstrappingKey tv c) 0) ck.keySwitchingKey s0 s1 _ W.ks_fits hksk
  have hR := ksRound_bound W (extracted P.trgswLv1.N
    (blindRot P L ck.decompositionOffset ck.bootstrappingKey tv c) 0) s1 hb1
  have hex := phase_extracted P.trgswLv1.N (blindRot P L ck.decompositionOffset ck.bootstrappingKey tv c) 0 s1 hN
  have hw := nrm_sum_weight s1 hb1 P.trgswLv1.N
  have hkn := keyNoise_cast P L ck.decompositionOffset ck.bootstrappingKey tv c s0 y
  rw [hkn]
  simp only [hnz] at hrot
  unfold bootNoise bootOut bootPure bootBound
  rw [hks, hex]
  rw [← hoff'] at hrot
  change trPhase P.trgswLv1.N (blindRot P L ck.decompositionOffset ck.bootstrappingKey tv c).A
    (blindRot P L ck.decompositionOffset ck.bootstrappingKey tv c).B s1 0 = _ at hrot
  rw [hrot]
  have e : ∀ a b c d e f : Torus, a + (b + c) + d - e - f - a - (c - f) = b + d - e := by intros; ring
  rw [e, Nat.mul_zero, Nat.mul_zero, Nat.add_zero]
  exact (nrm_sub _ _).trans (Nat.add_le_add ((nrm_add _ _).trans (Nat.add_le_add hA hw)) hR)

end GoTfhe
