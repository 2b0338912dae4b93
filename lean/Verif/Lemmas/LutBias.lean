import Verif.Lemmas.BeforeMove
import Verif.Lemmas.BiasTail
import Verif.Lemmas.GateProb

/-!
# The lost bits of a look-up: from the first step that moves
-/

namespace GoTfhe

open Finset

variable {O : FourierOps}

/-- The key without its first `τ` bits. -/
def dropKey (τ : ℕ) (s : List Torus) : List Torus := tab s.length fun i => if i < τ then 0 else at' s i

theorem at'_dropKey (τ : ℕ) (s : List Torus) (i : ℕ) : at' (dropKey τ s) i = if i < τ then 0 else at' s i := by
  unfold dropKey
  by_cases h : i < s.length
  · rw [at'_tab _ _ _ h]
  · have : ∀ l : List Torus, l.length ≤ i → at' l i = 0 := by
      intro l hl
      unfold at'
      rw [List.getD_eq_getElem?_getD, List.getElem?_eq_none hl]
      rfl
    rw [this _ (by simpa using h), this s (by omega)]
    simp

theorem isBinary_dropKey (τ : ℕ) (s : List Torus) (h : IsBinary s) : IsBinary (dropKey τ s) := by
  unfold dropKey
  intro x hx
  obtain ⟨i, -, rfl⟩ := List.mem_map.1 hx
  split_ifs
  · exact Or.inl rfl
  · exact isBinary_at' h i

theorem weight_dropKey (n τ : ℕ) (s : List Torus) : weight n (dropKey τ s) ≤ weight n s := by
  unfold weight
  refine sum_le_sum fun i _ => ?_
  rw [at'_dropKey]
  split_ifs
  · exact Nat.zero_le _
  · exact le_rfl

/-- The remaining exponent does not depend on the dropped bits. -/
theorem accExp_dropKey (P : Params) (c s : List Torus) (τ i : ℕ) (h : τ ≤ i) (hi : i < P.tlweLv0.N) :
    accExp P c (dropKey τ s) P.tlweLv0.N - accExp P c (dropKey τ s) (i + 1)
      = accExp P c s P.tlweLv0.N - accExp P c s (i + 1) := by
  unfold accExp
  rw [← sum_range_add_sum_Ico _ (show i + 1 ≤ P.tlweLv0.N by omega),
    ← sum_range_add_sum_Ico (fun j => ((at' s j).toNat : ℤ) * aTilda P.trgswLv1.NBIT (at' c j)) (show i + 1 ≤ P.tlweLv0.N by omega)]
  have : ∑ j ∈ Ico (i + 1) P.tlweLv0.N, ((at' (dropKey τ s) j).toNat : ℤ) * aTilda P.trgswLv1.NBIT (at' c j)
      = ∑ j ∈ Ico (i + 1) P.tlweLv0.N, ((at' s j).toNat : ℤ) * aTilda P.trgswLv1.NBIT (at' c j) := by
    refine sum_congr rfl fun j hj => ?_
    rw [at'_dropKey, if_neg (by have := mem_Ico.1 hj; omega)]
  rw [this]
  ring

/-- The mean from step `τ` on. -/
theorem lostBias_dropKey (P : Params) (c s0 s1 : List Torus) (τ : ℕ) :
    lostBias P c (dropKey τ s0) s1 = ∑ i ∈ range P.tlweLv0.N, if τ ≤ i then ((at' s0 i).toNat : ℤ)
      * (if aTilda P.trgswLv1.NBIT (at' c i) = 0 then 0
        else wave P.trgswLv1.N s1 (accExp P c s0 P.tlweLv0.N - accExp P c s0 (i + 1))) else 0 := by
  unfold lostBias
  refine sum_congr rfl fun i hi => ?_
  rw [at'_dropKey]
  by_cases h : τ ≤ i
  · rw [if_pos h, if_neg (by omega), accExp_dropKey P c s0 τ i h (mem_range.1 hi)]
  · rw [if_neg h, if_pos (by omega)]
    simp

theorem lostBias_drop_all (P : Params) (c s0 s1 : List Torus) : lostBias P c (dropKey P.tlweLv0.N s0) s1 = 0 := by
  rw [lostBias_dropKey]
  refine sum_eq_zero fun i hi => ?_
  rw [if_neg (by have := mem_range.1 hi; omega)]

section

variable (P : Params) (L : FourierLaws O) (k0 k1 : List Torus) (R : KeyGenRand) (tv : Trlwe) (c : List Torus)

/-- The lost bits in three parts: before the first move, mean and fluctuation after it. -/
theorem lostSum_from (W : WellFormed P) (hb1 : IsBinary k1) (τ : ℕ) (ω : KeyMasks P) (hL : P.trgswLv1.L = 3)
    (hb : P.trgswLv1.BGBIT = 6)
    (hlow : ∀ i < τ, ∀ k < P.trgswLv1.N, low (at' (inM P L k0 k1 R tv c ω i).A k) ≤ 1) :
    (lostSum P L (gadgetOffset P.trgswLv1.BGBIT P.trgswLv1.L) (bskM P L k0 k1 R ω) tv c k0 k1).natAbs
      ≤ 8192 * (lostBias P c (dropKey τ k0) k1).natAbs + (lostFluctFrom P L k0 k1 R tv c τ ω).natAbs
        + weight P.tlweLv0.N k0 * weight P.trgswLv1.N k1 := by
  classical
  have hN : 0 < P.trgswLv1.N := by have := W.min_degree; omega
  set S : ℕ → ℤ := fun i => ((at' k0 i).toNat : ℤ) * ∑ k ∈ range P.trgswLv1.N,
    waveCoef P.trgswLv1.N k1 (accExp P c k0 P.tlweLv0.N - accExp P c k0 (i + 1)) k
      * (low (at' (inM P L k0 k1 R tv c ω i).A k) : ℤ) with hS
  have e0 : lostSum P L (gadgetOffset P.trgswLv1.BGBIT P.trgswLv1.L) (bskM P L k0 k1 R ω) tv c k0 k1
      = ∑ i ∈ range P.tlweLv0.N, S i := by
    have h14 : (2 : ℕ) ^ (32 - P.trgswLv1.L * P.trgswLv1.BGBIT) = 16384 := by rw [hL, hb]; rfl
    unfold lostSum
    rw [h14]
    rfl
  have e1 : ∑ i ∈ range P.tlweLv0.N, S i = (∑ i ∈ range P.tlweLv0.N, if τ ≤ i then 0 else S i)
      + (8192 * lostBias P c (dropKey τ k0) k1 + lostFluctFrom P L k0 k1 R tv c τ ω) := by
    rw [lostBias_dropKey]
    unfold lostFluctFrom
    rw [mul_sum, ← sum_add_distrib, ← sum_add_distrib]
    refine sum_congr rfl fun i hi => ?_
    have hi := mem_range.1 hi
    by_cases h : τ ≤ i
    · rw [if_pos h, if_pos h, zero_add]
      by_cases ha : aTilda P.trgswLv1.NBIT (at' c i) = 0
      · rw [if_pos ha, if_neg (fun h => h.2.2 ha)]
        have : ∀ k ∈ range P.trgswLv1.N, waveCoef P.trgswLv1.N k1 (accExp P c k0 P.tlweLv0.N - accExp P c k0 (i + 1)) k
            * (low (at' (inM P L k0 k1 R tv c ω i).A k) : ℤ) = 0 := by
          intro k hk
          have := inM_A P L k0 k1 R tv c ω i k (mem_range.1 hk)
          rw [ha, dif_zero _ _ _ (mem_range.1 hk)] at this
          rw [this]
          simp [low]
        rw [hS]
        simp only
        rw [sum_eq_zero this]
        simp
      · rw [if_neg ha, if_pos ⟨h, hi, ha⟩]
        unfold fluctM cfM wave
        rw [hS]
        simp only
        rw [mul_sum, mul_sum, mul_sum, ← sum_add_distrib]
        refine sum_congr rfl fun k _ => ?_
        ring
    · rw [if_neg h, if_neg h, if_neg fun h' => h h'.1]
      ring
  have e2 : (∑ i ∈ range P.tlweLv0.N, if τ ≤ i then 0 else S i).natAbs ≤ weight P.tlweLv0.N k0 * weight P.trgswLv1.N k1 := by
    refine (Int.natAbs_sum_le _ _).trans ?_
    unfold weight
    rw [sum_mul]
    refine sum_le_sum fun i hi => ?_
    split_ifs with h
    · exact Nat.zero_le _
    · rw [hS]
      simp only
      rw [Int.natAbs_mul, Int.natAbs_natCast]
      refine Nat.mul_le_mul_left _ ((Int.natAbs_sum_le _ _).trans ?_)
      refine le_trans (sum_le_sum fun k hk => ?_) (le_of_eq (card_waveCoef P.trgswLv1.N hN k1 hb1
        (accExp P c k0 P.tlweLv0.N - accExp P c k0 (i + 1))))
      rw [Int.natAbs_mul, Int.natAbs_natCast]
      exact (Nat.mul_le_mul_left _ (hlow i (by omega) k (mem_range.1 hk))).trans (le_of_eq (mul_one _))
  rw [e0, e1]
  have h3 := Int.natAbs_add_le (∑ i ∈ range P.tlweLv0.N, if τ ≤ i then 0 else S i)
    (8192 * lostBias P c (dropKey τ k0) k1 + lostFluctFrom P L k0 k1 R tv c τ ω)
  have h4 := Int.natAbs_add_le (8192 * lostBias P c (dropKey τ k0) k1) (lostFluctFrom P L k0 k1 R tv c τ ω)
  rw [Int.natAbs_mul, show Int.natAbs 8192 = 8192 from rfl] at h4
  omega

/-- The lost bits of a look-up. -/
theorem lostSum_move (W : WellFormed P) (hd : O.deg = P.trgswLv1.N) (hacc0 : L.Accurate (P.trgswLv1.L * 2) 0 0)
    (hb1 : IsBinary k1) (ω : KeyMasks P) (hL : P.trgswLv1.L = 3) (hb : P.trgswLv1.BGBIT = 6) (hok : TvOk P tv) :
    (lostSum P L (gadgetOffset P.trgswLv1.BGBIT P.trgswLv1.L) (bskM P L k0 k1 R ω) tv c k0 k1).natAbs
      ≤ 8192 * (lostBias P c (dropKey (firstMove P tv c) k0) k1).natAbs
        + (lostFluctFrom P L k0 k1 R tv c (firstMove P tv c) ω).natAbs
        + weight P.tlweLv0.N k0 * weight P.trgswLv1.N k1 := by
  refine lostSum_from P L k0 k1 R tv c W hb1 _ ω hL hb fun i hi k hk => ?_
  rw [inM_in0 P L k0 k1 R tv c ω i (accM_firstMove P L k0 k1 R tv c hd hacc0 ω i hi.le)]
  exact low_before P tv c W hL hb hok.1 i hi k hk

theorem lostFluctFrom_congr (R R' : KeyGenRand) (τ : ℕ)
    (ω : KeyMasks P) (h : ∀ i < P.tlweLv0.N, ∀ j < P.trgswLv1.L * 2, ∀ k < P.trgswLv1.N,
      R.bskSample i j k = R'.bskSample i j k) :
    lostFluctFrom P L k0 k1 R tv c τ ω = lostFluctFrom P L k0 k1 R' tv c τ ω := by
  have e : bskM P L k0 k1 R ω = bskM P L k0 k1 R' ω := by
    unfold bskM
    refine tab_congr fun i hi => ?_
    congr 1
    unfold gswOf
    refine tab_congr fun j hj => ?_
    exact gswRow_congr P L _ _ _ _ _ _ fun k hk => h i hi j (by omega) k hk
  unfold lostFluctFrom fluctM inM
  rw [e]

end

end GoTfhe
