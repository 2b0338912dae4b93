import Verif.Props.ReencChain
import Verif.Props.ReencLevels

/-!
# C83 at the levels
-/

namespace GoTfhe

open MeasureTheory ProbabilityTheory Finset

/-- The number of asymmetric hops among the first `h`. -/
def asymHops (H : ℕ → Hop) (h : ℕ) : ℕ := ((range h).filter fun i => (H i).asym = true).card

theorem sum_hopGain (H : ℕ → Hop) (n h : ℕ) (v : ℝ) :
    ∑ i ∈ range h, hopGain n v (H i).asym = h * v + asymHops H h * (n * (v / (1 - v))) := by
  unfold hopGain asymHops
  rw [sum_add_distrib, sum_const, card_range, nsmul_eq_mul, ← sum_filter, sum_const, nsmul_eq_mul]

/-- What C83 says about a level: every chain of at most `hm` hops, at most `am` of them asymmetric, from every ciphertext
of a Boolean with error at most `B`, decrypts wrongly with probability at most `δ`. -/
def ChainReliable (level : SecurityLevel) (hm am B : ℕ) (δ : ℝ) : Prop :=
  ∀ (Ω : Type) [MeasurableSpace Ω] (μ : Measure Ω) [IsProbabilityMeasure μ] (q : HopIx (paramsFor level) → Ω → ℚ),
    NoiseDraws μ q (fun _ => ((kskAlpha (paramsFor level) : ℚ) : ℝ)) →
  ∀ (H : ℕ → Hop) (keys : ℕ → List Torus), (∀ i, (keys i).length = (paramsFor level).tlweLv0.N) →
    (∀ i, IsBinary (keys i)) →
  ∀ ct : List Torus, ct.length = (paramsFor level).tlweLv0.N + 1 → ∀ (m : Bool) (e : ℤ), |e| ≤ B →
    phase (paramsFor level).tlweLv0.N ct (keys 0) = BitVec.ofInt 32 (boolPhase m + e) →
  ∀ h ≤ hm, asymHops H h ≤ am →
    (Measure.pi fun _ : Fin h => μ.prod (uniformOn (Set.univ : Set (ReencTape (paramsFor level)))))
        {x | (runChain (paramsFor level) H keys ct h (hopRand q x)).bind
          (fun c => tlwe0DecryptBool (paramsFor level) c (keys h)) ≠ some m} ≤ ENNReal.ofReal δ

theorem chain_var (l α v : ℚ) (K : ℕ) (h : l ^ 2 * 32 * α ^ 2 * K ≤ v) :
    ((l : ℝ) / 536870912) ^ 2 * (2 ^ 32 * (α : ℝ)) ^ 2 * K / 2 ≤ (v : ℝ) := by
  have h' := (Rat.cast_le (K := ℝ)).2 h
  push_cast at h'
  refine le_trans (le_of_eq ?_) h'
  ring

theorem chain_exp (l v x : ℚ) (hl : 0 ≤ l) (hv0 : 0 ≤ v) (n R S B h a hm am : ℕ) (hh : h ≤ hm) (ha : a ≤ am)
    (hv1 : 0 < am → v < 1)
    (hx : x ≤ l * ((S - (B + hm * R)) / 536870912) - hm * v - am * (n * (v / (1 - v)))) :
    Real.exp (-((l : ℝ) / 536870912 * (S - (B + h * R : ℕ))) + (h * (v : ℝ) + a * (n * ((v : ℝ) / (1 - v)))))
      ≤ Real.exp (-(x : ℝ)) := by
  refine Real.exp_le_exp.2 ?_
  have h' := (Rat.cast_le (K := ℝ)).2 hx
  push_cast at h'
  have hl' : (0 : ℝ) ≤ l := by exact_mod_cast hl
  have hv' : (0 : ℝ) ≤ v := by exact_mod_cast hv0
  have hhR : (h : ℝ) ≤ hm := by exact_mod_cast hh
  have haR : (a : ℝ) ≤ am := by exact_mod_cast ha
  have e1 : (l : ℝ) / 536870912 * (S - (B + h * R : ℕ)) ≥ l * ((S - (B + hm * R)) / 536870912) := by
    push_cast
    have h1 : (h : ℝ) * R ≤ hm * R := mul_le_mul_of_nonneg_right hhR (Nat.cast_nonneg _)
    have := mul_le_mul_of_nonneg_left (show (S : ℝ) - (B + hm * R) ≤ S - (B + h * R) by linarith)
      (show (0 : ℝ) ≤ l / 536870912 by positivity)
    calc (l : ℝ) * ((S - (B + hm * R)) / 536870912) = l / 536870912 * (S - (B + hm * R)) := by ring
      _ ≤ _ := this
  have e2 : (h : ℝ) * v ≤ hm * v := mul_le_mul_of_nonneg_right hhR hv'
  have e3 : (a : ℝ) * (n * ((v : ℝ) / (1 - v))) ≤ am * (n * ((v : ℝ) / (1 - v))) := by
    rcases Nat.eq_zero_or_pos am with h0 | h0
    · have : a = 0 := by omega
      rw [this, h0]
    · have hv1' : (v : ℝ) < 1 := by exact_mod_cast hv1 h0
      refine mul_le_mul_of_nonneg_right haR (mul_nonneg (Nat.cast_nonneg _) (div_nonneg hv' (by linarith)))
  linarith

/-- The bound from rational data. -/
theorem chainReliable_num (level : SecurityLevel) (hm am B n b T R : ℕ) (α : ℚ) (hn : (paramsFor level).tlweLv0.N = n)
    (hT : (paramsFor level).trgswLv1.IKS_T = T) (hb : (paramsFor level).trgswLv1.BASEBIT = b)
    (hR : n * 2 ^ (31 - b * T) = R) (hα : kskAlpha (paramsFor level) = α)
    (l v x : ℚ) (hl : 0 ≤ l) (hv0 : 0 ≤ v) (hv1 : 0 < am → v < 1) (hv : l ^ 2 * 32 * α ^ 2 * (n * T : ℕ) ≤ v)
    (hx : x ≤ l * (((536870912 : ℕ) - (B + hm * R)) / 536870912) - hm * v - am * (n * (v / (1 - v))))
    (D : ℝ) (hD : Real.exp (-(x : ℝ)) + Real.exp (-((x + 2 * l : ℚ) : ℝ)) ≤ D) :
    ChainReliable level hm am B D := by
  intro Ω _ μ _ q hq H keys hlen hbin ct hct m e he hph h hh ha
  have hRP : hopRound (paramsFor level) = R := by
    unfold hopRound
    rw [hn, hT, hb, hR]
  rw [hα] at hq
  refine (C83_bool (paramsFor level) (C63_wellFormed level) H keys hlen hbin ct hct m e B he hph hq
    ((l : ℝ) / 536870912) v (by have : (0 : ℝ) ≤ l := by { exact_mod_cast hl }
                                positivity)
    (by rw [hn, hT]; exact chain_var l α v _ hv)
    h (fun i hi hs => by exact_mod_cast hv1 (lt_of_lt_of_le (card_pos.2 ⟨i, mem_filter.2 ⟨mem_range.2 hi, hs⟩⟩) ha))).trans ?_
  refine ENNReal.ofReal_le_ofReal (le_trans (add_le_add ?_ ?_) hD)
  · rw [sum_hopGain, hn, hRP]
    refine le_trans (le_of_eq ?_) (chain_exp l v x hl hv0 n R 536870912 B h _ hm am hh ha hv1 hx)
    norm_num
  · rw [sum_hopGain, hn, hRP]
    refine le_trans (le_of_eq ?_) (chain_exp l v (x + 2 * l) hl hv0 n R 1610612736 B h _ hm am hh ha hv1 ?_)
    · norm_num
    · refine (add_le_add_left hx _).trans (le_of_eq ?_)
      push_cast
      ring

/-- The same for messages modulo `2^k`. -/
def ChainMsgReliable (level : SecurityLevel) (k hm am B : ℕ) (δ : ℝ) : Prop :=
  ∀ (Ω : Type) [MeasurableSpace Ω] (μ : Measure Ω) [IsProbabilityMeasure μ] (q : HopIx (paramsFor level) → Ω → ℚ),
    NoiseDraws μ q (fun _ => ((kskAlpha (paramsFor level) : ℚ) : ℝ)) →
  ∀ (H : ℕ → Hop) (keys : ℕ → List Torus), (∀ i, (keys i).length = (paramsFor level).tlweLv0.N) →
    (∀ i, IsBinary (keys i)) →
  ∀ ct : List Torus, ct.length = (paramsFor level).tlweLv0.N + 1 → ∀ r : ℕ, r < 2 ^ k → ∀ e : ℤ, |e| ≤ B →
    phase (paramsFor level).tlweLv0.N ct (keys 0) = BitVec.ofInt 32 ((r : ℤ) * (2 ^ 31 / 2 ^ k : ℕ) + e) →
  ∀ h ≤ hm, asymHops H h ≤ am →
    (Measure.pi fun _ : Fin h => μ.prod (uniformOn (Set.univ : Set (ReencTape (paramsFor level)))))
        {x | (runChain (paramsFor level) H keys ct h (hopRand q x)).bind
          (fun c => decryptLWEMessage (paramsFor level) c (2 ^ k) (keys h)) ≠ some (r : ℤ)} ≤ ENNReal.ofReal δ

theorem chainMsgReliable_num (level : SecurityLevel) (k : ℕ) (hk : k ≤ 30) (hm am B n b T R : ℕ) (α : ℚ)
    (hn : (paramsFor level).tlweLv0.N = n)
    (hT : (paramsFor level).trgswLv1.IKS_T = T) (hb : (paramsFor level).trgswLv1.BASEBIT = b)
    (hR : n * 2 ^ (31 - b * T) = R) (hα : kskAlpha (paramsFor level) = α)
    (l v x : ℚ) (hl : 0 ≤ l) (hv0 : 0 ≤ v) (hv1 : 0 < am → v < 1) (hv : l ^ 2 * 32 * α ^ 2 * (n * T : ℕ) ≤ v)
    (hx : x ≤ l * (((2 ^ (30 - k) : ℕ) - (B + hm * R)) / 536870912) - hm * v - am * (n * (v / (1 - v))))
    (D : ℝ) (hD : 2 * Real.exp (-(x : ℝ)) ≤ D) :
    ChainMsgReliable level k hm am B D := by
  intro Ω _ μ _ q hq H keys hlen hbin ct hct r hr e he hph h hh ha
  have hRP : hopRound (paramsFor level) = R := by
    unfold hopRound
    rw [hn, hT, hb, hR]
  rw [hα] at hq
  have hS : 2 ^ 31 / 2 ^ k / 2 = 2 ^ (30 - k) := by
    rw [Nat.pow_div (by omega) (by norm_num), show 31 - k = (30 - k) + 1 by omega, pow_succ,
      Nat.mul_div_cancel _ (by norm_num)]
  refine (C83_msg (paramsFor level) (C63_wellFormed level) H keys hlen hbin ct hct (2 ^ k) r Nat.one_le_two_pow
    (Nat.pow_le_pow_right (by norm_num) (by omega)) hr e B he hph hq
    ((l : ℝ) / 536870912) v (by have : (0 : ℝ) ≤ l := by { exact_mod_cast hl }
                                positivity)
    (by rw [hn, hT]; exact chain_var l α v _ hv)
    h (fun i hi hs => by exact_mod_cast hv1 (lt_of_lt_of_le (card_pos.2 ⟨i, mem_filter.2 ⟨mem_range.2 hi, hs⟩⟩) ha))).trans ?_
  refine ENNReal.ofReal_le_ofReal (le_trans (mul_le_mul_of_nonneg_left ?_ (by norm_num)) hD)
  rw [sum_hopGain, hn, hRP, hS]
  exact chain_exp l v x hl hv0 n R _ B h _ hm am hh ha hv1 hx

theorem exp_pair_le (x l : ℚ) (m : ℕ) (hl : 0 ≤ l) (h : (m + 1 : ℚ) * 0.6931471808 ≤ x) :
    Real.exp (-(x : ℝ)) + Real.exp (-((x + 2 * l : ℚ) : ℝ)) ≤ ((1 / 2 ^ m : ℚ) : ℝ) := by
  have h' : (m + 1 : ℝ) * 0.6931471808 ≤ x := by
    have := (Rat.cast_le (K := ℝ)).2 h
    push_cast at this
    norm_num at this ⊢
    exact this
  have h2 : Real.exp (-((x + 2 * l : ℚ) : ℝ)) ≤ Real.exp (-(x : ℝ)) := by
    refine Real.exp_le_exp.2 (neg_le_neg ?_)
    exact_mod_cast (show x ≤ x + 2 * l by linarith)
  have h3 := two_exp_le h'
  rw [show ((1 / 2 ^ m : ℚ) : ℝ) = 1 / 2 ^ m by push_cast; rfl]
  linarith

theorem exp_pair_le' (x l : ℚ) (q1 q2 y1 y2 : ℝ) (D : ℚ) (h1 : q1 ≤ (x : ℝ)) (h2 : q2 ≤ ((x + 2 * l : ℚ) : ℝ))
    (p1 : 0 ≤ q1) (p2 : 0 ≤ q2) (r1 : 0 < y1) (r2 : 0 < y2) (s1 : y1⁻¹ ≤ ∑ i ∈ range 16, q1 ^ i / (i.factorial : ℝ))
    (s2 : y2⁻¹ ≤ ∑ i ∈ range 16, q2 ^ i / (i.factorial : ℝ)) (hD : y1 + y2 ≤ (D : ℝ)) :
    Real.exp (-(x : ℝ)) + Real.exp (-((x + 2 * l : ℚ) : ℝ)) ≤ (D : ℝ) :=
  (add_le_add (exp_neg_le' q1 _ y1 h1 p1 r1 s1) (exp_neg_le' q2 _ y2 h2 p2 r2 s2)).trans hD

/-- Rows of C83 for Booleans: level, hops, how many of them asymmetric, bound on the probability. -/
def chainTable : List (ℤ × ℕ × ℕ × ℚ) :=
  [(80, 1, 1, 7 / 20), (80, 5, 0, 1 / 2 ^ 21), (110, 1, 1, 1 / 10), (110, 2, 2, 7 / 20),
   (110, 15, 0, 1 / 2 ^ 25), (128, 1, 1, 1 / 64), (128, 2, 2, 1 / 7), (128, 3, 3, 3 / 10),
   (128, 40, 0, 1 / 2 ^ 33), (1, 1, 1, 1 / 75), (1, 2, 2, 1 / 7), (1, 12, 0, 1 / 2 ^ 92),
   (2, 1, 1, 1 / 3), (2, 1, 0, 1 / 2 ^ 100), (3, 1, 1, 1 / 2 ^ 42), (3, 1, 0, 1 / 2 ^ 100),
   (4, 3, 3, 1 / 2 ^ 100), (4, 8, 0, 1 / 2 ^ 100), (5, 50, 50, 1 / 2 ^ 100), (6, 50, 50, 1 / 2 ^ 100),
   (7, 100, 100, 1 / 2 ^ 100), (8, 100, 100, 1 / 2 ^ 100), (7, 400, 0, 1 / 2 ^ 100), (8, 400, 0, 1 / 2 ^ 100)]

/-- Rows of C83 for messages: level, bits of the modulus, error of the ciphertext, hops, how many of them asymmetric, bound on
the probability. -/
def chainMsgTable : List (ℤ × ℕ × ℕ × ℕ × ℕ × ℚ) :=
  [(1, 1, 2 ^ 20, 1, 1, 1 / 40), (1, 1, 2 ^ 20, 2, 2, 3 / 10), (4, 4, 2 ^ 17, 1, 0, 1 / 2 ^ 100), (5, 5, 2 ^ 16, 2, 2, 1 / 2 ^ 100),
   (5, 5, 2 ^ 16, 3, 3, 1 / 2 ^ 37), (6, 6, 2 ^ 16, 1, 1, 1 / 2 ^ 100), (7, 7, 2 ^ 12, 5, 5, 1 / 2 ^ 28), (8, 8, 2 ^ 12, 2, 2, 1 / 2 ^ 39)]

/-- **C83** at the levels: Booleans, from a ciphertext with error at most `2^23`. -/
theorem C83_levels : ∀ x ∈ chainTable, ChainReliable x.1 x.2.1 x.2.2.1 (2 ^ 23) ((x.2.2.2 : ℚ) : ℝ) := by
  simp only [chainTable, List.forall_mem_cons]
  refine ⟨?_, ?_, ?_, ?_, ?_, ?_, ?_, ?_, ?_, ?_, ?_, ?_, ?_, ?_, ?_, ?_, ?_, ?_, ?_, ?_, ?_, ?_, ?_, ?_, by simp⟩
  · refine chainReliable_num _ _ _ _ 550 2 7 72089600 (5 / 100000) rfl rfl rfl (by norm_num) (by decide +kernel)
      (499 / 200) (959 / 500000) (10621 / 10000) (by norm_num) (by norm_num) (by norm_num) (by norm_num) (by norm_num) _ ?_
    exact exp_pair_le' _ _ (10621 / 10000) (6) (5417 / 15625) (207 / 62500) _ (by norm_num) (by norm_num) (by norm_num) (by norm_num)
      (by norm_num) (by norm_num) (by norm_num [sum_range_succ, Nat.factorial]) (by norm_num [sum_range_succ, Nat.factorial])
      (by norm_num)
  · refine chainReliable_num _ _ _ _ 550 2 7 72089600 (5 / 100000) rfl rfl rfl (by norm_num) (by decide +kernel)
      (101) (785477 / 250000) (79511 / 5000) (by norm_num) (by norm_num) (by norm_num) (by norm_num) (by norm_num) _ ?_
    exact exp_pair_le _ _ 21 (by norm_num) (by norm_num)
  · refine chainReliable_num _ _ _ _ 630 2 8 20643840 (30517578125 / 1000000000000000) rfl rfl rfl (by norm_num) (by decide +kernel)
      (99 / 20) (3681 / 1000000) (2351 / 1000) (by norm_num) (by norm_num) (by norm_num) (by norm_num) (by norm_num) _ ?_
    exact exp_pair_le' _ _ (2351 / 1000) (10) (195269 / 2000000) (4731 / 2000000) _ (by norm_num) (by norm_num) (by norm_num) (by norm_num)
      (by norm_num) (by norm_num) (by norm_num [sum_range_succ, Nat.factorial]) (by norm_num [sum_range_succ, Nat.factorial])
      (by norm_num)
  · refine chainReliable_num _ _ _ _ 630 2 8 20643840 (30517578125 / 1000000000000000) rfl rfl rfl (by norm_num) (by decide +kernel)
      (2387 / 1000) (107 / 125000) (10849 / 10000) (by norm_num) (by norm_num) (by norm_num) (by norm_num) (by norm_num) _ ?_
    exact exp_pair_le' _ _ (10849 / 10000) (58589 / 10000) (685081 / 2000000) (14919 / 2000000) _ (by norm_num) (by norm_num) (by norm_num) (by norm_num)
      (by norm_num) (by norm_num) (by norm_num [sum_range_succ, Nat.factorial]) (by norm_num [sum_range_succ, Nat.factorial])
      (by norm_num)
  · refine chainReliable_num _ _ _ _ 630 2 8 20643840 (30517578125 / 1000000000000000) rfl rfl rfl (by norm_num) (by decide +kernel)
      (90369 / 1000) (1226647 / 1000000) (9217 / 500) (by norm_num) (by norm_num) (by norm_num) (by norm_num) (by norm_num) _ ?_
    exact exp_pair_le _ _ 25 (by norm_num) (by norm_num)
  · refine chainReliable_num _ _ _ _ 700 2 9 5734400 (2 / 100000) rfl rfl rfl (by norm_num) (by decide +kernel)
      (4253 / 500) (1167 / 200000) (41679 / 10000) (by norm_num) (by norm_num) (by norm_num) (by norm_num) (by norm_num) _ ?_
    exact exp_pair_le' _ _ (41679 / 10000) (10) (38887 / 2500000) (351 / 5000000) _ (by norm_num) (by norm_num) (by norm_num) (by norm_num)
      (by norm_num) (by norm_num) (by norm_num [sum_range_succ, Nat.factorial]) (by norm_num [sum_range_succ, Nat.factorial])
      (by norm_num)
  · refine chainReliable_num _ _ _ _ 700 2 9 5734400 (2 / 100000) rfl rfl rfl (by norm_num) (by decide +kernel)
      (4247 / 1000) (291 / 200000) (2047 / 1000) (by norm_num) (by norm_num) (by norm_num) (by norm_num) (by norm_num) _ ?_
    exact exp_pair_le' _ _ (2047 / 1000) (6) (951833 / 7000000) (6881 / 1000000) _ (by norm_num) (by norm_num) (by norm_num) (by norm_num)
      (by norm_num) (by norm_num) (by norm_num [sum_range_succ, Nat.factorial]) (by norm_num [sum_range_succ, Nat.factorial])
      (by norm_num)
  · refine chainReliable_num _ _ _ _ 700 2 9 5734400 (2 / 100000) rfl rfl rfl (by norm_num) (by decide +kernel)
      (561 / 200) (127 / 200000) (267 / 200) (by norm_num) (by norm_num) (by norm_num) (by norm_num) (by norm_num) _ ?_
    exact exp_pair_le' _ _ (267 / 200) (6) (2810973 / 10000000) (189027 / 10000000) _ (by norm_num) (by norm_num) (by norm_num) (by norm_num)
      (by norm_num) (by norm_num) (by norm_num [sum_range_succ, Nat.factorial]) (by norm_num [sum_range_succ, Nat.factorial])
      (by norm_num)
  · refine chainReliable_num _ _ _ _ 700 2 9 5734400 (2 / 100000) rfl rfl rfl (by norm_num) (by decide +kernel)
      (17263 / 200) (600791 / 1000000) (240569 / 10000) (by norm_num) (by norm_num) (by norm_num) (by norm_num) (by norm_num) _ ?_
    exact exp_pair_le _ _ 33 (by norm_num) (by norm_num)
  · refine chainReliable_num _ _ _ _ 700 2 8 22937600 (2 / 100000) rfl rfl rfl (by norm_num) (by decide +kernel)
      (37 / 4) (3067 / 500000) (21919 / 5000) (by norm_num) (by norm_num) (by norm_num) (by norm_num) (by norm_num) _ ?_
    exact exp_pair_le' _ _ (21919 / 5000) (10) (193583 / 15000000) (2139 / 5000000) _ (by norm_num) (by norm_num) (by norm_num) (by norm_num)
      (by norm_num) (by norm_num) (by norm_num [sum_range_succ, Nat.factorial]) (by norm_num [sum_range_succ, Nat.factorial])
      (by norm_num)
  · refine chainReliable_num _ _ _ _ 700 2 8 22937600 (2 / 100000) rfl rfl rfl (by norm_num) (by decide +kernel)
      (4461 / 1000) (1427 / 1000000) (4013 / 2000) (by norm_num) (by norm_num) (by norm_num) (by norm_num) (by norm_num) _ ?_
    exact exp_pair_le' _ _ (4013 / 2000) (6) (2426353 / 17500000) (10521 / 2500000) _ (by norm_num) (by norm_num) (by norm_num) (by norm_num)
      (by norm_num) (by norm_num) (by norm_num [sum_range_succ, Nat.factorial]) (by norm_num [sum_range_succ, Nat.factorial])
      (by norm_num)
  · refine chainReliable_num _ _ _ _ 700 2 8 22937600 (2 / 100000) rfl rfl rfl (by norm_num) (by decide +kernel)
      (274) (672681 / 125000) (161657 / 2500) (by norm_num) (by norm_num) (by norm_num) (by norm_num) (by norm_num) _ ?_
    exact exp_pair_le _ _ 92 (by norm_num) (by norm_num)
  · refine chainReliable_num _ _ _ _ 687 4 3 360185856 (2120846893069971872305794214 / 10 ^ 32) rfl rfl rfl (by norm_num) (by decide +kernel)
      (956 / 125) (217 / 125000) (1201 / 1000) (by norm_num) (by norm_num) (by norm_num) (by norm_num) (by norm_num) _ ?_
    exact exp_pair_le' _ _ (1201 / 1000) (6) (4756697 / 15000000) (81101 / 5000000) _ (by norm_num) (by norm_num) (by norm_num) (by norm_num)
      (by norm_num) (by norm_num) (by norm_num [sum_range_succ, Nat.factorial]) (by norm_num [sum_range_succ, Nat.factorial])
      (by norm_num)
  · refine chainReliable_num _ _ _ _ 687 4 3 360185856 (2120846893069971872305794214 / 10 ^ 32) rfl rfl rfl (by norm_num) (by decide +kernel)
      (5287) (829211327 / 1000000) (517587 / 625) (by norm_num) (by norm_num) (by norm_num) (by norm_num) (by norm_num) _ ?_
    exact exp_pair_le _ _ 100 (by norm_num) (by norm_num)
  · refine chainReliable_num _ _ _ _ 820 6 2 429916160 (251676160959795544987084234 / 10 ^ 32) rfl rfl rfl (by norm_num) (by decide +kernel)
      (314) (1311 / 40000) (149147 / 5000) (by norm_num) (by norm_num) (by norm_num) (by norm_num) (by norm_num) _ ?_
    exact exp_pair_le _ _ 42 (by norm_num) (by norm_num)
  · refine chainReliable_num _ _ _ _ 820 6 2 429916160 (251676160959795544987084234 / 10 ^ 32) rfl rfl rfl (by norm_num) (by decide +kernel)
      (109696) (3999996127 / 1000000) (80697519 / 5000) (by norm_num) (by norm_num) (by norm_num) (by norm_num) (by norm_num) _ ?_
    exact exp_pair_le _ _ 100 (by norm_num) (by norm_num)
  · refine chainReliable_num _ _ _ _ 820 5 3 53739520 (251676160959795544987084234 / 10 ^ 32) rfl rfl rfl (by norm_num) (by decide +kernel)
      (260) (33707 / 1000000) (183897 / 2000) (by norm_num) (by norm_num) (by norm_num) (by norm_num) (by norm_num) _ ?_
    exact exp_pair_le _ _ 100 (by norm_num) (by norm_num)
  · refine chainReliable_num _ _ _ _ 820 5 3 53739520 (251676160959795544987084234 / 10 ^ 32) rfl rfl rfl (by norm_num) (by decide +kernel)
      (23022) (264274553 / 1000000) (5281247 / 2500) (by norm_num) (by norm_num) (by norm_num) (by norm_num) (by norm_num) _ ?_
    exact exp_pair_le _ _ 100 (by norm_num) (by norm_num)
  · refine chainReliable_num _ _ _ _ 1071 6 3 8773632 (7088226765410429399593757 / 10 ^ 32) rfl rfl rfl (by norm_num) (by decide +kernel)
      (2995) (2317 / 500000) (502853 / 2000) (by norm_num) (by norm_num) (by norm_num) (by norm_num) (by norm_num) _ ?_
    exact exp_pair_le _ _ 100 (by norm_num) (by norm_num)
  · refine chainReliable_num _ _ _ _ 1071 6 3 8773632 (7088226765410429399593757 / 10 ^ 32) rfl rfl rfl (by norm_num) (by decide +kernel)
      (2995) (2317 / 500000) (502853 / 2000) (by norm_num) (by norm_num) (by norm_num) (by norm_num) (by norm_num) _ ?_
    exact exp_pair_le _ _ 100 (by norm_num) (by norm_num)
  · refine chainReliable_num _ _ _ _ 1160 7 3 1187840 (1966220007498402695211596 / 10 ^ 32) rfl rfl rfl (by norm_num) (by decide +kernel)
      (56693) (69187 / 500000) (246206919 / 10000) (by norm_num) (by norm_num) (by norm_num) (by norm_num) (by norm_num) _ ?_
    exact exp_pair_le _ _ 100 (by norm_num) (by norm_num)
  · refine chainReliable_num _ _ _ _ 1160 7 3 1187840 (1966220007498402695211596 / 10 ^ 32) rfl rfl rfl (by norm_num) (by decide +kernel)
      (56693) (69187 / 500000) (246206919 / 10000) (by norm_num) (by norm_num) (by norm_num) (by norm_num) (by norm_num) _ ?_
    exact exp_pair_le _ _ 100 (by norm_num) (by norm_num)
  · refine chainReliable_num _ _ _ _ 1160 7 3 1187840 (1966220007498402695211596 / 10 ^ 32) rfl rfl rfl (by norm_num) (by decide +kernel)
      (2883145) (89467731 / 250000) (143336009 / 1000) (by norm_num) (by norm_num) (by norm_num) (by norm_num) (by norm_num) _ ?_
    exact exp_pair_le _ _ 100 (by norm_num) (by norm_num)
  · refine chainReliable_num _ _ _ _ 1160 7 3 1187840 (1966220007498402695211596 / 10 ^ 32) rfl rfl rfl (by norm_num) (by decide +kernel)
      (2883145) (89467731 / 250000) (143336009 / 1000) (by norm_num) (by norm_num) (by norm_num) (by norm_num) (by norm_num) _ ?_
    exact exp_pair_le _ _ 100 (by norm_num) (by norm_num)

/-- **C83** at the levels: messages. -/
theorem C83_messages : ∀ x ∈ chainMsgTable,
    ChainMsgReliable x.1 x.2.1 x.2.2.2.1 x.2.2.2.2.1 x.2.2.1 ((x.2.2.2.2.2 : ℚ) : ℝ) := by
  simp only [chainMsgTable, List.forall_mem_cons]
  refine ⟨?_, ?_, ?_, ?_, ?_, ?_, ?_, ?_, by simp⟩
  · refine chainMsgReliable_num _ _ (by norm_num) _ _ _ 700 2 8 22937600 (2 / 100000) rfl rfl rfl (by norm_num) (by decide +kernel)
      (9393 / 1000) (253 / 40000) (45113 / 10000) (by norm_num) (by norm_num) (by norm_num) (by norm_num) (by norm_num) _ ?_
    have a := exp_neg_le' (45113 / 10000) ((45113 / 10000 : ℚ) : ℝ) (1 / 80) (by norm_num) (by norm_num) (by norm_num)
      (by norm_num [sum_range_succ, Nat.factorial])
    push_cast at a ⊢
    linarith
  · refine chainMsgReliable_num _ _ (by norm_num) _ _ _ 700 2 8 22937600 (2 / 100000) rfl rfl rfl (by norm_num) (by decide +kernel)
      (453 / 100) (1471 / 1000000) (10343 / 5000) (by norm_num) (by norm_num) (by norm_num) (by norm_num) (by norm_num) _ ?_
    have a := exp_neg_le' (10343 / 5000) ((10343 / 5000 : ℚ) : ℝ) (3 / 20) (by norm_num) (by norm_num) (by norm_num)
      (by norm_num [sum_range_succ, Nat.factorial])
    push_cast at a ⊢
    linarith
  · refine chainMsgReliable_num _ _ (by norm_num) _ _ _ 820 5 3 53739520 (251676160959795544987084234 / 10 ^ 32) rfl rfl rfl (by norm_num) (by decide +kernel)
      (24716) (304596999 / 1000000) (3048551 / 10000) (by norm_num) (by norm_num) (by norm_num) (by norm_num) (by norm_num) _ ?_
    refine (two_exp_le (m := 100) (by norm_num)).trans (le_of_eq ?_)
    push_cast
    rfl
  · refine chainMsgReliable_num _ _ (by norm_num) _ _ _ 1071 6 3 8773632 (7088226765410429399593757 / 10 ^ 32) rfl rfl rfl (by norm_num) (by decide +kernel)
      (11608) (69607 / 1000000) (115182 / 625) (by norm_num) (by norm_num) (by norm_num) (by norm_num) (by norm_num) _ ?_
    refine (two_exp_le (m := 100) (by norm_num)).trans (le_of_eq ?_)
    push_cast
    rfl
  · refine chainMsgReliable_num _ _ (by norm_num) _ _ _ 1071 6 3 8773632 (7088226765410429399593757 / 10 ^ 32) rfl rfl rfl (by norm_num) (by decide +kernel)
      (3956) (1617 / 200000) (66513 / 2500) (by norm_num) (by norm_num) (by norm_num) (by norm_num) (by norm_num) _ ?_
    refine (two_exp_le (m := 37) (by norm_num)).trans (le_of_eq ?_)
    push_cast
    rfl
  · refine chainMsgReliable_num _ _ (by norm_num) _ _ _ 1071 6 3 8773632 (7088226765410429399593757 / 10 ^ 32) rfl rfl rfl (by norm_num) (by decide +kernel)
      (11564) (1727 / 25000) (914387 / 10000) (by norm_num) (by norm_num) (by norm_num) (by norm_num) (by norm_num) _ ?_
    refine (two_exp_le (m := 100) (by norm_num)).trans (le_of_eq ?_)
    push_cast
    rfl
  · refine chainMsgReliable_num _ _ (by norm_num) _ _ _ 1160 7 3 1187840 (1966220007498402695211596 / 10 ^ 32) rfl rfl rfl (by norm_num) (by decide +kernel)
      (9054) (353 / 100000) (41349 / 2000) (by norm_num) (by norm_num) (by norm_num) (by norm_num) (by norm_num) _ ?_
    refine (two_exp_le (m := 28) (by norm_num)).trans (le_of_eq ?_)
    push_cast
    rfl
  · refine chainMsgReliable_num _ _ (by norm_num) _ _ _ 1160 7 3 1187840 (1966220007498402695211596 / 10 ^ 32) rfl rfl rfl (by norm_num) (by decide +kernel)
      (16508) (11733 / 1000000) (282269 / 10000) (by norm_num) (by norm_num) (by norm_num) (by norm_num) (by norm_num) _ ?_
    refine (two_exp_le (m := 39) (by norm_num)).trans (le_of_eq ?_)
    push_cast
    rfl

end GoTfhe
