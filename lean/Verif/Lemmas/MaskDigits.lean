import Verif.Lemmas.DriftCount
import Verif.Lemmas.KeySwitch

/-!
# Digits and rounding errors of a uniform mask
-/

namespace GoTfhe

open Finset Real

/-! ### Rounding -/

/-- What rounding to the digits adds to one word. -/
theorem toInt_ksRound (b T : ℕ) (hT : b * T ≤ 31) (hT1 : 1 ≤ b * T) (x : Torus) :
    (ksRound b T x).toInt = ((2 ^ (31 - b * T) : ℕ) : ℤ) - ((x.toNat + 2 ^ (31 - b * T)) % (2 * 2 ^ (31 - b * T)) : ℕ) := by
  obtain ⟨h, hh⟩ : ∃ h : ℕ, h = 2 ^ (31 - b * T) := ⟨_, rfl⟩
  have e2 : 2 ^ (32 - b * T) = 2 * h := by rw [hh, ← pow_succ']; congr 1; omega
  have hle : h ≤ 2 ^ 30 := by rw [hh]; exact Nat.pow_le_pow_right (by norm_num) (by omega)
  have hpos : 0 < h := by rw [hh]; positivity
  have hdvd : 2 * h ∣ 2 ^ 32 := by rw [← e2]; exact pow_dvd_pow 2 (by omega)
  unfold ksRound
  rw [e2, ← hh]
  have e3 : (x + ((h : ℕ) : Torus)).toNat % (2 * h) = (x.toNat + h) % (2 * h) := by
    rw [BitVec.toNat_add, BitVec.natCast_eq_ofNat, BitVec.toNat_ofNat, Nat.add_mod_mod, Nat.mod_mod_of_dvd _ hdvd]
  rw [e3]
  have hlt : (x.toNat + h) % (2 * h) < 2 * h := Nat.mod_lt _ (by omega)
  generalize (x.toNat + h) % (2 * h) = r at hlt ⊢
  have e4 : ((h : ℕ) : Torus) - ((r : ℕ) : Torus) = BitVec.ofInt 32 ((h : ℤ) - r) := by
    rw [← cast_int_eq, Int.cast_sub, Int.cast_natCast, Int.cast_natCast]
  rw [e4, toInt_ofInt32, bmod32_of_range _ (by omega) (by omega)]

/-- The exponential moments of the centred rounding error of a uniform word. -/
theorem mgf_ksRound (b T : ℕ) (hT : b * T ≤ 31) (hT1 : 1 ≤ b * T) (t : ℝ) :
    ∑ x : Fin (2 ^ 32), exp (t * (((ksRound b T (BitVec.ofFin x)).toInt : ℝ) - 1 / 2))
      ≤ (Fintype.card (Fin (2 ^ 32)) : ℝ) * exp (t ^ 2 * ((2 ^ (31 - b * T)) ^ 2 / 3) / 2) := by
  obtain ⟨h, hh⟩ : ∃ h : ℕ, h = 2 ^ (31 - b * T) := ⟨_, rfl⟩
  have hpos : 0 < h := by rw [hh]; positivity
  have eQ : 2 ^ 32 = (2 * h) * 2 ^ (b * T) := by
    rw [hh, ← pow_succ', ← pow_add]
    exact congrArg (fun k => 2 ^ k) (show 32 = _ by omega)
  have h2 : ∀ x : Fin (2 ^ 32), exp (t * (((ksRound b T (BitVec.ofFin x)).toInt : ℝ) - 1 / 2))
      = (fun y : ℕ => (fun k : ℕ => exp (-t * ((k : ℝ) - h + 1 / 2))) ((y + h) % (2 * h))) (x : ℕ) := by
    intro x
    rw [toInt_ksRound b T hT hT1, ← hh, Int.cast_sub, Int.cast_natCast, Int.cast_natCast]
    refine congrArg exp ?_
    have : (BitVec.ofFin x).toNat = (x : ℕ) := rfl
    rw [this]
    ring
  rw [sum_congr rfl fun x _ => h2 x, Fintype.card_fin,
    Fin.sum_univ_eq_sum_range (fun y : ℕ => (fun k : ℕ => exp (-t * ((k : ℝ) - h + 1 / 2))) ((y + h) % (2 * h))) (2 ^ 32), eQ,
    sum_shift_mod (2 * h) _ h (by positivity) (by omega) (fun k : ℕ => exp (-t * ((k : ℝ) - h + 1 / 2)))]
  have h3 := mgf_uniform h (-t)
  have h4 := mul_le_mul_of_nonneg_left h3 (show (0 : ℝ) ≤ ((2 ^ (b * T) : ℕ) : ℝ) by positivity)
  refine h4.trans (le_of_eq ?_)
  rw [neg_sq, show ((2 : ℝ) ^ (31 - b * T)) = (h : ℝ) by rw [hh]; push_cast; rfl,
    show t ^ 2 * (h : ℝ) ^ 2 / 6 = t ^ 2 * ((h : ℝ) ^ 2 / 3) / 2 by ring]
  push_cast
  ring

/-- Counting the masks for which rounding moves the phase by more than `R`. -/
theorem card_round (n b T : ℕ) (hT : b * T ≤ 31) (hT1 : 1 ≤ b * T) (s : List Torus) (hs : IsBinary s) (w R : ℕ)
    (hw0 : 0 < w) (hw : weight n s ≤ w) (hR : w ≤ R) (bad : Finset (Mask n))
    (hbad : ∀ a ∈ bad, (R : ℤ) < |∑ i ∈ range n, (ksRound b T (a.draw i)).toInt * (at' s i).toNat|) :
    (bad.card : ℝ) ≤ 2 * exp (-(3 * ((R : ℝ) - w / 2) ^ 2 / (2 * w * (2 ^ (31 - b * T)) ^ 2))) * (2 ^ 32) ^ n := by
  classical
  set h : ℝ := 2 ^ (31 - b * T) with hh
  have hpos : 0 < h := by positivity
  have hbit : ∀ i, ((at' s i).toNat : ℝ) = 0 ∨ ((at' s i).toNat : ℝ) = 1 := by
    intro i
    rcases isBinary_at' hs i with e | e <;> rw [e]
    · left; norm_num
    · right; rw [show (1 : Torus).toNat = 1 from rfl]; norm_num
  have hsw : ∑ i : Fin n, ((at' s i).toNat : ℝ) ≤ w := by
    rw [Fin.sum_univ_eq_sum_range (fun i => ((at' s i).toNat : ℝ)) n]
    have : ((weight n s : ℕ) : ℝ) ≤ w := by exact_mod_cast hw
    unfold weight at this
    push_cast at this
    exact this
  have hwR : (0 : ℝ) < w := by exact_mod_cast hw0
  have hRw : (w : ℝ) ≤ R := by exact_mod_cast hR
  set X : ℝ := (R : ℝ) - w / 2 with hX
  have hX0 : 0 ≤ X := by rw [hX]; linarith
  let f : Fin n → Fin (2 ^ 32) → ℝ := fun i x => ((at' s i).toNat : ℝ) * (((ksRound b T (BitVec.ofFin x)).toInt : ℝ) - 1 / 2)
  let v : Fin n → ℝ := fun i => ((at' s i).toNat : ℝ) * (h ^ 2 / 3)
  have hV : ∑ i, v i ≤ w * (h ^ 2 / 3) := by
    simp only [v]
    rw [← sum_mul]
    exact mul_le_mul_of_nonneg_right hsw (by positivity)
  have hM : ∀ (q : ℝ), q ^ 2 = 1 → ∀ i t, ∑ x, exp (t * (q * f i x))
      ≤ (Fintype.card (Fin (2 ^ 32)) : ℝ) * exp (t ^ 2 * v i / 2) := by
    intro q hq i t
    rcases hbit i with e | e
    · simp only [f, v, e, zero_mul, mul_zero, exp_zero, zero_div, sum_const, card_univ, nsmul_eq_mul, mul_one, le_refl]
    · simp only [f, v, e, one_mul]
      have := mgf_ksRound b T hT hT1 (t * q)
      rw [mul_pow, hq, mul_one] at this
      simpa only [mul_assoc] using this
  let badP := bad.filter fun a => X ≤ ∑ i, f i (a i)
  let badM := bad.filter fun a => X ≤ ∑ i, -1 * f i (a i)
  have hcov : bad ⊆ badP ∪ badM := by
    intro a ha
    rw [mem_union, mem_filter, mem_filter]
    by_contra hno
    push Not at hno
    have h1 := hno.1 ha
    have h2 := hno.2 ha
    rw [← mul_sum] at h2
    refine absurd (hbad a ha) (not_lt.2 ?_)
    have e : ∑ i, f i (a i) = ((∑ i ∈ range n, (ksRound b T (a.draw i)).toInt * (at' s i).toNat : ℤ) : ℝ)
        - (∑ i : Fin n, ((at' s i).toNat : ℝ)) / 2 := by
      rw [← Fin.sum_univ_eq_sum_range (fun i => (ksRound b T (a.draw i)).toInt * ((at' s i).toNat : ℤ)) n]
      push_cast
      rw [sum_div, ← sum_sub_distrib]
      refine sum_congr rfl fun i _ => ?_
      simp only [f]
      unfold Mask.draw
      rw [dif_pos i.2]
      ring
    rw [e] at h1 h2
    have hw1 : 0 ≤ ∑ i : Fin n, ((at' s i).toNat : ℝ) := sum_nonneg fun i _ => by positivity
    have h3 : |((∑ i ∈ range n, (ksRound b T (a.draw i)).toInt * (at' s i).toNat : ℤ) : ℝ)| ≤ (R : ℝ) := by
      rw [abs_le]
      constructor <;> linarith
    rw [← Int.cast_abs] at h3
    exact_mod_cast h3
  have hP := count_tail f v _ X (by simpa using hM 1 (by norm_num)) hV (by positivity) hX0 badP
    (fun a ha => (mem_filter.1 ha).2)
  have hN := count_tail (fun i x => -1 * f i x) v _ X (hM (-1) (by norm_num)) hV (by positivity) hX0 badM
    (fun a ha => (mem_filter.1 ha).2)
  have hcard : (bad.card : ℝ) ≤ badP.card + badM.card := by
    exact_mod_cast (card_le_card hcov).trans (card_union_le _ _)
  have e : 3 * X ^ 2 / (2 * w * h ^ 2) = X ^ 2 / (2 * (w * (h ^ 2 / 3))) := by field_simp
  rw [e]
  rw [Fintype.card_fin] at hP hN
  push_cast at hP hN
  linarith

/-! ### Digits -/

theorem sum_range_mul' (M Q : ℕ) (f : ℕ → ℝ) :
    ∑ x ∈ range (M * Q), f x = ∑ c ∈ range Q, ∑ k ∈ range M, f (M * c + k) := by
  induction Q with
  | zero => simp
  | succ Q ih => rw [Nat.mul_succ, sum_range_add, ih, sum_range_succ]

/-- The digits of a uniform number are independent and uniform. -/
theorem sum_digits (M b T : ℕ) (g : ℕ → ℝ) :
    ∑ y ∈ range (2 ^ (M + b * T)), ∏ j ∈ range T, g (y / 2 ^ (M + b * j) % 2 ^ b)
      = 2 ^ M * (∑ d ∈ range (2 ^ b), g d) ^ T := by
  induction T with
  | zero => simp
  | succ T ih =>
    rw [Nat.mul_succ, ← add_assoc, pow_add 2 (M + b * T) b, sum_range_mul']
    have e : ∀ c ∈ range (2 ^ b), ∑ k ∈ range (2 ^ (M + b * T)),
        ∏ j ∈ range (T + 1), g ((2 ^ (M + b * T) * c + k) / 2 ^ (M + b * j) % 2 ^ b)
        = g c * (2 ^ M * (∑ d ∈ range (2 ^ b), g d) ^ T) := by
      intro c hc
      rw [← ih, mul_sum]
      refine sum_congr rfl fun k hk => ?_
      rw [prod_range_succ, mul_comm]
      have hk' := mem_range.1 hk
      congr 1
      · rw [Nat.mul_add_div (by positivity), Nat.div_eq_of_lt hk', add_zero, Nat.mod_eq_of_lt (mem_range.1 hc)]
      · refine prod_congr rfl fun j hj => ?_
        have hj' := mem_range.1 hj
        have e1 : 2 ^ (M + b * T) * c = 2 ^ (M + b * j) * (2 ^ b * (2 ^ (b * (T - j - 1)) * c)) := by
          rw [← mul_assoc, ← mul_assoc, ← pow_add, ← pow_add]
          congr 2
          have : T = j + 1 + (T - j - 1) := by omega
          conv_lhs => rw [this]
          ring
        rw [e1, Nat.mul_add_div (by positivity), Nat.mul_add_mod]
    rw [sum_congr rfl e, ← sum_mul, pow_succ]
    ring

/-- The non-zero digits of one word, as the key switching sees them. -/
def wordDigits (b T : ℕ) (x : Torus) : ℕ :=
  ∑ j ∈ range T, if (x + ((2 ^ (31 - b * T) : ℕ) : Torus)).toNat / 2 ^ (32 - (j + 1) * b) % 2 ^ b ≠ 0 then 1 else 0

theorem sum_pow_wordDigits (b T : ℕ) (hT : b * T ≤ 31) (r : ℝ) :
    ∑ x : Fin (2 ^ 32), r ^ wordDigits b T (BitVec.ofFin x) = 2 ^ (32 - b * T) * (1 + (2 ^ b - 1) * r) ^ T := by
  let σ : Fin (2 ^ 32) ≃ Fin (2 ^ 32) :=
    (toFinEquiv.symm.trans (Equiv.addRight ((2 ^ (31 - b * T) : ℕ) : Torus))).trans toFinEquiv
  let g : ℕ → ℝ := fun d => if d ≠ 0 then r else 1
  have e1 : ∑ x : Fin (2 ^ 32), r ^ wordDigits b T (BitVec.ofFin x)
      = ∑ y : Fin (2 ^ 32), ∏ j ∈ range T, g ((y : ℕ) / 2 ^ (32 - (j + 1) * b) % 2 ^ b) := by
    refine Fintype.sum_equiv σ _ _ fun x => ?_
    unfold wordDigits
    rw [← prod_pow_eq_pow_sum]
    refine prod_congr rfl fun j _ => ?_
    have : ((σ x : Fin (2 ^ 32)) : ℕ) = (BitVec.ofFin x + ((2 ^ (31 - b * T) : ℕ) : Torus)).toNat := rfl
    rw [this]
    simp only [g]
    split_ifs <;> simp
  have e2 : ∀ y : ℕ, ∏ j ∈ range T, g (y / 2 ^ (32 - (j + 1) * b) % 2 ^ b)
      = ∏ j ∈ range T, g (y / 2 ^ ((32 - b * T) + b * j) % 2 ^ b) := by
    intro y
    rw [← prod_range_reflect]
    refine prod_congr rfl fun j hj => ?_
    have hj' := mem_range.1 hj
    have h1 : b * T = b * j + (T - 1 - j + 1) * b := by
      have : T = j + (T - 1 - j + 1) := by omega
      conv_lhs => rw [this]
      ring
    have h2 : 32 - (T - 1 - j + 1) * b = (32 - b * T) + b * j := by omega
    rw [h2]
  have e3 : ∑ d ∈ range (2 ^ b), g d = 1 + (2 ^ b - 1) * r := by
    obtain ⟨m, hm⟩ : ∃ m, 2 ^ b = m + 1 := ⟨2 ^ b - 1, by have := Nat.one_le_two_pow (n := b); omega⟩
    have hm' : (2 : ℝ) ^ b = m + 1 := by exact_mod_cast hm
    rw [hm, sum_range_succ', hm']
    simp [g]
    ring
  rw [e1, Fin.sum_univ_eq_sum_range (fun y => ∏ j ∈ range T, g (y / 2 ^ (32 - (j + 1) * b) % 2 ^ b)) (2 ^ 32),
    sum_congr rfl fun y _ => e2 y]
  have e4 : 2 ^ 32 = 2 ^ ((32 - b * T) + b * T) := congrArg (fun k => 2 ^ k) (show 32 = _ by omega)
  rw [e4, sum_digits, e3]

/-- Counting the masks with more than `K` non-zero digits. -/
theorem card_digits (n b T : ℕ) (hT : b * T ≤ 31) (K : ℕ) (r : ℝ) (hr : 1 ≤ r) (bad : Finset (Mask n))
    (hbad : ∀ a ∈ bad, K ≤ ∑ i ∈ range n, wordDigits b T (a.draw i)) :
    (bad.card : ℝ) ≤ (((1 + (2 ^ b - 1) * r) / 2 ^ b) ^ (n * T) / r ^ K) * (2 ^ 32) ^ n := by
  classical
  have hrK : (0 : ℝ) < r ^ K := by positivity
  have h1 : (bad.card : ℝ) * r ^ K ≤ ∑ a : Mask n, ∏ i, r ^ wordDigits b T (BitVec.ofFin (a i)) := by
    calc (bad.card : ℝ) * r ^ K = ∑ _a ∈ bad, r ^ K := by rw [sum_const, nsmul_eq_mul]
      _ ≤ ∑ a ∈ bad, ∏ i, r ^ wordDigits b T (BitVec.ofFin (a i)) := by
          refine sum_le_sum fun a ha => ?_
          rw [prod_pow_eq_pow_sum]
          refine pow_le_pow_right₀ hr ((hbad a ha).trans (le_of_eq ?_))
          rw [← Fin.sum_univ_eq_sum_range (fun i => wordDigits b T (a.draw i)) n]
          refine sum_congr rfl fun i _ => ?_
          unfold Mask.draw
          rw [dif_pos i.2]
      _ ≤ _ := sum_le_sum_of_subset_of_nonneg (subset_univ _) fun a _ _ => prod_nonneg fun i _ => by positivity
  have h2 : ∑ a : Mask n, ∏ i, r ^ wordDigits b T (BitVec.ofFin (a i))
      = ∏ _i : Fin n, ∑ x : Fin (2 ^ 32), r ^ wordDigits b T (BitVec.ofFin x) := by
    rw [prod_univ_sum, Fintype.piFinset_univ]
  have h3 : ∏ _i : Fin n, ∑ x : Fin (2 ^ 32), r ^ wordDigits b T (BitVec.ofFin x)
      = ((1 + (2 ^ b - 1) * r) / 2 ^ b) ^ (n * T) * (2 ^ 32) ^ n := by
    rw [prod_const, card_univ, Fintype.card_fin, sum_pow_wordDigits b T hT r, mul_comm n T, pow_mul, ← mul_pow]
    congr 1
    have e : (2 : ℝ) ^ 32 = 2 ^ (32 - b * T) * (2 ^ b) ^ T := by
      rw [← pow_mul, ← pow_add]
      exact congrArg (fun k => (2 : ℝ) ^ k) (show 32 = _ by omega)
    rw [e, div_pow]
    field_simp
  rw [h2, h3] at h1
  rw [div_mul_eq_mul_div, le_div_iff₀ hrK]
  exact h1

end GoTfhe
