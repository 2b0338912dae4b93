import Verif.Lemmas.Lut
import Mathlib.Tactic.Positivity
import Mathlib.Tactic.NormNum
import Mathlib.Tactic.FieldSimp

/-!
# The floating-point encoder of `/repo/lut/encoder.go`
-/

namespace GoTfhe

/-- What `Encode` computes with the default scale, with its rounding errors. -/
theorem newEncoder_val (fl : ℚ → ℚ) (hfl : IsRound fl) (m : ℕ) (hm : 1 ≤ m) (hm31 : m ≤ 2 ^ 31) (y : ℤ)
    (r : ℕ) (hr : y % (m : ℤ) = r) : ∃ (s v : ℚ) (k : ℕ), (newEncoder fl m).scale = s ∧
      (newEncoder fl m).val fl y = BitVec.ofNat 32 k ∧ 0 < s ∧ |s * (2 * m) - 1| ≤ 1 / 2 ^ 53 ∧
      |v - r * s| ≤ r * s / 2 ^ 53 ∧ (k : ℚ) ≤ v * 2 ^ 32 ∧ v * 2 ^ 32 < k + 1 ∧ (k : ℚ) < 2 ^ 32 := by
  have hmq : (0 : ℚ) < (m : ℚ) := by exact_mod_cast hm
  have hrm : r < m := by
    have := Int.emod_lt_of_pos y (show (0 : ℤ) < m by omega)
    omega
  have hrq : (r : ℚ) + 1 ≤ m := by exact_mod_cast hrm
  have hr0 : (0 : ℚ) ≤ r := by positivity
  set s : ℚ := fl (1 / ((2 * (m : ℤ) : ℤ) : ℚ)) with hs
  set v : ℚ := fl ((r : ℚ) * s) with hv
  have hmq31 : (m : ℚ) ≤ 2 ^ 31 := by exact_mod_cast hm31
  have hm1 : (1 : ℚ) ≤ m := by exact_mod_cast hm
  have hp : (0 : ℚ) < 1 / (2 * (m : ℚ)) := by positivity
  have hp2 : (1 : ℚ) / 2 ^ 32 ≤ 1 / (2 * (m : ℚ)) := one_div_le_one_div_of_le (by positivity) (by linarith)
  have hp3 : 1 / (2 * (m : ℚ)) ≤ 1 := by rw [div_le_one (by positivity)]; linarith
  have e1 := hfl.rel (1 / ((2 * (m : ℤ) : ℤ) : ℚ)) (Or.inr (by
    push_cast
    rw [abs_of_pos hp]
    exact le_trans (by norm_num) hp2)) (by
    push_cast
    rw [abs_of_pos hp]
    exact le_trans hp3 (by norm_num))
  rw [← hs] at e1
  push_cast at e1
  rw [abs_of_pos hp] at e1
  have hsm : |s * (2 * m) - 1| ≤ 1 / 2 ^ 53 := by
    have : s * (2 * m) - 1 = (s - 1 / (2 * (m : ℚ))) * (2 * m) := by field_simp
    rw [this, abs_mul, abs_of_pos (by positivity : (0 : ℚ) < 2 * m)]
    calc _ ≤ (1 / (2 * (m : ℚ)) / 2 ^ 53) * (2 * m) := by
            apply mul_le_mul_of_nonneg_right e1; positivity
      _ = 1 / 2 ^ 53 := by field_simp
  have hs0 : 0 < s := by
    have := (abs_le.1 hsm).1
    by_contra hc
    have : s * (2 * m) ≤ 0 := mul_nonpos_of_nonpos_of_nonneg (not_lt.1 hc) (by positivity)
    norm_num at *
    linarith
  have hrs : 0 ≤ (r : ℚ) * s := by positivity
  have hrs1 : (r : ℚ) * s ≤ 51 / 100 := by
    have h1 := (abs_le.1 hsm).2
    have h2 : (r : ℚ) * s ≤ m * s := mul_le_mul_of_nonneg_right (by linarith) hs0.le
    norm_num at h1
    linarith
  have hs33 : (1 : ℚ) / 2 ^ 33 ≤ s := by
    have h1 := (abs_le.1 e1).1
    have h2 : 1 / (2 * (m : ℚ)) / 2 ^ 53 ≤ 1 / (2 * (m : ℚ)) / 2 := by
      apply div_le_div_of_nonneg_left hp.le <;> norm_num
    have h3 : (1 : ℚ) / 2 ^ 33 = 1 / 2 ^ 32 / 2 := by norm_num
    linarith
  have e2 := hfl.rel ((r : ℚ) * s) (by
    rcases Nat.eq_zero_or_pos r with h0 | h0
    · left; rw [h0]; simp
    · right
      have h1 : (1 : ℚ) ≤ r := by exact_mod_cast h0
      rw [abs_of_nonneg hrs]
      have h2 : s ≤ r * s := le_mul_of_one_le_left hs0.le h1
      exact le_trans (by norm_num) (le_trans hs33 h2)) (by
    rw [abs_of_nonneg hrs]
    exact le_trans hrs1 (by norm_num))
  rw [← hv, abs_of_nonneg hrs] at e2
  have hv0 : 0 ≤ v := by
    have := (abs_le.1 e2).1
    have h3 : (r : ℚ) * s / 2 ^ 53 ≤ r * s := div_le_self hrs (by norm_num)
    linarith
  have hv1 : v < 1 := by
    have := (abs_le.1 e2).2
    have h3 : (r : ℚ) * s / 2 ^ 53 ≤ r * s / 4 := by
      apply div_le_div_of_nonneg_left hrs <;> norm_num
    linarith
  refine ⟨s, v, ⌊v * 2 ^ 32⌋₊, rfl, ?_, hs0, hsm, e2, ?_, ?_, ?_⟩
  · show f64ToTorus (fl (((y % ((m : ℕ) : ℤ) : ℤ) : ℚ) * s)) = _
    rw [hr]
    push_cast
    rw [← hv, f64ToTorus_of_abs_lt_one v (by rw [abs_of_nonneg hv0]; exact hv1)]
    unfold truncQ
    rw [if_pos (by positivity), ← Int.natCast_floor_eq_floor (by positivity), BitVec.ofInt_natCast]
  · exact Nat.floor_le (by positivity)
  · exact Nat.lt_floor_add_one _
  · exact lt_of_le_of_lt (Nat.floor_le (by positivity)) (by nlinarith)

/-- `Encode` is within rounding of `r * 2^31 / m`. -/
theorem newEncoder_near (fl : ℚ → ℚ) (hfl : IsRound fl) (m : ℕ) (hm : 1 ≤ m) (hm31 : m ≤ 2 ^ 31) (y : ℤ)
    (r : ℕ) (hr : y % (m : ℤ) = r) : ∃ x : ℤ, (newEncoder fl m).val fl y = BitVec.ofInt 32 x ∧
      (r : ℤ) * (2 ^ 31 / m : ℕ) - 1 ≤ x ∧ x < (r : ℤ) * (2 ^ 31 / m : ℕ) + m + 1 := by
  obtain ⟨s, v, k, hs, hk, hs0, hsm, hv, hk1, hk2, -⟩ := newEncoder_val fl hfl m hm hm31 y r hr
  have hrm : r < m := by
    have := Int.emod_lt_of_pos y (show (0 : ℤ) < m by omega)
    omega
  have hmq : (0 : ℚ) < (m : ℚ) := by exact_mod_cast hm
  have hrq : (r : ℚ) + 1 ≤ m := by exact_mod_cast hrm
  have hr0 : (0 : ℚ) ≤ r := by positivity
  refine ⟨k, by rw [hk, BitVec.ofInt_natCast], ?_⟩
  -- bounds in rationals
  have hS : (((2 ^ 31 / m : ℕ) : ℚ)) * m ≤ 2 ^ 31 := by exact_mod_cast Nat.div_mul_le_self (2 ^ 31) m
  have hS2 : (2 : ℚ) ^ 31 < (((2 ^ 31 / m : ℕ) : ℚ) + 1) * m := by
    exact_mod_cast Nat.lt_div_mul_add (a := 2 ^ 31) (b := m) hm |>.trans_eq (by ring)
  have hS0 : (0 : ℚ) ≤ (((2 ^ 31 / m : ℕ) : ℚ)) := by positivity
  generalize (2 ^ 31 / m : ℕ) = S at hS hS2 hS0 ⊢
  obtain ⟨a1, a2⟩ := abs_le.1 hsm
  obtain ⟨b1, b2⟩ := abs_le.1 hv
  -- r * s * 2^32 versus r * S
  have c1 : (S : ℚ) ≤ s * 2 ^ 32 + S / 2 ^ 53 := by
    have : (S : ℚ) * (s * (2 * m)) ≤ 2 ^ 31 * (2 * s) := by nlinarith
    have h3 : (S : ℚ) * (1 - 1 / 2 ^ 53) ≤ S * (s * (2 * m)) := mul_le_mul_of_nonneg_left (by linarith) hS0
    nlinarith
  have c2 : s * 2 ^ 32 ≤ (S + 1) * (1 + 1 / 2 ^ 53) := by
    have h1 : s * 2 ^ 32 ≤ (S + 1) * (s * (2 * m)) := by nlinarith
    have h2 : (S + 1 : ℚ) * (s * (2 * m)) ≤ (S + 1) * (1 + 1 / 2 ^ 53) :=
      mul_le_mul_of_nonneg_left (by linarith) (by positivity)
    linarith
  have hrS : (r : ℚ) * S ≤ 2 ^ 31 := by nlinarith
  have hrs0 : 0 ≤ (r : ℚ) * s := by positivity
  have d1 : (r : ℚ) * S ≤ r * s * 2 ^ 32 + 1 / 4 := by
    have := mul_le_mul_of_nonneg_left c1 hr0
    norm_num at this hrS ⊢
    linarith
  have hr1 : (r : ℚ) * (S + 1) ≤ 2 ^ 31 + m := by nlinarith
  have d2 : (r : ℚ) * s * 2 ^ 32 ≤ (r * S + r) * (1 + 1 / 2 ^ 53) := by
    have := mul_le_mul_of_nonneg_left c2 hr0
    nlinarith
  have hrs1 : (r : ℚ) * s ≤ 51 / 100 := by
    have h2 : (r : ℚ) * s ≤ m * s := mul_le_mul_of_nonneg_right (by linarith) hs0.le
    norm_num at a2
    linarith
  constructor
  · have h : (r : ℚ) * S - 2 < k := by
      norm_num at *
      linarith
    have h' : (r : ℤ) * S - 2 < k := by exact_mod_cast h
    linarith
  · have h : (k : ℚ) < r * S + m + 1 := by
      have e : (r : ℚ) / 2 ^ 53 ≤ r / 4 := div_le_div_of_nonneg_left hr0 (by norm_num) (by norm_num)
      norm_num at *
      linarith
    exact_mod_cast h

/-- For powers of two `Encode` is exact. -/
theorem newEncoder_pow2 (fl : ℚ → ℚ) (hfl : IsRound fl) (k : ℕ) (hk : k ≤ 31) (y : ℤ) (r : ℕ)
    (hr : y % ((2 ^ k : ℕ) : ℤ) = r) :
    (newEncoder fl ((2 ^ k : ℕ) : ℤ)).val fl y = BitVec.ofInt 32 ((r : ℤ) * (2 ^ 31 / 2 ^ k : ℕ)) := by
  have hrm : r < 2 ^ k := by
    have := Int.emod_lt_of_pos y (show (0 : ℤ) < (2 ^ k : ℕ) by positivity)
    omega
  show f64ToTorus (fl (((y % ((2 ^ k : ℕ) : ℤ) : ℤ) : ℚ)
    * fl (1 / ((2 * ((2 ^ k : ℕ) : ℤ) : ℤ) : ℚ)))) = _
  rw [hr]
  have e1 : (1 / ((2 * ((2 ^ k : ℕ) : ℤ) : ℤ) : ℚ)) = ((1 : ℤ) : ℚ) * 2 ^ (-(1 : ℤ) - k) := by
    rw [zpow_sub₀ (by norm_num)]; push_cast; rw [zpow_natCast, zpow_neg_one]; field_simp
  have hr31 : r < 2 ^ 31 := lt_of_lt_of_le hrm (Nat.pow_le_pow_right (by norm_num) hk)
  rw [e1, hfl.exact 1 _ (by norm_num) (by omega) (by omega)]
  rw [show ((((r : ℕ) : ℤ) : ℚ) * (((1 : ℤ) : ℚ) * 2 ^ (-(1 : ℤ) - k)))
    = (((r : ℕ) : ℤ) : ℚ) * 2 ^ (-(1 : ℤ) - k) by push_cast; ring]
  rw [hfl.exact r _ (by rw [abs_of_nonneg (by positivity)]; norm_num; omega) (by omega) (by omega)]
  have e2 : (((r : ℕ) : ℤ) : ℚ) * 2 ^ (-(1 : ℤ) - k) = (((r : ℤ) * (2 ^ 31 / 2 ^ k : ℕ) : ℤ) : ℚ) / 2 ^ 32 := by
    rw [Nat.pow_div hk (by norm_num)]
    push_cast
    rw [show (-(1 : ℤ) - k) = ((31 - k : ℕ) : ℤ) - 32 by omega, zpow_sub₀ (by norm_num), zpow_natCast]
    norm_num
    ring
  rw [e2]
  have h1 : (2 ^ 31 / 2 ^ k : ℕ) * 2 ^ k = 2 ^ 31 := Nat.div_mul_cancel (pow_dvd_pow 2 hk)
  have h3 : r * (2 ^ 31 / 2 ^ k : ℕ) ≤ 2 ^ k * (2 ^ 31 / 2 ^ k : ℕ) := Nat.mul_le_mul_right _ hrm.le
  have h4 : r * (2 ^ 31 / 2 ^ k : ℕ) ≤ 2 ^ 31 := by rw [mul_comm (2 ^ k)] at h3; omega
  apply f64ToTorus_int_div
  · have : (0 : ℤ) ≤ (r : ℤ) * (2 ^ 31 / 2 ^ k : ℕ) := by positivity
    omega
  · have h5 : (r : ℤ) * (2 ^ 31 / 2 ^ k : ℕ) ≤ 2 ^ 31 := by exact_mod_cast h4
    omega

end GoTfhe
