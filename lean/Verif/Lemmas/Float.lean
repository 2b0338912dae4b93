import Verif.Model.Float
import Verif.Lemmas.Torus
import Mathlib.Tactic.Positivity
import Mathlib.Algebra.Order.Field.Power
import Mathlib.Tactic.FieldSimp

/-! # The rounding model is satisfiable -/

namespace GoTfhe

/-- Half a unit in the last place. -/
theorem rne_half (x : ℚ) (e : ℤ) : |(round (x / 2 ^ e) : ℚ) * 2 ^ e - x| ≤ 1 / 2 * 2 ^ e := by
  have hpe : (0 : ℚ) < 2 ^ e := by positivity
  have e1 : (round (x / 2 ^ e) : ℚ) * 2 ^ e - x = -((x / 2 ^ e - round (x / 2 ^ e)) * 2 ^ e) := by
    field_simp; ring
  rw [e1, abs_neg, abs_mul, abs_of_pos hpe]
  exact mul_le_mul_of_nonneg_right (abs_sub_round (x / 2 ^ e)) hpe.le

theorem inv_pow_eq (n : ℕ) : (1 : ℚ) / 2 ^ n = ((2 : ℕ) : ℚ) ^ (-(n : ℤ)) := by
  rw [zpow_neg, zpow_natCast, one_div]; norm_num

theorem rne_normal (x : ℚ) (hx : 1 / 2 ^ 1022 ≤ |x|) : |rne x - x| ≤ |x| / 2 ^ 53 := by
  have hx0 : 0 < |x| := lt_of_lt_of_le (by positivity) hx
  have h : x ≠ 0 := abs_pos.1 hx0
  have hl : (-1022 : ℤ) ≤ Int.log 2 |x| := by
    rw [← Int.zpow_le_iff_le_log (by norm_num) hx0]
    refine le_trans (le_of_eq ?_) hx
    rw [inv_pow_eq]; rfl
  unfold rne
  rw [if_neg h]
  simp only
  rw [max_eq_left (by omega)]
  refine (rne_half x _).trans ?_
  have h1 : (2 : ℚ) ^ (Int.log 2 |x|) ≤ |x| := Int.zpow_log_le_self (by norm_num) hx0
  have e2 : (2 : ℚ) ^ (Int.log 2 |x| - 52) = 2 ^ (Int.log 2 |x|) / 2 ^ 52 := by
    rw [zpow_sub₀ (by norm_num)]; norm_num
  rw [e2]
  rw [show (1 / 2 : ℚ) * (2 ^ (Int.log 2 |x|) / 2 ^ 52) = 2 ^ (Int.log 2 |x|) / 2 ^ 53 by ring]
  gcongr

theorem half_pow (n : ℕ) : 1 / 2 * (2 : ℚ) ^ (-(n : ℤ)) = 1 / 2 ^ (n + 1) := by
  rw [zpow_neg, zpow_natCast, pow_succ]; field_simp

theorem rne_tiny (x : ℚ) (hx : |x| ≤ 1 / 2 ^ 1022) : |rne x - x| ≤ 1 / 2 ^ 1075 := by
  unfold rne
  split_ifs with h
  · subst h
    rw [sub_self, abs_zero]
    exact div_nonneg zero_le_one (pow_nonneg (by norm_num) _)
  · have hx0 : 0 < |x| := abs_pos.2 h
    have hl : Int.log 2 |x| ≤ -1022 := by
      have := Int.log_mono_right (b := 2) hx0 hx
      rwa [inv_pow_eq, Int.log_zpow (by norm_num)] at this
    simp only
    rw [max_eq_right (by omega)]
    exact (rne_half x _).trans (le_of_eq (half_pow 1074))

theorem rne_exact (m e : ℤ) (hm : |m| ≤ 2 ^ 53) (he : -1074 ≤ e) : rne (m * 2 ^ e) = m * 2 ^ e := by
  by_cases h0 : m = 0
  · subst h0; simp [rne]
  have hx : (m : ℚ) * 2 ^ e ≠ 0 := by
    have : (m : ℚ) ≠ 0 := by exact_mod_cast h0
    positivity
  unfold rne
  rw [if_neg hx]
  simp only
  set f : ℤ := max (Int.log 2 |(m : ℚ) * 2 ^ e| - 52) (-1074) with hf
  have habs : |(m : ℚ) * 2 ^ e| = |(m : ℚ)| * 2 ^ e := by
    rw [abs_mul, abs_of_pos (by positivity : (0 : ℚ) < 2 ^ e)]
  have key : ∃ k : ℤ, (m : ℚ) * 2 ^ e / 2 ^ f = k := by
    rcases lt_or_eq_of_le hm with hlt | heq
    · have hfe : f ≤ e := by
        have : Int.log 2 |(m : ℚ) * 2 ^ e| < 53 + e := by
          rw [← Int.lt_zpow_iff_log_lt (by norm_num) (abs_pos.2 hx), habs]
          rw [zpow_add₀ (by norm_num)]
          have : |(m : ℚ)| < 2 ^ 53 := by exact_mod_cast hlt
          have h2 : (0 : ℚ) < 2 ^ e := by positivity
          push_cast
          have : |(m : ℚ)| * 2 ^ e < 2 ^ 53 * 2 ^ e := mul_lt_mul_of_pos_right this h2
          exact_mod_cast this
        omega
      obtain ⟨k, hk⟩ : ∃ k : ℕ, e = f + k := ⟨(e - f).toNat, by omega⟩
      refine ⟨m * 2 ^ k, ?_⟩
      rw [hk, zpow_add₀ (by norm_num), zpow_natCast]
      push_cast
      field_simp
    · have hfe : f = e + 1 := by
        have : Int.log 2 |(m : ℚ) * 2 ^ e| = 53 + e := by
          rw [habs]
          have : |(m : ℚ)| = 2 ^ 53 := by exact_mod_cast heq
          rw [this]
          have : (2 : ℚ) ^ 53 * 2 ^ e = ((2 : ℕ) : ℚ) ^ (53 + e) := by
            rw [zpow_add₀ (by norm_num)]; norm_num
          rw [this, Int.log_zpow (by norm_num)]
        omega
      refine ⟨m / 2, ?_⟩
      have h2 : 2 ∣ m := by
        rcases abs_choice m with h | h
        · rw [h] at heq; rw [heq]; norm_num
        · rw [h] at heq
          have : m = -2 ^ 53 := by omega
          rw [this]; norm_num
      obtain ⟨c, rfl⟩ := h2
      rw [hfe, zpow_add₀ (by norm_num)]
      rw [Int.mul_ediv_cancel_left _ (by norm_num)]
      push_cast
      field_simp
  obtain ⟨k, hk⟩ := key
  rw [hk, round_intCast, ← hk]
  field_simp

theorem isRound_rne : IsRound rne :=
  ⟨fun x h _ => rne_normal x h, rne_tiny, fun m e hm he _ => rne_exact m e hm he⟩

theorem IsRound.exact_int {fl : ℚ → ℚ} (h : IsRound fl) (m : ℤ) (hm : |m| ≤ 2 ^ 53) :
    fl m = m := by
  have := h.exact m 0 hm (by norm_num) (by norm_num)
  simpa using this

theorem IsRound.zero {fl : ℚ → ℚ} (h : IsRound fl) : fl 0 = 0 := by
  have := h.exact_int 0 (by norm_num)
  simpa using this

/-- Relative error on the numbers that the encoders meet. -/
theorem IsRound.rel {fl : ℚ → ℚ} (h : IsRound fl) (x : ℚ) (h0 : x = 0 ∨ 1 / 2 ^ 200 ≤ |x|) (h1 : |x| ≤ 2 ^ 200) :
    |fl x - x| ≤ |x| / 2 ^ 53 := by
  rcases h0 with rfl | h0
  · rw [h.zero]; simp
  · refine h.normal x (le_trans ?_ h0) (le_trans h1 (pow_le_pow_right₀ (by norm_num) (by norm_num)))
    exact one_div_le_one_div_of_le (by positivity) (pow_le_pow_right₀ (by norm_num) (by norm_num))

/-- Rounding without overflow, with the error of the normal and of the subnormal range in one formula. -/
structure IsRoundU (fl : ℚ → ℚ) : Prop where
  err : ∀ x, |fl x - x| ≤ |x| / 2 ^ 53 + 1 / 2 ^ 1075
  exact : ∀ (m e : ℤ), |m| ≤ 2 ^ 53 → -1074 ≤ e → e ≤ 970 → fl (m * 2 ^ e) = m * 2 ^ e

/-- A rounding function that agrees with `fl` on all numbers up to `2^1023`. -/
def noOverflow (fl : ℚ → ℚ) (x : ℚ) : ℚ := if |x| ≤ 2 ^ 1023 then fl x else x

theorem noOverflow_eq (fl : ℚ → ℚ) (x : ℚ) (h : |x| ≤ 2 ^ 1023) : noOverflow fl x = fl x := if_pos h

theorem IsRound.noOverflow {fl : ℚ → ℚ} (h : IsRound fl) : IsRoundU (noOverflow fl) := by
  have hη : (0 : ℚ) ≤ 1 / 2 ^ 1075 := div_nonneg zero_le_one (pow_nonneg (by norm_num) _)
  refine ⟨fun x => ?_, fun m e hm h1 h2 => ?_⟩
  · have hx : 0 ≤ |x| / 2 ^ 53 := by positivity
    unfold GoTfhe.noOverflow
    split_ifs with hb
    · rcases le_total |x| (1 / 2 ^ 1022) with ht | hn
      · exact le_add_of_nonneg_of_le hx (h.tiny x ht)
      · exact le_add_of_le_of_nonneg (h.normal x hn hb) hη
    · rw [sub_self, abs_zero]
      exact add_nonneg hx hη
  · unfold GoTfhe.noOverflow
    split_ifs with hb
    · exact h.exact m e hm h1 h2
    · rfl

end GoTfhe
