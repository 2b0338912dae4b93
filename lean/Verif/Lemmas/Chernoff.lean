import Mathlib.Analysis.SpecialFunctions.Trigonometric.Series
import Mathlib.Analysis.SpecialFunctions.Trigonometric.DerivHyp
import Mathlib.Algebra.BigOperators.Ring.Finset
import Mathlib.Algebra.BigOperators.Field
import Mathlib.Tactic.Linarith
import Mathlib.Tactic.FieldSimp
import Mathlib.Tactic.Positivity

/-!
# Tail bounds by counting

Random words are uniform, so probabilities are counts divided by the number of all tapes.
-/

namespace GoTfhe

open Finset Real

theorem six_pow_le (n : ℕ) : 6 ^ n * n.factorial ≤ (2 * n + 1).factorial := by
  induction n with
  | zero => simp
  | succ n ih =>
    rw [show 2 * (n + 1) + 1 = (2 * n + 1) + 1 + 1 by ring, Nat.factorial_succ, Nat.factorial_succ, Nat.factorial_succ,
      pow_succ]
    calc 6 ^ n * 6 * ((n + 1) * n.factorial) = (6 * (n + 1)) * (6 ^ n * n.factorial) := by ring
      _ ≤ ((2 * n + 1 + 1 + 1) * (2 * n + 1 + 1)) * (2 * n + 1).factorial :=
          Nat.mul_le_mul (by nlinarith) ih
      _ = _ := by ring

theorem sinh_le_mul_exp (x : ℝ) (hx : 0 ≤ x) : sinh x ≤ x * exp (x ^ 2 / 6) := by
  have h2 : HasSum (fun n : ℕ => x * ((x ^ 2 / 6) ^ n / n.factorial)) (x * exp (x ^ 2 / 6)) := by
    rw [Real.exp_eq_exp_ℝ]
    exact (NormedSpace.expSeries_div_hasSum_exp (x ^ 2 / 6)).mul_left x
  refine hasSum_le (fun n => ?_) (Real.hasSum_sinh x) h2
  have h6 : (6 : ℝ) ^ n * n.factorial ≤ (2 * n + 1).factorial := by exact_mod_cast six_pow_le n
  have e : x * ((x ^ 2 / 6) ^ n / n.factorial) = x ^ (2 * n + 1) / (6 ^ n * n.factorial) := by
    rw [div_pow, ← pow_mul, pow_succ]; field_simp
  rw [e]
  exact div_le_div_of_nonneg_left (by positivity) (by positivity) h6

/-- The moment generating function of the uniform distribution on `2h` centred points at distance one. -/
theorem mgf_uniform_pos (h : ℕ) (t : ℝ) (ht : 0 < t) :
    ∑ k ∈ range (2 * h), exp (t * ((k : ℝ) - h + 1 / 2)) ≤ 2 * h * exp (t ^ 2 * h ^ 2 / 6) := by
  have hs : 0 < sinh (t / 2) := by rw [Real.sinh_pos_iff]; linarith
  have h1 : ∀ k : ℕ, 2 * sinh (t / 2) * exp (t * ((k : ℝ) - h + 1 / 2))
      = exp (t * (((k + 1 : ℕ) : ℝ) - h)) - exp (t * ((k : ℝ) - h)) := by
    intro k
    rw [Real.sinh_eq, show t * (((k + 1 : ℕ) : ℝ) - h) = t / 2 + t * ((k : ℝ) - h + 1 / 2) by push_cast; ring,
      show t * ((k : ℝ) - h) = -(t / 2) + t * ((k : ℝ) - h + 1 / 2) by ring, exp_add, exp_add]
    ring
  have h2 : 2 * sinh (t / 2) * ∑ k ∈ range (2 * h), exp (t * ((k : ℝ) - h + 1 / 2)) = 2 * sinh (t * h) := by
    rw [mul_sum, sum_congr rfl fun k _ => h1 k, sum_range_sub (fun k : ℕ => exp (t * ((k : ℝ) - h))), Real.sinh_eq]
    push_cast
    rw [show t * (2 * (h : ℝ) - h) = t * h by ring, show t * (0 - (h : ℝ)) = -(t * h) by ring]
    ring
  have h3 := sinh_le_mul_exp (t * h) (by positivity)
  have h4 : t / 2 ≤ sinh (t / 2) := Real.self_le_sinh_iff.2 (by linarith)
  have h5 : (2 * sinh (t / 2)) * ∑ k ∈ range (2 * h), exp (t * ((k : ℝ) - h + 1 / 2))
      ≤ (2 * sinh (t / 2)) * (2 * h * exp (t ^ 2 * h ^ 2 / 6)) := by
    rw [h2]
    calc 2 * sinh (t * h) ≤ 2 * (t * h * exp ((t * h) ^ 2 / 6)) := by linarith
      _ = (2 * (t / 2)) * (2 * h * exp (t ^ 2 * h ^ 2 / 6)) := by rw [mul_pow]; ring
      _ ≤ _ := mul_le_mul_of_nonneg_right (by linarith) (by positivity)
  exact le_of_mul_le_mul_left h5 (by linarith)

theorem mgf_uniform (h : ℕ) (t : ℝ) :
    ∑ k ∈ range (2 * h), exp (t * ((k : ℝ) - h + 1 / 2)) ≤ 2 * h * exp (t ^ 2 * h ^ 2 / 6) := by
  rcases lt_trichotomy t 0 with ht | rfl | ht
  · have := mgf_uniform_pos h (-t) (by linarith)
    rw [neg_sq] at this
    refine le_trans (le_of_eq ?_) this
    rw [← sum_range_reflect]
    refine sum_congr rfl fun k hk => ?_
    rw [mem_range] at hk
    rw [Nat.sub_sub, Nat.cast_sub (by omega)]
    push_cast
    congr 1; ring
  · simp
  · exact mgf_uniform_pos h t ht

/-- Chernoff's bound, counted: of all tapes `a`, few make the sum of independent sub-Gaussian terms large. -/
theorem count_tail {n : ℕ} {α : Type} [Fintype α] (f : Fin n → α → ℝ) (v : Fin n → ℝ) (V T : ℝ)
    (hM : ∀ i t, ∑ x, exp (t * f i x) ≤ Fintype.card α * exp (t ^ 2 * v i / 2)) (hv : ∑ i, v i ≤ V) (hV : 0 < V)
    (hT : 0 ≤ T) (bad : Finset (Fin n → α)) (hbad : ∀ a ∈ bad, T ≤ ∑ i, f i (a i)) :
    (bad.card : ℝ) ≤ exp (-(T ^ 2 / (2 * V))) * (Fintype.card α : ℝ) ^ n := by
  classical
  set t := T / V with ht
  have ht0 : 0 ≤ t := by positivity
  have h1 : (bad.card : ℝ) * exp (t * T) ≤ ∑ a : Fin n → α, ∏ i, exp (t * f i (a i)) := by
    calc (bad.card : ℝ) * exp (t * T) = ∑ _a ∈ bad, exp (t * T) := by rw [sum_const, nsmul_eq_mul]
      _ ≤ ∑ a ∈ bad, ∏ i, exp (t * f i (a i)) := by
          refine sum_le_sum fun a ha => ?_
          rw [← exp_sum, ← mul_sum]
          exact exp_le_exp.2 (mul_le_mul_of_nonneg_left (hbad a ha) ht0)
      _ ≤ _ := sum_le_sum_of_subset_of_nonneg (subset_univ _) fun a _ _ => prod_nonneg fun i _ => (exp_pos _).le
  have h2 : ∑ a : Fin n → α, ∏ i, exp (t * f i (a i)) = ∏ i, ∑ x, exp (t * f i x) := by
    rw [prod_univ_sum, Fintype.piFinset_univ]
  have h3 : ∏ i, ∑ x, exp (t * f i x) ≤ ∏ i, ((Fintype.card α : ℝ) * exp (t ^ 2 * v i / 2)) :=
    prod_le_prod (fun i _ => sum_nonneg fun x _ => (exp_pos _).le) fun i _ => hM i t
  have h4 : ∏ i, ((Fintype.card α : ℝ) * exp (t ^ 2 * v i / 2))
      ≤ (Fintype.card α : ℝ) ^ n * exp (t ^ 2 * V / 2) := by
    rw [prod_mul_distrib, prod_const, card_univ, Fintype.card_fin, ← exp_sum, ← sum_div, ← mul_sum]
    refine mul_le_mul_of_nonneg_left (exp_le_exp.2 ?_) (by positivity)
    have := mul_le_mul_of_nonneg_left hv (sq_nonneg t)
    linarith
  have h5 : (bad.card : ℝ) * exp (t * T) ≤ (Fintype.card α : ℝ) ^ n * exp (t ^ 2 * V / 2) := by
    rw [h2] at h1; exact h1.trans (h3.trans h4)
  have h6 : exp (-(T ^ 2 / (2 * V))) = exp (t ^ 2 * V / 2) * exp (-(t * T)) := by
    rw [← exp_add, ht]; congr 1; field_simp; ring
  calc (bad.card : ℝ) = (bad.card : ℝ) * exp (t * T) * exp (-(t * T)) := by
        rw [mul_assoc, ← exp_add, add_neg_cancel, exp_zero, mul_one]
    _ ≤ (Fintype.card α : ℝ) ^ n * exp (t ^ 2 * V / 2) * exp (-(t * T)) :=
        mul_le_mul_of_nonneg_right h5 (exp_pos _).le
    _ = _ := by rw [h6]; ring

/-- A sum over whole periods does not depend on where they start. -/
theorem sum_shift_mod (M Q h : ℕ) (hM : 0 < M) (hh : h ≤ M) (g : ℕ → ℝ) :
    ∑ x ∈ range (M * Q), g ((x + h) % M) = Q * ∑ k ∈ range M, g k := by
  have hb : ∑ k ∈ range M, g ((k + h) % M) = ∑ k ∈ range M, g k := by
    refine sum_nbij' (fun k => (k + h) % M) (fun k => (k + (M - h)) % M) ?_ ?_ ?_ ?_ ?_
    · intro k _; exact mem_range.2 (Nat.mod_lt _ hM)
    · intro k _; exact mem_range.2 (Nat.mod_lt _ hM)
    · intro k hk
      show ((k + h) % M + (M - h)) % M = k
      rw [Nat.mod_add_mod, show k + h + (M - h) = k + M by omega, Nat.add_mod_right, Nat.mod_eq_of_lt (mem_range.1 hk)]
    · intro k hk
      show ((k + (M - h)) % M + h) % M = k
      rw [Nat.mod_add_mod, show k + (M - h) + h = k + M by omega, Nat.add_mod_right, Nat.mod_eq_of_lt (mem_range.1 hk)]
    · intro k _; rfl
  induction Q with
  | zero => simp
  | succ Q ih =>
    have e : ∑ k ∈ range M, g ((M * Q + k + h) % M) = ∑ k ∈ range M, g k := by
      rw [← hb]
      refine sum_congr rfl fun k _ => ?_
      rw [show M * Q + k + h = (k + h) + M * Q by ring, Nat.add_mul_mod_self_left]
    rw [Nat.mul_succ, sum_range_add, ih, e]
    push_cast; ring

end GoTfhe
