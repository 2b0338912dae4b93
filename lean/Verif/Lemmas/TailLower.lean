import Mathlib.Analysis.SpecialFunctions.Trigonometric.Bounds
import Mathlib.Analysis.Complex.Trigonometric
import Mathlib.Algebra.BigOperators.Ring.Finset
import Mathlib.Algebra.BigOperators.Field
import Mathlib.Data.Complex.BigOperators
import Mathlib.Tactic.Linarith
import Mathlib.Tactic.FieldSimp
import Mathlib.Tactic.Positivity

/-!
# A lower bound for tails, by counting

The indicator of `|X| ≥ T` is at least a trigonometric polynomial of degree 6 in `θ X`, and the mean of a cosine of a sum
of independent symmetric terms is a product. With `Q` below this gives a lower bound for tails up to about `2.7` standard
deviations.
-/

namespace GoTfhe

open Finset Real

/-- The mean of the cosine of a sum of independent symmetric terms is the product of the means, for any index set. -/
theorem sum_cos_prod' {ι α : Type} [Fintype ι] [DecidableEq ι] [Fintype α] (f : ι → α → ℝ)
    (hsym : ∀ i, ∑ x, sin (f i x) = 0) :
    ∑ a : ι → α, cos (∑ i, f i (a i)) = ∏ i, ∑ x, cos (f i x) := by
  have h1 : ∑ a : ι → α, ∏ i, Complex.exp ((f i (a i) : ℂ) * Complex.I)
      = ∏ i, ∑ x, Complex.exp ((f i x : ℂ) * Complex.I) := by
    rw [prod_univ_sum, Fintype.piFinset_univ]
  have h2 : ∀ i, ∑ x, Complex.exp ((f i x : ℂ) * Complex.I) = ((∑ x, cos (f i x) : ℝ) : ℂ) := by
    intro i
    have : ∀ x, Complex.exp ((f i x : ℂ) * Complex.I) = ((cos (f i x) : ℝ) : ℂ) + ((sin (f i x) : ℝ) : ℂ) * Complex.I := by
      intro x
      rw [Complex.exp_mul_I]
      push_cast
      rfl
    rw [sum_congr rfl fun x _ => this x, sum_add_distrib, ← sum_mul, ← Complex.ofReal_sum, ← Complex.ofReal_sum, hsym]
    simp
  have h3 : ∀ a : ι → α, (∏ i, Complex.exp ((f i (a i) : ℂ) * Complex.I)).re = cos (∑ i, f i (a i)) := by
    intro a
    rw [← Complex.exp_sum, ← sum_mul, ← Complex.ofReal_sum, Complex.exp_ofReal_mul_I_re]
  have h4 := congrArg Complex.re h1
  rw [Complex.re_sum, sum_congr rfl fun a _ => h3 a] at h4
  rw [h4, prod_congr rfl fun i _ => h2 i, ← Complex.ofReal_prod, Complex.ofReal_re]

/-- The polynomial in the cosine: not positive from `-1/2` on, at most one below. -/
noncomputable def minor (c : ℝ) : ℝ := -(128 / 1225) * (1 + 2 * c) * (1 - c) * (c ^ 2 - c + 3 / 16) ^ 2

theorem minor_nonpos (c : ℝ) (h : -(1 / 2) ≤ c) (h1 : c ≤ 1) : minor c ≤ 0 := by
  unfold minor
  have : 0 ≤ (1 + 2 * c) * (1 - c) * (c ^ 2 - c + 3 / 16) ^ 2 :=
    mul_nonneg (mul_nonneg (by linarith) (by linarith)) (sq_nonneg _)
  nlinarith

theorem minor_le_one (c : ℝ) (h : -1 ≤ c) (h1 : c ≤ 1) : minor c ≤ 1 := by
  rcases le_total (-(1 / 2)) c with h2 | h2
  · linarith [minor_nonpos c h2 h1]
  unfold minor
  have a0 : 0 ≤ -(1 + 2 * c) := by linarith
  have a1 : -(1 + 2 * c) ≤ 1 := by linarith
  have b0 : 0 ≤ 1 - c := by linarith
  have b1 : 1 - c ≤ 2 := by linarith
  have q0 : 0 ≤ c ^ 2 - c + 3 / 16 := by nlinarith
  have q1 : c ^ 2 - c + 3 / 16 ≤ 35 / 16 := by nlinarith
  have q2 : (c ^ 2 - c + 3 / 16) ^ 2 ≤ (35 / 16) ^ 2 := pow_le_pow_left₀ q0 q1 2
  have ab : -(1 + 2 * c) * (1 - c) ≤ 1 * 2 := mul_le_mul a1 b1 b0 (by norm_num)
  have ab0 : 0 ≤ -(1 + 2 * c) * (1 - c) := mul_nonneg a0 b0
  have := mul_le_mul ab q2 (sq_nonneg _) (by norm_num)
  nlinarith

/-- The same polynomial as a combination of cosines. -/
theorem minor_cos (x : ℝ) : minor (cos x) = 4 / 25 - 737 / 2450 * cos (1 * x) + 601 / 2450 * cos (2 * x)
    - 204 / 1225 * cos (3 * x) + 108 / 1225 * cos (4 * x) - 8 / 245 * cos (5 * x) + 8 / 1225 * cos (6 * x) := by
  have c2 : cos (2 * x) = 2 * cos x ^ 2 - 1 := cos_two_mul x
  have c3 : cos (3 * x) = 4 * cos x ^ 3 - 3 * cos x := cos_three_mul x
  have c4 : cos (4 * x) = 2 * cos (2 * x) ^ 2 - 1 := by rw [← cos_two_mul]; congr 1; ring
  have c6 : cos (6 * x) = 2 * cos (3 * x) ^ 2 - 1 := by rw [← cos_two_mul]; congr 1; ring
  have c5 : cos (5 * x) = 2 * cos (4 * x) * cos x - cos (3 * x) := by
    have e1 : cos (5 * x) = cos (4 * x + x) := by congr 1; ring
    have e2 : cos (3 * x) = cos (4 * x - x) := by congr 1; ring
    rw [e1, e2, cos_add, cos_sub]; ring
  rw [c5, c6, c4, c3, c2, one_mul]
  unfold minor
  ring

/-- The bound: a combination of the means of the first six cosines. -/
noncomputable def tailComb (μ : ℕ → ℝ) : ℝ := 4 / 25 - 737 / 2450 * μ 1 + 601 / 2450 * μ 2
    - 204 / 1225 * μ 3 + 108 / 1225 * μ 4 - 8 / 245 * μ 5 + 8 / 1225 * μ 6

/-- Counting from below: enough tapes make the sum of independent symmetric terms large. -/
theorem count_far6 {ι α : Type} [Fintype ι] [DecidableEq ι] [Fintype α] (f : ι → α → ℝ) (T θ : ℝ) (μ : ℕ → ℝ)
    (hθ : 0 ≤ θ) (hT : θ * T ≤ 2 * π / 3) (hsin : ∀ i t, ∑ x, sin (t * f i x) = 0)
    (heven : ∀ k : ℕ, k = 2 ∨ k = 4 ∨ k = 6 →
      μ k * (Fintype.card α : ℝ) ^ Fintype.card ι ≤ ∏ i, ∑ x, cos ((k : ℝ) * θ * f i x))
    (hodd : ∀ k : ℕ, k = 1 ∨ k = 3 ∨ k = 5 →
      ∏ i, ∑ x, cos ((k : ℝ) * θ * f i x) ≤ μ k * (Fintype.card α : ℝ) ^ Fintype.card ι)
    (far : Finset (ι → α)) (hfar : ∀ a, T ≤ |∑ i, f i (a i)| → a ∈ far) :
    tailComb μ * (Fintype.card α : ℝ) ^ Fintype.card ι ≤ far.card := by
  classical
  let X : (ι → α) → ℝ := fun a => ∑ i, f i (a i)
  have hpt : ∀ a, minor (cos (θ * X a)) ≤ if a ∈ far then 1 else 0 := by
    intro a
    by_cases ha : a ∈ far
    · rw [if_pos ha]
      exact minor_le_one _ (neg_one_le_cos _) (cos_le_one _)
    · rw [if_neg ha]
      refine minor_nonpos _ ?_ (cos_le_one _)
      have hlt : |X a| < T := by
        by_contra hc
        exact ha (hfar a (not_lt.1 hc))
      have e : cos (2 * π / 3) = -(1 / 2) := by
        rw [show 2 * π / 3 = π - π / 3 by ring, cos_pi_sub, cos_pi_div_three]
      rw [← e, ← cos_abs (θ * X a), abs_mul, abs_of_nonneg hθ]
      refine cos_le_cos_of_nonneg_of_le_pi (by positivity) (by linarith [pi_pos]) ?_
      exact (mul_le_mul_of_nonneg_left hlt.le hθ).trans hT
  have hsum : ∑ a, minor (cos (θ * X a)) ≤ (far.card : ℝ) := by
    refine (sum_le_sum fun a _ => hpt a).trans (le_of_eq ?_)
    rw [sum_ite_mem, univ_inter, sum_const, nsmul_eq_mul, mul_one]
  have e1 : ∀ t : ℝ, ∑ a, cos (t * (θ * X a)) = ∏ i, ∑ x, cos (t * θ * f i x) := by
    intro t
    have := sum_cos_prod' (fun i x => t * θ * f i x) fun i => hsin i _
    rw [← this]
    refine sum_congr rfl fun a _ => ?_
    simp only [X]
    rw [← mul_assoc, mul_sum]
  have e2 : ∑ a, minor (cos (θ * X a)) = 4 / 25 * (Fintype.card α : ℝ) ^ Fintype.card ι
      - 737 / 2450 * ∏ i, ∑ x, cos (1 * θ * f i x) + 601 / 2450 * ∏ i, ∑ x, cos (2 * θ * f i x)
      - 204 / 1225 * ∏ i, ∑ x, cos (3 * θ * f i x) + 108 / 1225 * ∏ i, ∑ x, cos (4 * θ * f i x)
      - 8 / 245 * ∏ i, ∑ x, cos (5 * θ * f i x) + 8 / 1225 * ∏ i, ∑ x, cos (6 * θ * f i x) := by
    rw [sum_congr rfl fun a _ => minor_cos (θ * X a)]
    simp only [sum_add_distrib, sum_sub_distrib, ← mul_sum, e1]
    rw [sum_const, card_univ, Fintype.card_fun, nsmul_eq_mul]
    push_cast
    ring
  rw [e2] at hsum
  have h1 := hodd 1 (by norm_num)
  have h2 := heven 2 (by norm_num)
  have h3 := hodd 3 (by norm_num)
  have h4 := heven 4 (by norm_num)
  have h5 := hodd 5 (by norm_num)
  have h6 := heven 6 (by norm_num)
  simp only [Nat.cast_one, Nat.cast_ofNat] at h1 h2 h3 h4 h5 h6
  unfold tailComb
  linarith

/-- Close exponents give close exponentials, from below. -/
theorem exp_near_lo (a η : ℝ) : exp (-a) * (1 - a * η) ≤ exp (-(a * (1 + η))) := by
  have h : 1 - a * η ≤ exp (-(a * η)) := by have := add_one_le_exp (-(a * η)); linarith
  calc exp (-a) * (1 - a * η) ≤ exp (-a) * exp (-(a * η)) := mul_le_mul_of_nonneg_left h (exp_pos _).le
    _ = _ := by rw [← exp_add]; congr 1; ring

/-- Close exponents give close exponentials, from above. -/
theorem exp_near_hi (a η : ℝ) (h : a * η ≤ 1 / 2) : exp (-(a * (1 - η))) ≤ exp (-a) * (1 + 2 * (a * η)) ∨ a * η < 0 := by
  rcases lt_or_ge (a * η) 0 with h0 | h0
  · exact Or.inr h0
  left
  have h1 : exp (a * η) ≤ 1 + 2 * (a * η) := by
    have h2 : 1 - a * η ≤ exp (-(a * η)) := by have := add_one_le_exp (-(a * η)); linarith
    have h3 : exp (a * η) * exp (-(a * η)) = 1 := by rw [← exp_add, add_neg_cancel, exp_zero]
    have h4 : 0 < exp (a * η) := exp_pos _
    by_contra hc
    push Not at hc
    nlinarith
  calc exp (-(a * (1 - η))) = exp (-a) * exp (a * η) := by rw [← exp_add]; congr 1; ring
    _ ≤ _ := mul_le_mul_of_nonneg_left h1 (exp_pos _).le

end GoTfhe
