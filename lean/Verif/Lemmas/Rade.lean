import Verif.Lemmas.Avg
import Mathlib.Analysis.SpecialFunctions.Exp
import Mathlib.Analysis.SpecialFunctions.Trigonometric.DerivHyp
import Mathlib.Analysis.SpecialFunctions.Trigonometric.Series
import Mathlib.Data.Fin.Tuple.Basic

/-!
# Exponential moments of signs
-/

namespace GoTfhe

open Finset

/-- A coin as a sign. -/
def sgn (b : Bool) : ℝ := if b then 1 else -1

theorem sgn_sq (b : Bool) : sgn b ^ 2 = 1 := by cases b <;> simp [sgn]

theorem avg_bool (f : Bool → ℝ) : avg f = (f true + f false) / 2 := by
  unfold avg
  rw [Fintype.sum_bool, Fintype.card_bool]
  norm_num

theorem avg_cons {n : ℕ} (f : (Fin (n + 1) → Bool) → ℝ) :
    avg f = avg fun r : Fin n → Bool => avg fun b => f (Fin.cons b r) := by
  rw [← avg_equiv (Fin.consEquiv fun _ : Fin (n + 1) => Bool) f, avg_prod, avg_swap]
  rfl

/-- One sign. -/
theorem avg_sign (a c G ε η : ℝ) (hc : 0 ≤ c) (hε : ε ^ 2 ≤ 1) (hη : 0 < η) :
    avg (fun b => Real.exp (a * sgn b + c * (ε * sgn b + G) ^ 2))
      ≤ Real.exp (c + (1 + η) / 2 * a ^ 2 + (c + 2 * (1 + 1 / η) * c ^ 2) * G ^ 2) := by
  rw [avg_bool]
  have h1 : (Real.exp (a * sgn true + c * (ε * sgn true + G) ^ 2) + Real.exp (a * sgn false + c * (ε * sgn false + G) ^ 2)) / 2
      = Real.exp (c * (ε ^ 2 + G ^ 2)) * Real.cosh (a + 2 * c * ε * G) := by
    rw [Real.cosh_eq, mul_div_assoc', mul_add, ← Real.exp_add, ← Real.exp_add]
    simp only [sgn, if_true, Bool.false_eq_true, if_false]
    congr 3 <;> ring
  rw [h1]
  have h2 := Real.cosh_le_exp_half_sq (a + 2 * c * ε * G)
  refine (mul_le_mul_of_nonneg_left h2 (Real.exp_pos _).le).trans ?_
  rw [← Real.exp_add]
  apply Real.exp_le_exp.2
  have h3 : (a + 2 * c * ε * G) ^ 2 ≤ (1 + η) * a ^ 2 + (1 + 1 / η) * (2 * c * ε * G) ^ 2 := by
    have : (1 + η) * a ^ 2 + (1 + 1 / η) * (2 * c * ε * G) ^ 2 - (a + 2 * c * ε * G) ^ 2
        = (η * a - 2 * c * ε * G) ^ 2 / η := by field_simp; ring
    have h4 : 0 ≤ (η * a - 2 * c * ε * G) ^ 2 / η := by positivity
    linarith
  have h5 : (2 * c * ε * G) ^ 2 ≤ 4 * c ^ 2 * G ^ 2 := by
    have : (2 * c * ε * G) ^ 2 = 4 * c ^ 2 * G ^ 2 * ε ^ 2 := by ring
    rw [this]
    have h6 : 0 ≤ 4 * c ^ 2 * G ^ 2 := by positivity
    nlinarith
  have h7 : 0 ≤ 1 + 1 / η := by positivity
  have h8 := mul_le_mul_of_nonneg_left h5 h7
  have h9 : c * ε ^ 2 ≤ c := by nlinarith
  nlinarith

/-- A linear form and the square of another one. -/
theorem rade_mgf (n : ℕ) (a ε : Fin n → ℝ) (hε : ∀ j, ε j ^ 2 ≤ 1) (c η : ℝ) (hc : 0 ≤ c) (hη : 0 < η)
    (hs : 2 * (1 + 1 / η) * n * c < 1) :
    avg (fun r : Fin n → Bool => Real.exp (∑ j, a j * sgn (r j) + c * (∑ j, ε j * sgn (r j)) ^ 2))
      ≤ Real.exp ((1 + η) / 2 * ∑ j, a j ^ 2 + n * c / (1 - 2 * (1 + 1 / η) * n * c)) := by
  induction n generalizing c with
  | zero => simp only [univ_eq_empty, sum_empty]; norm_num [avg]
  | succ n ih =>
    set θ : ℝ := 2 * (1 + 1 / η) with hθ
    have hθ0 : 0 < θ := by positivity
    have hn : (0 : ℝ) ≤ n := Nat.cast_nonneg n
    push_cast at hs ⊢
    have hs1 : θ * c < 1 := by nlinarith [mul_nonneg (mul_nonneg hθ0.le hn) hc]
    set c' := c + θ * c ^ 2 with hc'
    have hc0 : 0 ≤ c' := by positivity
    -- c' ≤ c / (1 - θ c)
    have h1 : c' * (1 - θ * c) ≤ c := by
      have : c' * (1 - θ * c) = c - θ ^ 2 * c ^ 3 := by rw [hc']; ring
      have h2 : 0 ≤ θ ^ 2 * c ^ 3 := by positivity
      linarith
    have h2 : θ * n * c' < 1 := by
      by_contra h
      push Not at h
      have : 1 - θ * c ≤ θ * n * c := by
        have h3 : (1 - θ * c) * 1 ≤ (1 - θ * c) * (θ * n * c') := mul_le_mul_of_nonneg_left h (by linarith)
        have h4 : (1 - θ * c) * (θ * n * c') = θ * n * (c' * (1 - θ * c)) := by ring
        have h5 : θ * n * (c' * (1 - θ * c)) ≤ θ * n * c := mul_le_mul_of_nonneg_left h1 (by positivity)
        linarith
      nlinarith
    have key : c + n * c' / (1 - θ * n * c') ≤ (n + 1) * c / (1 - θ * (n + 1) * c) := by
      have hd : 0 < 1 - θ * (n + 1) * c := by linarith
      have hd' : 0 < 1 - θ * n * c' := by linarith
      have h3 : c ≤ c / (1 - θ * (n + 1) * c) := by
        rw [le_div_iff₀ hd]
        nlinarith [mul_nonneg hc (mul_nonneg (mul_nonneg hθ0.le (by linarith : (0 : ℝ) ≤ n + 1)) hc)]
      have h4 : n * c' / (1 - θ * n * c') ≤ n * c / (1 - θ * (n + 1) * c) := by
        rw [div_le_div_iff₀ hd' hd]
        have : n * c' * (1 - θ * (n + 1) * c) - n * c * (1 - θ * n * c') = n * (c' * (1 - θ * c) - c) := by ring
        nlinarith [mul_nonneg hn (sub_nonneg.2 h1)]
      have h5 : (n + 1) * c / (1 - θ * (n + 1) * c) = c / (1 - θ * (n + 1) * c) + n * c / (1 - θ * (n + 1) * c) := by
        rw [← add_div]; ring
      linarith
    rw [avg_cons]
    have hstep : ∀ r : Fin n → Bool, avg (fun b => Real.exp (∑ j, a j * sgn ((Fin.cons b r : Fin (n + 1) → Bool) j)
        + c * (∑ j, ε j * sgn ((Fin.cons b r : Fin (n + 1) → Bool) j)) ^ 2))
        ≤ Real.exp (c + (1 + η) / 2 * a 0 ^ 2) * Real.exp (∑ j : Fin n, a j.succ * sgn (r j)
          + c' * (∑ j : Fin n, ε j.succ * sgn (r j)) ^ 2) := by
      intro r
      have h3 := avg_sign (a 0) c (∑ j : Fin n, ε j.succ * sgn (r j)) (ε 0) η hc (hε 0) hη
      have h4 := mul_le_mul_of_nonneg_left h3 (Real.exp_pos (∑ j : Fin n, a j.succ * sgn (r j))).le
      rw [← avg_mul_left] at h4
      refine le_trans (le_of_eq (congrArg avg (funext fun b => ?_))) (h4.trans (le_of_eq ?_))
      · rw [Fin.sum_univ_succ, Fin.sum_univ_succ, ← Real.exp_add]
        simp only [Fin.cons_zero, Fin.cons_succ]
        congr 1
        ring
      · rw [← Real.exp_add, ← Real.exp_add]
        congr 1
        rw [hc']
        ring
    refine (avg_mono hstep).trans ?_
    rw [avg_mul_left]
    refine (mul_le_mul_of_nonneg_left (ih (fun j => a j.succ) (fun j => ε j.succ) (fun j => hε _) c' hc0 h2)
      (Real.exp_pos _).le).trans ?_
    rw [← Real.exp_add]
    apply Real.exp_le_exp.2
    rw [Fin.sum_univ_succ]
    linarith

/-- Hyperbolic cosines close to zero. -/
theorem cosh_le_quad (x X : ℝ) (hx : |x| ≤ X) (hX : X ≤ 1) : Real.cosh x ≤ 1 + (1 + 5 / 48 * X ^ 2) * x ^ 2 / 2 := by
  have h1 := abs_le.1 (Real.exp_bound (hx.trans hX) (show 0 < 4 by norm_num))
  have h2 := abs_le.1 (Real.exp_bound (x := -x) (by rw [abs_neg]; exact hx.trans hX) (show 0 < 4 by norm_num))
  rw [abs_neg] at h2
  simp only [sum_range_succ, sum_range_zero, Nat.factorial] at h1 h2
  norm_num at h1 h2
  have h3 : |x| ^ 4 = x ^ 4 := by rw [show (4 : ℕ) = 2 * 2 by norm_num, pow_mul, sq_abs, ← pow_mul]
  rw [h3] at h1 h2
  have h4 : x ^ 2 ≤ X ^ 2 := by rw [← sq_abs]; exact pow_le_pow_left₀ (abs_nonneg x) hx 2
  have h5 : x ^ 4 ≤ X ^ 2 * x ^ 2 := by nlinarith [sq_nonneg x]
  rw [Real.cosh_eq]
  have e2 : (-x) ^ 2 = x ^ 2 := by ring
  have e3 : (-x) ^ 3 = -x ^ 3 := by ring
  nlinarith [h1.2, h2.2]

end GoTfhe
