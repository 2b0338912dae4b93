import Verif.Lemmas.FftConv
import Mathlib.Analysis.SpecialFunctions.Complex.Circle
import Mathlib.Analysis.SpecialFunctions.Trigonometric.Basic
import Mathlib.Algebra.BigOperators.Intervals
import Mathlib.Tactic.LinearCombination
import Mathlib.Tactic.FieldSimp

/-!
# The transform over the complex numbers

Output `p` of the forward transform is the value of the polynomial at a point `c` with `c^(N/2) = i`, and the
inverse transform inverts the forward one up to the factor `N/2`.
-/

namespace GoTfhe

open Complex Finset

/-- Butterfly of the forward transform -/
def fwdB (_m _q : ℕ) (w u v : ℂ) : ℂ × ℂ := (u + v * w, u - v * w)

/-- Butterfly of the inverse transform -/
def invB (_m _q : ℕ) (w u v : ℂ) : ℂ × ℂ := (u + v, (u - v) * w)

/-- Factor `i` of the stage with `2^s` blocks: `exp(2πi(1 - 4 rev_s(i)) / (8 2^s))` -/
noncomputable def W (s i : ℕ) : ℂ := exp (2 * Real.pi * I * ((1 - 4 * (rev s i : ℂ)) / (8 * 2 ^ s)))

/-- Evaluation point of block `i` after `s` stages -/
noncomputable def pt : ℕ → ℕ → ℂ
  | 0, _ => I
  | s + 1, i => if i % 2 = 0 then W s (i / 2) else -W s (i / 2)

theorem W_ne_zero (s i : ℕ) : W s i ≠ 0 := exp_ne_zero _

theorem W_sq (s i : ℕ) (hi : i < 2 ^ s) : W s i ^ 2 = pt s i := by
  have h2 : ∀ x : ℂ, exp x ^ 2 = exp (2 * x) := by
    intro x; rw [← Complex.exp_nat_mul]; norm_num
  match s with
  | 0 =>
    rw [pt, W, h2]
    simp only [rev, Nat.cast_zero, mul_zero, sub_zero, pow_zero, mul_one]
    rw [show (2 * (2 * (Real.pi : ℂ) * I * (1 / 8))) = Real.pi / 2 * I by ring]
    exact Complex.exp_pi_div_two_mul_I
  | s + 1 =>
    rw [pt, W, h2]
    have h0 : (2 : ℂ) ^ s ≠ 0 := pow_ne_zero _ two_ne_zero
    by_cases h : i % 2 = 0
    · rw [if_pos h, rev, h, W]
      congr 1
      push_cast
      rw [pow_succ]
      field_simp
      ring
    · rw [if_neg h, rev, show i % 2 = 1 by omega, W]
      have e : 2 * (2 * (Real.pi : ℂ) * I * ((1 - 4 * ((1 * 2 ^ s + rev s (i / 2) : ℕ) : ℂ)) / (8 * 2 ^ (s + 1))))
          = 2 * Real.pi * I * ((1 - 4 * ((rev s (i / 2) : ℕ) : ℂ)) / (8 * 2 ^ s)) - Real.pi * I := by
        push_cast
        rw [pow_succ]
        field_simp
        ring
      rw [e, Complex.exp_sub, Complex.exp_pi_mul_I, div_neg, div_one]

theorem pt_sq (s i : ℕ) (hi : i < 2 ^ (s + 1)) : pt (s + 1) i ^ 2 = pt s (i / 2) := by
  have := W_sq s (i / 2) (by rw [pow_succ] at hi; omega)
  rw [pt]
  split_ifs
  · exact this
  · rw [neg_sq]; exact this

theorem pt_pow (s i : ℕ) (hi : i < 2 ^ s) : pt s i ^ 2 ^ s = I := by
  induction s generalizing i with
  | zero => simp [pt]
  | succ s ih =>
    rw [pow_succ', pow_mul, pt_sq s i hi, ih (i / 2) (by rw [pow_succ] at hi; omega)]

theorem norm_W (s i : ℕ) : ‖W s i‖ = 1 := by
  rw [W]
  have : (2 * (Real.pi : ℂ) * I * ((1 - 4 * (rev s i : ℂ)) / (8 * 2 ^ s)))
      = ((2 * Real.pi * ((1 - 4 * (rev s i : ℝ)) / (8 * 2 ^ s)) : ℝ) : ℂ) * I := by
    push_cast; ring
  rw [this, Complex.norm_exp_ofReal_mul_I]

theorem norm_pt (s i : ℕ) : ‖pt s i‖ = 1 := by
  cases s with
  | zero => simp [pt]
  | succ s => rw [pt]; split_ifs <;> simp [norm_W]

/-- `g` lists the forward factors of the first `k` stages. -/
def IsTw (k : ℕ) (g : ℕ → ℂ) : Prop := ∀ s < k, ∀ i < 2 ^ s, g (2 ^ s - 1 + i) = W s i

/-- `g` lists the inverse factors. -/
def IsTwInv (k : ℕ) (g : ℕ → ℂ) : Prop :=
  ∀ j < k, ∀ i < 2 ^ (k - 1 - j), g (2 ^ k - 2 ^ (k - j) + i) = (W (k - 1 - j) i)⁻¹

theorem fft_partial (k : ℕ) (g : ℕ → ℂ) (hg : IsTw k g) (z : ℕ → ℂ) (s d : ℕ) (hs : s + d = k) (i q : ℕ)
    (hi : i < 2 ^ s) (hq : q < 2 ^ d) :
    fftC fwdB k g s z (2 ^ d * i + q) = ∑ r ∈ range (2 ^ s), z (q + r * 2 ^ d) * pt s i ^ r := by
  induction s generalizing d i q with
  | zero =>
    have : i = 0 := by simpa using hi
    subst this
    simp [fftC]
  | succ s ih =>
    set h := 2 ^ d with hh
    have h0 : 0 < h := Nat.pow_pos (by omega)
    have hd2 : 2 ^ (d + 1) = 2 * h := by rw [pow_succ]; ring
    have ihs : ∀ q' < 2 * h, fftC fwdB k g s z (2 * h * (i / 2) + q')
        = ∑ r ∈ range (2 ^ s), z (q' + r * (2 * h)) * pt s (i / 2) ^ r := by
      intro q' hq'
      have := ih (d + 1) (by omega) (i / 2) q' (by rw [pow_succ] at hi; omega) (by rw [hd2]; exact hq')
      rwa [hd2] at this
    have hWi : g (2 ^ s - 1 + i / 2) = W s (i / 2) := hg s (by omega) _ (by rw [pow_succ] at hi; omega)
    have hdiv : ∀ q' < 2 * h, (2 * h * (i / 2) + q') / (2 * h) = i / 2 := by
      intro q' hq'
      rw [Nat.mul_add_div (by omega), Nat.div_eq_of_lt hq', add_zero]
    have hmod : ∀ q' < 2 * h, (2 * h * (i / 2) + q') % (2 * h) = q' := by
      intro q' hq'
      rw [Nat.mul_add_mod, Nat.mod_eq_of_lt hq']
    have hsq := W_sq s (i / 2) (by rw [pow_succ] at hi; omega)
    have hsum : ∀ w : ℂ, w ^ 2 = pt s (i / 2) →
        (∑ r ∈ range (2 ^ s), z (q + r * (2 * h)) * pt s (i / 2) ^ r)
          + (∑ r ∈ range (2 ^ s), z (q + h + r * (2 * h)) * pt s (i / 2) ^ r) * w
        = ∑ r ∈ range (2 ^ (s + 1)), z (q + r * h) * w ^ r := by
      intro w hw
      rw [show 2 ^ (s + 1) = 2 ^ s + 2 ^ s by ring, Finset.sum_mul, ← hw]
      have gen : ∀ n, (∑ r ∈ range n, z (q + r * (2 * h)) * (w ^ 2) ^ r)
          + (∑ r ∈ range n, z (q + h + r * (2 * h)) * (w ^ 2) ^ r * w)
          = ∑ r ∈ range (n + n), z (q + r * h) * w ^ r := by
        intro n
        induction n with
        | zero => simp
        | succ n ihn =>
          rw [Finset.sum_range_succ, Finset.sum_range_succ, show n + 1 + (n + 1) = n + n + 1 + 1 by omega,
            Finset.sum_range_succ, Finset.sum_range_succ, ← ihn]
          have e1 : q + n * (2 * h) = q + (n + n) * h := by ring
          have e2 : q + h + n * (2 * h) = q + (n + n + 1) * h := by ring
          rw [e1, e2, ← pow_mul]
          ring
      exact gen _
    rw [fftC, show k - 1 - s = d by omega, ← hh, stage]
    by_cases hpar : i % 2 = 0
    · have ei : h * i + q = 2 * h * (i / 2) + q := by
        have : i = 2 * (i / 2) := by omega
        conv_lhs => rw [this]
        ring
      rw [ei, hmod q (by omega), hdiv q (by omega), if_pos hq, add_assoc, ihs q (by omega), ihs (q + h) (by omega),
        hWi, fwdB, pt, if_pos hpar]
      exact hsum _ hsq
    · have ei : h * i + q = 2 * h * (i / 2) + (q + h) := by
        have : i = 2 * (i / 2) + 1 := by omega
        conv_lhs => rw [this]
        ring
      rw [ei, hmod (q + h) (by omega), hdiv (q + h) (by omega), if_neg (by omega),
        show 2 * h * (i / 2) + (q + h) - h = 2 * h * (i / 2) + q by omega, ihs q (by omega), ihs (q + h) (by omega),
        hWi, fwdB, pt, if_neg hpar]
      rw [← hsum _ (by rw [neg_sq]; exact hsq)]
      ring

/-- Every output is an evaluation. -/
theorem fft_eval (k : ℕ) (g : ℕ → ℂ) (hg : IsTw k g) (z : ℕ → ℂ) (p : ℕ) (hp : p < 2 ^ k) :
    fftC fwdB k g k z p = ∑ r ∈ range (2 ^ k), z r * pt k p ^ r := by
  have := fft_partial k g hg z k 0 (by omega) p 0 hp (by simp)
  simpa using this

theorem stage_inv_fwd {n n' : ℕ} (h : ℕ) (h0 : 0 < h) (w w' : ℕ → ℂ) (m : ℕ) (hw : ∀ i < m, w' i * w i = 1) (c : ℂ)
    (y z : ℕ → ℂ) (hy : ∀ x < m * (2 * h), y x = c * stage (fwdB n) h w z x) (x : ℕ) (hx : x < m * (2 * h)) :
    stage (invB n') h w' y x = 2 * c * z x := by
  have hlt : x / (2 * h) < m := Nat.div_lt_of_lt_mul (by rw [mul_comm]; exact hx)
  have hle : (x / (2 * h) + 1) * (2 * h) ≤ m * (2 * h) := Nat.mul_le_mul_right _ hlt
  have hml := Nat.mod_lt x (show 0 < 2 * h by omega)
  have hd := Nat.div_add_mod x (2 * h)
  have hd' : x = 2 * h * (x / (2 * h)) + x % (2 * h) := hd.symm
  rw [add_mul, one_mul, mul_comm (x / (2 * h))] at hle
  have hww := hw _ hlt
  set i := x / (2 * h)
  set q := x % (2 * h)
  have key : ∀ q' < 2 * h, (2 * h * i + q') / (2 * h) = i ∧ (2 * h * i + q') % (2 * h) = q' := by
    intro q' hq'
    refine ⟨?_, ?_⟩
    · rw [Nat.mul_add_div (by omega), Nat.div_eq_of_lt hq', add_zero]
    · rw [Nat.mul_add_mod, Nat.mod_eq_of_lt hq']
  have pair : ∀ q' < h, y (2 * h * i + q') = c * (z (2 * h * i + q') + z (2 * h * i + q' + h) * w i)
      ∧ y (2 * h * i + q' + h) = c * (z (2 * h * i + q') - z (2 * h * i + q' + h) * w i) := by
    intro q' hq'
    refine ⟨?_, ?_⟩
    · rw [hy _ (by omega), stage, (key q' (by omega)).1, (key q' (by omega)).2, if_pos hq']
      rfl
    · rw [add_assoc, hy _ (by omega), stage, (key (q' + h) (by omega)).1, (key (q' + h) (by omega)).2,
        if_neg (by omega), show 2 * h * i + (q' + h) - h = 2 * h * i + q' by omega]
      rfl
  rw [stage]
  by_cases hq : q < h
  · obtain ⟨p1, p2⟩ := pair q hq
    rw [← hd'] at p1 p2
    rw [if_pos hq, invB]
    simp only
    rw [p1, p2]
    ring
  · obtain ⟨p1, p2⟩ := pair (q - h) (by omega)
    have e1 : 2 * h * i + (q - h) = x - h := by omega
    have e2 : x - h + h = x := by omega
    rw [e1, e2] at p1 p2
    rw [if_neg hq, invB]
    simp only
    rw [p1, p2]
    linear_combination (2 * c * z x) * hww

theorem ifft_fft (k : ℕ) (g g' : ℕ → ℂ) (hg : IsTw k g) (hg' : IsTwInv k g') (y z : ℕ → ℂ)
    (hy : ∀ p < 2 ^ k, y p = fftC fwdB k g k z p) (j : ℕ) (hj : j ≤ k) :
    ∀ p < 2 ^ k, ifftC invB k g' j y p = 2 ^ j * fftC fwdB k g (k - j) z p := by
  induction j with
  | zero =>
    intro p hp
    simp [ifftC, hy p hp]
  | succ j ih =>
    intro p hp
    have ih' := ih (by omega)
    have hm : 2 ^ (k - 1 - j) * (2 * 2 ^ j) = 2 ^ k := by
      rw [← pow_succ', ← pow_add]; congr 1; omega
    rw [ifftC, show k - (j + 1) = k - 1 - j by omega]
    have hst : ∀ x < 2 ^ (k - 1 - j) * (2 * 2 ^ j), ifftC invB k g' j y x
        = 2 ^ j * stage (fwdB (2 ^ (k - 1 - j))) (2 ^ j) (fun i => g (2 ^ (k - 1 - j) - 1 + i)) (fftC fwdB k g (k - 1 - j) z) x := by
      intro x hx
      rw [hm] at hx
      rw [ih' x hx, show k - j = (k - 1 - j) + 1 by omega, fftC, show k - 1 - (k - 1 - j) = j by omega]
    rw [stage_inv_fwd (2 ^ j) (Nat.pow_pos (by omega)) (fun i => g (2 ^ (k - 1 - j) - 1 + i)) _ (2 ^ (k - 1 - j))
      (fun i hi => by
        rw [hg' j (by omega) i hi, hg _ (by omega) i hi]
        exact inv_mul_cancel₀ (W_ne_zero _ _)) (2 ^ j) _ _ hst p (by rw [hm]; exact hp)]
    rw [pow_succ]
    ring

/-- Product of evaluations at a point with `c^N = -1`. -/
theorem eval_mul {K : Type} [CommRing K] (N : ℕ) (c : K) (hc : c ^ N = -1) (a b : ℕ → K) :
    (∑ i ∈ range N, a i * c ^ i) * (∑ j ∈ range N, b j * c ^ j)
      = ∑ k ∈ range N, (∑ i ∈ range N, if i ≤ k then a i * b (k - i) else -(a i * b (k + N - i))) * c ^ k := by
  simp only [Finset.sum_mul]
  rw [Finset.sum_comm]
  apply Finset.sum_congr rfl
  intro i hi
  have hiN : i < N := Finset.mem_range.1 hi
  obtain ⟨d, rfl⟩ : ∃ d, N = d + i := ⟨N - i, by omega⟩
  rw [Finset.mul_sum]
  rw [Finset.sum_range_add]
  conv_rhs => rw [add_comm d i, Finset.sum_range_add]
  rw [add_comm]
  congr 1
  · apply Finset.sum_congr rfl
    intro j hj
    have hji : j < i := Finset.mem_range.1 hj
    rw [if_neg (by omega), show j + (i + d) - i = d + j by omega]
    have : c ^ i * c ^ (d + j) = -c ^ j := by
      rw [← pow_add, show i + (d + j) = (d + i) + j by omega, pow_add, hc]; ring
    calc a i * c ^ i * (b (d + j) * c ^ (d + j)) = a i * b (d + j) * (c ^ i * c ^ (d + j)) := by ring
      _ = _ := by rw [this]; ring
  · apply Finset.sum_congr rfl
    intro j _
    rw [if_pos (by omega), show i + j - i = j by omega, pow_add]
    ring

/-- The folded sequence evaluates the polynomial. -/
theorem fold_eval (M : ℕ) (c : ℂ) (hc : c ^ M = I) (a : ℕ → ℂ) :
    ∑ r ∈ range M, (a r + a (r + M) * I) * c ^ r = ∑ j ∈ range (M + M), a j * c ^ j := by
  rw [Finset.sum_range_add, ← Finset.sum_add_distrib]
  apply Finset.sum_congr rfl
  intro r _
  rw [pow_add, hc, add_comm r M]
  ring

end GoTfhe
