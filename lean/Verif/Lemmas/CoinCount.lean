import Verif.Spec.Coins
import Verif.Lemmas.TailLower
import Mathlib.Analysis.SpecialFunctions.Trigonometric.Series
import Mathlib.Analysis.SpecialFunctions.Trigonometric.DerivHyp
import Mathlib.Analysis.SpecialFunctions.Log.Basic

/-!
# Sums of signed, randomly selected numbers
-/

namespace GoTfhe

open Finset Real

/-- `0` if the first coin says no, otherwise the sign the second coin says. -/
def coinSign (c : Bool × Bool) : ℤ := if c.1 then (if c.2 then 1 else -1) else 0

/-- The sum that a tape selects. -/
def coinSum {ι : Type} [Fintype ι] (u : ι → ℤ) (a : CoinTape ι) : ℤ := ∑ i, u i * coinSign (a i)

theorem sum_coin (g : ℝ → ℝ) (u : ℤ) :
    ∑ x : Bool × Bool, g ((u : ℝ) * (coinSign x : ℝ)) = 2 * g 0 + g u + g (-u) := by
  rw [Fintype.sum_prod_type]
  simp only [Fintype.sum_bool, coinSign]
  norm_num
  ring

theorem coinSum_neg {ι : Type} [Fintype ι] (u : ι → ℤ) (a : CoinTape ι) :
    coinSum u (fun i => ((a i).1, !(a i).2)) = -coinSum u a := by
  unfold coinSum
  rw [← sum_neg_distrib]
  refine sum_congr rfl fun i _ => ?_
  show u i * coinSign ((a i).1, !(a i).2) = -(u i * coinSign (a i))
  generalize a i = c
  obtain ⟨p, q⟩ := c
  cases p <;> cases q <;> simp [coinSign]

/-- Chernoff's bound for coins. -/
theorem coin_tail {ι : Type} [Fintype ι] (u : ι → ℤ) (U T : ℝ) (hu : ∑ i, (u i : ℝ) ^ 2 ≤ U)
    (hU : 0 < U) (hT : 0 ≤ T) (bad : Finset (CoinTape ι)) (hbad : ∀ a ∈ bad, T ≤ (coinSum u a : ℝ)) :
    (bad.card : ℝ) ≤ exp (-(T ^ 2 / U)) * 4 ^ Fintype.card ι := by
  classical
  set t := 2 * T / U with ht
  have ht0 : 0 ≤ t := by positivity
  have h1 : (bad.card : ℝ) * exp (t * T) ≤ ∑ a : CoinTape ι, ∏ i, exp (t * ((u i : ℝ) * (coinSign (a i) : ℝ))) := by
    calc (bad.card : ℝ) * exp (t * T) = ∑ _a ∈ bad, exp (t * T) := by rw [sum_const, nsmul_eq_mul]
      _ ≤ ∑ a ∈ bad, ∏ i, exp (t * ((u i : ℝ) * (coinSign (a i) : ℝ))) := by
          refine sum_le_sum fun a ha => ?_
          rw [← exp_sum, ← mul_sum]
          have := hbad a ha
          unfold coinSum at this
          push_cast at this
          exact exp_le_exp.2 (mul_le_mul_of_nonneg_left this ht0)
      _ ≤ _ := sum_le_sum_of_subset_of_nonneg (subset_univ _) fun a _ _ => prod_nonneg fun i _ => (exp_pos _).le
  have h2 : ∑ a : CoinTape ι, ∏ i, exp (t * ((u i : ℝ) * (coinSign (a i) : ℝ)))
      = ∏ i, ∑ x, exp (t * ((u i : ℝ) * (coinSign x : ℝ))) := by
    rw [prod_univ_sum, Fintype.piFinset_univ]
  have hM : ∀ i, ∑ x, exp (t * ((u i : ℝ) * (coinSign x : ℝ))) ≤ 4 * exp (t ^ 2 * (u i : ℝ) ^ 2 / 4) := by
    intro i
    rw [sum_coin (fun y => exp (t * y))]
    set y := t * (u i : ℝ) / 2 with hy
    have hc := Real.cosh_le_exp_half_sq y
    have hc1 := Real.one_le_cosh y
    have hc0 : 0 ≤ cosh y := by linarith
    have h3 : cosh y ^ 2 ≤ exp (y ^ 2 / 2) ^ 2 := pow_le_pow_left₀ hc0 hc 2
    rw [← exp_nat_mul] at h3
    have e : (((2 : ℕ) : ℝ) * (y ^ 2 / 2)) = t ^ 2 * (u i : ℝ) ^ 2 / 4 := by rw [hy]; push_cast; ring
    rw [e] at h3
    have e2 : 2 * exp (t * 0) + exp (t * (u i : ℝ)) + exp (t * -(u i : ℝ)) = 4 * cosh y ^ 2 := by
      rw [Real.cosh_eq, mul_zero, exp_zero, show t * (u i : ℝ) = y + y by rw [hy]; ring,
        show t * -(u i : ℝ) = -y + -y by rw [hy]; ring, exp_add, exp_add]
      have : exp y * exp (-y) = 1 := by rw [← exp_add, add_neg_cancel, exp_zero]
      linear_combination -2 * this
    rw [e2]
    linarith
  have h3 : ∏ i, ∑ x, exp (t * ((u i : ℝ) * (coinSign x : ℝ))) ≤ ∏ i, (4 * exp (t ^ 2 * (u i : ℝ) ^ 2 / 4)) :=
    prod_le_prod (fun i _ => sum_nonneg fun x _ => (exp_pos _).le) fun i _ => hM i
  have h4 : ∏ i, (4 * exp (t ^ 2 * (u i : ℝ) ^ 2 / 4)) ≤ 4 ^ Fintype.card ι * exp (t ^ 2 * U / 4) := by
    rw [prod_mul_distrib, prod_const, card_univ, ← exp_sum, ← sum_div, ← mul_sum]
    refine mul_le_mul_of_nonneg_left (exp_le_exp.2 ?_) (by positivity)
    have := mul_le_mul_of_nonneg_left hu (sq_nonneg t)
    linarith
  have h5 : (bad.card : ℝ) * exp (t * T) ≤ 4 ^ Fintype.card ι * exp (t ^ 2 * U / 4) := by
    rw [h2] at h1; exact h1.trans (h3.trans h4)
  have h6 : exp (-(T ^ 2 / U)) = exp (t ^ 2 * U / 4) * exp (-(t * T)) := by
    rw [← exp_add, ht]; congr 1; field_simp; ring
  calc (bad.card : ℝ) = (bad.card : ℝ) * exp (t * T) * exp (-(t * T)) := by
        rw [mul_assoc, ← exp_add, add_neg_cancel, exp_zero, mul_one]
    _ ≤ 4 ^ Fintype.card ι * exp (t ^ 2 * U / 4) * exp (-(t * T)) := mul_le_mul_of_nonneg_right h5 (exp_pos _).le
    _ = _ := by rw [h6]; ring

/-- `1 - x` from below by an exponential. -/
theorem exp_le_one_sub (x : ℝ) (h0 : 0 ≤ x) (h1 : x ≤ 1 / 2) : exp (-(x * (1 + 2 * x))) ≤ 1 - x := by
  have hp : 0 < 1 - x := by linarith
  have h := one_sub_inv_le_log_of_pos hp
  have h2 : -(x * (1 + 2 * x)) ≤ log (1 - x) := by
    refine le_trans ?_ h
    rw [le_sub_iff_add_le, ← le_sub_iff_add_le', inv_le_comm₀ hp (by nlinarith)]
    rw [inv_le_iff_one_le_mul₀ (by nlinarith)]
    nlinarith [mul_nonneg h0 (by linarith : (0 : ℝ) ≤ 1 / 2 - x), mul_nonneg (mul_nonneg h0 h0) (by linarith : (0 : ℝ) ≤ 1 / 2 - x)]
  exact (le_log_iff_exp_le hp).1 h2

/-- Means of cosines that are nearly Gaussian: `k`-th mean `ρ^(k²)`, up to a relative error. -/
noncomputable def gaussMean (ρ q : ℝ) (k : ℕ) : ℝ := ρ ^ (k ^ 2) * (1 + (if k % 2 = 0 then -1 else 1) * ((k : ℝ) ^ 4 * q / 2))

/-- The mean of a cosine of a coin. -/
theorem coin_cos_bounds (y : ℝ) (hy : |y| ≤ 1) :
    exp (-(y ^ 2 / 4 * (1 + y ^ 2 / 2))) ≤ (1 + cos y) / 2 ∧ (1 + cos y) / 2 ≤ exp (-(y ^ 2 / 4 * (1 - 5 / 48 * y ^ 2))) := by
  have hy2 : y ^ 2 ≤ 1 := by rw [← sq_abs]; nlinarith [abs_nonneg y]
  constructor
  · have h1 := one_sub_sq_div_two_le_cos (x := y)
    have h2 := exp_le_one_sub (y ^ 2 / 4) (by positivity) (by linarith)
    rw [show y ^ 2 / 4 * (1 + y ^ 2 / 2) = y ^ 2 / 4 * (1 + 2 * (y ^ 2 / 4)) by ring]
    linarith
  · have h1 := (abs_le.1 (cos_bound hy)).2
    have h4 : |y| ^ 4 = y ^ 4 := by rw [show (4 : ℕ) = 2 * 2 from rfl, pow_mul, sq_abs, pow_mul]
    rw [h4] at h1
    have h2 := add_one_le_exp (-(y ^ 2 / 4 * (1 - 5 / 48 * y ^ 2)))
    nlinarith

/-- From exponents near `k² κ` to `gaussMean`. -/
theorem gaussMean_bounds (κ z : ℝ) (hκ : 0 ≤ κ) (hz : 0 ≤ z) (hsmall : 625 * (κ * z) ≤ 2) (k : ℕ) :
    (k % 2 = 0 → gaussMean (exp (-κ)) (κ * z) k ≤ exp (-((k : ℝ) ^ 2 * κ * (1 + (k : ℝ) ^ 2 * z / 2)))) ∧
    (k % 2 = 1 → k ≤ 5 → exp (-((k : ℝ) ^ 2 * κ * (1 - (k : ℝ) ^ 2 * z / 4))) ≤ gaussMean (exp (-κ)) (κ * z) k) := by
  have e : exp (-κ) ^ (k ^ 2) = exp (-((k : ℝ) ^ 2 * κ)) := by
    rw [← exp_nat_mul]; push_cast; congr 1; ring
  constructor
  · intro h
    have := exp_near_lo ((k : ℝ) ^ 2 * κ) ((k : ℝ) ^ 2 * z / 2)
    refine le_trans (le_of_eq ?_) this
    unfold gaussMean
    rw [e, if_pos h]; ring
  · intro h hk
    have hk4 : (k : ℝ) ^ 4 ≤ 625 := by
      have : (k : ℝ) ≤ 5 := by exact_mod_cast hk
      calc (k : ℝ) ^ 4 ≤ 5 ^ 4 := pow_le_pow_left₀ (by positivity) this 4
        _ = 625 := by norm_num
    have hs : (k : ℝ) ^ 2 * κ * ((k : ℝ) ^ 2 * z / 4) ≤ 1 / 2 := by
      have : (k : ℝ) ^ 4 * (κ * z) ≤ 625 * (κ * z) := mul_le_mul_of_nonneg_right hk4 (by positivity)
      nlinarith
    rcases exp_near_hi ((k : ℝ) ^ 2 * κ) ((k : ℝ) ^ 2 * z / 4) hs with h1 | h1
    · refine h1.trans (le_of_eq ?_)
      unfold gaussMean
      rw [e, if_neg (by omega)]; ring
    · exact absurd h1 (not_lt.2 (by positivity))

/-- Enough tapes select a large sum. -/
theorem coin_far {ι : Type} [Fintype ι] (u : ι → ℤ) (U T θ y0 κ : ℝ) (hU : ∑ i, (u i : ℝ) ^ 2 = U)
    (hθ : 0 ≤ θ) (hκ : κ = θ ^ 2 * U / 4) (hT : θ * T ≤ 2 * π / 3) (hy : ∀ i, θ * |(u i : ℝ)| ≤ y0)
    (hy1 : 6 * y0 ≤ 1) (hsmall : 625 * (κ * y0 ^ 2) ≤ 2)
    (far : Finset (CoinTape ι)) (hfar : ∀ a, T ≤ |(coinSum u a : ℝ)| → a ∈ far) :
    tailComb (gaussMean (exp (-κ)) (κ * y0 ^ 2)) * 4 ^ Fintype.card ι ≤ far.card := by
  classical
  have hcard : ((Fintype.card (Bool × Bool) : ℕ) : ℝ) = 4 := by norm_num [Fintype.card_prod, Fintype.card_bool]
  have hU0 : 0 ≤ U := by rw [← hU]; exact sum_nonneg fun i _ => sq_nonneg _
  have hκ0 : 0 ≤ κ := by rw [hκ]; positivity
  have hmean : ∀ (k : ℕ) (i : ι), ∑ x, cos ((k : ℝ) * θ * ((u i : ℝ) * (coinSign x : ℝ)))
      = 4 * ((1 + cos ((k : ℝ) * θ * (u i : ℝ))) / 2) := by
    intro k i
    rw [sum_coin (fun y => cos ((k : ℝ) * θ * y)), mul_zero, cos_zero, mul_neg, cos_neg]; ring
  have hprod : ∀ k : ℕ, ∏ i, ∑ x, cos ((k : ℝ) * θ * ((u i : ℝ) * (coinSign x : ℝ)))
      = 4 ^ Fintype.card ι * ∏ i, ((1 + cos ((k : ℝ) * θ * (u i : ℝ))) / 2) := by
    intro k
    rw [prod_congr rfl fun i _ => hmean k i, prod_mul_distrib, prod_const, card_univ]
  have hyk : ∀ (k : ℕ) (i : ι), k ≤ 6 → |(k : ℝ) * θ * (u i : ℝ)| ≤ k * y0 ∧ (k : ℝ) * y0 ≤ 1 := by
    intro k i hk
    have hk' : (k : ℝ) ≤ 6 := by exact_mod_cast hk
    have hy0 : 0 ≤ y0 := le_trans (by positivity) (hy i)
    refine ⟨?_, by nlinarith⟩
    rw [mul_assoc, abs_mul, abs_mul, abs_of_nonneg hθ, abs_of_nonneg (Nat.cast_nonneg k)]
    exact mul_le_mul_of_nonneg_left (hy i) (Nat.cast_nonneg k)
  have hsq : ∀ (k : ℕ) (i : ι), k ≤ 6 → ((k : ℝ) * θ * (u i : ℝ)) ^ 2 ≤ (k : ℝ) ^ 2 * y0 ^ 2 := by
    intro k i hk
    rw [← sq_abs, ← mul_pow]
    exact pow_le_pow_left₀ (abs_nonneg _) (hyk k i hk).1 2
  have hexp : ∀ (k : ℕ) (c : ℝ), ∏ i, exp (-(((k : ℝ) * θ * (u i : ℝ)) ^ 2 / 4 * c)) = exp (-((k : ℝ) ^ 2 * κ * c)) := by
    intro k c
    rw [← exp_sum, sum_neg_distrib, ← sum_mul]
    congr 3
    rw [hκ, ← hU, mul_sum, sum_div, mul_sum]
    exact sum_congr rfl fun i _ => by ring
  have hb := fun k => gaussMean_bounds κ (y0 ^ 2) hκ0 (sq_nonneg y0) hsmall k
  have main := count_far6 (fun i (x : Bool × Bool) => (u i : ℝ) * (coinSign x : ℝ)) T θ
    (gaussMean (exp (-κ)) (κ * y0 ^ 2)) hθ hT (fun i t => ?_) (fun k hk => ?_) (fun k hk => ?_) far (fun a ha => hfar a ?_)
  · rw [hcard] at main
    exact main
  · rw [sum_coin (fun y => sin (t * y)), mul_zero, sin_zero, mul_neg, sin_neg]; ring
  · rw [hprod, hcard, mul_comm]
    refine mul_le_mul_of_nonneg_left (((hb k).1 (by omega)).trans ?_) (by positivity)
    rw [← hexp k]
    refine prod_le_prod (fun i _ => (exp_pos _).le) fun i _ => ?_
    have h1 := (coin_cos_bounds _ ((hyk k i (by omega)).1.trans (hyk k i (by omega)).2)).1
    refine le_trans (exp_le_exp.2 (neg_le_neg ?_)) h1
    refine mul_le_mul_of_nonneg_left ?_ (by positivity)
    linarith [hsq k i (by omega)]
  · rw [hprod, hcard, mul_comm _ ((4 : ℝ) ^ _)]
    refine mul_le_mul_of_nonneg_left (le_trans ?_ ((hb k).2 (by omega) (by omega))) (by positivity)
    rw [← hexp k]
    refine prod_le_prod (fun i _ => ?_) fun i _ => ?_
    · have := neg_one_le_cos ((k : ℝ) * θ * (u i : ℝ)); linarith
    have h1 := (coin_cos_bounds _ ((hyk k i (by omega)).1.trans (hyk k i (by omega)).2)).2
    refine le_trans h1 (exp_le_exp.2 (neg_le_neg ?_))
    refine mul_le_mul_of_nonneg_left ?_ (by positivity)
    have := hsq k i (by omega)
    have h0 : 0 ≤ ((k : ℝ) * θ * (u i : ℝ)) ^ 2 := sq_nonneg _
    linarith
  · unfold coinSum at *
    push_cast
    exact ha

/-- Half of the large sums are positive, half negative. -/
theorem coin_sides {ι : Type} [Fintype ι] (u : ι → ℤ) (T : ℤ) :
    (Set.ncard {a : CoinTape ι | T ≤ |coinSum u a|} : ℝ) ≤ 2 * Set.ncard {a : CoinTape ι | T ≤ coinSum u a} ∧
    Set.ncard {a : CoinTape ι | T ≤ coinSum u a} = Set.ncard {a : CoinTape ι | T ≤ -coinSum u a} := by
  classical
  let flip : CoinTape ι → CoinTape ι := fun a i => ((a i).1, !(a i).2)
  have hff : ∀ a, flip (flip a) = a := by intro a; funext i; simp [flip]
  have hinj : Function.Injective flip := fun a b h => by rw [← hff a, ← hff b, h]
  have e : {a : CoinTape ι | T ≤ -coinSum u a} = flip '' {a | T ≤ coinSum u a} := by
    ext a
    constructor
    · intro h
      refine ⟨flip a, ?_, hff a⟩
      show T ≤ coinSum u (flip a)
      rw [coinSum_neg]; exact h
    · rintro ⟨b, hb, rfl⟩
      show T ≤ -coinSum u (flip b)
      rw [coinSum_neg, neg_neg]; exact hb
  have heq : Set.ncard {a : CoinTape ι | T ≤ coinSum u a} = Set.ncard {a : CoinTape ι | T ≤ -coinSum u a} := by
    rw [e, Set.ncard_image_of_injective _ hinj]
  refine ⟨?_, heq⟩
  have hsub : {a : CoinTape ι | T ≤ |coinSum u a|} ⊆ {a | T ≤ coinSum u a} ∪ {a | T ≤ -coinSum u a} := by
    intro a ha
    rcases le_abs.1 (show T ≤ |coinSum u a| from ha) with h | h
    · exact Or.inl h
    · exact Or.inr h
  have h1 := (Set.ncard_le_ncard hsub (Set.toFinite _)).trans (Set.ncard_union_le _ _)
  rw [← heq] at h1
  have : (Set.ncard {a : CoinTape ι | T ≤ |coinSum u a|} : ℝ)
      ≤ ((Set.ncard {a : CoinTape ι | T ≤ coinSum u a} + Set.ncard {a : CoinTape ι | T ≤ coinSum u a} : ℕ) : ℝ) := by
    exact_mod_cast h1
  push_cast at this
  linarith

end GoTfhe
