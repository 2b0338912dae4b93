import Verif.Lemmas.DriftLower
import Verif.Lemmas.TailLower

/-!
# How often rounding moves the phase far: a sharper lower bound

The bound of `TailLower` for the rounding errors. It needs the mean of the cosine from both sides, so the fourth moment of
a uniform centred point enters.
-/

namespace GoTfhe

open Finset Real

/-- The sum of the fourth powers of `2h` centred points at distance one. -/
theorem sum_pow4_centred (h : ℕ) :
    ∑ k ∈ range (2 * h), ((k : ℝ) - h + 1 / 2) ^ 4 = (2 * h) * ((h : ℝ) ^ 4 / 5 - (h : ℝ) ^ 2 / 6 + 7 / 240) := by
  have key : ∀ (m : ℕ) (z : ℝ), ∑ k ∈ range m, ((k : ℝ) - z + 1 / 2) ^ 4
      = m * (z ^ 4 - 2 * z ^ 3 * m + z ^ 2 * (2 * (m : ℝ) ^ 2 - 1 / 2) - z * ((m : ℝ) ^ 3 - m / 2)
        + (m : ℝ) ^ 4 / 5 - (m : ℝ) ^ 2 / 6 + 7 / 240) := by
    intro m z
    induction m with
    | zero => simp
    | succ m ih =>
      rw [sum_range_succ, ih]
      push_cast
      ring
  rw [key]
  push_cast
  ring

/-- The exponential from below. -/
theorem le_exp_neg (a : ℝ) (h0 : 0 ≤ a) (h1 : a ≤ 1 / 4) : 1 - a + 3 / 8 * a ^ 2 ≤ exp (-a) := by
  have h2 : 1 - a / 8 ≤ exp (-(a / 8)) := by have := add_one_le_exp (-(a / 8)); linarith
  have h3 : (1 - a / 8) ^ 8 ≤ exp (-a) := by
    refine (pow_le_pow_left₀ (by linarith) h2 8).trans (le_of_eq ?_)
    rw [← exp_nat_mul]
    congr 1
    push_cast
    ring
  refine le_trans ?_ h3
  have e : (1 - a / 8) ^ 8 = (1 - a) + 28 / 64 * a ^ 2 - 56 / 512 * a ^ 3 + a ^ 4 * (70 / 4096 - 56 / 32768 * a
      + 28 / 262144 * a ^ 2 - 8 / 2097152 * a ^ 3 + a ^ 4 / 16777216) := by ring
  rw [e]
  have p3 : 0 ≤ a ^ 3 := pow_nonneg h0 3
  have p2 : 0 ≤ a ^ 2 := sq_nonneg a
  have b3 : a ^ 3 ≤ a ^ 2 * (1 / 4) := by
    have : a ^ 3 = a ^ 2 * a := by ring
    rw [this]; exact mul_le_mul_of_nonneg_left h1 p2
  have b4 : 0 ≤ a ^ 4 * (70 / 4096 - 56 / 32768 * a + 28 / 262144 * a ^ 2 - 8 / 2097152 * a ^ 3 + a ^ 4 / 16777216) := by
    refine mul_nonneg (pow_nonneg h0 4) ?_
    have : 0 ≤ a ^ 4 := pow_nonneg h0 4
    have : a ^ 2 ≤ 1 := by nlinarith
    nlinarith
  linarith

/-- The exponential from above. -/
theorem exp_neg_le_quad (b : ℝ) (h0 : 0 ≤ b) : exp (-b) ≤ 1 - b + b ^ 2 / 2 := by
  have h1 := quadratic_le_exp_of_nonneg h0
  have h2 : exp b * exp (-b) = 1 := by rw [← exp_add, add_neg_cancel, exp_zero]
  have h3 : 0 < exp (-b) := exp_pos _
  have h4 : (1 + b + b ^ 2 / 2) * exp (-b) ≤ 1 := (mul_le_mul_of_nonneg_right h1 h3.le).trans (le_of_eq h2)
  have h5 : 1 ≤ (1 + b + b ^ 2 / 2) * (1 - b + b ^ 2 / 2) := by nlinarith [sq_nonneg (b ^ 2)]
  have h6 : 0 < 1 + b + b ^ 2 / 2 := by positivity
  exact le_of_mul_le_mul_left (h4.trans h5) h6

/-- The mean of the cosine of a uniform centred point, from both sides; `a` is half the variance. -/
theorem mean_cos_centred (h : ℕ) (hh : 3 ≤ h) (t a : ℝ) (ha : a = t ^ 2 * ((h : ℝ) ^ 2 / 3 - 1 / 12) / 2) (ha1 : a ≤ 1 / 10) :
    (2 * h) * exp (-(a * (1 + a / 3))) ≤ ∑ k ∈ range (2 * h), cos (t * ((k : ℝ) - h + 1 / 2)) ∧
    ∑ k ∈ range (2 * h), cos (t * ((k : ℝ) - h + 1 / 2)) ≤ (2 * h) * exp (-a) := by
  have hR : (3 : ℝ) ≤ h := by exact_mod_cast hh
  have hR2 : (9 : ℝ) ≤ (h : ℝ) ^ 2 := by nlinarith
  have hv : 0 < (h : ℝ) ^ 2 / 3 - 1 / 12 := by linarith
  have ha0 : 0 ≤ a := by rw [ha]; positivity
  have hth : (t * h) ^ 2 ≤ 1 := by
    have : (t * h) ^ 2 = t ^ 2 * (h : ℝ) ^ 2 := by ring
    rw [this]
    have ht2 : 0 ≤ t ^ 2 := sq_nonneg t
    nlinarith
  have hty : ∀ k ∈ range (2 * h), |t * ((k : ℝ) - h + 1 / 2)| ≤ 1 := by
    intro k hk
    rw [mem_range] at hk
    have hk' : (k : ℝ) + 1 ≤ 2 * h := by exact_mod_cast hk
    have hk0 : (0 : ℝ) ≤ k := Nat.cast_nonneg k
    have hya : |(k : ℝ) - h + 1 / 2| ≤ h := by rw [abs_le]; constructor <;> linarith
    rw [abs_mul]
    refine (mul_le_mul_of_nonneg_left hya (abs_nonneg t)).trans ?_
    have : (|t| * h) ^ 2 ≤ 1 ^ 2 := by rw [mul_pow, sq_abs, ← mul_pow, one_pow]; exact hth
    exact le_of_sq_le_sq this (by norm_num)
  obtain ⟨S4, hS4⟩ : ∃ S4, S4 = (h : ℝ) ^ 4 / 5 - (h : ℝ) ^ 2 / 6 + 7 / 240 := ⟨_, rfl⟩
  have hm4 : S4 ≤ 9 / 5 * ((h : ℝ) ^ 2 / 3 - 1 / 12) ^ 2 := by rw [hS4]; nlinarith
  have hm4' : 17 / 10 * ((h : ℝ) ^ 2 / 3 - 1 / 12) ^ 2 ≤ S4 := by rw [hS4]; nlinarith
  have hsumlin : ∀ c : ℝ, ∑ k ∈ range (2 * h), (1 - t ^ 2 / 2 * ((k : ℝ) - h + 1 / 2) ^ 2
      + c * t ^ 4 * ((k : ℝ) - h + 1 / 2) ^ 4) = (2 * h) * (1 - a + c * t ^ 4 * S4) := by
    intro c
    rw [sum_add_distrib, sum_sub_distrib, ← mul_sum, ← mul_sum, sum_sq_centred, sum_pow4_centred, sum_const, card_range,
      nsmul_eq_mul, ha, hS4]
    push_cast
    ring
  have ht4 : 0 ≤ t ^ 4 := by positivity
  have h4a : t ^ 4 * ((h : ℝ) ^ 2 / 3 - 1 / 12) ^ 2 = 4 * a ^ 2 := by rw [ha]; ring
  constructor
  · have hk : ∀ k ∈ range (2 * h), 1 - t ^ 2 / 2 * ((k : ℝ) - h + 1 / 2) ^ 2 + 1 / 32 * t ^ 4 * ((k : ℝ) - h + 1 / 2) ^ 4
        ≤ cos (t * ((k : ℝ) - h + 1 / 2)) := by
      intro k hk
      have h1 := hty k hk
      obtain ⟨y, hy⟩ : ∃ y, y = t * ((k : ℝ) - h + 1 / 2) := ⟨_, rfl⟩
      rw [← hy] at h1 ⊢
      have e : 1 - t ^ 2 / 2 * ((k : ℝ) - h + 1 / 2) ^ 2 + 1 / 32 * t ^ 4 * ((k : ℝ) - h + 1 / 2) ^ 4
          = 2 * (1 - (y / 2) ^ 2 / 2) ^ 2 - 1 := by rw [hy]; ring
      rw [e, show y = 2 * (y / 2) by ring, cos_two_mul, show 2 * (y / 2) / 2 = y / 2 by ring]
      have h2 := one_sub_sq_div_two_le_cos (x := y / 2)
      have h3 : 0 ≤ 1 - (y / 2) ^ 2 / 2 := by
        have : y ^ 2 ≤ 1 := by rw [← sq_abs]; nlinarith [abs_nonneg y]
        nlinarith
      have := pow_le_pow_left₀ h3 h2 2
      linarith
    refine le_trans ?_ (sum_le_sum hk)
    rw [hsumlin]
    refine mul_le_mul_of_nonneg_left ?_ (by positivity)
    have h1 := exp_neg_le_quad (a * (1 + a / 3)) (by positivity)
    have h2 : t ^ 4 * (17 / 10 * ((h : ℝ) ^ 2 / 3 - 1 / 12) ^ 2) ≤ t ^ 4 * S4 := mul_le_mul_of_nonneg_left hm4' ht4
    have h3 : 1 - a * (1 + a / 3) + (a * (1 + a / 3)) ^ 2 / 2 ≤ 1 - a + 17 / 80 * a ^ 2 := by
      have e : 1 - a * (1 + a / 3) + (a * (1 + a / 3)) ^ 2 / 2 = 1 - a + a ^ 2 * (-(1 / 3) + (1 + a / 3) ^ 2 / 2) := by ring
      rw [e]
      have : -(1 / 3) + (1 + a / 3) ^ 2 / 2 ≤ 17 / 80 := by nlinarith
      have := mul_le_mul_of_nonneg_left this (sq_nonneg a)
      linarith
    linarith
  · have hk : ∀ k ∈ range (2 * h), cos (t * ((k : ℝ) - h + 1 / 2))
        ≤ 1 - t ^ 2 / 2 * ((k : ℝ) - h + 1 / 2) ^ 2 + 5 / 96 * t ^ 4 * ((k : ℝ) - h + 1 / 2) ^ 4 := by
      intro k hk
      have hb := (abs_le.1 (Real.cos_bound (hty k hk))).2
      have h4 : |t * ((k : ℝ) - h + 1 / 2)| ^ 4 = t ^ 4 * ((k : ℝ) - h + 1 / 2) ^ 4 := by
        rw [show (4 : ℕ) = 2 * 2 from rfl, pow_mul, sq_abs, mul_pow]
        ring
      rw [h4] at hb
      nlinarith
    refine (sum_le_sum hk).trans ?_
    rw [hsumlin]
    refine mul_le_mul_of_nonneg_left ?_ (by positivity)
    have h1 := le_exp_neg a ha0 (by linarith)
    have h2 : t ^ 4 * S4 ≤ t ^ 4 * (9 / 5 * ((h : ℝ) ^ 2 / 3 - 1 / 12) ^ 2) := mul_le_mul_of_nonneg_left hm4 ht4
    linarith

/-- The means of the cosines that `tailComb` combines: those of a normal distribution, the even ones a little less. -/
noncomputable def normalMean (ρ κ : ℝ) (w k : ℕ) : ℝ :=
  if k % 2 = 0 then ρ ^ (k ^ 2) * (1 - (k : ℝ) ^ 4 * κ ^ 2 / (3 * w)) else ρ ^ (k ^ 2)

/-- Counting the masks for which the rounding errors add up to at least `T`, with `ρ = exp (-κ)`: the sharper bound. -/
theorem card_far6 {P : Params} (W : WellFormed P) (s : List Torus) (hs : IsBinary s) (w h : ℕ) (T κ ρ : ℝ)
    (hh : 2 ^ (30 - P.trgswLv1.NBIT) = h) (h3 : 3 ≤ h) (hw : weight P.tlweLv0.N s = w) (hw0 : 0 < w) (hκ : 0 ≤ κ)
    (hρ : exp (-κ) = ρ) (hsmall : 36 * κ ≤ w / 10)
    (hT : 9 * κ * T ^ 2 ≤ 2 * π ^ 2 * (w * ((h : ℝ) ^ 2 / 3 - 1 / 12)))
    (σ : ℕ → Fin (2 ^ 32) ≃ Torus) (far : Finset (Mask P.tlweLv0.N))
    (hfar : ∀ a, T ≤ |∑ i : Fin P.tlweLv0.N, ((at' s i).toNat : ℝ) * ((roundErr P (σ i (a i)).toNat : ℝ) - 1 / 2)| → a ∈ far) :
    tailComb (normalMean ρ κ w) * (2 ^ 32) ^ P.tlweLv0.N ≤ far.card := by
  have hn := W.nbit_le
  have hR : (3 : ℝ) ≤ h := by exact_mod_cast h3
  have hwR : (0 : ℝ) < w := by exact_mod_cast hw0
  have hv : 0 < (h : ℝ) ^ 2 / 3 - 1 / 12 := by nlinarith
  have hcard : ((2 * 2 ^ P.trgswLv1.NBIT : ℕ) : ℝ) * (2 * h) = 2 ^ 32 := by
    have : (2 * 2 ^ P.trgswLv1.NBIT) * (2 * h) = 2 ^ 32 := by
      rw [← hh, ← pow_succ', ← pow_succ', ← pow_add]
      exact congrArg (fun k => 2 ^ k) (show _ = 32 by omega)
    exact_mod_cast this
  have hQ0 : (0 : ℝ) ≤ ((2 * 2 ^ P.trgswLv1.NBIT : ℕ) : ℝ) := by positivity
  have hbit : ∀ i, ((at' s i).toNat : ℝ) = 0 ∨ ((at' s i).toNat : ℝ) = 1 := by
    intro i
    rcases isBinary_at' hs i with e | e <;> rw [e]
    · left; norm_num
    · right; rw [show (1 : Torus).toNat = 1 from rfl]; norm_num
  have hcf : ((Fintype.card (Fin (2 ^ 32)) : ℕ) : ℝ) = 2 ^ 32 := by rw [Fintype.card_fin]; norm_num
  have hsumw : ∑ i : Fin P.tlweLv0.N, ((at' s i).toNat : ℝ) = w := by
    rw [Fin.sum_univ_eq_sum_range (fun i => ((at' s i).toNat : ℝ)) P.tlweLv0.N, ← hw]
    unfold weight
    push_cast
    rfl
  have hsum := fun (i : ℕ) (g : ℝ → ℝ) => sum_roundErr W (σ i) g
  simp only [hh] at hsum
  -- the frequency
  obtain ⟨v, hvd⟩ : ∃ v, v = (h : ℝ) ^ 2 / 3 - 1 / 12 := ⟨_, rfl⟩
  rw [← hvd] at hv hT
  obtain ⟨θ, hθd⟩ : ∃ θ, θ = sqrt (2 * κ / (w * v)) := ⟨_, rfl⟩
  have hθ0 : 0 ≤ θ := by rw [hθd]; exact sqrt_nonneg _
  have hθ2 : θ ^ 2 * v / 2 = κ / w := by
    rw [hθd, sq_sqrt (by positivity)]
    field_simp
  have hθT : θ * T ≤ 2 * π / 3 := by
    refine le_of_sq_le_sq ?_ (by positivity)
    have e : (θ * T) ^ 2 = 2 * κ / (w * v) * T ^ 2 := by rw [mul_pow, hθd, sq_sqrt (by positivity)]
    rw [e, div_mul_eq_mul_div, div_le_iff₀ (by positivity)]
    linarith
  -- one coordinate
  have hone : ∀ (k : ℕ), k ≤ 6 → ∀ i : Fin P.tlweLv0.N,
      2 ^ 32 * exp (-(((at' s i).toNat : ℝ) * ((k : ℝ) ^ 2 * (κ / w) * (1 + (k : ℝ) ^ 2 * (κ / w) / 3))))
        ≤ ∑ x, cos ((k : ℝ) * θ * (((at' s i).toNat : ℝ) * ((roundErr P (σ i x).toNat : ℝ) - 1 / 2))) ∧
      ∑ x, cos ((k : ℝ) * θ * (((at' s i).toNat : ℝ) * ((roundErr P (σ i x).toNat : ℝ) - 1 / 2)))
        ≤ 2 ^ 32 * exp (-(((at' s i).toNat : ℝ) * ((k : ℝ) ^ 2 * (κ / w)))) := by
    intro k hk i
    rcases hbit i with e | e
    · simp only [e, zero_mul, mul_zero, cos_zero, neg_zero, exp_zero, sum_const, card_univ, nsmul_eq_mul, mul_one,
        Fintype.card_fin]
      norm_num
    · simp only [e, one_mul]
      have hs1 := hsum i (fun y => cos ((k : ℝ) * θ * y))
      have hcs : ∀ j : ℕ, cos ((k : ℝ) * θ * -((j : ℝ) - (h : ℕ) + 1 / 2)) = cos ((k : ℝ) * θ * ((j : ℝ) - h + 1 / 2)) := by
        intro j
        rw [mul_neg, cos_neg]
      rw [sum_congr rfl fun j _ => hcs j] at hs1
      have hka : (k : ℝ) ^ 2 * (κ / w) = ((k : ℝ) * θ) ^ 2 * ((h : ℝ) ^ 2 / 3 - 1 / 12) / 2 := by
        rw [← hvd, ← hθ2]; ring
      have hk36 : (k : ℝ) ^ 2 ≤ 36 := by
        have : (k : ℝ) ≤ 6 := by exact_mod_cast hk
        have : (0 : ℝ) ≤ k := Nat.cast_nonneg k
        nlinarith
      have hk10 : (k : ℝ) ^ 2 * (κ / w) ≤ 1 / 10 := by
        rw [← mul_div_assoc, div_le_iff₀ hwR]
        have := mul_le_mul_of_nonneg_right hk36 hκ
        linarith
      obtain ⟨b1, b2⟩ := mean_cos_centred h h3 ((k : ℝ) * θ) _ hka hk10
      rw [hs1, ← hcard, mul_assoc _ (2 * (h : ℝ)), mul_assoc _ (2 * (h : ℝ))]
      exact ⟨mul_le_mul_of_nonneg_left b1 hQ0, mul_le_mul_of_nonneg_left b2 hQ0⟩
  have hprodexp : ∀ c : ℝ, ∏ i : Fin P.tlweLv0.N, (2 ^ 32 * exp (-(((at' s i).toNat : ℝ) * c)))
      = exp (-(w * c)) * (2 ^ 32) ^ P.tlweLv0.N := by
    intro c
    rw [prod_mul_distrib, prod_const, card_univ, Fintype.card_fin, ← exp_sum, mul_comm, sum_neg_distrib, ← sum_mul, hsumw]
  have hρk : ∀ k : ℕ, exp (-(w * ((k : ℝ) ^ 2 * (κ / w)))) = ρ ^ (k ^ 2) := by
    intro k
    rw [← hρ, ← exp_nat_mul]
    congr 1
    push_cast
    field_simp
  have := count_far6 (fun (i : Fin P.tlweLv0.N) x => ((at' s i).toNat : ℝ) * ((roundErr P (σ i x).toNat : ℝ) - 1 / 2)) T θ
    (normalMean ρ κ w) hθ0 hθT (fun i t => ?_) (fun k hk => ?_) (fun k hk => ?_) far hfar
  · rw [hcf, Fintype.card_fin] at this
    exact this
  · rcases hbit i with e | e
    · simp only [e, zero_mul, mul_zero, sin_zero, sum_const_zero]
    · simp only [e, one_mul]
      rw [hsum i (fun y => sin (t * y))]
      have hcs : ∀ k : ℕ, sin (t * -((k : ℝ) - (h : ℕ) + 1 / 2)) = -sin (t * ((k : ℝ) - h + 1 / 2)) := by
        intro k
        rw [mul_neg, sin_neg]
      rw [sum_congr rfl fun k _ => hcs k, sum_neg_distrib, sum_sin_centred, neg_zero, mul_zero]
  · rw [hcf, Fintype.card_fin]
    have hk6 : k ≤ 6 := by omega
    refine le_trans ?_ (prod_le_prod (fun i _ => by positivity) fun i _ => (hone k hk6 i).1)
    rw [hprodexp]
    refine mul_le_mul_of_nonneg_right ?_ (by positivity)
    unfold normalMean
    rw [if_pos (by omega), ← hρk]
    have hq := exp_near_lo (w * ((k : ℝ) ^ 2 * (κ / w))) ((k : ℝ) ^ 2 * (κ / w) / 3)
    refine le_trans (le_of_eq ?_) (hq.trans (le_of_eq ?_))
    · congr 2
      field_simp
    · congr 2
      ring
  · rw [hcf, Fintype.card_fin]
    have hk6 : k ≤ 6 := by omega
    refine (prod_le_prod (fun i _ => le_trans (by positivity) (hone k hk6 i).1) fun i _ => (hone k hk6 i).2).trans ?_
    rw [hprodexp, hρk]
    unfold normalMean
    rw [if_neg (by omega)]

end GoTfhe
