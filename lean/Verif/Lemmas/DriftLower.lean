import Verif.Lemmas.DriftCount
import Mathlib.Analysis.SpecialFunctions.Trigonometric.Bounds
import Mathlib.Analysis.Complex.Trigonometric
import Mathlib.Analysis.Real.Pi.Bounds

/-!
# How often rounding moves the phase far: a lower bound

The indicator of `|x| ≥ T` is at least `(cos² - cos)/2` of `π x / 2T`, and the mean of a cosine of a sum of independent
terms is a product.
-/

namespace GoTfhe

open Finset Real

/-- The mean of the cosine of a sum of independent symmetric terms is the product of the means. -/
theorem sum_cos_prod {n : ℕ} {α : Type} [Fintype α] (f : Fin n → α → ℝ)
    (hsym : ∀ i, ∑ x, sin (f i x) = 0) :
    ∑ a : Fin n → α, cos (∑ i, f i (a i)) = ∏ i, ∑ x, cos (f i x) := by
  classical
  have h1 : ∑ a : Fin n → α, ∏ i, Complex.exp ((f i (a i) : ℂ) * Complex.I)
      = ∏ i, ∑ x, Complex.exp ((f i x : ℂ) * Complex.I) := by
    rw [prod_univ_sum, Fintype.piFinset_univ]
  have h2 : ∀ i, ∑ x, Complex.exp ((f i x : ℂ) * Complex.I) = ((∑ x, cos (f i x) : ℝ) : ℂ) := by
    intro i
    have : ∀ x, Complex.exp ((f i x : ℂ) * Complex.I) = ((cos (f i x) : ℝ) : ℂ) + ((sin (f i x) : ℝ) : ℂ) * Complex.I := by
      intro x
      rw [Complex.exp_mul_I]
      push_cast
      rfl
    rw [sum_congr rfl fun x _ => this x, sum_add_distrib, ← sum_mul, ← Complex.ofReal_sum, ← Complex.ofReal_sum, hsym]
    simp
  have h3 : ∀ a : Fin n → α, (∏ i, Complex.exp ((f i (a i) : ℂ) * Complex.I)).re = cos (∑ i, f i (a i)) := by
    intro a
    rw [← Complex.exp_sum, ← sum_mul, ← Complex.ofReal_sum, Complex.exp_ofReal_mul_I_re]
  have h4 := congrArg Complex.re h1
  rw [Complex.re_sum, sum_congr rfl fun a _ => h3 a] at h4
  rw [h4, prod_congr rfl fun i _ => h2 i, ← Complex.ofReal_prod, Complex.ofReal_re]

/-- Counting from below: enough tapes make the sum of independent symmetric terms large. -/
theorem count_far {n : ℕ} {α : Type} [Fintype α] (f : Fin n → α → ℝ) (T q : ℝ) (hT : 0 < T)
    (hsin : ∀ i t, ∑ x, sin (t * f i x) = 0)
    (hcos2 : ∀ i, 0 ≤ ∑ x, cos (π / T * f i x))
    (hcos : ∏ i, ∑ x, cos (π / (2 * T) * f i x) ≤ exp (-q) * (Fintype.card α : ℝ) ^ n)
    (far : Finset (Fin n → α)) (hfar : ∀ a, T ≤ |∑ i, f i (a i)| → a ∈ far) :
    (1 / 4 - exp (-q) / 2) * (Fintype.card α : ℝ) ^ n ≤ far.card := by
  classical
  let X : (Fin n → α) → ℝ := fun a => ∑ i, f i (a i)
  let c : (Fin n → α) → ℝ := fun a => cos (π / (2 * T) * X a)
  have hpt : ∀ a, (c a ^ 2 - c a) / 2 ≤ if a ∈ far then 1 else 0 := by
    intro a
    have hle : c a ≤ 1 := cos_le_one _
    have hge : -1 ≤ c a := neg_one_le_cos _
    by_cases ha : a ∈ far
    · rw [if_pos ha]; nlinarith
    · rw [if_neg ha]
      have hlt : |X a| < T := by
        by_contra hc
        exact ha (hfar a (not_lt.1 hc))
      rw [abs_lt] at hlt
      have hc0 : 0 ≤ c a := by
        refine cos_nonneg_of_neg_pi_div_two_le_of_le ?_ ?_
        · rw [div_mul_eq_mul_div, le_div_iff₀ (by positivity)]
          nlinarith [pi_pos]
        · rw [div_mul_eq_mul_div, div_le_iff₀ (by positivity)]
          nlinarith [pi_pos]
      nlinarith
  have hsum : ∑ a, (c a ^ 2 - c a) / 2 ≤ (far.card : ℝ) := by
    refine (sum_le_sum fun a _ => hpt a).trans (le_of_eq ?_)
    rw [sum_ite_mem, univ_inter, sum_const, nsmul_eq_mul, mul_one]
  have hsq : ∀ a, c a ^ 2 = 1 / 2 + cos (π / T * X a) / 2 := by
    intro a
    simp only [c]
    rw [cos_sq, show 2 * (π / (2 * T) * X a) = π / T * X a by field_simp]
  have e1 : ∑ a, c a = ∏ i, ∑ x, cos (π / (2 * T) * f i x) := by
    have := sum_cos_prod (fun i x => π / (2 * T) * f i x) fun i => hsin i _
    rw [← this]
    refine sum_congr rfl fun a _ => ?_
    simp only [c, X]
    rw [mul_sum]
  have e2 : ∑ a, cos (π / T * X a) = ∏ i, ∑ x, cos (π / T * f i x) := by
    have := sum_cos_prod (fun i x => π / T * f i x) fun i => hsin i _
    rw [← this]
    refine sum_congr rfl fun a _ => ?_
    simp only [X]
    rw [mul_sum]
  have h2 : 0 ≤ ∑ a, cos (π / T * X a) := by
    rw [e2]
    exact prod_nonneg fun i _ => hcos2 i
  have e3 : ∑ a : Fin n → α, (c a ^ 2 - c a) / 2
      = (Fintype.card α : ℝ) ^ n / 4 + (∑ a, cos (π / T * X a)) / 4 - (∑ a, c a) / 2 := by
    rw [← sum_div, sum_sub_distrib, sum_congr rfl fun a _ => hsq a, sum_add_distrib,
      ← sum_div univ (fun a => cos (π / T * X a)), sum_const, card_univ, Fintype.card_fun, Fintype.card_fin, nsmul_eq_mul]
    push_cast
    ring
  rw [e1] at e3
  linarith

/-- The sum of the squares of `2h` centred points at distance one. -/
theorem sum_sq_centred (h : ℕ) :
    ∑ k ∈ range (2 * h), ((k : ℝ) - h + 1 / 2) ^ 2 = (2 * h) * ((h : ℝ) ^ 2 / 3 - 1 / 12) := by
  have key : ∀ (m : ℕ) (z : ℝ), ∑ k ∈ range m, ((k : ℝ) - z + 1 / 2) ^ 2
      = m * (z ^ 2 - z * m + (m : ℝ) ^ 2 / 3 - 1 / 12) := by
    intro m z
    induction m with
    | zero => simp
    | succ m ih =>
      rw [sum_range_succ, ih]
      push_cast
      ring
  rw [key]
  push_cast
  ring

/-- The mean of the cosine of a uniform centred point. -/
theorem sum_cos_centred (h : ℕ) (t : ℝ) (ht : |t| * h ≤ 1) :
    ∑ k ∈ range (2 * h), cos (t * ((k : ℝ) - h + 1 / 2))
      ≤ (2 * h) * (1 - t ^ 2 * ((h : ℝ) ^ 2 / 3 - 1 / 12) * (1 / 2 - 5 / 96 * (t * h) ^ 2)) := by
  have hk : ∀ k ∈ range (2 * h), cos (t * ((k : ℝ) - h + 1 / 2))
      ≤ 1 - (t ^ 2 * (1 / 2 - 5 / 96 * (t * h) ^ 2)) * ((k : ℝ) - h + 1 / 2) ^ 2 := by
    intro k hk
    rw [mem_range] at hk
    have hk' : (k : ℝ) + 1 ≤ 2 * h := by exact_mod_cast hk
    have hk0 : (0 : ℝ) ≤ k := Nat.cast_nonneg k
    set y : ℝ := (k : ℝ) - h + 1 / 2 with hy
    have hya : |y| ≤ h := by rw [abs_le]; constructor <;> linarith
    have hty : |t * y| ≤ 1 := by
      rw [abs_mul]
      exact (mul_le_mul_of_nonneg_left hya (abs_nonneg t)).trans ht
    have hb := (abs_le.1 (Real.cos_bound hty)).2
    have hy2 : y ^ 2 ≤ (h : ℝ) ^ 2 := by
      rw [← sq_abs]
      exact pow_le_pow_left₀ (abs_nonneg y) hya 2
    have h4 : |t * y| ^ 4 = t ^ 4 * y ^ 2 * y ^ 2 := by
      rw [show (4 : ℕ) = 2 * 2 from rfl, pow_mul, sq_abs, mul_pow]
      ring
    rw [h4] at hb
    have h5 : t ^ 4 * y ^ 2 * y ^ 2 ≤ t ^ 4 * y ^ 2 * (h : ℝ) ^ 2 := mul_le_mul_of_nonneg_left hy2 (by positivity)
    nlinarith
  refine (sum_le_sum hk).trans (le_of_eq ?_)
  rw [sum_sub_distrib, ← mul_sum, sum_sq_centred, sum_const, card_range, nsmul_eq_mul]
  push_cast
  ring

theorem sum_sin_centred (h : ℕ) (t : ℝ) : ∑ k ∈ range (2 * h), sin (t * ((k : ℝ) - h + 1 / 2)) = 0 := by
  have e : ∑ k ∈ range (2 * h), sin (t * ((k : ℝ) - h + 1 / 2)) = ∑ k ∈ range (2 * h), -sin (t * ((k : ℝ) - h + 1 / 2)) := by
    rw [← sum_range_reflect]
    refine sum_congr rfl fun k hk => ?_
    rw [mem_range] at hk
    rw [← sin_neg, Nat.sub_sub, Nat.cast_sub (by omega)]
    refine congrArg sin ?_
    push_cast
    ring
  rw [sum_neg_distrib] at e
  linarith

/-- The mean is not negative up to half a turn. -/
theorem sum_cos_centred_nonneg (h : ℕ) (t : ℝ) (ht : |t| * h ≤ π / 2) :
    0 ≤ ∑ k ∈ range (2 * h), cos (t * ((k : ℝ) - h + 1 / 2)) := by
  refine sum_nonneg fun k hk => ?_
  rw [mem_range] at hk
  have hk' : (k : ℝ) + 1 ≤ 2 * h := by exact_mod_cast hk
  have hk0 : (0 : ℝ) ≤ k := Nat.cast_nonneg k
  have hya : |(k : ℝ) - h + 1 / 2| ≤ h := by rw [abs_le]; constructor <;> linarith
  have hty : |t * ((k : ℝ) - h + 1 / 2)| ≤ π / 2 := by
    rw [abs_mul]
    exact (mul_le_mul_of_nonneg_left hya (abs_nonneg t)).trans ht
  exact cos_nonneg_of_mem_Icc (abs_le.1 hty)

/-- A sum over all words of a function of the centred rounding error. -/
theorem sum_roundErr {P : Params} (W : WellFormed P) (σ : Fin (2 ^ 32) ≃ Torus) (g : ℝ → ℝ) :
    ∑ x, g ((roundErr P (σ x).toNat : ℝ) - 1 / 2)
      = (2 * 2 ^ P.trgswLv1.NBIT : ℕ) * ∑ k ∈ range (2 * 2 ^ (30 - P.trgswLv1.NBIT)),
          g (-((k : ℝ) - (2 ^ (30 - P.trgswLv1.NBIT) : ℕ) + 1 / 2)) := by
  have hn := W.nbit_le
  have h1 : ∑ x, g ((roundErr P (σ x).toNat : ℝ) - 1 / 2)
      = ∑ y : Fin (2 ^ 32), g ((roundErr P (y : ℕ) : ℝ) - 1 / 2) :=
    Fintype.sum_equiv (σ.trans toFinEquiv) _ _ fun x => by rw [Equiv.trans_apply, val_toFinEquiv]
  obtain ⟨h, hh⟩ : ∃ h : ℕ, h = 2 ^ (30 - P.trgswLv1.NBIT) := ⟨_, rfl⟩
  have hpos : 0 < h := by rw [hh]; positivity
  have eQ : 2 ^ 32 = (2 * h) * (2 * 2 ^ P.trgswLv1.NBIT) := by
    rw [hh, ← pow_succ', ← pow_succ', ← pow_add]
    exact congrArg (fun k => 2 ^ k) (show 32 = _ by omega)
  have hr : ∀ y : ℕ, ((roundErr P y : ℤ) : ℝ) = (h : ℝ) - ((y + h) % (2 * h) : ℕ) := by
    intro y
    have := roundErr_eq W y
    rw [← hh] at this
    rw [this, Int.cast_sub, Int.cast_natCast, hh]
    push_cast
    rfl
  rw [h1, Fin.sum_univ_eq_sum_range (fun y => g ((roundErr P y : ℝ) - 1 / 2)) (2 ^ 32)]
  have h2 : ∀ y : ℕ, g ((roundErr P y : ℝ) - 1 / 2)
      = (fun k : ℕ => g (-((k : ℝ) - h + 1 / 2))) ((y + h) % (2 * h)) := by
    intro y
    rw [hr]
    refine congrArg g ?_
    ring
  rw [sum_congr rfl fun y _ => h2 y, eQ,
    sum_shift_mod (2 * h) _ h (by positivity) (by omega) (fun k : ℕ => g (-((k : ℝ) - h + 1 / 2))), ← hh]

/-- Counting the masks for which the rounding errors add up to at least `T`. -/
theorem card_far {P : Params} (W : WellFormed P) (s : List Torus) (hs : IsBinary s) (w : ℕ) (T u q : ℝ) (h : ℕ)
    (hh : 2 ^ (30 - P.trgswLv1.NBIT) = h) (hw : w ≤ weight P.tlweLv0.N s) (hT : 2 * h ≤ T) (hu : u * (2 * T) = π * h)
    (hq : q ≤ w * (u ^ 2 * (1 / 3 - 1 / (12 * h ^ 2)) * (1 / 2 - 5 / 96 * u ^ 2)))
    (σ : ℕ → Fin (2 ^ 32) ≃ Torus) (far : Finset (Mask P.tlweLv0.N))
    (hfar : ∀ a, T ≤ |∑ i : Fin P.tlweLv0.N, ((at' s i).toNat : ℝ) * ((roundErr P (σ i (a i)).toNat : ℝ) - 1 / 2)| → a ∈ far) :
    (1 / 4 - exp (-q) / 2) * (2 ^ 32) ^ P.tlweLv0.N ≤ far.card := by
  have hn := W.nbit_le
  have hpos : 0 < h := by rw [← hh]; positivity
  have hposR : (0 : ℝ) < h := by exact_mod_cast hpos
  have hT0 : 0 < T := by linarith
  have hcard : ((2 * 2 ^ P.trgswLv1.NBIT : ℕ) : ℝ) * (2 * h) = 2 ^ 32 := by
    have : (2 * 2 ^ P.trgswLv1.NBIT) * (2 * h) = 2 ^ 32 := by
      rw [← hh, ← pow_succ', ← pow_succ', ← pow_add]
      exact congrArg (fun k => 2 ^ k) (show _ = 32 by omega)
    exact_mod_cast this
  have hQ0 : (0 : ℝ) ≤ ((2 * 2 ^ P.trgswLv1.NBIT : ℕ) : ℝ) := by positivity
  have hbit : ∀ i, ((at' s i).toNat : ℝ) = 0 ∨ ((at' s i).toNat : ℝ) = 1 := by
    intro i
    rcases isBinary_at' hs i with e | e <;> rw [e]
    · left; norm_num
    · right; rw [show (1 : Torus).toNat = 1 from rfl]; norm_num
  have hcf : ((Fintype.card (Fin (2 ^ 32)) : ℕ) : ℝ) = 2 ^ 32 := by rw [Fintype.card_fin]; norm_num
  have hπ4 : π < 4 := by linarith [pi_lt_d2]
  have htu : π / (2 * T) * h = u := by
    rw [div_mul_eq_mul_div, div_eq_iff (by positivity)]; linarith
  have hu0 : 0 ≤ u := by rw [← htu]; positivity
  have hu1 : u ≤ 1 := by
    rw [← htu, div_mul_eq_mul_div, div_le_iff₀ (by positivity)]
    nlinarith
  have hsum := fun (i : ℕ) (g : ℝ → ℝ) => sum_roundErr W (σ i) g
  simp only [hh] at hsum
  set v : ℝ := u ^ 2 * (1 / 3 - 1 / (12 * h ^ 2)) * (1 / 2 - 5 / 96 * u ^ 2) with hv
  have hv0 : 0 ≤ v := by
    have h1 : (1 : ℝ) / (12 * h ^ 2) ≤ 1 / 3 := by
      rw [div_le_div_iff₀ (by positivity) (by norm_num)]
      have : (1 : ℝ) ≤ h := by exact_mod_cast hpos
      nlinarith
    have h2 : (0 : ℝ) ≤ 1 / 2 - 5 / 96 * u ^ 2 := by nlinarith
    rw [hv]
    exact mul_nonneg (mul_nonneg (sq_nonneg u) (by linarith)) h2
  have hone : ∀ i : Fin P.tlweLv0.N, ∑ x, cos (π / (2 * T) * (((at' s i).toNat : ℝ) * ((roundErr P (σ i x).toNat : ℝ) - 1 / 2)))
      ≤ 2 ^ 32 * exp (-(((at' s i).toNat : ℝ) * v)) ∧
      0 ≤ ∑ x, cos (π / (2 * T) * (((at' s i).toNat : ℝ) * ((roundErr P (σ i x).toNat : ℝ) - 1 / 2))) := by
    intro i
    rcases hbit i with e | e
    · simp only [e, zero_mul, mul_zero, cos_zero, neg_zero, exp_zero, sum_const, card_univ, nsmul_eq_mul, mul_one,
        Fintype.card_fin]
      norm_num
    · simp only [e, one_mul]
      have hs1 := hsum i (fun y => cos (π / (2 * T) * y))
      have hcs : ∀ k : ℕ, cos (π / (2 * T) * -((k : ℝ) - (h : ℕ) + 1 / 2)) = cos (π / (2 * T) * ((k : ℝ) - h + 1 / 2)) := by
        intro k
        rw [mul_neg, cos_neg]
      rw [sum_congr rfl fun k _ => hcs k] at hs1
      have ht0 : |π / (2 * T)| * h = u := by rw [abs_of_nonneg (by positivity), htu]
      have h1 := sum_cos_centred h (π / (2 * T)) (by rw [ht0]; exact hu1)
      have h2 := sum_cos_centred_nonneg h (π / (2 * T)) (by rw [ht0]; linarith [Real.pi_gt_three])
      rw [hs1]
      refine ⟨?_, mul_nonneg hQ0 h2⟩
      have e1 : (π / (2 * T)) ^ 2 * ((h : ℝ) ^ 2 / 3 - 1 / 12) * (1 / 2 - 5 / 96 * (π / (2 * T) * h) ^ 2) = v := by
        rw [hv, ← htu]
        field_simp
      rw [e1] at h1
      calc _ ≤ ((2 * 2 ^ P.trgswLv1.NBIT : ℕ) : ℝ) * ((2 * h) * (1 - v)) := mul_le_mul_of_nonneg_left h1 hQ0
        _ = 2 ^ 32 * (1 - v) := by rw [← mul_assoc, hcard]
        _ ≤ _ := by
          refine mul_le_mul_of_nonneg_left ?_ (by positivity)
          have := add_one_le_exp (-v)
          linarith
  have hprod : ∏ i : Fin P.tlweLv0.N, ∑ x, cos (π / (2 * T) * (((at' s i).toNat : ℝ) * ((roundErr P (σ i x).toNat : ℝ) - 1 / 2)))
      ≤ exp (-q) * (2 ^ 32) ^ P.tlweLv0.N := by
    refine (prod_le_prod (fun i _ => (hone i).2) fun i _ => (hone i).1).trans ?_
    rw [prod_mul_distrib, prod_const, card_univ, Fintype.card_fin, ← exp_sum, mul_comm]
    refine mul_le_mul_of_nonneg_right (exp_le_exp.2 ?_) (by positivity)
    rw [sum_neg_distrib, ← sum_mul]
    have hsw : (w : ℝ) ≤ ∑ i : Fin P.tlweLv0.N, ((at' s i).toNat : ℝ) := by
      rw [Fin.sum_univ_eq_sum_range (fun i => ((at' s i).toNat : ℝ)) P.tlweLv0.N]
      have : (w : ℝ) ≤ ((weight P.tlweLv0.N s : ℕ) : ℝ) := by exact_mod_cast hw
      unfold weight at this
      push_cast at this
      exact this
    have := mul_le_mul_of_nonneg_right hsw hv0
    linarith
  have := count_far (fun (i : Fin P.tlweLv0.N) x => ((at' s i).toNat : ℝ) * ((roundErr P (σ i x).toNat : ℝ) - 1 / 2)) T q hT0
    (fun i t => ?_) (fun i => ?_) (by rw [hcf]; exact hprod) far hfar
  · rw [hcf] at this
    exact this
  · rcases hbit i with e | e
    · simp only [e, zero_mul, mul_zero, sin_zero, sum_const_zero]
    · simp only [e, one_mul]
      have hs1 := hsum i (fun y => sin (t * y))
      rw [hs1]
      have hcs : ∀ k : ℕ, sin (t * -((k : ℝ) - (h : ℕ) + 1 / 2)) = -sin (t * ((k : ℝ) - h + 1 / 2)) := by
        intro k
        rw [mul_neg, sin_neg]
      rw [sum_congr rfl fun k _ => hcs k, sum_neg_distrib, sum_sin_centred, neg_zero, mul_zero]
  · rcases hbit i with e | e
    · simp only [e, zero_mul, mul_zero, cos_zero, sum_const, card_univ, nsmul_eq_mul, mul_one]
      positivity
    · simp only [e, one_mul]
      have hs1 := hsum i (fun y => cos (π / T * y))
      rw [hs1]
      have hcs : ∀ k : ℕ, cos (π / T * -((k : ℝ) - (h : ℕ) + 1 / 2)) = cos (π / T * ((k : ℝ) - h + 1 / 2)) := by
        intro k
        rw [mul_neg, cos_neg]
      rw [sum_congr rfl fun k _ => hcs k]
      refine mul_nonneg hQ0 (sum_cos_centred_nonneg h _ ?_)
      rw [abs_of_nonneg (by positivity), div_mul_eq_mul_div, div_le_iff₀ (by positivity)]
      nlinarith [pi_pos]

end GoTfhe
