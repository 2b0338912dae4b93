import Verif.Lemmas.FftNorm

/-! # Rounding errors of products and of the reduction modulo `2^32` -/

namespace GoTfhe

open Complex Finset

/-- Value at point `x` of the integer polynomial `n` -/
noncomputable def pval (k : ℕ) (n : ℕ → ℤ) (x : ℕ) : ℂ := ∑ j ∈ range (2 ^ (k + 1)), ((n j : ℤ) : ℂ) * pt k x ^ j

/-- The folded integer polynomial -/
noncomputable def zfold (k : ℕ) (n : ℕ → ℤ) (r : ℕ) : ℂ := ((n r : ℤ) : ℂ) + ((n (r + 2 ^ k) : ℤ) : ℂ) * I

theorem pval_eq (k : ℕ) (g : ℕ → ℂ) (hg : IsTw k g) (n : ℕ → ℤ) (x : ℕ) (hx : x < 2 ^ k) :
    fftC fwdB k g k (zfold k n) x = pval k n x := by
  rw [fft_eval k g hg _ x hx, pval, pow_succ, mul_two,
    ← fold_eval (2 ^ k) (pt k x) (pt_pow k x hx) (fun j => ((n j : ℤ) : ℂ))]
  rfl

theorem zfold_sq (k : ℕ) (n : ℕ → ℤ) (r : ℕ) : ‖zfold k n r‖ ^ 2 = (n r : ℝ) ^ 2 + (n (r + 2 ^ k) : ℝ) ^ 2 := by
  rw [norm_sq_eq]
  simp [zfold]

theorem zfold_norm (k : ℕ) (n : ℕ → ℤ) (B : ℝ) (hB : 0 ≤ B) (hn : ∀ i < 2 ^ (k + 1), |(n i : ℝ)| ≤ B) (r : ℕ)
    (hr : r < 2 ^ k) : ‖zfold k n r‖ ≤ √2 * B := by
  have hp : 2 ^ (k + 1) = 2 ^ k + 2 ^ k := by ring
  rw [← sq_le_sq₀ (norm_nonneg _) (by positivity), zfold_sq, mul_pow, Real.sq_sqrt (by norm_num)]
  have h1 := pow_le_pow_left₀ (abs_nonneg _) (hn r (by omega)) 2
  have h2 := pow_le_pow_left₀ (abs_nonneg _) (hn (r + 2 ^ k) (by omega)) 2
  rw [sq_abs] at h1 h2
  linarith

theorem sqrt2_pow_sq (k : ℕ) : √2 ^ k * √2 ^ k = 2 ^ k := by
  rw [← mul_pow, Real.mul_self_sqrt (by norm_num)]

theorem l2_zfold (k : ℕ) (n : ℕ → ℤ) (B : ℝ) (hB : 0 ≤ B) (hn : ∀ i < 2 ^ (k + 1), |(n i : ℝ)| ≤ B) :
    √2 ^ k * l2 (2 ^ k) (zfold k n) ≤ 2 ^ k * (√2 * B) := by
  have h : l2 (2 ^ k) (zfold k n) ≤ √2 ^ k * (√2 * B) := by
    rw [← sq_le_sq₀ (l2_nonneg _ _) (by positivity), l2_sq, mul_pow, pow_two (√2 ^ k), sqrt2_pow_sq]
    calc _ ≤ ∑ _p ∈ range (2 ^ k), (√2 * B) ^ 2 := Finset.sum_le_sum fun p hp =>
          pow_le_pow_left₀ (norm_nonneg _) (zfold_norm k n B hB hn p (Finset.mem_range.1 hp)) 2
      _ = _ := by rw [Finset.sum_const, Finset.card_range, nsmul_eq_mul]; push_cast; ring
  calc _ ≤ √2 ^ k * (√2 ^ k * (√2 * B)) := mul_le_mul_of_nonneg_left h (by positivity)
    _ = _ := by rw [← mul_assoc, sqrt2_pow_sq]

/-- Integer coefficients of a polynomial -/
def coefs (p : List Torus) (i : ℕ) : ℤ := (at' p i).toInt

theorem coefs_le (p : List Torus) (b : ℕ) (hb : ∀ i, nrm (at' p i) ≤ b) (i : ℕ) : |(coefs p i : ℝ)| ≤ b := by
  have h := hb i
  have e : |(coefs p i : ℝ)| = (nrm (at' p i) : ℝ) := by
    rw [nrm, Nat.cast_natAbs, coefs]; push_cast; rfl
  rw [e]
  exact_mod_cast h

/-- The factors computed in rounded arithmetic are within `τ` of the exact ones. -/
def TwClose (fl : ℚ → ℚ) (fu : Fusing) (pi : ℚ) (ce : ℚ → ℚ × ℚ) (k : ℕ) (τ : ℝ) : Prop :=
  ∀ s < k, ∀ i < 2 ^ s, ‖tcQ (twF (floatArith fl fu pi ce) k s i) - W s i‖ ≤ τ
    ∧ ‖tcQ (twI (floatArith fl fu pi ce) k s i) - (W s i)⁻¹‖ ≤ τ

section

variable {fl : ℚ → ℚ} (hfl : IsRoundU fl) (fu : Fusing) (pi : ℚ) (ce : ℚ → ℚ × ℚ) (k : ℕ) (τ : ℝ) (hτ : 0 ≤ τ)
  (hk60 : k ≤ 60) (htw : TwClose fl fu pi ce k τ)

/-- Relative error of a forward transform, plus one -/
noncomputable def eF (τ : ℝ) (k : ℕ) : ℝ := (1 + cF τ) ^ k

include hfl hτ hk60 htw

theorem specT_err (p : List Torus) (b : ℕ) (hb : ∀ i, nrm (at' p i) ≤ b) :
    l2 (2 ^ k) (pval k (coefs p)) ≤ 2 ^ k * (√2 * b) ∧
    l2 (2 ^ k) (fun x => tcQ (specT (floatArith fl fu pi ce) k p x) - pval k (coefs p) x)
      ≤ (eF τ k - 1) * (2 ^ k * (√2 * (b + tinyE))) := by
  have hz : (fun x => tcQ (foldP (floatArith fl fu pi ce) (2 ^ k) p x)) = zfold k (coefs p) := by
    funext x
    apply Complex.ext <;> simp [tcQ, foldP, zfold, coefs, floatArith]
  have hg : ∀ s < k, ∀ i < 2 ^ s, ‖toC (twFAll realArith k (2 ^ s - 1 + i))‖ = 1
      ∧ ‖tcQ (twFAll (floatArith fl fu pi ce) k (2 ^ s - 1 + i)) - toC (twFAll realArith k (2 ^ s - 1 + i))‖ ≤ τ := by
    intro s hs i hi
    have := isTw_real k s hs i hi
    simp only at this
    rw [this, twFAll_eq _ _ _ _ hi]
    exact ⟨norm_W s i, (htw s hs i hi).1⟩
  have h := fwd_err hfl fu pi ce τ hτ k (twFAll (floatArith fl fu pi ce) k) (foldP (floatArith fl fu pi ce) (2 ^ k) p)
    (fun i => toC (twFAll realArith k i)) hg hk60 k le_rfl
  rw [hz] at h
  have hb' := l2_zfold k (coefs p) b (by positivity) fun i _ => coefs_le p b hb i
  have e1 := l2_congr (2 ^ k) _ _ fun x hx => pval_eq k _ (isTw_real k) (coefs p) x hx
  have e2 := l2_congr (2 ^ k) (fun x => tcQ (specT (floatArith fl fu pi ce) k p x) - pval k (coefs p) x)
    (fun x => tcQ (specT (floatArith fl fu pi ce) k p x)
      - fftC fwdB k (fun i => toC (twFAll realArith k i)) k (zfold k (coefs p)) x)
    (fun x hx => by rw [pval_eq k _ (isTw_real k) (coefs p) x hx])
  have h1 : 1 ≤ eF τ k := one_le_pow₀ (by linarith [cF_nonneg τ hτ])
  constructor
  · rw [← e1, h.1]; exact hb'
  · rw [e2]
    have hE := tinyE_pos
    have s2 : (1 : ℝ) ≤ √2 := by rw [Real.one_le_sqrt]; norm_num
    have hEs : √2 ^ k * tinyE ≤ 2 ^ k * (√2 * tinyE) := by
      have a1 : √2 ^ k ≤ 2 ^ k := pow_le_pow_left₀ (by positivity) (by rw [Real.sqrt_le_left (by norm_num)]; norm_num) k
      exact mul_le_mul a1 (by nlinarith) hE.le (by positivity)
    refine le_trans h.2 (mul_le_mul_of_nonneg_left ?_ (by unfold eF at h1; linarith))
    linarith

/-- Relative error of a pointwise product, plus one -/
noncomputable def eP (τ : ℝ) (k : ℕ) : ℝ := eF τ k ^ 2 * (1 + 3 * uu)

omit hfl hk60 htw in
theorem one_le_eF : 1 ≤ eF τ k := one_le_pow₀ (by linarith [cF_nonneg τ hτ])

omit hfl hk60 htw in
theorem one_le_eP : 1 ≤ eP τ k := by
  have h1 := one_le_eF k τ hτ
  have h2 := uu_pos
  unfold eP
  have : 1 ≤ eF τ k ^ 2 := one_le_pow₀ h1
  nlinarith

omit hfl hτ hk60 htw in
theorem tiny_products (a b : ℕ) (e α β : ℝ) (hE : 1 ≤ e) (hα0 : 0 ≤ α) (hβ0 : 0 ≤ β)
    (hαβ : α * β = 2 ^ k * (2 ^ (k + 1) * ((a + tinyE) * (b + tinyE)))) :
    ((2 ^ k : ℕ) : ℝ) * (8 * eta) ≤ 0.1 * uu * ((e * α) * (e * β)) := by
  have hu := uu_pos
  have hη := eta_pos
  have hEp := tinyE_pos
  have ha0 : (0 : ℝ) ≤ a := by positivity
  have hb0 : (0 : ℝ) ≤ b := by positivity
  have f1 : tinyE ^ 2 ≤ ((a : ℝ) + tinyE) * (b + tinyE) := by
    nlinarith [mul_nonneg ha0 hb0, mul_nonneg ha0 hEp.le, mul_nonneg hb0 hEp.le]
  have f2 : (2 : ℝ) ^ k * tinyE ^ 2 ≤ α * β := by
    rw [hαβ]
    refine mul_le_mul_of_nonneg_left (le_trans f1 ?_) (by positivity)
    exact le_mul_of_one_le_left (by positivity) (one_le_pow₀ (by norm_num))
  have f3 : α * β ≤ (e * α) * (e * β) :=
    mul_le_mul (le_mul_of_one_le_left hα0 hE) (le_mul_of_one_le_left hβ0 hE) hβ0
      (mul_nonneg (by linarith) hα0)
  have f4 : 8 * eta ≤ 0.1 * (2 ^ 200 * eta) := by nlinarith
  calc ((2 ^ k : ℕ) : ℝ) * (8 * eta) = 2 ^ k * (8 * eta) := by push_cast; rfl
    _ ≤ 2 ^ k * (0.1 * (uu * tinyE ^ 2)) :=
      mul_le_mul_of_nonneg_left (le_trans f4 (mul_le_mul_of_nonneg_left eta_le (by norm_num))) (by positivity)
    _ = 0.1 * uu * (2 ^ k * tinyE ^ 2) := by ring
    _ ≤ _ := mul_le_mul_of_nonneg_left (le_trans f2 f3) (by positivity)

theorem product_err (st : ℕ → Site) (p q : List Torus) (a b : ℕ) (ha : ∀ i, nrm (at' p i) ≤ a) (hb : ∀ i, nrm (at' q i) ≤ b) :
    ∑ x ∈ range (2 ^ k), ‖pval k (coefs p) x * pval k (coefs q) x‖ ≤ 2 ^ k * (2 ^ (k + 1) * (a * b)) ∧
    ∑ x ∈ range (2 ^ k), ‖tcQ (cmul (floatArith fl fu pi ce) (st x) (specT (floatArith fl fu pi ce) k p x)
        (specT (floatArith fl fu pi ce) k q x)) - pval k (coefs p) x * pval k (coefs q) x‖
      ≤ (eP τ k - 1) * (2 ^ k * (2 ^ (k + 1) * ((a + tinyE) * (b + tinyE)))) := by
  obtain ⟨a0, a2⟩ := specT_err hfl fu pi ce k τ hτ hk60 htw p a ha
  obtain ⟨b0, b2⟩ := specT_err hfl fu pi ce k τ hτ hk60 htw q b hb
  have hη := eta_pos
  have hEp := tinyE_pos
  have hmono : ∀ c : ℕ, (2 : ℝ) ^ k * (√2 * c) ≤ 2 ^ k * (√2 * (c + tinyE)) := fun c =>
    mul_le_mul_of_nonneg_left (mul_le_mul_of_nonneg_left (by linarith) (Real.sqrt_nonneg _)) (by positivity)
  have a1 := le_trans a0 (hmono a)
  have b1 := le_trans b0 (hmono b)
  set A := floatArith fl fu pi ce
  set X := pval k (coefs p)
  set Y := pval k (coefs q)
  set X' := fun x => tcQ (specT A k p x) with hX'
  set Y' := fun x => tcQ (specT A k q x) with hY'
  set α : ℝ := 2 ^ k * (√2 * (a + tinyE)) with hα
  set β : ℝ := 2 ^ k * (√2 * (b + tinyE)) with hβ
  have hα0 : 0 ≤ α := by positivity
  have hβ0 : 0 ≤ β := by positivity
  have hE := one_le_eF k τ hτ
  have hu := uu_pos
  have h22 : √2 * √2 = 2 := Real.mul_self_sqrt (by norm_num)
  have hαβ : α * β = 2 ^ k * (2 ^ (k + 1) * ((a + tinyE) * (b + tinyE))) := by
    calc α * β = 2 ^ k * 2 ^ k * (√2 * √2) * ((a + tinyE) * (b + tinyE)) := by rw [hα, hβ]; ring
      _ = _ := by rw [h22, pow_succ]; ring
  have hab : (2 : ℝ) ^ k * (√2 * a) * (2 ^ k * (√2 * b)) = 2 ^ k * (2 ^ (k + 1) * (a * b)) := by
    calc _ = (2 : ℝ) ^ k * 2 ^ k * (√2 * √2) * (a * b) := by ring
      _ = _ := by rw [h22, pow_succ]; ring
  have nX' : l2 (2 ^ k) X' ≤ eF τ k * α := by
    have := l2_add_le (2 ^ k) (fun x => X' x - X x) X
    simp only [sub_add_cancel] at this
    have : l2 (2 ^ k) X' ≤ _ := this
    linarith
  have nY' : l2 (2 ^ k) Y' ≤ eF τ k * β := by
    have := l2_add_le (2 ^ k) (fun x => Y' x - Y x) Y
    simp only [sub_add_cancel] at this
    have : l2 (2 ^ k) Y' ≤ _ := this
    linarith
  rw [← hαβ]
  have c1 := sum_mul_le_l2 (2 ^ k) X Y
  have c2 := sum_mul_le_l2 (2 ^ k) X' Y'
  have c3 := sum_mul_le_l2 (2 ^ k) (fun x => X' x - X x) Y'
  have c4 := sum_mul_le_l2 (2 ^ k) X (fun x => Y' x - Y x)
  have d1 := mul_le_mul a0 b0 (l2_nonneg _ _) (by positivity)
  rw [hab] at d1
  have d2 : l2 (2 ^ k) X' * l2 (2 ^ k) Y' ≤ (eF τ k * α) * (eF τ k * β) :=
    mul_le_mul nX' nY' (l2_nonneg _ _) (by positivity)
  have d3 : l2 (2 ^ k) (fun x => X' x - X x) * l2 (2 ^ k) Y' ≤ ((eF τ k - 1) * α) * (eF τ k * β) :=
    mul_le_mul a2 nY' (l2_nonneg _ _) (mul_nonneg (by linarith) hα0)
  have d4 : l2 (2 ^ k) X * l2 (2 ^ k) (fun x => Y' x - Y x) ≤ α * ((eF τ k - 1) * β) :=
    mul_le_mul a1 b2 (l2_nonneg _ _) hα0
  constructor
  · simp only [norm_mul]
    linarith
  · have hpt : ∀ x ∈ range (2 ^ k), ‖tcQ (cmul A (st x) (specT A k p x) (specT A k q x)) - X x * Y x‖
        ≤ 2.9 * uu * (‖X' x‖ * ‖Y' x‖) + ‖X' x - X x‖ * ‖Y' x‖ + ‖X x‖ * ‖Y' x - Y x‖ + 8 * eta := by
      intro x _
      have h1 := cmul_err hfl fu pi ce (st x) (specT A k p x) (specT A k q x)
      calc ‖tcQ (cmul A (st x) (specT A k p x) (specT A k q x)) - X x * Y x‖
          = ‖(tcQ (cmul A (st x) (specT A k p x) (specT A k q x)) - X' x * Y' x) + ((X' x - X x) * Y' x + X x * (Y' x - Y x))‖ := by
            congr 1; ring
        _ ≤ ‖tcQ (cmul A (st x) (specT A k p x) (specT A k q x)) - X' x * Y' x‖
            + (‖(X' x - X x) * Y' x‖ + ‖X x * (Y' x - Y x)‖) :=
            le_trans (norm_add_le _ _) (add_le_add le_rfl (norm_add_le _ _))
        _ ≤ _ := by
            rw [norm_mul (X' x - X x), norm_mul (X x)]
            have : ‖tcQ (cmul A (st x) (specT A k p x) (specT A k q x)) - X' x * Y' x‖ ≤ 2.9 * uu * (‖X' x‖ * ‖Y' x‖) + 8 * eta := h1
            linarith
    refine le_trans (Finset.sum_le_sum hpt) ?_
    rw [Finset.sum_add_distrib, Finset.sum_add_distrib, Finset.sum_add_distrib, ← Finset.mul_sum, Finset.sum_const,
      Finset.card_range, nsmul_eq_mul]
    have c2' := mul_le_mul_of_nonneg_left (le_trans c2 d2) (show 0 ≤ 2.9 * uu by linarith)
    have c5 := tiny_products k a b (eF τ k) α β hE hα0 hβ0 hαβ
    have : 3 * uu * ((eF τ k * α) * (eF τ k * β)) + ((eF τ k - 1) * α) * (eF τ k * β) + α * ((eF τ k - 1) * β)
        = (eP τ k - 1) * (α * β) := by unfold eP; ring
    linarith

omit hτ hk60 htw in
/-- One accumulation step. -/
theorem acc_step (M : ℕ) (S' P' : ℕ → ℚ × ℚ) (S P : ℕ → ℂ) (G0 G T t : ℝ) (hG : G0 ≤ G)
    (ht : 0 ≤ t) (hS : ∑ x ∈ range M, ‖S x‖ ≤ T) (hP : ∑ x ∈ range M, ‖P x‖ ≤ t - M * tinyE ^ 2)
    (hS' : ∑ x ∈ range M, ‖tcQ (S' x) - S x‖ ≤ (G - 1) * T)
    (hP' : ∑ x ∈ range M, ‖tcQ (P' x) - P x‖ ≤ (G0 - 1) * t) :
    ∑ x ∈ range M, ‖S x + P x‖ ≤ T + t ∧
    ∑ x ∈ range M, ‖tcQ ((floatArith fl fu pi ce).add (S' x).1 (P' x).1, (floatArith fl fu pi ce).add (S' x).2 (P' x).2)
        - (S x + P x)‖ ≤ (G * (1 + uu) - 1) * (T + t) := by
  have hu := uu_pos
  have hη := eta_pos
  have hME : 0 ≤ (M : ℝ) * tinyE ^ 2 := by positivity
  constructor
  · calc _ ≤ ∑ x ∈ range M, (‖S x‖ + ‖P x‖) := Finset.sum_le_sum fun x _ => norm_add_le _ _
      _ ≤ _ := by rw [Finset.sum_add_distrib]; linarith
  · have hpt : ∀ x ∈ range M, ‖tcQ ((floatArith fl fu pi ce).add (S' x).1 (P' x).1,
        (floatArith fl fu pi ce).add (S' x).2 (P' x).2) - (S x + P x)‖
        ≤ (1 + uu) * (‖tcQ (S' x) - S x‖ + ‖tcQ (P' x) - P x‖) + uu * (‖S x‖ + ‖P x‖) + 2 * eta := by
      intro x _
      have h1 := cadd_err hfl fu pi ce (S' x) (P' x)
      set Z := tcQ ((floatArith fl fu pi ce).add (S' x).1 (P' x).1, (floatArith fl fu pi ce).add (S' x).2 (P' x).2)
      have h2 : ‖tcQ (S' x) + tcQ (P' x)‖ ≤ (‖tcQ (S' x) - S x‖ + ‖tcQ (P' x) - P x‖) + (‖S x‖ + ‖P x‖) := by
        calc ‖tcQ (S' x) + tcQ (P' x)‖ = ‖((tcQ (S' x) - S x) + (tcQ (P' x) - P x)) + (S x + P x)‖ := by
              congr 1; ring
          _ ≤ _ := le_trans (norm_add_le _ _) (add_le_add (norm_add_le _ _) (norm_add_le _ _))
      have h3 := mul_le_mul_of_nonneg_left h2 hu.le
      calc ‖Z - (S x + P x)‖ = ‖(Z - (tcQ (S' x) + tcQ (P' x))) + ((tcQ (S' x) - S x) + (tcQ (P' x) - P x))‖ := by
            congr 1; ring
        _ ≤ ‖Z - (tcQ (S' x) + tcQ (P' x))‖ + (‖tcQ (S' x) - S x‖ + ‖tcQ (P' x) - P x‖) :=
            le_trans (norm_add_le _ _) (add_le_add le_rfl (norm_add_le _ _))
        _ ≤ _ := by nlinarith
    refine le_trans (Finset.sum_le_sum hpt) ?_
    rw [Finset.sum_add_distrib, Finset.sum_add_distrib, ← Finset.mul_sum, ← Finset.mul_sum, Finset.sum_add_distrib,
      Finset.sum_add_distrib, Finset.sum_const, Finset.card_range, nsmul_eq_mul]
    have e3 : (M : ℝ) * (2 * eta) ≤ uu * (M * tinyE ^ 2) := by
      have f1 := mul_le_mul_of_nonneg_left eta_le (show (0 : ℝ) ≤ M by positivity)
      have f2 : (M : ℝ) * (2 * eta) ≤ M * (2 ^ 200 * eta) := mul_le_mul_of_nonneg_left (by nlinarith) (by positivity)
      linarith
    have hG0 := mul_le_mul_of_nonneg_right (show G0 - 1 ≤ G - 1 by linarith) ht
    have e1 := mul_le_mul_of_nonneg_left (add_le_add hS' (le_trans hP' hG0)) (show 0 ≤ 1 + uu by linarith)
    have e2 := mul_le_mul_of_nonneg_left (add_le_add hS hP) hu.le
    have : (1 + uu) * ((G - 1) * T + (G - 1) * t) + uu * (T + t) = (G * (1 + uu) - 1) * (T + t) := by ring
    linarith

omit hfl hτ hk60 htw in
theorem negMulZ_le (N : ℕ) (x y : ℕ → ℤ) (a b : ℝ) (ha0 : 0 ≤ a) (ha : ∀ i, |(x i : ℝ)| ≤ a) (hb : ∀ i, |(y i : ℝ)| ≤ b)
    (j : ℕ) : |((negMulZ N x y j : ℤ) : ℝ)| ≤ N * (a * b) := by
  rw [negMulZ]
  push_cast
  refine le_trans (Finset.abs_sum_le_sum_abs _ _) ?_
  calc _ ≤ ∑ _i ∈ range N, a * b := by
        apply Finset.sum_le_sum
        intro i _
        split_ifs
        · push_cast
          rw [abs_mul]
          exact mul_le_mul (ha _) (hb _) (abs_nonneg _) ha0
        · push_cast
          rw [abs_neg, abs_mul]
          exact mul_le_mul (ha _) (hb _) (abs_nonneg _) ha0
    _ = _ := by rw [Finset.sum_const, Finset.card_range, nsmul_eq_mul]

omit hfl hτ hk60 htw in
theorem pval_mul (p q : List Torus) (x : ℕ) (hx : x < 2 ^ k) :
    pval k (coefs p) x * pval k (coefs q) x = pval k (negMulZ (2 ^ (k + 1)) (coefs p) (coefs q)) x :=
  eval_negMulZ k x hx _ _

omit hfl hτ hk60 htw in
theorem pval_add (m n : ℕ → ℤ) (x : ℕ) : pval k (fun j => m j + n j) x = pval k m x + pval k n x := by
  rw [pval, pval, pval, ← Finset.sum_add_distrib]
  apply Finset.sum_congr rfl
  intro j _
  push_cast
  ring

/-- What is known of an accumulator after `m` products: the integer polynomial it stands for. -/
structure AccOk (τ : ℝ) (k : ℕ) (t : ℝ) (m : ℕ) (S' : ℕ → ℚ × ℚ) (n : ℕ → ℤ) : Prop where
  coef : ∀ j, |(n j : ℝ)| ≤ m * t
  size : ∑ x ∈ range (2 ^ k), ‖pval k n x‖ ≤ 2 ^ k * (m * t)
  err : ∑ x ∈ range (2 ^ k), ‖tcQ (S' x) - pval k n x‖ ≤ (eP τ k * (1 + uu) ^ m - 1) * (2 ^ k * (m * t))

theorem acc_fold (hk : 3 ≤ k) (a : ℕ) (l : List (List Torus × List Torus))
    (hl : ∀ p ∈ l, ∀ i, nrm (at' p.1 i) ≤ a) :
    ∀ (acc : List ℚ) (n : ℕ → ℤ) (m : ℕ), acc.length = 2 ^ (k + 1) →
      AccOk τ k (2 ^ (k + 1) * ((a + tinyE) * (2147483648 + tinyE))) m (unpack 0 acc) n →
      AccOk τ k (2 ^ (k + 1) * ((a + tinyE) * (2147483648 + tinyE))) (m + l.length)
        (unpack 0 (l.foldl (fun acc q => fftMulAdd (floatArith fl fu pi ce) k (fftT (floatArith fl fu pi ce) k q.1)
          (fftT (floatArith fl fu pi ce) k q.2) acc) acc))
        (fun j => n j + (l.map fun p => negMulZ (2 ^ (k + 1)) (coefs p.1) (coefs p.2) j).sum) := by
  induction l with
  | nil =>
    intro acc n m _ h
    simpa using h
  | cons q l ih =>
    intro acc n m hacc h
    set A := floatArith fl fu pi ce with hA
    have hEp := tinyE_pos
    set t : ℝ := 2 ^ (k + 1) * ((a + tinyE) * (2147483648 + tinyE)) with ht
    have ht0 : 0 ≤ t := by positivity
    have htab : (2 : ℝ) ^ (k + 1) * (a * 2147483648) ≤ t - tinyE ^ 2 := by
      have h1 : (1 : ℝ) ≤ 2 ^ (k + 1) := one_le_pow₀ (by norm_num)
      have ha0 : (0 : ℝ) ≤ a := by positivity
      have h2 : (a : ℝ) * 2147483648 + tinyE ^ 2 ≤ (a + tinyE) * (2147483648 + tinyE) := by
        nlinarith [mul_nonneg ha0 hEp.le]
      have h3 := mul_le_mul_of_nonneg_left h2 (show (0 : ℝ) ≤ 2 ^ (k + 1) by positivity)
      have h4 : tinyE ^ 2 ≤ 2 ^ (k + 1) * tinyE ^ 2 := by nlinarith [sq_nonneg tinyE]
      rw [mul_add] at h3
      linarith
    have hP := product_err hfl fu pi ce k τ hτ hk60 htw (fun x => (7, 0, x)) q.1 q.2 a 2147483648 (hl q (by simp)) (fun i => nrm_le _)
    have hstep := acc_step hfl fu pi ce (2 ^ k) (unpack 0 acc)
      (fun x => cmul A (7, 0, x) (specT A k q.1 x) (specT A k q.2 x)) (pval k n)
      (fun x => pval k (coefs q.1) x * pval k (coefs q.2) x) (eP τ k) (eP τ k * (1 + uu) ^ m) (2 ^ k * (m * t))
      (2 ^ k * t) (by
        have h1 : 1 ≤ (1 + uu) ^ m := one_le_pow₀ (by linarith [uu_pos])
        have h2 := one_le_eP k τ hτ
        nlinarith) (by positivity) h.size (by
          refine le_trans hP.1 ?_
          have := mul_le_mul_of_nonneg_left htab (show (0 : ℝ) ≤ 2 ^ k by positivity)
          push_cast at this ⊢
          linarith) h.err (by
          refine le_trans hP.2 (le_of_eq ?_)
          push_cast
          rfl)
    have hz : A.zero = 0 := rfl
    have hunp : ∀ x < 2 ^ k, unpack 0 (fftMulAdd A k (fftT A k q.1) (fftT A k q.2) acc) x
        = (A.add (unpack 0 acc x).1 (cmul A (7, 0, x) (specT A k q.1 x) (specT A k q.2 x)).1,
          A.add (unpack 0 acc x).2 (cmul A (7, 0, x) (specT A k q.1 x) (specT A k q.2 x)).2) := by
      intro x hx
      rw [fftMulAdd, fftT, fftT, unpack_pack _ k hk _ x hx, hz, unpack_pack _ k hk _ x hx, unpack_pack _ k hk _ x hx]
    set n' : ℕ → ℤ := fun j => n j + negMulZ (2 ^ (k + 1)) (coefs q.1) (coefs q.2) j with hn'
    have hval : ∀ x < 2 ^ k, pval k n' x = pval k n x + pval k (coefs q.1) x * pval k (coefs q.2) x := by
      intro x hx
      rw [pval_mul k _ _ x hx, hn', pval_add]
    have hok : AccOk τ k t (m + 1) (unpack 0 (fftMulAdd A k (fftT A k q.1) (fftT A k q.2) acc)) n' := by
      refine ⟨?_, ?_, ?_⟩
      · intro j
        have h1 := h.coef j
        have h2 := negMulZ_le (2 ^ (k + 1)) (coefs q.1) (coefs q.2) a 2147483648 (by positivity)
          (coefs_le _ _ (hl q (by simp))) (by
            intro i
            have := coefs_le q.2 2147483648 (fun i => nrm_le _) i
            exact_mod_cast this) j
        push_cast at h2 ⊢
        rw [hn']
        push_cast
        calc _ ≤ |(n j : ℝ)| + |(negMulZ (2 ^ (k + 1)) (coefs q.1) (coefs q.2) j : ℝ)| := abs_add_le _ _
          _ ≤ _ := by
            rw [add_mul, one_mul]
            have := sq_nonneg tinyE
            linarith
      · have := hstep.1
        rw [Finset.sum_congr rfl fun x hx => by rw [hval x (Finset.mem_range.1 hx)]]
        refine le_trans this (le_of_eq ?_)
        push_cast
        ring
      · have := hstep.2
        rw [Finset.sum_congr rfl fun x hx => by
          rw [hval x (Finset.mem_range.1 hx), hunp x (Finset.mem_range.1 hx)]]
        refine le_trans this (le_of_eq ?_)
        rw [pow_succ]
        push_cast
        ring
    rw [List.foldl_cons]
    have := ih (fun p hp => hl p (by simp [hp])) (fftMulAdd A k (fftT A k q.1) (fftT A k q.2) acc) n' (m + 1)
      (by simp [fftMulAdd]) hok
    rw [show m + (q :: l).length = m + 1 + l.length by rw [List.length_cons]; omega]
    refine cast ?_ this
    congr 1
    funext j
    rw [List.map_cons, List.sum_cons, hn']
    ring

end

/-! ### Reduction modulo `2^32` -/

theorem roundAway_near (x : ℚ) : |(roundAway x : ℚ) - x| ≤ 1 / 2 := by
  unfold roundAway
  split_ifs with h
  · have h1 := Int.floor_le (x + 1 / 2)
    have h2 := Int.lt_floor_add_one (x + 1 / 2)
    rw [abs_le]; constructor <;> linarith
  · have h1 := Int.le_ceil (x - 1 / 2)
    have h2 := Int.ceil_lt_add_one (x - 1 / 2)
    rw [abs_le]; constructor <;> linarith

theorem truncZ_intQ (n : ℤ) : truncZ (n : ℚ) = n := by
  unfold truncZ
  split_ifs <;> simp

theorem modQ_float {fl : ℚ → ℚ} (hfl : IsRoundU fl) (fu : Fusing) (pi : ℚ) (ce : ℚ → ℚ × ℚ) (s : Site) (c : ℚ) (n : ℤ) (ε : ℝ) (D : ℕ)
    (hn : |(c : ℝ) - n| ≤ ε) (hc : |(c : ℝ)| ≤ 2 ^ 80) (hε : ε + 1 / 2 ^ 21 < D + 1 / 2) :
    nrm (BitVec.ofInt 32 ((floatArith fl fu pi ce).toInt (modQ (floatArith fl fu pi ce) s
      ((floatArith fl fu pi ce).ofInt 4294967296) c)) - BitVec.ofInt 32 n) ≤ D := by
  set ρ : ℤ := roundAway (fl (c / 4294967296)) with hρ
  have hcq : |c| ≤ 2 ^ 80 := by exact_mod_cast hc
  have hcd : |c / 4294967296| ≤ 2 ^ 48 := by
    rw [abs_div, abs_of_pos (show (0 : ℚ) < 4294967296 by norm_num)]
    rw [div_le_iff₀ (by norm_num)]
    linarith [show (2 : ℚ) ^ 48 * 4294967296 = 2 ^ 80 by norm_num]
  have hη : (1 : ℚ) / 2 ^ 1075 ≤ 1 / 2 ^ 60 :=
    one_div_le_one_div_of_le (by positivity) (pow_le_pow_right₀ (by norm_num) (by norm_num))
  have e1 := le_trans (hfl.err (c / 4294967296)) (add_le_add le_rfl hη)
  have e2 := roundAway_near (fl (c / 4294967296))
  rw [← hρ] at e2
  have e1' : |fl (c / 4294967296) - c / 4294967296| ≤ 1 / 16 := by
    refine le_trans e1 ?_
    norm_num at hcd ⊢
    linarith
  have hρc : |(ρ : ℚ) - c / 4294967296| ≤ 9 / 16 := by
    calc |(ρ : ℚ) - c / 4294967296| = |((ρ : ℚ) - fl (c / 4294967296)) + (fl (c / 4294967296) - c / 4294967296)| := by
          congr 1; ring
      _ ≤ _ := le_trans (abs_add_le _ _) (by linarith)
  have hρs : |ρ| ≤ 2 ^ 53 := by
    have : |(ρ : ℚ)| ≤ 2 ^ 53 := by
      calc |(ρ : ℚ)| = |((ρ : ℚ) - c / 4294967296) + c / 4294967296| := by congr 1; ring
        _ ≤ 9 / 16 + 2 ^ 48 := le_trans (abs_add_le _ _) (by linarith)
        _ ≤ _ := by norm_num
    exact_mod_cast this
  have hex : fl (4294967296 * (ρ : ℚ)) = 4294967296 * (ρ : ℚ) := by
    have := hfl.exact ρ 32 hρs (by norm_num) (by norm_num)
    have e : (ρ : ℚ) * 2 ^ (32 : ℤ) = 4294967296 * (ρ : ℚ) := by
      rw [show (2 : ℚ) ^ (32 : ℤ) = 4294967296 by norm_num]; ring
    rwa [e] at this
  set d : ℚ := c - 4294967296 * ρ with hd
  have hds : |d| ≤ 9 / 16 * 2 ^ 32 := by
    have : d = -(4294967296 * ((ρ : ℚ) - c / 4294967296)) := by rw [hd]; ring
    rw [this, abs_neg, abs_mul, abs_of_pos (show (0 : ℚ) < 4294967296 by norm_num)]
    nlinarith
  have e3 := le_trans (hfl.err d) (add_le_add le_rfl hη)
  have e3' : |fl d - d| ≤ 1 / 2 ^ 21 := by
    refine le_trans e3 ?_
    norm_num at hds ⊢
    linarith
  have e4 := roundAway_near (fl d)
  set r : ℤ := roundAway (fl d) with hr
  have hm : (floatArith fl fu pi ce).toInt (modQ (floatArith fl fu pi ce) s ((floatArith fl fu pi ce).ofInt 4294967296) c) = r := by
    have : modQ (floatArith fl fu pi ce) s ((floatArith fl fu pi ce).ofInt 4294967296) c = ((r : ℤ) : ℚ) := by
      simp only [modQ, floatArith]
      push_cast
      rw [← hρ, hex, ite_self, ← hd, ← hr]
    rw [this]
    exact truncZ_intQ r
  rw [hm]
  have hdiff : |((r - n + 4294967296 * ρ : ℤ) : ℝ)| ≤ 1 / 2 + 1 / 2 ^ 21 + ε := by
    have f4 : |(r : ℝ) - (fl d : ℝ)| ≤ 1 / 2 := by
      have : ((|(r : ℚ) - fl d| : ℚ) : ℝ) ≤ ((1 / 2 : ℚ) : ℝ) := by exact_mod_cast e4
      push_cast at this
      exact this
    have f3 : |(fl d : ℝ) - (d : ℝ)| ≤ 1 / 2 ^ 21 := by
      have : ((|fl d - d| : ℚ) : ℝ) ≤ ((1 / 2 ^ 21 : ℚ) : ℝ) := by exact_mod_cast e3'
      push_cast at this
      exact this
    have fd : (d : ℝ) = (c : ℝ) - 4294967296 * (ρ : ℝ) := by rw [hd]; push_cast; ring
    push_cast
    calc |(r : ℝ) - n + 4294967296 * ρ| = |((r : ℝ) - fl d) + (((fl d : ℝ) - d) + ((c : ℝ) - n))| := by
          congr 1; rw [fd]; ring
      _ ≤ |(r : ℝ) - fl d| + (|(fl d : ℝ) - d| + |(c : ℝ) - n|) :=
          le_trans (abs_add_le _ _) (add_le_add le_rfl (abs_add_le _ _))
      _ ≤ _ := by linarith
  have hle : (r - n + 4294967296 * ρ : ℤ).natAbs ≤ D := by
    have h1 : |((r - n + 4294967296 * ρ : ℤ) : ℝ)| < D + 1 := by
      linarith
    have h2 : |(r - n + 4294967296 * ρ : ℤ)| < (D : ℤ) + 1 := by exact_mod_cast h1
    rw [Int.abs_eq_natAbs] at h2
    omega
  refine le_trans (le_of_eq ?_) (le_trans (nrm_ofInt (r - n + 4294967296 * ρ)) hle)
  congr 1
  rw [ofInt_add32, sub_eq_add_neg r n, ofInt_add32, ofInt_neg32]
  have : BitVec.ofInt 32 (4294967296 * ρ) = 0 := by
    rw [← cast_int_eq, Int.cast_mul]
    have : ((4294967296 : ℤ) : Torus) = 0 := rfl
    rw [this, zero_mul]
  rw [this, add_zero, sub_eq_add_neg]

/-! ### The transform back -/

/-- Error of a coefficient before rounding, relative to the bound `C` on the exact coefficients: `G - 1` is the
relative error of the transformed values -/
noncomputable def backErr (τ : ℝ) (k : ℕ) (G C : ℝ) : ℝ :=
  (1 + uu) * ((1 + cI τ) ^ k * (G * C) - C) + uu * (√2 * C)

theorem tcQ_re (x : ℚ × ℚ) : (tcQ x).re = (x.1 : ℝ) := rfl
theorem tcQ_im (x : ℚ × ℚ) : (tcQ x).im = (x.2 : ℝ) := rfl

/-- The inverse transform before the reduction modulo `2^32` -/
theorem specI_err {fl : ℚ → ℚ} (hfl : IsRoundU fl) (fu : Fusing) (pi : ℚ) (ce : ℚ → ℚ × ℚ) (k : ℕ) (τ : ℝ) (hτ : 0 ≤ τ)
    (hτ1 : τ ≤ 1 / 10) (htw : TwClose fl fu pi ce k τ) (y' : ℕ → ℚ × ℚ) (n : ℕ → ℤ) (G C : ℝ) (hC : tinyE ≤ C)
    (hn : ∀ i < 2 ^ (k + 1), |(n i : ℝ)| ≤ C - tinyE) (hS : ∑ x ∈ range (2 ^ k), ‖pval k n x‖ ≤ 2 ^ k * (C - tinyE))
    (hy : ∑ x ∈ range (2 ^ k), ‖tcQ (y' x) - pval k n x‖ ≤ (G - 1) * (2 ^ k * C)) (p : ℕ) (hp : p < 2 ^ k) :
    ‖tcQ (specI (floatArith fl fu pi ce) k y' p) - zfold k n p‖ ≤ backErr τ k G C := by
  set A := floatArith fl fu pi ce with hA
  have hu := uu_pos
  have hEp := tinyE_pos
  have hE1 := tinyE_le_one
  have hη := eta_pos
  have s2 : (1 : ℝ) ≤ √2 := by rw [Real.one_le_sqrt]; norm_num
  have hz : ∀ p < 2 ^ k, ‖zfold k n p‖ ≤ √2 * (C - tinyE) := fun p hp => zfold_norm k n _ (by linarith) hn p hp
  have h1 := inv_total hfl fu pi ce τ hτ hτ1 k (twIAll A k) y' (fun i => toC (twFAll realArith k i))
    (fun i => toC (twIAll realArith k i)) (pval k n) (zfold k n) (isTw_real k) (isTwInv_real k) (by
      intro j hj i hi
      have := isTwInv_real k j hj i hi
      simp only at this
      rw [this, twIAll_eq _ _ _ _ hj hi]
      exact (htw _ (by omega) i hi).2) (2 ^ k * C) (by
      refine le_trans hS ?_
      have : (2 : ℝ) ^ k * tinyE ^ 2 ≤ 2 ^ k * tinyE := mul_le_mul_of_nonneg_left (by nlinarith) (by positivity)
      linarith)
    (fun p hp => (pval_eq k _ (isTw_real k) n p hp).symm) _ hy p hp
  set w := ifftC (bfI A) k (twIAll A k) k y' p with hw
  have hP : (0 : ℝ) < 2 ^ k := by positivity
  have e1 : tcQ (w.1 / 2 ^ k, w.2 / 2 ^ k) = tcQ w / 2 ^ k := by
    have : (2 : ℂ) ^ k = (((2 : ℝ) ^ k : ℝ) : ℂ) := by push_cast; rfl
    rw [this]
    apply Complex.ext
    · rw [Complex.div_ofReal_re, tcQ_re, tcQ_re]; push_cast; rfl
    · rw [Complex.div_ofReal_im, tcQ_im, tcQ_im]; push_cast; rfl
  have e2 : ‖tcQ w / 2 ^ k - zfold k n p‖ ≤ invBound (cI τ) k (2 ^ k * C) ((G - 1) * (2 ^ k * C)) / 2 ^ k := by
    have : tcQ w / 2 ^ k - zfold k n p = (tcQ w - 2 ^ k * zfold k n p) / 2 ^ k := by
      rw [sub_div, mul_div_cancel_left₀ _ (pow_ne_zero _ two_ne_zero)]
    rw [this, norm_div, norm_pow, show ‖(2 : ℂ)‖ = 2 by norm_num]
    exact div_le_div_of_nonneg_right h1 hP.le
  have e3 : invBound (cI τ) k (2 ^ k * C) ((G - 1) * (2 ^ k * C)) / 2 ^ k
      = (1 + cI τ) ^ k * (G * C) - C := by
    rw [invBound]
    field_simp
    ring
  rw [e3] at e2
  have e4 := cround_err hfl (w.1 / 2 ^ k) (w.2 / 2 ^ k)
  have e5 : specI A k y' p = (fl (w.1 / 2 ^ k), fl (w.2 / 2 ^ k)) := by
    rw [specI, ← hw, cdivs]
    simp only [hA, floatArith]
    push_cast
    rfl
  rw [e1] at e4
  rw [e5]
  set β := (1 + cI τ) ^ k * (G * C) - C with hβ
  have e6 : ‖tcQ w / 2 ^ k‖ ≤ β + √2 * (C - tinyE) := by
    calc ‖tcQ w / 2 ^ k‖ = ‖(tcQ w / 2 ^ k - zfold k n p) + zfold k n p‖ := by congr 1; ring
      _ ≤ _ := le_trans (norm_add_le _ _) (add_le_add e2 (hz p hp))
  have e7 := mul_le_mul_of_nonneg_left e6 hu.le
  calc ‖tcQ (fl (w.1 / 2 ^ k), fl (w.2 / 2 ^ k)) - zfold k n p‖
      = ‖(tcQ (fl (w.1 / 2 ^ k), fl (w.2 / 2 ^ k)) - tcQ w / 2 ^ k) + (tcQ w / 2 ^ k - zfold k n p)‖ := by
        congr 1; ring
    _ ≤ _ := norm_add_le _ _
    _ ≤ backErr τ k G C := by
        unfold backErr
        rw [← hβ]
        have f1 := eta_le'
        have f2 : uu * tinyE ≤ uu * (√2 * tinyE) := mul_le_mul_of_nonneg_left (by nlinarith) hu.le
        have f3 : 2 * eta ≤ 2 ^ 200 * eta := by nlinarith
        linarith

theorem back_err {fl : ℚ → ℚ} (hfl : IsRoundU fl) (fu : Fusing) (pi : ℚ) (ce : ℚ → ℚ × ℚ) (k : ℕ) (τ : ℝ) (hτ : 0 ≤ τ)
    (hτ1 : τ ≤ 1 / 10) (htw : TwClose fl fu pi ce k τ) (y' : ℕ → ℚ × ℚ) (n : ℕ → ℤ) (G C : ℝ) (hC : tinyE ≤ C)
    (hn : ∀ i < 2 ^ (k + 1), |(n i : ℝ)| ≤ C - tinyE) (hS : ∑ x ∈ range (2 ^ k), ‖pval k n x‖ ≤ 2 ^ k * (C - tinyE))
    (hy : ∑ x ∈ range (2 ^ k), ‖tcQ (y' x) - pval k n x‖ ≤ (G - 1) * (2 ^ k * C)) (D : ℕ)
    (hD : backErr τ k G C + 1 / 2 ^ 21 < D + 1 / 2) (hC' : √2 * C + backErr τ k G C ≤ 2 ^ 80) (i : ℕ)
    (hi : i < 2 ^ (k + 1)) :
    nrm (unfoldP (floatArith fl fu pi ce) (2 ^ k) (specQ (floatArith fl fu pi ce) k y') i - BitVec.ofInt 32 (n i)) ≤ D := by
  set A := floatArith fl fu pi ce with hA
  have hu := uu_pos
  have hEp := tinyE_pos
  have hE1 := tinyE_le_one
  have hη := eta_pos
  have s2 : (1 : ℝ) ≤ √2 := by rw [Real.one_le_sqrt]; norm_num
  have hz : ∀ p < 2 ^ k, ‖zfold k n p‖ ≤ √2 * (C - tinyE) := fun p hp => zfold_norm k n _ (by linarith) hn p hp
  have hI : ∀ p < 2 ^ k, ‖tcQ (specI A k y' p) - zfold k n p‖ ≤ backErr τ k G C :=
    fun p hp => specI_err hfl fu pi ce k τ hτ hτ1 htw y' n G C hC hn hS hy p hp
  have hcomp : ∀ p < 2 ^ k, |((specI A k y' p).1 : ℝ) - n p| ≤ backErr τ k G C
      ∧ |((specI A k y' p).2 : ℝ) - n (p + 2 ^ k)| ≤ backErr τ k G C := by
    intro p hp
    have h := hI p hp
    constructor
    · refine le_trans ?_ h
      have := Complex.abs_re_le_norm (tcQ (specI A k y' p) - zfold k n p)
      simpa [tcQ, zfold] using this
    · refine le_trans ?_ h
      have := Complex.abs_im_le_norm (tcQ (specI A k y' p) - zfold k n p)
      simpa [tcQ, zfold] using this
  have h2 : (1 : ℝ) ≤ √2 := by rw [Real.one_le_sqrt]; norm_num
  have hbig : ∀ (c : ℚ) (m : ℤ), |(m : ℝ)| ≤ C → |(c : ℝ) - m| ≤ backErr τ k G C → |(c : ℝ)| ≤ 2 ^ 80 := by
    intro c m h1 h3
    calc |(c : ℝ)| = |((c : ℝ) - m) + m| := by congr 1; ring
      _ ≤ _ := le_trans (abs_add_le _ _) (by nlinarith)
  have hpw : 2 ^ (k + 1) = 2 ^ k + 2 ^ k := by ring
  unfold unfoldP specQ
  by_cases h : i < 2 ^ k
  · rw [if_pos h]
    exact modQ_float hfl fu pi ce _ _ _ _ D (hcomp i h).1 (hbig _ _ (le_trans (hn i hi) (by linarith)) (hcomp i h).1) hD
  · rw [if_neg h]
    have := (hcomp (i - 2 ^ k) (by omega)).2
    rw [show i - 2 ^ k + 2 ^ k = i by omega] at this
    exact modQ_float hfl fu pi ce _ _ _ _ D this (hbig _ _ (le_trans (hn i hi) (by linarith)) this) hD

end GoTfhe
