import Verif.Lemmas.FftErr
import Mathlib.Algebra.Order.Chebyshev
import Mathlib.Algebra.Ring.GeomSum

/-! # Accumulation of rounding errors over the stages -/

namespace GoTfhe

open Complex Finset

/-! ### Positions of a stage -/

theorem stage_top {C : Type} (b : ℕ → C → C → C → C × C) (h : ℕ) (w z : ℕ → C) (i q : ℕ) (hq : q < h) :
    stage b h w z (2 * h * i + q) = (b (2 * h * i + q) (w i) (z (2 * h * i + q)) (z (2 * h * i + q + h))).1 := by
  have e1 : (2 * h * i + q) / (2 * h) = i := by
    rw [Nat.mul_add_div (by omega), Nat.div_eq_of_lt (by omega), add_zero]
  have e2 : (2 * h * i + q) % (2 * h) = q := by rw [Nat.mul_add_mod, Nat.mod_eq_of_lt (by omega)]
  rw [stage, e1, e2, if_pos hq]

theorem stage_bot {C : Type} (b : ℕ → C → C → C → C × C) (h : ℕ) (w z : ℕ → C) (i q : ℕ) (hq : q < h) :
    stage b h w z (2 * h * i + q + h) = (b (2 * h * i + q) (w i) (z (2 * h * i + q)) (z (2 * h * i + q + h))).2 := by
  have e1 : (2 * h * i + q + h) / (2 * h) = i := by
    rw [add_assoc, Nat.mul_add_div (by omega), Nat.div_eq_of_lt (by omega), add_zero]
  have e2 : (2 * h * i + q + h) % (2 * h) = q + h := by
    rw [add_assoc, Nat.mul_add_mod, Nat.mod_eq_of_lt (by omega)]
  rw [stage, e1, e2, if_neg (by omega), Nat.add_sub_cancel]

theorem sum_pairs {K : Type} [AddCommMonoid K] (h m : ℕ) (f : ℕ → K) :
    ∑ p ∈ range (m * (2 * h)), f p
      = ∑ i ∈ range m, ∑ q ∈ range h, (f (2 * h * i + q) + f (2 * h * i + q + h)) := by
  induction m with
  | zero => simp
  | succ m ih =>
    rw [Finset.sum_range_succ, ← ih, add_mul, one_mul, Finset.sum_range_add]
    congr 1
    rw [two_mul, Finset.sum_range_add, Finset.sum_add_distrib]
    congr 1
    · apply Finset.sum_congr rfl
      intro q _
      congr 1
      ring
    · apply Finset.sum_congr rfl
      intro q _
      congr 1
      ring

theorem sum_evenodd {K : Type} [AddCommMonoid K] (m : ℕ) (f : ℕ → K) :
    ∑ i ∈ range (2 * m), f i = ∑ i ∈ range m, (f (2 * i) + f (2 * i + 1)) := by
  induction m with
  | zero => simp
  | succ m ih =>
    rw [Finset.sum_range_succ, ← ih, show 2 * (m + 1) = 2 * m + 1 + 1 by ring, Finset.sum_range_succ,
      Finset.sum_range_succ, add_assoc]

/-! ### The Euclidean norm -/

/-- Euclidean norm of the first `M` entries -/
noncomputable def l2 (M : ℕ) (z : ℕ → ℂ) : ℝ := √(∑ p ∈ range M, ‖z p‖ ^ 2)

theorem l2_nonneg (M : ℕ) (z : ℕ → ℂ) : 0 ≤ l2 M z := Real.sqrt_nonneg _

theorem l2_sq (M : ℕ) (z : ℕ → ℂ) : l2 M z ^ 2 = ∑ p ∈ range M, ‖z p‖ ^ 2 :=
  Real.sq_sqrt (Finset.sum_nonneg fun _ _ => by positivity)

theorem l2_eq (M : ℕ) (z : ℕ → ℂ) :
    l2 M z = ‖(WithLp.toLp 2 (fun i : Fin M => z i) : EuclideanSpace ℂ (Fin M))‖ := by
  rw [EuclideanSpace.norm_eq, l2, Finset.sum_range]

theorem l2_add_le (M : ℕ) (x y : ℕ → ℂ) : l2 M (fun p => x p + y p) ≤ l2 M x + l2 M y := by
  rw [l2_eq, l2_eq, l2_eq]
  exact norm_add_le (WithLp.toLp 2 (fun i : Fin M => x i) : EuclideanSpace ℂ (Fin M))
    (WithLp.toLp 2 (fun i : Fin M => y i) : EuclideanSpace ℂ (Fin M))

theorem l2_le_of_sq (M : ℕ) (x y : ℕ → ℂ) (c : ℝ) (hc : 0 ≤ c)
    (h : ∑ p ∈ range M, ‖x p‖ ^ 2 ≤ c ^ 2 * ∑ p ∈ range M, ‖y p‖ ^ 2) : l2 M x ≤ c * l2 M y := by
  rw [← sq_le_sq₀ (l2_nonneg _ _) (mul_nonneg hc (l2_nonneg _ _)), mul_pow, l2_sq, l2_sq]
  exact h

theorem l2_congr (M : ℕ) (x y : ℕ → ℂ) (h : ∀ p < M, x p = y p) : l2 M x = l2 M y := by
  unfold l2
  congr 1
  apply Finset.sum_congr rfl
  intro p hp
  rw [h p (Finset.mem_range.1 hp)]

theorem l2_mono (M : ℕ) (x y : ℕ → ℂ) (h : ∀ p < M, ‖x p‖ ≤ ‖y p‖) : l2 M x ≤ l2 M y :=
  Real.sqrt_le_sqrt (Finset.sum_le_sum fun p hp => pow_le_pow_left₀ (norm_nonneg _) (h p (Finset.mem_range.1 hp)) 2)

/-- A constant vector. -/
theorem l2_const (M : ℕ) (c : ℝ) (hc : 0 ≤ c) : l2 M (fun _ => (c : ℂ)) ≤ M * c := by
  have hM : (0 : ℝ) ≤ M := by positivity
  rw [← sq_le_sq₀ (l2_nonneg _ _) (by positivity), l2_sq, Finset.sum_const, Finset.card_range, nsmul_eq_mul,
    Complex.norm_real, Real.norm_eq_abs, sq_abs, mul_pow]
  apply mul_le_mul_of_nonneg_right _ (sq_nonneg c)
  rcases Nat.eq_zero_or_pos M with rfl | h
  · simp
  · have : (1 : ℝ) ≤ M := by exact_mod_cast h
    nlinarith

/-- Sum of products by the norms. -/
theorem sum_mul_le_l2 (M : ℕ) (x y : ℕ → ℂ) : ∑ p ∈ range M, ‖x p‖ * ‖y p‖ ≤ l2 M x * l2 M y := by
  rw [l2, l2, ← Real.sqrt_mul (Finset.sum_nonneg fun _ _ => by positivity)]
  apply Real.le_sqrt_of_sq_le
  exact Finset.sum_mul_sq_le_sq_mul_sq _ _ _

/-! ### Forward transform -/

theorem stage_fwd_sub (n h : ℕ) (w x y : ℕ → ℂ) (p : ℕ) :
    stage (fwdB n) h w x p - stage (fwdB n) h w y p = stage (fwdB n) h w (fun i => x i - y i) p := by
  unfold stage
  split_ifs <;> simp only [fwdB] <;> ring

theorem stage_inv_sub (n h : ℕ) (w x y : ℕ → ℂ) (p : ℕ) :
    stage (invB n) h w x p - stage (invB n) h w y p = stage (invB n) h w (fun i => x i - y i) p := by
  unfold stage
  split_ifs <;> simp only [invB] <;> ring

theorem fwd_pair (n p : ℕ) (w u v : ℂ) (hw : ‖w‖ = 1) :
    ‖(fwdB n p w u v).1‖ ^ 2 + ‖(fwdB n p w u v).2‖ ^ 2 = 2 * (‖u‖ ^ 2 + ‖v‖ ^ 2) := by
  have := parallelogram_law_with_norm ℝ u (v * w)
  rw [norm_mul v w, hw, mul_one] at this
  simp only [fwdB]
  linarith

theorem l2_stage_fwd (n h m : ℕ) (w z : ℕ → ℂ) (hw : ∀ i < m, ‖w i‖ = 1) :
    l2 (m * (2 * h)) (stage (fwdB n) h w z) = √2 * l2 (m * (2 * h)) z := by
  rw [← Real.sqrt_sq (l2_nonneg (m * (2 * h)) z), ← Real.sqrt_mul (by norm_num), l2_sq, l2]
  congr 1
  rw [sum_pairs, sum_pairs, Finset.mul_sum]
  apply Finset.sum_congr rfl
  intro i hi
  rw [Finset.mul_sum]
  apply Finset.sum_congr rfl
  intro q hq
  rw [stage_top _ _ _ _ _ _ (Finset.mem_range.1 hq), stage_bot _ _ _ _ _ _ (Finset.mem_range.1 hq),
    fwd_pair _ _ _ _ _ (hw i (Finset.mem_range.1 hi))]

section

variable {fl : ℚ → ℚ} (hfl : IsRoundU fl) (fu : Fusing) (pi : ℚ) (ce : ℚ → ℚ × ℚ)

theorem cF_nonneg (τ : ℝ) (h : 0 ≤ τ) : 0 ≤ cF τ := by
  have := uu_pos
  unfold cF; positivity

theorem cI_nonneg (τ : ℝ) (h : 0 ≤ τ) : 0 ≤ cI τ := by
  have := uu_pos
  unfold cI; positivity

include hfl

omit hfl in
theorem uu_le_cF (τ : ℝ) (h : 0 ≤ τ) : uu ≤ cF τ := by
  have := uu_pos
  unfold cF
  have h1 : 0 ≤ τ + 3 * uu * (1 + τ) + uu * (1 + τ) * (1 + 3 * uu) := by positivity
  linarith

omit hfl in
theorem uu_le_cI (τ : ℝ) (h : 0 ≤ τ) : uu ≤ cI τ := by
  have := uu_pos
  unfold cI
  have h1 : 0 ≤ (1 + uu) * (τ + 3 * uu * (1 + τ)) := by positivity
  linarith

theorem l2_local_fwd (n : ℕ) (τ : ℝ) (hτ : 0 ≤ τ) (h m : ℕ) (hM : m * (2 * h) ≤ 2 ^ 60) (w' z' : ℕ → ℚ × ℚ) (w : ℕ → ℂ)
    (hw : ∀ i < m, ‖w i‖ = 1 ∧ ‖tcQ (w' i) - w i‖ ≤ τ) :
    l2 (m * (2 * h)) (fun p => tcQ (stage (bfF (floatArith fl fu pi ce) n) h w' z' p)
        - stage (fwdB n) h w (fun p => tcQ (z' p)) p)
      ≤ √2 * cF τ * (l2 (m * (2 * h)) (fun p => tcQ (z' p)) + tinyE) := by
  have hc := cF_nonneg τ hτ
  have hη := eta_pos
  have hE := tinyE_pos
  set F : ℕ → ℂ := stage (fun _ _ u v => (((cF τ * max ‖u‖ ‖v‖ : ℝ) : ℂ), ((cF τ * max ‖u‖ ‖v‖ : ℝ) : ℂ))) h w
    (fun p => tcQ (z' p)) with hF
  have hsplit : l2 (m * (2 * h)) (fun p => tcQ (stage (bfF (floatArith fl fu pi ce) n) h w' z' p)
        - stage (fwdB n) h w (fun p => tcQ (z' p)) p) ≤ l2 (m * (2 * h)) (fun p => F p + ((12 * eta : ℝ) : ℂ)) := by
    have hn : ∀ x : ℝ, 0 ≤ x → ‖((x : ℝ) : ℂ) + ((12 * eta : ℝ) : ℂ)‖ = x + 12 * eta := by
      intro x hx
      rw [← Complex.ofReal_add, Complex.norm_real, Real.norm_eq_abs, abs_of_nonneg (by positivity)]
    apply l2_mono
    intro p hp
    have hh : 0 < h := by
      rcases Nat.eq_zero_or_pos h with rfl | h0
      · simp at hp
      · exact h0
    have hi : p / (2 * h) < m := Nat.div_lt_of_lt_mul (by rwa [mul_comm] at hp)
    obtain ⟨hw1, hw2⟩ := hw _ hi
    have hpe : p = 2 * h * (p / (2 * h)) + p % (2 * h) := (Nat.div_add_mod p (2 * h)).symm
    have hr := Nat.mod_lt p (show 0 < 2 * h by omega)
    generalize p / (2 * h) = i at *
    generalize p % (2 * h) = r at *
    by_cases hrh : r < h
    · rw [hpe, hF, stage_top _ _ _ _ _ _ hrh, stage_top _ _ _ _ _ _ hrh, stage_top _ _ _ _ _ _ hrh, hn _ (by positivity)]
      exact (fwd_local hfl fu pi ce n (2 * h * i + r) τ hτ (w i) hw1 (w' i) (z' (2 * h * i + r)) (z' (2 * h * i + r + h)) hw2).1
    · obtain ⟨q, rfl⟩ : ∃ q, r = q + h := ⟨r - h, by omega⟩
      have hq : q < h := by omega
      rw [hpe, hF, ← add_assoc, stage_bot _ _ _ _ _ _ hq, stage_bot _ _ _ _ _ _ hq, stage_bot _ _ _ _ _ _ hq, hn _ (by positivity)]
      exact (fwd_local hfl fu pi ce n (2 * h * i + q) τ hτ (w i) hw1 (w' i) (z' (2 * h * i + q)) (z' (2 * h * i + q + h)) hw2).2
  have hFn : l2 (m * (2 * h)) F ≤ √2 * cF τ * l2 (m * (2 * h)) fun p => tcQ (z' p) := by
    apply l2_le_of_sq _ _ _ _ (by positivity)
    rw [mul_pow, Real.sq_sqrt (by norm_num), sum_pairs, sum_pairs, Finset.mul_sum]
    apply Finset.sum_le_sum
    intro i hi
    rw [Finset.mul_sum]
    apply Finset.sum_le_sum
    intro q hq
    have hq' := Finset.mem_range.1 hq
    rw [hF, stage_top _ _ _ _ _ _ hq', stage_bot _ _ _ _ _ _ hq']
    set u := tcQ (z' (2 * h * i + q))
    set v := tcQ (z' (2 * h * i + q + h))
    have hmax : (max ‖u‖ ‖v‖) ^ 2 ≤ ‖u‖ ^ 2 + ‖v‖ ^ 2 := by
      rcases max_choice ‖u‖ ‖v‖ with e | e <;> rw [e] <;> nlinarith [sq_nonneg ‖u‖, sq_nonneg ‖v‖]
    simp only [Complex.norm_real, Real.norm_eq_abs, sq_abs]
    rw [mul_pow]
    have := mul_le_mul_of_nonneg_left hmax (sq_nonneg (cF τ))
    linarith
  have hcst := l2_const (m * (2 * h)) (12 * eta) (by positivity)
  have hMR : ((m * (2 * h) : ℕ) : ℝ) ≤ 2 ^ 60 := by exact_mod_cast hM
  have h1 : ((m * (2 * h) : ℕ) : ℝ) * (12 * eta) ≤ 2 ^ 60 * (12 * eta) := mul_le_mul_of_nonneg_right hMR (by positivity)
  have h2 : (2 : ℝ) ^ 60 * (12 * eta) ≤ 2 ^ 200 * eta := by nlinarith
  have h3 : uu * tinyE ≤ cF τ * tinyE := mul_le_mul_of_nonneg_right (uu_le_cF τ hτ) hE.le
  have h4 : cF τ * tinyE ≤ √2 * (cF τ * tinyE) := by
    have s2 : (1 : ℝ) ≤ √2 := by rw [Real.one_le_sqrt]; norm_num
    have : 0 ≤ cF τ * tinyE := by positivity
    nlinarith
  have h5 := eta_le'
  have h6 := l2_add_le (m * (2 * h)) F (fun _ => ((12 * eta : ℝ) : ℂ))
  have e : √2 * cF τ * (l2 (m * (2 * h)) (fun p => tcQ (z' p)) + tinyE)
      = √2 * cF τ * l2 (m * (2 * h)) (fun p => tcQ (z' p)) + √2 * (cF τ * tinyE) := by ring
  rw [e]
  linarith

/-- Error of the first `s` stages of the forward transform. -/
theorem fwd_err (τ : ℝ) (hτ : 0 ≤ τ) (k : ℕ) (g' z' : ℕ → ℚ × ℚ) (g : ℕ → ℂ)
    (hg : ∀ s < k, ∀ i < 2 ^ s, ‖g (2 ^ s - 1 + i)‖ = 1 ∧ ‖tcQ (g' (2 ^ s - 1 + i)) - g (2 ^ s - 1 + i)‖ ≤ τ)
    (hk : k ≤ 60) (s : ℕ) (hs : s ≤ k) :
    l2 (2 ^ k) (fftC fwdB k g s fun p => tcQ (z' p)) = √2 ^ s * l2 (2 ^ k) (fun p => tcQ (z' p)) ∧
    l2 (2 ^ k) (fun p => tcQ (fftC (bfF (floatArith fl fu pi ce)) k g' s z' p)
        - fftC fwdB k g s (fun p => tcQ (z' p)) p)
      ≤ ((1 + cF τ) ^ s - 1) * (√2 ^ s * (l2 (2 ^ k) (fun p => tcQ (z' p)) + tinyE)) := by
  induction s with
  | zero => simp [fftC, l2]
  | succ s ih =>
    obtain ⟨ih1, ih2⟩ := ih (by omega)
    have hc := cF_nonneg τ hτ
    have hm : 2 ^ s * (2 * 2 ^ (k - 1 - s)) = 2 ^ k := by
      rw [← pow_succ', ← pow_add]; congr 1; omega
    have hw := hg s (by omega)
    have e1 := l2_stage_fwd (2 ^ s) (2 ^ (k - 1 - s)) (2 ^ s) (fun i => g (2 ^ s - 1 + i))
      (fftC fwdB k g s fun p => tcQ (z' p)) (fun i hi => (hw i hi).1)
    rw [hm, ih1] at e1
    refine ⟨by rw [fftC, e1, pow_succ]; ring, ?_⟩
    set X' := fftC (bfF (floatArith fl fu pi ce)) k g' s z' with hX'
    set X := fftC fwdB k g s fun p => tcQ (z' p) with hX
    have loc := l2_local_fwd hfl fu pi ce (2 ^ s) τ hτ (2 ^ (k - 1 - s)) (2 ^ s)
      (by rw [hm]; exact Nat.pow_le_pow_right (by norm_num) hk) (fun i => g' (2 ^ s - 1 + i)) X'
      (fun i => g (2 ^ s - 1 + i)) hw
    have lin := l2_stage_fwd (2 ^ s) (2 ^ (k - 1 - s)) (2 ^ s) (fun i => g (2 ^ s - 1 + i))
      (fun p => tcQ (X' p) - X p) (fun i hi => (hw i hi).1)
    rw [hm] at loc lin
    have hX'n : l2 (2 ^ k) (fun p => tcQ (X' p)) ≤ l2 (2 ^ k) (fun p => tcQ (X' p) - X p) + l2 (2 ^ k) X := by
      have := l2_add_le (2 ^ k) (fun p => tcQ (X' p) - X p) X
      simpa using this
    have tri := l2_add_le (2 ^ k) (fun p => tcQ (stage (bfF (floatArith fl fu pi ce) (2 ^ s)) (2 ^ (k - 1 - s))
        (fun i => g' (2 ^ s - 1 + i)) X' p)
        - stage (fwdB (2 ^ s)) (2 ^ (k - 1 - s)) (fun i => g (2 ^ s - 1 + i)) (fun p => tcQ (X' p)) p)
      (stage (fwdB (2 ^ s)) (2 ^ (k - 1 - s)) (fun i => g (2 ^ s - 1 + i)) (fun p => tcQ (X' p) - X p))
    have ef : (fun p => tcQ (stage (bfF (floatArith fl fu pi ce) (2 ^ s)) (2 ^ (k - 1 - s))
        (fun i => g' (2 ^ s - 1 + i)) X' p)
        - stage (fwdB (2 ^ s)) (2 ^ (k - 1 - s)) (fun i => g (2 ^ s - 1 + i)) (fun p => tcQ (X' p)) p
        + stage (fwdB (2 ^ s)) (2 ^ (k - 1 - s)) (fun i => g (2 ^ s - 1 + i)) (fun p => tcQ (X' p) - X p) p)
        = fun p => tcQ (fftC (bfF (floatArith fl fu pi ce)) k g' (s + 1) z' p)
          - fftC fwdB k g (s + 1) (fun p => tcQ (z' p)) p := by
      funext p
      rw [fftC, fftC, ← hX', ← hX, ← stage_fwd_sub]
      ring
    rw [ef] at tri
    have h2 : (0 : ℝ) ≤ √2 := Real.sqrt_nonneg _
    rw [ih1] at hX'n
    set n := l2 (2 ^ k) fun p => tcQ (z' p)
    set D := l2 (2 ^ k) (fun p => tcQ (X' p) - X p)
    have hE := tinyE_pos
    have hps : 1 ≤ √2 ^ s := one_le_pow₀ (by rw [Real.one_le_sqrt]; norm_num)
    have hEs : tinyE ≤ √2 ^ s * tinyE := by nlinarith
    have m1 : √2 * cF τ * (l2 (2 ^ k) (fun p => tcQ (X' p)) + tinyE) ≤ √2 * cF τ * (D + √2 ^ s * (n + tinyE)) :=
      mul_le_mul_of_nonneg_left (by rw [mul_add]; linarith) (by positivity)
    have m2 : √2 * (1 + cF τ) * D ≤ √2 * (1 + cF τ) * (((1 + cF τ) ^ s - 1) * (√2 ^ s * (n + tinyE))) :=
      mul_le_mul_of_nonneg_left ih2 (by positivity)
    calc _ ≤ _ := tri
      _ ≤ √2 * cF τ * (D + √2 ^ s * (n + tinyE)) + √2 * D := by rw [lin]; linarith
      _ = √2 * (1 + cF τ) * D + √2 * cF τ * (√2 ^ s * (n + tinyE)) := by ring
      _ ≤ √2 * (1 + cF τ) * (((1 + cF τ) ^ s - 1) * (√2 ^ s * (n + tinyE))) + √2 * cF τ * (√2 ^ s * (n + tinyE)) := by
          linarith
      _ = _ := by rw [pow_succ (1 + cF τ), pow_succ √2]; ring

omit hfl

/-! ### Inverse transform -/

/-- The entries with the same offset in blocks of `2^j` add up to at most `e`. -/
def Off (k j : ℕ) (x : ℕ → ℂ) (e : ℝ) : Prop := ∀ q < 2 ^ j, ∑ i ∈ range (2 ^ (k - j)), ‖x (2 ^ j * i + q)‖ ≤ e

theorem Off.add {k j : ℕ} {x y : ℕ → ℂ} {a b : ℝ} (hx : Off k j x a) (hy : Off k j y b) :
    Off k j (fun p => x p + y p) (a + b) := by
  intro q hq
  calc _ ≤ ∑ i ∈ range (2 ^ (k - j)), (‖x (2 ^ j * i + q)‖ + ‖y (2 ^ j * i + q)‖) :=
        Finset.sum_le_sum fun i _ => norm_add_le _ _
    _ ≤ a + b := by
        rw [Finset.sum_add_distrib]
        exact add_le_add (hx q hq) (hy q hq)

/-- A position of the coarser blocks is the first or the second half of a butterfly. -/
theorem pos_cases (j i q : ℕ) (hq : q < 2 ^ (j + 1)) :
    (q < 2 ^ j ∧ 2 ^ (j + 1) * i + q = 2 * 2 ^ j * i + q) ∨
      (q - 2 ^ j < 2 ^ j ∧ 2 ^ (j + 1) * i + q = 2 * 2 ^ j * i + (q - 2 ^ j) + 2 ^ j) := by
  rw [pow_succ] at *
  by_cases h : q < 2 ^ j
  · left; exact ⟨h, by ring⟩
  · right
    refine ⟨by omega, ?_⟩
    rw [mul_comm (2 ^ j) 2]
    omega

theorem inv_stage_off (n k j : ℕ) (hj : j < k) (w x : ℕ → ℂ) (hw : ∀ i < 2 ^ (k - 1 - j), ‖w i‖ = 1) (e : ℝ)
    (hx : Off k j x e) : Off k (j + 1) (stage (invB n) (2 ^ j) w x) e := by
  have hk : 2 ^ (k - j) = 2 * 2 ^ (k - 1 - j) := by rw [← pow_succ']; congr 1; omega
  have key : ∀ q < 2 ^ j, ∑ i ∈ range (2 ^ (k - 1 - j)), (‖x (2 * 2 ^ j * i + q)‖ + ‖x (2 * 2 ^ j * i + q + 2 ^ j)‖) ≤ e := by
    intro q hq
    have := hx q hq
    rw [hk, sum_evenodd] at this
    refine le_trans (le_of_eq ?_) this
    apply Finset.sum_congr rfl
    intro i _
    congr 3 <;> ring
  intro q hq
  rw [show k - (j + 1) = k - 1 - j by omega]
  by_cases h : q < 2 ^ j
  · refine le_trans (Finset.sum_le_sum fun i _ => ?_) (key q h)
    rw [show 2 ^ (j + 1) * i + q = 2 * 2 ^ j * i + q by rw [pow_succ]; ring, stage_top _ _ _ _ _ _ h]
    exact norm_add_le _ _
  · have h' : q - 2 ^ j < 2 ^ j := by rw [pow_succ] at hq; omega
    refine le_trans (Finset.sum_le_sum fun i hi => ?_) (key (q - 2 ^ j) h')
    rw [show 2 ^ (j + 1) * i + q = 2 * 2 ^ j * i + (q - 2 ^ j) + 2 ^ j by
      rw [pow_succ, mul_comm (2 ^ j) 2]; omega, stage_bot _ _ _ _ _ _ h']
    simp only [invB]
    rw [norm_mul, hw i (Finset.mem_range.1 hi), mul_one]
    exact norm_sub_le _ _

include hfl in
theorem inv_local_off (n : ℕ) (τ : ℝ) (hτ : 0 ≤ τ) (hτ1 : τ ≤ 1 / 10) (k j : ℕ) (hj : j < k) (w' z' : ℕ → ℚ × ℚ) (w : ℕ → ℂ)
    (hw : ∀ i < 2 ^ (k - 1 - j), ‖w i‖ = 1 ∧ ‖tcQ (w' i) - w i‖ ≤ τ) (e : ℝ)
    (he : Off k (j + 1) (stage (invB n) (2 ^ j) w fun p => tcQ (z' p)) e) :
    Off k (j + 1) (fun p => tcQ (stage (bfI (floatArith fl fu pi ce) n) (2 ^ j) w' z' p)
      - stage (invB n) (2 ^ j) w (fun p => tcQ (z' p)) p) (cI τ * (e + 2 ^ k * tinyE ^ 2)) := by
  intro q hq
  have hη := eta_pos
  have hsum : ∑ i ∈ range (2 ^ (k - (j + 1))), (cI τ * ‖stage (invB n) (2 ^ j) w (fun p => tcQ (z' p)) (2 ^ (j + 1) * i + q)‖
      + 12 * eta) ≤ cI τ * (e + 2 ^ k * tinyE ^ 2) := by
    rw [Finset.sum_add_distrib, ← Finset.mul_sum, Finset.sum_const, Finset.card_range, nsmul_eq_mul, mul_add]
    refine add_le_add (mul_le_mul_of_nonneg_left (he q hq) (cI_nonneg τ hτ)) ?_
    have h1 : (((2 ^ (k - (j + 1)) : ℕ) : ℝ)) ≤ 2 ^ k := by
      push_cast
      exact pow_le_pow_right₀ (by norm_num) (by omega)
    have h2 := mul_le_mul_of_nonneg_right (uu_le_cI τ hτ) (show 0 ≤ 2 ^ k * tinyE ^ 2 by positivity)
    have h3 := mul_le_mul_of_nonneg_left eta_le (show (0 : ℝ) ≤ 2 ^ k by positivity)
    have h4 : (12 : ℝ) * eta ≤ 2 ^ 200 * eta := by nlinarith
    calc _ ≤ (2 : ℝ) ^ k * (12 * eta) := mul_le_mul_of_nonneg_right h1 (by positivity)
      _ ≤ 2 ^ k * (2 ^ 200 * eta) := mul_le_mul_of_nonneg_left h4 (by positivity)
      _ ≤ 2 ^ k * (uu * tinyE ^ 2) := h3
      _ = uu * (2 ^ k * tinyE ^ 2) := by ring
      _ ≤ _ := h2
  refine le_trans (Finset.sum_le_sum fun i hi => ?_) hsum
  rw [show k - (j + 1) = k - 1 - j by omega] at hi
  obtain ⟨hw1, hw2⟩ := hw i (Finset.mem_range.1 hi)
  simp only
  rcases pos_cases j i q hq with ⟨h, e⟩ | ⟨h, e⟩
  · rw [e, stage_top _ _ _ _ _ _ h, stage_top _ _ _ _ _ _ h]
    exact (inv_local hfl fu pi ce _ _ τ hτ hτ1 _ hw1 _ _ _ hw2).1
  · rw [e, stage_bot _ _ _ _ _ _ h, stage_bot _ _ _ _ _ _ h]
    exact (inv_local hfl fu pi ce _ _ τ hτ hτ1 _ hw1 _ _ _ hw2).2

/-- The error after `j` inverse stages -/
def invE (c : ℝ) (n : ℕ → ℝ) (e0 : ℝ) : ℕ → ℝ
  | 0 => e0
  | j + 1 => (1 + c) * invE c n e0 j + c * n (j + 1)

include hfl in
theorem inv_err (τ : ℝ) (hτ : 0 ≤ τ) (hτ1 : τ ≤ 1 / 10) (k : ℕ) (g' y' : ℕ → ℚ × ℚ) (g y : ℕ → ℂ)
    (hg : ∀ j < k, ∀ i < 2 ^ (k - 1 - j), ‖g (2 ^ k - 2 ^ (k - j) + i)‖ = 1
      ∧ ‖tcQ (g' (2 ^ k - 2 ^ (k - j) + i)) - g (2 ^ k - 2 ^ (k - j) + i)‖ ≤ τ)
    (e0 : ℝ) (h0 : Off k 0 (fun p => tcQ (y' p) - y p) e0) (n : ℕ → ℝ)
    (hn : ∀ j ≤ k, Off k j (ifftC invB k g j y) (n j - 2 ^ k * tinyE ^ 2)) (j : ℕ) (hj : j ≤ k) :
    Off k j (fun p => tcQ (ifftC (bfI (floatArith fl fu pi ce)) k g' j y' p) - ifftC invB k g j y p)
      (invE (cI τ) n e0 j) := by
  induction j with
  | zero => exact h0
  | succ j ih =>
    have ih' := ih (by omega)
    have hw := hg j (by omega)
    set X' := ifftC (bfI (floatArith fl fu pi ce)) k g' j y' with hX'
    set X := ifftC invB k g j y with hX
    have lin := inv_stage_off (2 ^ (k - 1 - j)) k j (by omega) (fun i => g (2 ^ k - 2 ^ (k - j) + i)) _ (fun i hi => (hw i hi).1) _ ih'
    have hsum : Off k (j + 1) (stage (invB (2 ^ (k - 1 - j))) (2 ^ j) (fun i => g (2 ^ k - 2 ^ (k - j) + i)) fun p => tcQ (X' p))
        (n (j + 1) - 2 ^ k * tinyE ^ 2 + invE (cI τ) n e0 j) := by
      have := (hn (j + 1) hj).add lin
      refine cast ?_ this
      congr 1
      funext p
      rw [ifftC, ← hX, ← stage_inv_sub]
      ring
    have loc := inv_local_off hfl fu pi ce (2 ^ (k - 1 - j)) τ hτ hτ1 k j (by omega) (fun i => g' (2 ^ k - 2 ^ (k - j) + i)) X'
      (fun i => g (2 ^ k - 2 ^ (k - j) + i)) hw _ hsum
    have := loc.add lin
    have eE : cI τ * (n (j + 1) - 2 ^ k * tinyE ^ 2 + invE (cI τ) n e0 j + 2 ^ k * tinyE ^ 2) + invE (cI τ) n e0 j = invE (cI τ) n e0 (j + 1) := by
      rw [invE]; ring
    rw [eE] at this
    refine cast ?_ this
    congr 1
    funext p
    rw [ifftC, ifftC, ← hX', ← hX, ← stage_inv_sub]
    ring

/-- The stages of the exact inverse transform do not increase the sums over an offset. -/
theorem inv_size (k : ℕ) (g' y : ℕ → ℂ) (hg' : IsTwInv k g') (S : ℝ) (hy : ∑ p ∈ range (2 ^ k), ‖y p‖ ≤ S) (j : ℕ)
    (hj : j ≤ k) : Off k j (ifftC invB k g' j y) S := by
  induction j with
  | zero =>
    intro q hq
    have : q = 0 := by simpa using hq
    subst this
    simpa [ifftC] using hy
  | succ j ih =>
    refine inv_stage_off _ k j (by omega) _ _ (fun i hi => ?_) S (ih (by omega))
    rw [hg' j (by omega) i hi, norm_inv, norm_W, inv_one]

/-- Error of the inverse transform before the division: `e0` is the incoming error, `S` the sum of the exact values. -/
def invBound (c : ℝ) (k : ℕ) (S e0 : ℝ) : ℝ := (1 + c) ^ k * (e0 + S) - S

theorem invE_eq (c S e0 : ℝ) (j : ℕ) : invE c (fun _ => S) e0 j = invBound c j S e0 := by
  unfold invBound
  induction j with
  | zero => simp [invE]
  | succ j ih => rw [invE, ih, pow_succ]; ring

include hfl in
theorem inv_total (τ : ℝ) (hτ : 0 ≤ τ) (hτ1 : τ ≤ 1 / 10) (k : ℕ) (gq y' : ℕ → ℚ × ℚ) (g g' y z : ℕ → ℂ) (hg : IsTw k g)
    (hg' : IsTwInv k g')
    (hgq : ∀ j < k, ∀ i < 2 ^ (k - 1 - j), ‖tcQ (gq (2 ^ k - 2 ^ (k - j) + i)) - g' (2 ^ k - 2 ^ (k - j) + i)‖ ≤ τ)
    (S : ℝ) (hS : ∑ p ∈ range (2 ^ k), ‖y p‖ ≤ S - 2 ^ k * tinyE ^ 2) (hy : ∀ p < 2 ^ k, y p = fftC fwdB k g k z p)
    (e0 : ℝ) (h0 : ∑ p ∈ range (2 ^ k), ‖tcQ (y' p) - y p‖ ≤ e0) (p : ℕ) (hp : p < 2 ^ k) :
    ‖tcQ (ifftC (bfI (floatArith fl fu pi ce)) k gq k y' p) - 2 ^ k * z p‖
      ≤ invBound (cI τ) k S e0 := by
  have h := inv_err hfl fu pi ce τ hτ hτ1 k gq y' g' y (by
    intro j hj i hi
    refine ⟨?_, hgq j hj i hi⟩
    rw [hg' j hj i hi, norm_inv, norm_W, inv_one]) e0 (by
      intro q hq
      have : q = 0 := by simpa using hq
      subst this
      simpa using h0) (fun _ => S) (fun j hj => inv_size k g' y hg' _ hS j hj) k le_rfl
  have h1 := h p hp
  rw [Nat.sub_self, pow_zero, Finset.sum_range_one, mul_zero, zero_add] at h1
  beta_reduce at h1
  rw [ifft_fft k g g' hg hg' y z hy k le_rfl p hp, Nat.sub_self, fftC] at h1
  rwa [invE_eq] at h1

end

end GoTfhe
