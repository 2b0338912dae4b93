import Verif.Lemmas.FftRange
import Verif.Lemmas.FftAcc

/-! # The arguments of the conversions to `int64` in the inverse transform -/

namespace GoTfhe

open Finset

theorem specI_size {fl : ℚ → ℚ} (hfl : IsRoundU fl) (fu : Fusing) (pi : ℚ) (ce : ℚ → ℚ × ℚ) (k : ℕ) (τ : ℝ) (hτ : 0 ≤ τ)
    (hτ1 : τ ≤ 1 / 10) (htw : TwClose fl fu pi ce k τ) (y' : ℕ → ℚ × ℚ) (n : ℕ → ℤ) (G C : ℝ) (hC : tinyE ≤ C)
    (hn : ∀ i < 2 ^ (k + 1), |(n i : ℝ)| ≤ C - tinyE) (hS : ∑ x ∈ range (2 ^ k), ‖pval k n x‖ ≤ 2 ^ k * (C - tinyE))
    (hy : ∑ x ∈ range (2 ^ k), ‖tcQ (y' x) - pval k n x‖ ≤ (G - 1) * (2 ^ k * C)) (m : ℕ)
    (hm : √2 * C + backErr τ k G C ≤ 2 ^ m) (p : ℕ) (hp : p < 2 ^ k) :
    Bd m (specI (floatArith fl fu pi ce) k y' p) := by
  have h := specI_err hfl fu pi ce k τ hτ hτ1 htw y' n G C hC hn hS hy p hp
  have hE := tinyE_pos
  have hz := zfold_norm k n _ (by linarith) hn p hp
  have h0 : 0 ≤ √2 := Real.sqrt_nonneg 2
  set w := specI (floatArith fl fu pi ce) k y' p
  have hw : ‖tcQ w‖ ≤ 2 ^ m := by
    calc ‖tcQ w‖ = ‖(tcQ w - zfold k n p) + zfold k n p‖ := by congr 1; ring
      _ ≤ _ := norm_add_le _ _
      _ ≤ backErr τ k G C + √2 * (C - tinyE) := add_le_add h hz
      _ ≤ 2 ^ m := by nlinarith
  have h1 := le_trans (Complex.abs_re_le_norm (tcQ w)) hw
  have h2 := le_trans (Complex.abs_im_le_norm (tcQ w)) hw
  rw [tcQ_re] at h1
  rw [tcQ_im] at h2
  exact ⟨by exact_mod_cast h1, by exact_mod_cast h2⟩

/-- The size of a sum of `cnt` products before the reduction -/
theorem size_any (k cnt : ℕ) (hk' : k ≤ 30) (hc : cnt ≤ 2 ^ 18) (C : ℝ)
    (hC : C = cnt * (2 ^ (k + 1) * ((2147483648 + tinyE) * (2147483648 + tinyE))) + tinyE) :
    √2 * C + backErr (17 * uu) k (eP (17 * uu) k * (1 + uu) ^ cnt) C ≤ 2 ^ 113 := by
  have hE := tinyE_pos
  have hE1 := tinyE_le_one
  have hC0 : 0 ≤ C := by rw [hC]; positivity
  have hb := backErr_le k cnt hk' (le_trans hc (by norm_num)) C hC0
  have hkR' : (k : ℝ) ≤ 30 := by exact_mod_cast hk'
  have hc1 : (cnt : ℝ) ≤ 2 ^ 18 := by exact_mod_cast hc
  have hP' : (2 : ℝ) ^ (k + 1) ≤ 2 ^ 31 := pow_le_pow_right₀ (by norm_num) (by omega)
  have hC1 : C ≤ 2 ^ 112 := by
    rw [hC]
    have h1 : (2147483648 + tinyE) * (2147483648 + tinyE) ≤ 2147483649 * 2147483649 :=
      mul_le_mul (by linarith) (by linarith) (by positivity) (by norm_num)
    have h2 := mul_le_mul hP' h1 (by positivity) (by norm_num)
    have h3 := mul_le_mul hc1 h2 (by positivity) (by norm_num)
    refine le_trans (add_le_add h3 hE1) ?_
    norm_num
  have hs : √2 ≤ 3 / 2 := by rw [Real.sqrt_le_left (by norm_num)]; norm_num
  have h1 : √2 * C ≤ 3 / 2 * C := mul_le_mul_of_nonneg_right hs hC0
  have h2 : uu * C * (66 * k + 2 * cnt + 6) ≤ C * (1 / 2) := by
    have : uu * C * (66 * k + 2 * cnt + 6) ≤ uu * C * 2 ^ 20 :=
      mul_le_mul_of_nonneg_left (by
        have : (66 : ℝ) * 30 + 2 * 2 ^ 18 + 6 ≤ 2 ^ 20 := by norm_num
        linarith) (mul_nonneg uu_pos.le hC0)
    refine le_trans this ?_
    rw [mul_comm uu, mul_assoc]
    exact mul_le_mul_of_nonneg_left (by unfold uu; norm_num) hC0
  have e : (2 : ℝ) ^ 113 = 2 * 2 ^ 112 := by norm_num
  linarith

section

variable {fl : ℚ → ℚ} (hfl : IsRoundU fl) {fu : Fusing} {ce : ℚ → ℚ × ℚ} (hce : CexpAccurate ce (1 / 2 ^ 52))

include hfl hce

theorem accum_size (k : ℕ) (hk : 3 ≤ k) (hk' : k ≤ 30) (l : List (List Torus × List Torus)) (hl : l.length ≤ 2 ^ 18)
    (p : ℕ) (hp : p < 2 ^ k) :
    Bd 113 (specI (floatArith fl fu mathPi ce) k (unpack 0 (l.foldl (fun acc q => fftMulAdd (floatArith fl fu mathPi ce) k
      (fftT (floatArith fl fu mathPi ce) k q.1) (fftT (floatArith fl fu mathPi ce) k q.2) acc)
      (mkSlice (2 ^ (k + 1)) 0))) p) := by
  have hu := uu_pos
  have htw : TwClose fl fu mathPi ce k (17 * uu) :=
    twClose hfl fu ce _ (by norm_num) (le_of_eq twice_uu) hce k
  have hE := tinyE_pos
  set t : ℝ := 2 ^ (k + 1) * (((2147483648 : ℕ) + tinyE) * (2147483648 + tinyE)) with ht
  have ht0 : 0 ≤ t := by positivity
  have h0 : AccOk (17 * uu) k t 0 (unpack 0 (mkSlice (2 ^ (k + 1)) (0 : ℚ))) (fun _ => 0) := by
    have hp : ∀ x, pval k (fun _ => 0) x = 0 := by intro x; simp [pval]
    refine ⟨by simp, by simp [hp], ?_⟩
    rw [Finset.sum_eq_zero]
    · simp
    · intro x hx
      rw [unpack_zero _ k hk x (Finset.mem_range.1 hx), hp]
      have : tcQ ((0 : ℚ), (0 : ℚ)) = 0 := by apply Complex.ext <;> simp [tcQ]
      rw [this]; simp
  have hacc := acc_fold hfl fu mathPi ce k (17 * uu) (by positivity) (by omega) htw hk 2147483648 l
    (fun p _ i => nrm_le _) _ _ 0 (by simp) h0
  rw [zero_add] at hacc
  set C : ℝ := l.length * t + tinyE with hC
  have hCt : C - tinyE = l.length * t := by rw [hC]; ring
  have hCE : tinyE ≤ C := by rw [hC]; exact le_add_of_nonneg_left (by positivity)
  exact specI_size hfl fu mathPi ce k (17 * uu) (by positivity) tau_le htw _ _
    (eP (17 * uu) k * (1 + uu) ^ l.length) C hCE
    (fun j _ => by rw [hCt]; exact hacc.coef j)
    (by rw [hCt]; exact hacc.size)
    (le_trans (hacc.mono_err (by positivity) ht0 _ le_rfl) (mul_le_mul_of_nonneg_left
      (mul_le_mul_of_nonneg_left (by linarith) (by positivity)) (by
        have := one_le_eP k (17 * uu) (by positivity)
        have : 1 ≤ eP (17 * uu) k * (1 + uu) ^ l.length :=
          one_le_mul_of_one_le_of_one_le this (one_le_pow₀ (by linarith))
        linarith))) 113 (size_any k _ hk' hl C (by rw [hC, ht]; push_cast; rfl)) p hp

theorem mul_size (k : ℕ) (hk : 3 ≤ k) (hk' : k ≤ 30) (a b : List Torus) (p : ℕ) (hp : p < 2 ^ k) :
    Bd 113 (specI (floatArith fl fu mathPi ce) k (unpack 0 (fftMul (floatArith fl fu mathPi ce) k
      (fftT (floatArith fl fu mathPi ce) k a) (fftT (floatArith fl fu mathPi ce) k b))) p) := by
  set A := floatArith fl fu mathPi ce with hA
  have hu := uu_pos
  have htw : TwClose fl fu mathPi ce k (17 * uu) :=
    twClose hfl fu ce _ (by norm_num) (le_of_eq twice_uu) hce k
  have hE := tinyE_pos
  set C : ℝ := 2 ^ (k + 1) * ((2147483648 + tinyE) * (2147483648 + tinyE)) + tinyE with hC
  have hCE : tinyE ≤ C := by rw [hC]; exact le_add_of_nonneg_left (by positivity)
  have hCl : 2 ^ (k + 1) * (2147483648 * (2147483648 : ℝ)) ≤ C - tinyE := by
    rw [hC, add_sub_cancel_right]
    exact mul_le_mul_of_nonneg_left (mul_le_mul (by linarith) (by linarith) (by positivity) (by positivity)) (by positivity)
  have hP := product_err hfl fu mathPi ce k (17 * uu) (by positivity) (by omega) htw (fun x => (6, 0, x)) a b 2147483648
    2147483648 (fun i => nrm_le _) (fun i => nrm_le _)
  have hG : eP (17 * uu) k - 1 ≤ eP (17 * uu) k * (1 + uu) ^ 1 - 1 := by
    have := one_le_eP k (17 * uu) (by positivity)
    nlinarith
  have hprod : ∀ x < 2 ^ k, unpack A.zero (fftMul A k (fftT A k a) (fftT A k b)) x
      = cmul A (6, 0, x) (specT A k a x) (specT A k b x) := by
    intro x hx
    rw [fftMul, fftT, fftT, unpack_pack _ k hk _ x hx, unpack_pack _ k hk _ x hx, unpack_pack _ k hk _ x hx]
  have hco : ∀ (a : List Torus) i, |(coefs a i : ℝ)| ≤ 2147483648 := fun a i => by
    have := coefs_le a 2147483648 (fun i => nrm_le _) i
    exact_mod_cast this
  exact specI_size hfl fu mathPi ce k (17 * uu) (by positivity) tau_le htw
    (unpack A.zero (fftMul A k (fftT A k a) (fftT A k b))) (negMulZ (2 ^ (k + 1)) (coefs a) (coefs b))
    (eP (17 * uu) k * (1 + uu) ^ 1) C hCE (fun j _ => by
      have := negMulZ_le (2 ^ (k + 1)) (coefs a) (coefs b) 2147483648 2147483648 (by norm_num) (hco a) (hco b) j
      refine le_trans this (le_trans (le_of_eq ?_) hCl)
      push_cast; ring) (by
      rw [Finset.sum_congr rfl fun x hx => by rw [← pval_mul k a b x (Finset.mem_range.1 hx)]]
      refine le_trans hP.1 (le_trans (le_of_eq ?_) (mul_le_mul_of_nonneg_left hCl (by positivity)))
      push_cast; ring) (by
      rw [Finset.sum_congr rfl fun x hx => by
        rw [hprod x (Finset.mem_range.1 hx), ← pval_mul k a b x (Finset.mem_range.1 hx)]]
      refine le_trans hP.2 ?_
      push_cast
      refine mul_le_mul hG ?_ (by positivity) (by
        have := one_le_eP k (17 * uu) (by positivity)
        linarith)
      rw [hC]
      exact mul_le_mul_of_nonneg_left (by linarith) (by positivity)) 113
      (size_any k 1 hk' (by norm_num) C (by rw [hC]; push_cast; ring)) p hp

omit hce in
/-- The reduced coefficient is an `int64`. -/
theorem modQ_small (pi : ℚ) (s : Site) (c : ℚ) (hc : |c| ≤ 2 ^ 113) :
    |modQ (floatArith fl fu pi ce) s ((floatArith fl fu pi ce).ofInt 4294967296) c| < 2 ^ 63 := by
  have hη : (1 : ℚ) / 2 ^ 1075 ≤ 1 :=
    div_le_one_of_le₀ (one_le_pow₀ (by norm_num)) (pow_nonneg (by norm_num) _)
  have herr : ∀ x, |fl x - x| ≤ |x| / 2 ^ 53 + 1 := fun x => le_trans (hfl.err x) (add_le_add le_rfl hη)
  have hcd : |c / 4294967296| ≤ 2 ^ 81 := by
    rw [abs_div, abs_of_pos (show (0 : ℚ) < 4294967296 by norm_num), div_le_iff₀ (by norm_num)]
    refine le_trans hc (by norm_num)
  set x := c / 4294967296 with hx
  have hcx : c = 4294967296 * x := by rw [hx]; ring
  have e1 := herr x
  set ρ : ℤ := roundAway (fl x) with hρ
  have e2 := roundAway_near (fl x)
  rw [← hρ] at e2
  have h1 : |(ρ : ℚ) - x| ≤ 2 ^ 28 + 2 := by
    have := abs_add_le ((ρ : ℚ) - fl x) (fl x - x)
    rw [show (ρ : ℚ) - fl x + (fl x - x) = ρ - x by ring] at this
    have : |x| / 2 ^ 53 ≤ 2 ^ 28 := by
      rw [div_le_iff₀ (by norm_num)]; refine le_trans hcd (by norm_num)
    linarith
  set q : ℚ := 4294967296 * (ρ : ℚ) with hq
  have h2 : |q - c| ≤ 2 ^ 60 + 2 ^ 33 := by
    rw [hq, hcx, ← mul_sub, abs_mul, abs_of_pos (show (0 : ℚ) < 4294967296 by norm_num)]
    refine le_trans (mul_le_mul_of_nonneg_left h1 (by norm_num)) (by norm_num)
  have h3 : |q| ≤ 2 ^ 114 := by
    have := abs_add_le (q - c) c
    rw [sub_add_cancel] at this
    refine le_trans this (le_trans (add_le_add h2 hc) (by norm_num))
  have e3 := herr q
  have h4 : |fl q - q| ≤ 2 ^ 61 + 1 := by
    refine le_trans e3 (add_le_add ?_ le_rfl)
    rw [div_le_iff₀ (by norm_num)]; refine le_trans h3 (by norm_num)
  have key : ∀ r : ℚ, |r - q| ≤ 2 ^ 61 + 1 → |((roundAway (fl (c - r)) : ℤ) : ℚ)| < 2 ^ 63 := by
    intro r hr
    have h5 : |c - r| ≤ 2 ^ 61 + 2 ^ 60 + 2 ^ 34 := by
      have := abs_add_le (-(q - c)) (-(r - q))
      rw [abs_neg, abs_neg, show -(q - c) + -(r - q) = c - r by ring] at this
      refine le_trans this (le_trans (add_le_add h2 hr) (by norm_num))
    have e4 := herr (c - r)
    have h6 : |c - r| / 2 ^ 53 ≤ 2 ^ 10 := by
      rw [div_le_iff₀ (by norm_num)]; refine le_trans h5 (by norm_num)
    have e5 := roundAway_near (fl (c - r))
    have a1 := abs_add_le (((roundAway (fl (c - r)) : ℤ) : ℚ) - fl (c - r)) (fl (c - r))
    rw [sub_add_cancel] at a1
    have a2 := abs_add_le (fl (c - r) - (c - r)) (c - r)
    rw [sub_add_cancel] at a2
    have : (1 / 2 : ℚ) + (2 ^ 10 + 1 + (2 ^ 61 + 2 ^ 60 + 2 ^ 34)) < 2 ^ 63 := by norm_num
    linarith
  have hm : modQ (floatArith fl fu pi ce) s ((floatArith fl fu pi ce).ofInt 4294967296) c
      = ((roundAway (fl (c - if fu.subMul s = true then q else fl q)) : ℤ) : ℚ) := by
    simp only [modQ, floatArith]
    push_cast
    rfl
  rw [hm]
  apply key
  split_ifs
  · rw [sub_self, abs_zero]; positivity
  · exact h4

end

section

variable {fl gl : ℚ → ℚ} (hg : IsRoundU gl) (hag : ∀ x, |x| ≤ 2 ^ 700 → fl x = gl x) {fu : Fusing} {ce : ℚ → ℚ × ℚ}
  (hce : CexpAccurate ce (1 / 2 ^ 52)) (conv : ℚ → ℤ) (hconv : ∀ x : ℚ, |x| < 2 ^ 63 → conv x = truncZ x)

include hg hag hce hconv

/-- The transform back with another conversion -/
theorem fftR_conv (k : ℕ) (hk : k ≤ 30) (f : List ℚ) (hf : ∀ x < 2 ^ k, Bd 446 (unpack 0 f x))
    (hs : ∀ x < 2 ^ k, Bd 113 (specI (floatArith gl fu mathPi ce) k (unpack 0 f) x)) :
    fftR { floatArith fl fu mathPi ce with toInt := conv } k f = fftR (floatArith fl fu mathPi ce) k f := by
  apply tab_congr
  intro i hi
  have hpw : 2 ^ (k + 1) = 2 ^ k + 2 ^ k := by ring
  have key : ∀ x < 2 ^ k, |(specQ (floatArith fl fu mathPi ce) k (unpack 0 f) x).1| < 2 ^ 63 ∧
      |(specQ (floatArith fl fu mathPi ce) k (unpack 0 f) x).2| < 2 ^ 63 := by
    intro x hx
    have h := specI_range hg hag fu hce k hk _ hf x hx
    unfold specQ
    rw [h.1, modQ_range hg hag fu _ _ h.2.1, modQ_range hg hag fu _ _ h.2.2]
    exact ⟨modQ_small hg mathPi _ _ (hs x hx).1, modQ_small hg mathPi _ _ (hs x hx).2⟩
  show BitVec.ofInt 32 (conv (if i < 2 ^ k then (specQ (floatArith fl fu mathPi ce) k (unpack 0 f) i).1
      else (specQ (floatArith fl fu mathPi ce) k (unpack 0 f) (i - 2 ^ k)).2))
    = BitVec.ofInt 32 (truncZ (if i < 2 ^ k then (specQ (floatArith fl fu mathPi ce) k (unpack 0 f) i).1
      else (specQ (floatArith fl fu mathPi ce) k (unpack 0 f) (i - 2 ^ k)).2))
  by_cases h : i < 2 ^ k
  · rw [if_pos h, hconv _ (key i h).1]
  · rw [if_neg h, hconv _ (key (i - 2 ^ k) (by omega)).2]

/-- One product -/
theorem mulR_conv (k : ℕ) (hk : 3 ≤ k) (hk' : k ≤ 30) (a b : List Torus) :
    fftR { floatArith fl fu mathPi ce with toInt := conv } k (fftMul (floatArith fl fu mathPi ce) k
        (fftT (floatArith fl fu mathPi ce) k a) (fftT (floatArith fl fu mathPi ce) k b))
      = fftR (floatArith fl fu mathPi ce) k (fftMul (floatArith fl fu mathPi ce) k
        (fftT (floatArith fl fu mathPi ce) k a) (fftT (floatArith fl fu mathPi ce) k b)) := by
  have e := fftMul_range hg hag fu (ce := ce) k hk _ _
    (fftT_bd hg hag fu hce k hk hk' a) (fftT_bd hg hag fu hce k hk hk' b)
  rw [fftT_range hg hag fu hce k hk hk' a, fftT_range hg hag fu hce k hk hk' b, e.1]
  exact fftR_conv hg hag hce conv hconv k hk' _ e.2 (fun x hx => mul_size hg hce k hk hk' a b x hx)

/-- A sum of products -/
theorem accumR_conv (k : ℕ) (hk : 3 ≤ k) (hk' : k ≤ 30) (l : List (List Torus × List Torus)) (hl : l.length ≤ 2 ^ 18) :
    fftR { floatArith fl fu mathPi ce with toInt := conv } k (l.foldl (fun acc q => fftMulAdd (floatArith fl fu mathPi ce) k
        (fftT (floatArith fl fu mathPi ce) k q.1) (fftT (floatArith fl fu mathPi ce) k q.2) acc) (mkSlice (2 ^ (k + 1)) 0))
      = fftR (floatArith fl fu mathPi ce) k (l.foldl (fun acc q => fftMulAdd (floatArith fl fu mathPi ce) k
        (fftT (floatArith fl fu mathPi ce) k q.1) (fftT (floatArith fl fu mathPi ce) k q.2) acc) (mkSlice (2 ^ (k + 1)) 0)) := by
  have e := accum_range hg hag fu hce k hk hk' l 0 _ (by omega) (accBd_zero k hk)
  rw [e.1]
  exact fftR_conv hg hag hce conv hconv k hk' _ (e.2.bd (by omega)) (fun x hx => accum_size hg hce k hk hk' l hl x hx)

end

end GoTfhe
