import Verif.Lemmas.FftLaws
import Verif.Lemmas.FftTw
import Verif.Props.Fft

/-! # Accuracy of the backend in an arithmetic that cannot overflow -/

namespace GoTfhe

open Finset

theorem AccOk.mono_err {τ : ℝ} {k : ℕ} {t : ℝ} {m : ℕ} {S' : ℕ → ℚ × ℚ} {n : ℕ → ℤ} (h : AccOk τ k t m S' n)
    (hτ : 0 ≤ τ) (ht : 0 ≤ t) (cnt : ℕ) (hm : m ≤ cnt) :
    ∑ x ∈ range (2 ^ k), ‖tcQ (S' x) - pval k n x‖ ≤ (eP τ k * (1 + uu) ^ cnt - 1) * (2 ^ k * (cnt * t)) := by
  have h1 := one_le_eP k τ hτ
  have hu := uu_pos
  have h2 : (1 + uu) ^ m ≤ (1 + uu) ^ cnt := pow_le_pow_right₀ (by linarith) hm
  have h3 : (m : ℝ) ≤ cnt := by exact_mod_cast hm
  have h4 : 1 ≤ (1 + uu) ^ m := one_le_pow₀ (by linarith)
  refine le_trans h.err (mul_le_mul ?_ ?_ (by positivity) ?_)
  · have := mul_le_mul_of_nonneg_left h2 (show 0 ≤ eP τ k by linarith)
    linarith
  · apply mul_le_mul_of_nonneg_left _ (by positivity)
    exact mul_le_mul_of_nonneg_right h3 ht
  · nlinarith

/-- Bound on the exact coefficients from the bound on the error. -/
theorem size_of_err (k cnt : ℕ) (hk : 3 ≤ k) (hk' : k ≤ 30) (hc : cnt ≤ 2 ^ 20) (C0 C : ℝ) (hC : 0 ≤ C)
    (hCC : C ≤ C0 + 1 / 2 ^ 100) (D : ℕ) (hD31 : D < 2147483648)
    (hD : uu * C0 * (66 * k + 2 * cnt + 6) + 1 / 2 ^ 20 < D + 1 / 2) :
    backErr (17 * uu) k (eP (17 * uu) k * (1 + uu) ^ cnt) C + 1 / 2 ^ 21 < D + 1 / 2 ∧
    √2 * C + backErr (17 * uu) k (eP (17 * uu) k * (1 + uu) ^ cnt) C ≤ 2 ^ 80 := by
  have hb := backErr_le k cnt hk' hc C hC
  have hDR : (D : ℝ) ≤ 2 ^ 31 := by
    have : (D : ℝ) < 2147483648 := by exact_mod_cast hD31
    linarith [show (2 : ℝ) ^ 31 = 2147483648 by norm_num]
  have hkR : (3 : ℝ) ≤ k := by exact_mod_cast hk
  have hkR' : (k : ℝ) ≤ 30 := by exact_mod_cast hk'
  have hc0 : (0 : ℝ) ≤ cnt := by positivity
  have hc1 : (cnt : ℝ) ≤ 2 ^ 20 := by exact_mod_cast hc
  have hu := uu_pos
  have hD' : uu * C * (66 * k + 2 * cnt + 6) + 1 / 2 ^ 21 < D + 1 / 2 := by
    have e1 : uu * C * (66 * k + 2 * cnt + 6) ≤ uu * (C0 + 1 / 2 ^ 100) * (66 * k + 2 * cnt + 6) :=
      mul_le_mul_of_nonneg_right (mul_le_mul_of_nonneg_left hCC hu.le) (by positivity)
    have e2 : uu * (1 / 2 ^ 100) * (66 * k + 2 * cnt + 6) ≤ uu * (1 / 2 ^ 100) * 2 ^ 22 :=
      mul_le_mul_of_nonneg_left (by
        have : (66 : ℝ) * 30 + 2 * 2 ^ 20 + 6 ≤ 2 ^ 22 := by norm_num
        linarith) (by positivity)
    have e3 : uu * (1 / 2 ^ 100) * 2 ^ 22 ≤ 1 / 2 ^ 21 := by unfold uu; norm_num
    have e4 : (1 : ℝ) / 2 ^ 20 = 1 / 2 ^ 21 + 1 / 2 ^ 21 := by norm_num
    rw [mul_add uu, add_mul] at e1
    linarith
  refine ⟨by linarith, ?_⟩
  have h1 : uu * C * 135 ≤ uu * C * (66 * k + 2 * cnt + 6) :=
    mul_le_mul_of_nonneg_left (by linarith) (by positivity)
  have h2 : uu * C * 135 ≤ 2 ^ 31 + 1 := by linarith [show (0 : ℝ) < 1 / 2 ^ 21 by norm_num]
  have h3 : C ≤ 2 ^ 78 := by
    have e : uu * C * 135 = C * (135 / 2 ^ 53) := by rw [uu]; ring
    rw [e] at h2
    have : C * (135 / 2 ^ 53) ≤ 2 ^ 78 * (135 / 2 ^ 53) := le_trans h2 (by norm_num)
    exact le_of_mul_le_mul_right this (by norm_num)
  have s1 : √2 ≤ 2 := by
    rw [Real.sqrt_le_left (by norm_num)]; norm_num
  have h4 : √2 * C ≤ 2 * 2 ^ 78 := mul_le_mul s1 h3 hC (by norm_num)
  have h5 : (1 : ℝ) / 2 ^ 21 > 0 := by norm_num
  have h6 : (2 : ℝ) * 2 ^ 78 + (2 ^ 31 + 1) ≤ 2 ^ 80 := by norm_num
  linarith

/-- What the subnormal range adds to the sizes is far below the last place. -/
theorem tiny_slack (k cnt bnd : ℕ) (hk : 3 ≤ k) (hk' : k ≤ 30) (hc : cnt ≤ 2 ^ 20) (D : ℕ) (hD31 : D < 2147483648)
    (hD : uu * (cnt * (2 ^ (k + 1) * (bnd * 2147483648))) * (66 * k + 2 * cnt + 6) + 1 / 2 ^ 20 < D + 1 / 2) :
    cnt * (2 ^ (k + 1) * ((bnd + tinyE) * (2147483648 + tinyE))) + tinyE
      ≤ cnt * (2 ^ (k + 1) * (bnd * 2147483648)) + 1 / 2 ^ 100 := by
  have hE := tinyE_pos
  have hE1 := tinyE_le_one
  have hE3 : tinyE * 2 ^ 250 ≤ 1 / 2 ^ 100 := by
    have := mul_le_mul_of_nonneg_right (tinyE_le 350 (by norm_num)) (show (0 : ℝ) ≤ 2 ^ 250 by positivity)
    refine le_trans this (le_of_eq ?_)
    rw [show (350 : ℕ) = 100 + 250 by norm_num, pow_add]
    field_simp
  rcases Nat.eq_zero_or_pos cnt with h0 | h0
  · subst h0
    push_cast
    rw [zero_mul, zero_mul, zero_add, zero_add]
    refine le_trans ?_ hE3
    exact le_mul_of_one_le_right hE.le (one_le_pow₀ (by norm_num))
  · have hDR : (D : ℝ) ≤ 2 ^ 31 := by
      have : (D : ℝ) < 2147483648 := by exact_mod_cast hD31
      linarith [show (2 : ℝ) ^ 31 = 2147483648 by norm_num]
    have hc0 : (1 : ℝ) ≤ cnt := by exact_mod_cast h0
    have hc1 : (cnt : ℝ) ≤ 2 ^ 20 := by exact_mod_cast hc
    have hkR : (3 : ℝ) ≤ k := by exact_mod_cast hk
    have hb0 : (0 : ℝ) ≤ bnd := by positivity
    have hu := uu_pos
    have hP : (1 : ℝ) ≤ 2 ^ (k + 1) := one_le_pow₀ (by norm_num)
    have hP' : (2 : ℝ) ^ (k + 1) ≤ 2 ^ 31 := pow_le_pow_right₀ (by norm_num) (by omega)
    set P : ℝ := 2 ^ (k + 1)
    have hbC : (bnd : ℝ) ≤ cnt * (P * (bnd * 2147483648)) := by
      have h1 : (1 : ℝ) ≤ cnt * P := one_le_mul_of_one_le_of_one_le hc0 hP
      have h2 : (bnd : ℝ) ≤ bnd * 2147483648 := le_mul_of_one_le_right hb0 (by norm_num)
      rw [← mul_assoc]
      exact le_trans h2 (le_mul_of_one_le_left (by positivity) h1)
    set C := cnt * (P * (bnd * 2147483648 : ℝ)) with hC
    have hC0 : 0 ≤ C := le_trans hb0 hbC
    have h1 : uu * C * 1 ≤ uu * C * (66 * k + 2 * cnt + 6) :=
      mul_le_mul_of_nonneg_left (by linarith) (mul_nonneg hu.le hC0)
    have h2 : uu * C ≤ 2 ^ 32 := by
      have : (0 : ℝ) < 1 / 2 ^ 20 := by norm_num
      have : (2 : ℝ) ^ 31 + 1 ≤ 2 ^ 32 := by norm_num
      linarith
    have h3 : C ≤ 2 ^ 85 := by
      have e : uu * C = C * (1 / 2 ^ 53) := by rw [uu]; ring
      rw [e] at h2
      have : C * (1 / 2 ^ 53) ≤ 2 ^ 85 * (1 / 2 ^ 53) := le_trans h2 (by norm_num)
      exact le_of_mul_le_mul_right this (by norm_num)
    have e : cnt * (P * ((bnd + tinyE) * (2147483648 + tinyE))) + tinyE
        = C + tinyE * (cnt * P * (bnd + 2147483648 + tinyE) + 1) := by rw [hC]; ring
    rw [e]
    refine add_le_add le_rfl (le_trans (mul_le_mul_of_nonneg_left ?_ hE.le) hE3)
    have h4 : cnt * P ≤ 2 ^ 20 * 2 ^ 31 := mul_le_mul hc1 hP' (by positivity) (by positivity)
    have h5 : (bnd : ℝ) + 2147483648 + tinyE ≤ 2 ^ 86 := by
      have : (2147483648 : ℝ) + 1 ≤ 2 ^ 85 := by norm_num
      have : (2 : ℝ) ^ 85 + 2 ^ 85 = 2 ^ 86 := by norm_num
      linarith
    have h6 := mul_le_mul h4 h5 (by positivity) (by positivity)
    refine le_trans (add_le_add h6 le_rfl) ?_
    norm_num

theorem tau_le : 17 * uu ≤ 1 / 10 := by unfold uu; norm_num

theorem cast_sum_list (l : List ℤ) : ((l.sum : ℤ) : Torus) = (l.map fun z : ℤ => (z : Torus)).sum := by
  induction l with
  | nil => simp
  | cons a l ih => simp only [List.sum_cons, Int.cast_add, List.map_cons, ih]

section

variable {fl : ℚ → ℚ} (hfl : IsRoundU fl) {fu : Fusing} {ce : ℚ → ℚ × ℚ} (hce : CexpAccurate ce (1 / 2 ^ 52))

theorem twice_uu : (1 : ℝ) / 2 ^ 52 = 2 * uu := by unfold uu; norm_num

include hfl hce

/-- The transform in rounded arithmetic, as a backend: a sum of at most `cnt` products with first factors of
size at most `bnd` is off by at most `D` in every coefficient as soon as
`cnt N bnd 2^-22 (66 k + 2 cnt + 6) < D + 1/2 - 2^-20`, where `N = 2^(k+1)`. -/
theorem accurateU (k : ℕ) (hk : 3 ≤ k) (hk' : k ≤ 30) (cnt bnd D : ℕ) (hc : cnt ≤ 2 ^ 20)
    (hD : (cnt * 2 ^ (k + 1) * bnd : ℝ) / 2 ^ 22 * (66 * k + 2 * cnt + 6) + 1 / 2 ^ 20 < D + 1 / 2) :
    (fftLaws (floatArith fl fu mathPi ce) k hk).Accurate cnt bnd D := by
  intro l hl hb i hi
  have hi' : i < 2 ^ (k + 1) := hi
  set A := floatArith fl fu mathPi ce with hA
  show nrm (at' (fftR A k (l.foldl (fun acc q => fftMulAdd A k (fftT A k q.1) (fftT A k q.2) acc)
      (mkSlice (2 ^ (k + 1)) A.zero))) i - (l.map fun p => negMul (2 ^ (k + 1)) (at' p.1) (at' p.2) i).sum) ≤ D
  by_cases hD31 : 2147483648 ≤ D
  · exact le_trans (nrm_le _) hD31
  have hu := uu_pos
  have htw : TwClose fl fu mathPi ce k (17 * uu) :=
    twClose hfl fu ce _ (by norm_num) (le_of_eq twice_uu) hce k
  have hE := tinyE_pos
  set t : ℝ := 2 ^ (k + 1) * ((bnd + tinyE) * (2147483648 + tinyE)) with ht
  have ht0 : 0 ≤ t := by positivity
  have h0 : AccOk (17 * uu) k t 0 (unpack 0 (mkSlice (2 ^ (k + 1)) (0 : ℚ))) (fun _ => 0) := by
    have hp : ∀ x, pval k (fun _ => 0) x = 0 := by intro x; simp [pval]
    refine ⟨by simp, by simp [hp], ?_⟩
    rw [Finset.sum_eq_zero]
    · simp
    · intro x hx
      rw [unpack_zero _ k hk x (Finset.mem_range.1 hx), hp]
      have : tcQ ((0 : ℚ), (0 : ℚ)) = 0 := by apply Complex.ext <;> simp [tcQ]
      rw [this]; simp
  have hacc := acc_fold hfl fu mathPi ce k (17 * uu) (by positivity) (by omega) htw hk bnd l (fun p hp => (hb p hp).2.2) _ _ 0
    (by simp) h0
  rw [zero_add] at hacc
  set C : ℝ := cnt * t + tinyE with hC
  have hC0 : 0 ≤ C := by positivity
  have huC : uu * (cnt * (2 ^ (k + 1) * (bnd * 2147483648))) = (cnt * 2 ^ (k + 1) * bnd : ℝ) / 2 ^ 22 := by
    rw [uu]; ring
  rw [← huC] at hD
  have hCt : C - tinyE = cnt * t := by rw [hC]; ring
  have hCE : tinyE ≤ C := by rw [hC]; exact le_add_of_nonneg_left (by positivity)
  obtain ⟨b1, b2⟩ := size_of_err k cnt hk hk' hc _ C hC0 (tiny_slack k cnt bnd hk hk' hc D (by omega) hD) D (by omega) hD
  have hlR : (l.length : ℝ) ≤ cnt := by exact_mod_cast hl
  have := back_err hfl fu mathPi ce k (17 * uu) (by positivity) tau_le htw _ _ (eP (17 * uu) k * (1 + uu) ^ cnt) C hCE
    (fun j _ => by rw [hCt]; exact le_trans (hacc.coef j) (mul_le_mul_of_nonneg_right hlR ht0))
    (by rw [hCt]; exact le_trans hacc.size (mul_le_mul_of_nonneg_left (mul_le_mul_of_nonneg_right hlR ht0) (by positivity)))
    (le_trans (hacc.mono_err (by positivity) ht0 cnt hl) (mul_le_mul_of_nonneg_left
      (mul_le_mul_of_nonneg_left (by linarith) (by positivity)) (by
        have := one_le_eP k (17 * uu) (by positivity)
        have : 1 ≤ eP (17 * uu) k * (1 + uu) ^ cnt :=
          one_le_mul_of_one_le_of_one_le this (one_le_pow₀ (by linarith))
        linarith))) D b1 b2 i hi'
  rw [fftR, at'_tab _ _ _ hi']
  refine le_trans (le_of_eq ?_) this
  congr 2
  rw [zero_add, ← cast_int_eq, cast_sum_list, List.map_map]
  congr 1
  apply List.map_congr_left
  intro p _
  rw [Function.comp_apply, cast_int_eq]
  exact (ofInt_negMulZ _ _ _ _).symm

/-- One product with a second factor of size at most `bnd`. -/
theorem mulAccurateU (k : ℕ) (hk : 3 ≤ k) (hk' : k ≤ 30) (bnd D : ℕ)
    (hD : (2 ^ (k + 1) * bnd : ℝ) / 2 ^ 22 * (66 * k + 8) + 1 / 2 ^ 20 < D + 1 / 2) :
    (fftLaws (floatArith fl fu mathPi ce) k hk).MulAccurate bnd D := by
  intro a b _ _ hb i hi
  have hi' : i < 2 ^ (k + 1) := hi
  set A := floatArith fl fu mathPi ce with hA
  show nrm (at' (fftR A k (fftMul A k (fftT A k a) (fftT A k b))) i - negMul (2 ^ (k + 1)) (at' a) (at' b) i) ≤ D
  by_cases hD31 : 2147483648 ≤ D
  · exact le_trans (nrm_le _) hD31
  have hu := uu_pos
  have htw : TwClose fl fu mathPi ce k (17 * uu) :=
    twClose hfl fu ce _ (by norm_num) (le_of_eq twice_uu) hce k
  have hE := tinyE_pos
  set C : ℝ := 2 ^ (k + 1) * ((2147483648 + tinyE) * (bnd + tinyE)) + tinyE with hC
  have hC0 : 0 ≤ C := by positivity
  have hD' : uu * ((1 : ℕ) * (2 ^ (k + 1) * (bnd * 2147483648))) * (66 * k + 2 * (1 : ℕ) + 6) + 1 / 2 ^ 20 < (D : ℝ) + 1 / 2 := by
    refine lt_of_le_of_lt (le_of_eq ?_) hD
    rw [uu]; push_cast; ring
  have hCE : tinyE ≤ C := by rw [hC]; exact le_add_of_nonneg_left (by positivity)
  have hCl : 2 ^ (k + 1) * (2147483648 * (bnd : ℝ)) ≤ C - tinyE := by
    rw [hC, add_sub_cancel_right]
    exact mul_le_mul_of_nonneg_left (mul_le_mul (by linarith) (by linarith) (by positivity) (by positivity)) (by positivity)
  obtain ⟨b1, b2⟩ := size_of_err k 1 hk hk' (by norm_num) _ C hC0 (by
    refine le_trans (le_of_eq ?_) (tiny_slack k 1 bnd hk hk' (by norm_num) D (by omega) hD')
    rw [hC]; push_cast; ring) D (by omega) hD'
  have hP := product_err hfl fu mathPi ce k (17 * uu) (by positivity) (by omega) htw (fun x => (6, 0, x)) a b 2147483648 bnd (fun i => nrm_le _) hb
  have hG : eP (17 * uu) k - 1 ≤ eP (17 * uu) k * (1 + uu) ^ 1 - 1 := by
    have := one_le_eP k (17 * uu) (by positivity)
    nlinarith
  have hprod : ∀ x < 2 ^ k, unpack A.zero (fftMul A k (fftT A k a) (fftT A k b)) x
      = cmul A (6, 0, x) (specT A k a x) (specT A k b x) := by
    intro x hx
    rw [fftMul, fftT, fftT, unpack_pack _ k hk _ x hx, unpack_pack _ k hk _ x hx, unpack_pack _ k hk _ x hx]
  have := back_err hfl fu mathPi ce k (17 * uu) (by positivity) tau_le htw
    (unpack A.zero (fftMul A k (fftT A k a) (fftT A k b))) (negMulZ (2 ^ (k + 1)) (coefs a) (coefs b))
    (eP (17 * uu) k * (1 + uu) ^ 1) C hCE (fun j _ => by
      have := negMulZ_le (2 ^ (k + 1)) (coefs a) (coefs b) 2147483648 bnd (by norm_num)
        (fun i => by
          have := coefs_le a 2147483648 (fun i => nrm_le _) i
          exact_mod_cast this) (coefs_le b bnd hb) j
      refine le_trans this (le_trans (le_of_eq ?_) hCl)
      push_cast; ring) (by
      rw [Finset.sum_congr rfl fun x hx => by rw [← pval_mul k a b x (Finset.mem_range.1 hx)]]
      refine le_trans hP.1 (le_trans (le_of_eq ?_) (mul_le_mul_of_nonneg_left hCl (by positivity)))
      push_cast; ring) (by
      rw [Finset.sum_congr rfl fun x hx => by
        rw [hprod x (Finset.mem_range.1 hx), ← pval_mul k a b x (Finset.mem_range.1 hx)]]
      refine le_trans hP.2 ?_
      push_cast
      refine mul_le_mul hG ?_ (by positivity) (by
        have := one_le_eP k (17 * uu) (by positivity)
        linarith)
      rw [hC]
      exact mul_le_mul_of_nonneg_left (by linarith) (by positivity)) D b1 b2 i hi'
  rw [fftR, at'_tab _ _ _ hi']
  refine le_trans (le_of_eq ?_) this
  congr 2
  exact (ofInt_negMulZ _ _ _ _).symm

end

end GoTfhe
