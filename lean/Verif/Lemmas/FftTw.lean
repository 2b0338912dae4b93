import Verif.Lemmas.FftFloat
import Mathlib.Analysis.Real.Pi.Bounds
import Mathlib.Analysis.SpecialFunctions.Exp

/-! # Rounding errors of the twiddle factors -/

namespace GoTfhe

open Complex Finset

/-- `math.Pi` as a `float64` -/
def mathPi : ℚ := 884279719003555 / 281474976710656

/-- `cmplx.Exp` on imaginary arguments is accurate to `ε` for angles up to 4. -/
def CexpAccurate (ce : ℚ → ℚ × ℚ) (ε : ℝ) : Prop := ∀ x : ℚ, |x| ≤ 4 → ‖tcQ (ce x) - exp (((x : ℝ) : ℂ) * I)‖ ≤ ε

theorem mathPi_err : |(mathPi : ℝ) - Real.pi| ≤ 1.11 * uu := by
  have h1 := Real.pi_gt_d20
  have h2 := Real.pi_lt_d20
  have e : (mathPi : ℝ) = 884279719003555 / 281474976710656 := by rw [mathPi]; push_cast; rfl
  rw [e, uu, abs_le]
  constructor
  · norm_num at h2 ⊢; linarith
  · norm_num at h1 ⊢; linarith

theorem mathPi_lt : (mathPi : ℝ) ≤ 3.15 := by rw [mathPi]; push_cast; norm_num
theorem mathPi_pos : (0 : ℝ) ≤ mathPi := by rw [mathPi]; push_cast; norm_num

/-- Rounded angle `±2π t / D`. -/
theorem angle_err {fl : ℚ → ℚ} (hfl : IsRoundU fl) (sg : ℤ) (hs : sg = 2 ∨ sg = -2) (t D : ℕ) (hD : 0 < D) :
    |((fl (fl (fl ((sg : ℚ) * mathPi) * (t : ℚ)) / (D : ℚ)) : ℚ) : ℝ) - sg * Real.pi * t / D|
      ≤ 2 * ((t : ℝ) / D) * (7.412 * uu) + 4 * eta := by
  have hu := uu_pos
  have hus := uu_small
  have hex : fl ((sg : ℚ) * mathPi) = (sg : ℚ) * mathPi := by
    rcases hs with rfl | rfl
    · have := hfl.exact 884279719003555 (-47) (by norm_num) (by norm_num) (by norm_num)
      rw [show ((884279719003555 : ℤ) : ℚ) * 2 ^ (-47 : ℤ) = ((2 : ℤ) : ℚ) * mathPi by rw [mathPi]; norm_num] at this
      exact this
    · have := hfl.exact (-884279719003555) (-47) (by norm_num) (by norm_num) (by norm_num)
      rw [show ((-884279719003555 : ℤ) : ℚ) * 2 ^ (-47 : ℤ) = ((-2 : ℤ) : ℚ) * mathPi by rw [mathPi]; norm_num] at this
      exact this
  rw [hex]
  have h1 := fl_err hfl ((sg : ℚ) * mathPi * t)
  have h2 := fl_err hfl (fl ((sg : ℚ) * mathPi * t) / (D : ℚ))
  push_cast at h1 h2
  set X : ℝ := (fl ((sg : ℚ) * mathPi * t) : ℝ)
  set Y : ℝ := ((fl (fl ((sg : ℚ) * mathPi * t) / (D : ℚ)) : ℚ) : ℝ)
  have hD' : (0 : ℝ) < D := by exact_mod_cast hD
  have hD1 : (1 : ℝ) ≤ D := by exact_mod_cast hD
  have hη := eta_pos
  set ρ : ℝ := (t : ℝ) / D with hρ
  have hρ0 : 0 ≤ ρ := by positivity
  have hsg : |(sg : ℝ)| = 2 := by rcases hs with rfl | rfl <;> norm_num
  have hx : |(sg : ℝ) * mathPi * t| = 2 * mathPi * t := by
    rw [abs_mul, abs_mul, hsg, abs_of_nonneg mathPi_pos, abs_of_nonneg (by positivity : (0 : ℝ) ≤ t)]
  rw [hx] at h1
  have hXD : |X / D - sg * mathPi * t / D| ≤ uu * (2 * mathPi * ρ) + eta := by
    rw [← sub_div, abs_div, abs_of_pos hD', div_le_iff₀ hD']
    refine le_trans h1 ?_
    have e : uu * (2 * mathPi * ρ) * D = uu * (2 * mathPi * t) := by rw [hρ]; field_simp
    rw [add_mul, e]
    exact add_le_add le_rfl (le_mul_of_one_le_right hη.le hD1)
  have hxD : |(sg : ℝ) * mathPi * t / D| = 2 * mathPi * ρ := by
    rw [abs_div, hx, abs_of_pos hD', hρ]; ring
  have hXn : |X / D| ≤ (1 + uu) * (2 * mathPi * ρ) + eta := by
    calc |X / D| = |(X / D - sg * mathPi * t / D) + sg * mathPi * t / D| := by congr 1; ring
      _ ≤ _ := le_trans (abs_add_le _ _) (by rw [hxD]; linarith)
  have hP : |(sg : ℝ) * mathPi * t / D - sg * Real.pi * t / D| ≤ 2 * ρ * (1.11 * uu) := by
    have : (sg : ℝ) * mathPi * t / D - sg * Real.pi * t / D = sg * ρ * (mathPi - Real.pi) := by rw [hρ]; ring
    rw [this, abs_mul, abs_mul, hsg, abs_of_nonneg hρ0]
    exact mul_le_mul_of_nonneg_left mathPi_err (by positivity)
  have h2' := mul_le_mul_of_nonneg_left hXn hu.le
  have hm : 2 * (mathPi : ℝ) * ρ ≤ 2 * ρ * 3.15 := by nlinarith [mathPi_lt]
  have hc : (uu * (1 + uu) + uu) * (2 * mathPi * ρ) ≤ (uu * (1 + uu) + uu) * (2 * ρ * 3.15) :=
    mul_le_mul_of_nonneg_left hm (by positivity)
  have hc2 : (uu * (1 + uu) + uu) * (2 * ρ * 3.15) ≤ 2 * ρ * (6.302 * uu) := by
    have hus6 : uu ≤ 1 / 10 ^ 6 := by unfold uu; norm_num
    have : (uu * (1 + uu) + uu) * 3.15 ≤ 6.302 * uu := by nlinarith
    nlinarith
  calc |Y - sg * Real.pi * t / D|
      = |(Y - X / D) + ((X / D - sg * mathPi * t / D) + (sg * mathPi * t / D - sg * Real.pi * t / D))| := by
        congr 1; ring
    _ ≤ |Y - X / D| + (|X / D - sg * mathPi * t / D| + |(sg : ℝ) * mathPi * t / D - sg * Real.pi * t / D|) :=
        le_trans (abs_add_le _ _) (add_le_add le_rfl (abs_add_le _ _))
    _ ≤ _ := by
        have : uu * eta ≤ 1 * eta := mul_le_mul_of_nonneg_right (by linarith) hη.le
        linarith

theorem exp_lip (a b : ℝ) : ‖exp ((a : ℂ) * I) - exp ((b : ℂ) * I)‖ ≤ |a - b| := by
  have h : exp ((a : ℂ) * I) - exp ((b : ℂ) * I) = exp ((b : ℂ) * I) * (exp (I * ((a - b : ℝ) : ℂ)) - 1) := by
    rw [mul_sub, ← Complex.exp_add, mul_one]
    congr 2
    push_cast; ring
  rw [h, norm_mul, Complex.norm_exp_ofReal_mul_I, one_mul]
  exact Real.norm_exp_I_mul_ofReal_sub_one_le

theorem cexp_angle {ce : ℚ → ℚ × ℚ} {ε : ℝ} (hce : CexpAccurate ce ε) (x : ℚ) (θ δ : ℝ) (hx : |(x : ℝ) - θ| ≤ δ)
    (hθ : |θ| + δ ≤ 4) : ‖tcQ (ce x) - exp ((θ : ℂ) * I)‖ ≤ ε + δ := by
  have h4 : |x| ≤ 4 := by
    have : |(x : ℝ)| ≤ 4 := by
      calc |(x : ℝ)| = |((x : ℝ) - θ) + θ| := by congr 1; ring
        _ ≤ _ := le_trans (abs_add_le _ _) (by linarith)
    exact_mod_cast this
  calc ‖tcQ (ce x) - exp ((θ : ℂ) * I)‖
      = ‖(tcQ (ce x) - exp (((x : ℝ) : ℂ) * I)) + (exp (((x : ℝ) : ℂ) * I) - exp ((θ : ℂ) * I))‖ := by congr 1; ring
    _ ≤ _ := le_trans (norm_add_le _ _) (add_le_add (hce x h4) (le_trans (exp_lip _ _) hx))

theorem tw_product {fl : ℚ → ℚ} (hfl : IsRoundU fl) (fu : Fusing) (pi : ℚ) (ce : ℚ → ℚ × ℚ) (s : Site) (x y : ℚ × ℚ) (X Y : ℂ) (ε : ℝ)
    (hε0 : 0 ≤ ε) (hε : ε ≤ 1 / 1000) (hX : ‖X‖ = 1) (hY : ‖Y‖ = 1) (hx : ‖tcQ x - X‖ ≤ ε + 7.42 * uu)
    (hy : ‖tcQ y - Y‖ ≤ ε + 1.855 * uu) :
    ‖tcQ (cmul (floatArith fl fu pi ce) s x y) - X * Y‖ ≤ 2 * ε + 12.5 * uu + 3 * ε ^ 2 := by
  have hu := uu_pos
  have hus := uu_small
  have hus2 : uu ≤ 1 / 10 ^ 6 := by unfold uu; norm_num
  have hm := mulW_err hfl fu pi ce s (ε + 1.855 * uu) Y hY y x hy
  have hxn : ‖tcQ x‖ ≤ 1 + (ε + 7.42 * uu) := by
    calc ‖tcQ x‖ = ‖(tcQ x - X) + X‖ := by congr 1; ring
      _ ≤ _ := le_trans (norm_add_le _ _) (by rw [hX]; linarith)
  have hc : 0 ≤ ε + 1.855 * uu + 3 * uu * (1 + (ε + 1.855 * uu)) := by positivity
  have := mul_le_mul_of_nonneg_left hxn hc
  have hη := eta_pos
  have hη1 : 8 * eta ≤ 0.1 * uu := by
    have := eta_small
    nlinarith
  calc ‖tcQ (cmul (floatArith fl fu pi ce) s x y) - X * Y‖
      = ‖(tcQ (cmul (floatArith fl fu pi ce) s x y) - tcQ x * Y) + (tcQ x - X) * Y‖ := by congr 1; ring
    _ ≤ ‖tcQ (cmul (floatArith fl fu pi ce) s x y) - tcQ x * Y‖ + ‖tcQ x - X‖ := by
        refine le_trans (norm_add_le _ _) (le_of_eq ?_)
        rw [norm_mul _ Y, hY, mul_one]
    _ ≤ (ε + 1.855 * uu + 3 * uu * (1 + (ε + 1.855 * uu))) * (1 + (ε + 7.42 * uu)) + (ε + 7.42 * uu) + 0.1 * uu := by linarith
    _ ≤ _ := by
        nlinarith [mul_nonneg hε0 hu.le, mul_nonneg hu.le hu.le, mul_nonneg (mul_nonneg hε0 hu.le) hu.le,
          mul_nonneg (mul_nonneg hε0 hε0) hu.le, mul_nonneg (mul_nonneg hu.le hu.le) hu.le,
          mul_le_mul_of_nonneg_right hε (mul_nonneg hε0 hu.le), mul_le_mul_of_nonneg_right hε hu.le,
          mul_le_mul_of_nonneg_right hus2 hu.le, mul_le_mul_of_nonneg_right hε (mul_nonneg hu.le hu.le),
          mul_le_mul_of_nonneg_right hus2 (mul_nonneg hu.le hu.le)]

theorem twClose {fl : ℚ → ℚ} (hfl : IsRoundU fl) (fu : Fusing) (ce : ℚ → ℚ × ℚ) (ε : ℝ) (hε0 : 0 ≤ ε) (hε : ε ≤ 2 * uu)
    (hce : CexpAccurate ce ε) (k : ℕ) : TwClose fl fu mathPi ce k (17 * uu) := by
  intro s hs i hi
  have hu := uu_pos
  have hus2 : uu ≤ 1 / 10 ^ 6 := by unfold uu; norm_num
  have hpi4 := Real.pi_lt_d2
  have hpi0 := Real.pi_pos
  set r := rev (k - 1) i with hr
  have hrlt : r < 2 ^ (k - 1) := rev_lt _ _
  have hk2 : 2 ^ k = 2 * 2 ^ (k - 1) := by rw [← pow_succ']; congr 1; omega
  have hk2' : ((2 ^ k : ℕ) : ℝ) = 2 * 2 ^ (k - 1) := by rw [hk2]; push_cast; rfl
  set t := 2 ^ (k - 1 - s) with ht
  have htle : t ≤ 2 ^ (k - 1) := Nat.pow_le_pow_right (by omega) (by omega)
  have hP : (0 : ℝ) < 2 ^ (k - 1) := by positivity
  have hρ1 : (r : ℝ) / (2 ^ k : ℕ) ≤ 1 / 2 := by
    rw [hk2', div_le_div_iff₀ (by positivity) (by norm_num)]
    have : (r : ℝ) ≤ 2 ^ (k - 1) := by exact_mod_cast hrlt.le
    linarith
  have hρ2 : (t : ℝ) / (4 * 2 ^ k : ℕ) ≤ 1 / 8 := by
    have e : ((4 * 2 ^ k : ℕ) : ℝ) = 8 * 2 ^ (k - 1) := by rw [hk2]; push_cast; ring
    rw [e, div_le_div_iff₀ (by positivity) (by norm_num)]
    have : (t : ℝ) ≤ 2 ^ (k - 1) := by exact_mod_cast htle
    linarith
  have hη := eta_pos
  have hη1 : 4 * eta ≤ 0.001 * uu := by
    have := eta_small
    nlinarith
  have hρ10 : 0 ≤ (r : ℝ) / (2 ^ k : ℕ) := by positivity
  have hρ20 : 0 ≤ (t : ℝ) / (4 * 2 ^ k : ℕ) := by positivity
  set θ1 : ℝ := twAngle realArith (2 ^ k) r with hθ1
  set θ2 : ℝ := foldAngle realArith 2 (2 ^ k) t with hθ2
  have v1 : θ1 = (-2 : ℤ) * Real.pi * r / (2 ^ k : ℕ) := by
    simp only [hθ1, twAngle, realArith]; push_cast; rfl
  have v2 : θ2 = (2 : ℤ) * Real.pi * t / (4 * 2 ^ k : ℕ) := by
    simp only [hθ2, foldAngle, realArith]; push_cast; rfl
  have v2' : -θ2 = (-2 : ℤ) * Real.pi * t / (4 * 2 ^ k : ℕ) := by rw [v2]; push_cast; ring
  have n1 : |θ1| ≤ 3.15 := by
    have : θ1 = -(2 * Real.pi * ((r : ℝ) / (2 ^ k : ℕ))) := by rw [v1]; push_cast; ring
    rw [this, abs_neg, abs_of_nonneg (by positivity)]
    nlinarith
  have n2 : |θ2| ≤ 3.15 := by
    have : θ2 = 2 * Real.pi * ((t : ℝ) / (4 * 2 ^ k : ℕ)) := by rw [v2]; push_cast; ring
    rw [this, abs_of_nonneg (by positivity)]
    nlinarith
  have a1 : |((twAngle (floatArith fl fu mathPi ce) (2 ^ k) r : ℚ) : ℝ) - θ1| ≤ 7.42 * uu := by
    have := angle_err hfl (-2) (Or.inr rfl) r (2 ^ k) (by positivity)
    rw [← v1] at this
    refine le_trans ?_ (le_trans this (by nlinarith))
    simp only [twAngle, floatArith]
    exact le_of_eq rfl
  have a2 : |((foldAngle (floatArith fl fu mathPi ce) 2 (2 ^ k) t : ℚ) : ℝ) - θ2| ≤ 1.855 * uu := by
    have := angle_err hfl 2 (Or.inl rfl) t (4 * 2 ^ k) (by positivity)
    rw [← v2] at this
    refine le_trans ?_ (le_trans this (by nlinarith))
    simp only [foldAngle, floatArith]
    exact le_of_eq rfl
  have a2' : |((foldAngle (floatArith fl fu mathPi ce) (-2) (2 ^ k) t : ℚ) : ℝ) - -θ2| ≤ 1.855 * uu := by
    have := angle_err hfl (-2) (Or.inr rfl) t (4 * 2 ^ k) (by positivity)
    rw [← v2'] at this
    refine le_trans ?_ (le_trans this (by nlinarith))
    simp only [foldAngle, floatArith]
    exact le_of_eq rfl
  have a1' : |(((floatArith fl fu mathPi ce).neg (twAngle (floatArith fl fu mathPi ce) (2 ^ k) r) : ℚ) : ℝ) - -θ1| ≤ 7.42 * uu := by
    have e : (((floatArith fl fu mathPi ce).neg (twAngle (floatArith fl fu mathPi ce) (2 ^ k) r) : ℚ) : ℝ) - -θ1
        = -(((twAngle (floatArith fl fu mathPi ce) (2 ^ k) r : ℚ) : ℝ) - θ1) := by
      have : (floatArith fl fu mathPi ce).neg = fun x => -x := rfl
      rw [this]; push_cast; ring
    rw [e, abs_neg]; exact a1
  have hfin : 2 * ε + 12.5 * uu + 3 * ε ^ 2 ≤ 17 * uu := by
    have : ε ^ 2 ≤ (2 * uu) ^ 2 := pow_le_pow_left₀ hε0 hε 2
    nlinarith [mul_le_mul_of_nonneg_right hus2 hu.le]
  have hsum := angle_sum k s i hs hi
  constructor
  · have eW : W s i = exp ((θ1 : ℂ) * I) * exp ((θ2 : ℂ) * I) := by
      rw [W_eq, ← hsum, ← Complex.exp_add]
      congr 1
      push_cast; ring
    rw [eW, twF]
    refine le_trans (tw_product hfl fu mathPi ce _ _ _ _ _ ε hε0 (by linarith) (Complex.norm_exp_ofReal_mul_I _)
      (Complex.norm_exp_ofReal_mul_I _) ?_ ?_) hfin
    · exact cexp_angle hce _ θ1 _ a1 (by linarith)
    · exact cexp_angle hce _ θ2 _ a2 (by linarith)
  · have eW : (W s i)⁻¹ = exp (((-θ1 : ℝ) : ℂ) * I) * exp (((-θ2 : ℝ) : ℂ) * I) := by
      rw [W_eq, ← hsum, ← Complex.exp_add, ← Complex.exp_neg]
      congr 1
      push_cast; ring
    rw [eW, twI]
    refine le_trans (tw_product hfl fu mathPi ce _ _ _ _ _ ε hε0 (by linarith) (Complex.norm_exp_ofReal_mul_I _)
      (Complex.norm_exp_ofReal_mul_I _) ?_ ?_) hfin
    · exact cexp_angle hce _ (-θ1) _ a1' (by rw [abs_neg]; linarith)
    · exact cexp_angle hce _ (-θ2) _ a2' (by rw [abs_neg]; linarith)

/-! ### An accurate exponential exists -/

theorem exists_cexp (ε : ℝ) (hε : 0 < ε) : ∃ ce, CexpAccurate ce ε := by
  have h : ∀ x : ℚ, ∃ y : ℚ × ℚ, ‖tcQ y - exp (((x : ℝ) : ℂ) * I)‖ ≤ ε := by
    intro x
    set w := exp (((x : ℝ) : ℂ) * I)
    obtain ⟨a, ha1, ha2⟩ := exists_rat_btwn (show w.re < w.re + ε / 2 by linarith)
    obtain ⟨b, hb1, hb2⟩ := exists_rat_btwn (show w.im < w.im + ε / 2 by linarith)
    refine ⟨(a, b), norm_le_of_sq _ _ hε.le ?_⟩
    simp only [tcQ, Complex.sub_re, Complex.sub_im]
    nlinarith
  choose ce hce using h
  exact ⟨ce, fun x _ => hce x⟩

/-! ### A readable bound -/

theorem pow_bound (c : ℝ) (hc : 0 ≤ c) (n : ℕ) (h : n * c ≤ 1 / 2000) : (1 + c) ^ n ≤ 1 + 1.001 * n * c := by
  induction n with
  | zero => simp
  | succ n ih =>
    push_cast at h ⊢
    have h' : (n : ℝ) * c ≤ 1 / 2000 := by nlinarith
    have := mul_le_mul_of_nonneg_right (ih h') (show 0 ≤ 1 + c by linarith)
    rw [pow_succ]
    nlinarith

theorem coef_bounds : cF (17 * uu) ≤ 22.01 * uu ∧ cI (17 * uu) ≤ 21.01 * uu := by
  have hu := uu_pos
  have hus : uu ≤ 1 / 10 ^ 15 := by unfold uu; norm_num
  have huu : uu * uu ≤ uu * (1 / 10 ^ 15) := mul_le_mul_of_nonneg_left hus hu.le
  have huuu : uu * uu * uu ≤ uu * (1 / 10 ^ 15) := by nlinarith
  constructor
  · unfold cF; nlinarith
  · unfold cI; nlinarith

theorem powF_bound (k : ℕ) (hk : k ≤ 30) : (1 + cF (17 * uu)) ^ (2 * k) ≤ 1 + 44.1 * k * uu := by
  have hu := uu_pos
  have hus : uu ≤ 1 / 10 ^ 15 := by unfold uu; norm_num
  have hkR : (k : ℝ) ≤ 30 := by exact_mod_cast hk
  have hk0 : (0 : ℝ) ≤ k := by positivity
  have nF := cF_nonneg (17 * uu) (by positivity)
  have kF : ((2 * k : ℕ) : ℝ) * cF (17 * uu) ≤ 2 * k * (22.01 * uu) := by
    push_cast; exact mul_le_mul_of_nonneg_left coef_bounds.1 (by positivity)
  have hku : (k : ℝ) * uu ≤ 30 * uu := mul_le_mul_of_nonneg_right hkR hu.le
  have hku0 : 0 ≤ (k : ℝ) * uu := by positivity
  refine le_trans (pow_bound _ nF _ ?_) ?_
  · linarith
  · linarith

theorem powI_bound (k : ℕ) (hk : k ≤ 30) : (1 + cI (17 * uu)) ^ k ≤ 1 + 21.1 * k * uu := by
  have hu := uu_pos
  have hus : uu ≤ 1 / 10 ^ 15 := by unfold uu; norm_num
  have hkR : (k : ℝ) ≤ 30 := by exact_mod_cast hk
  have hk0 : (0 : ℝ) ≤ k := by positivity
  have nI := cI_nonneg (17 * uu) (by positivity)
  have kI : (k : ℝ) * cI (17 * uu) ≤ k * (21.01 * uu) := mul_le_mul_of_nonneg_left coef_bounds.2 hk0
  have hku : (k : ℝ) * uu ≤ 30 * uu := mul_le_mul_of_nonneg_right hkR hu.le
  have hku0 : 0 ≤ (k : ℝ) * uu := by positivity
  refine le_trans (pow_bound _ nI _ ?_) ?_
  · linarith
  · linarith

theorem gain_bound (k cnt : ℕ) (hk : k ≤ 30) (hc : cnt ≤ 2 ^ 20) :
    eP (17 * uu) k * (1 + uu) ^ cnt - 1 ≤ 1.001 * (44.1 * k * uu + 3 * uu + 1.001 * cnt * uu) := by
  have hu := uu_pos
  have hus : uu ≤ 1 / 10 ^ 15 := by unfold uu; norm_num
  have hkR : (k : ℝ) ≤ 30 := by exact_mod_cast hk
  have hcR : (cnt : ℝ) ≤ 2 ^ 20 := by exact_mod_cast hc
  have hku : (k : ℝ) * uu ≤ 30 * uu := mul_le_mul_of_nonneg_right hkR hu.le
  have hcu : (cnt : ℝ) * uu ≤ 2 ^ 20 * uu := mul_le_mul_of_nonneg_right hcR hu.le
  have p1 := powF_bound k hk
  have p3 : (1 + uu) ^ cnt ≤ 1 + 1.001 * cnt * uu := by
    apply pow_bound _ hu.le
    linarith
  set X := 44.1 * (k : ℝ) * uu with hX
  set Z := 1.001 * (cnt : ℝ) * uu with hZ
  have hX0 : 0 ≤ X := by positivity
  have hZ0 : 0 ≤ Z := by positivity
  have hXs : X ≤ 1 / 10 ^ 8 := by rw [hX]; linarith
  have hZs : Z ≤ 1 / 10 ^ 8 := by rw [hZ]; linarith
  have e : eF (17 * uu) k ^ 2 = (1 + cF (17 * uu)) ^ (2 * k) := by rw [eF, ← pow_mul, mul_comm k 2]
  have m1 : eP (17 * uu) k ≤ (1 + X) * (1 + 3 * uu) := by
    rw [eP, e]; exact mul_le_mul_of_nonneg_right p1 (by positivity)
  have m2 : eP (17 * uu) k * (1 + uu) ^ cnt ≤ (1 + X) * (1 + 3 * uu) * (1 + Z) :=
    mul_le_mul m1 p3 (by positivity) (by positivity)
  have q1 : X * (3 * uu) ≤ 1 / 10 ^ 8 * (3 * uu) := mul_le_mul_of_nonneg_right hXs (by positivity)
  have q2 : X * Z ≤ 1 / 10 ^ 8 * Z := mul_le_mul_of_nonneg_right hXs hZ0
  have q3 : (3 * uu) * Z ≤ 1 / 10 ^ 8 * Z := mul_le_mul_of_nonneg_right (by linarith) hZ0
  have q4 : X * (3 * uu) * Z ≤ 1 / 10 ^ 8 * Z := by
    have : X * (3 * uu) ≤ 1 / 10 ^ 8 := by linarith
    exact mul_le_mul_of_nonneg_right this hZ0
  have ex : (1 + X) * (1 + 3 * uu) * (1 + Z) = 1 + X + 3 * uu + Z + X * (3 * uu) + X * Z + (3 * uu) * Z + X * (3 * uu) * Z := by
    ring
  linarith

theorem backErr_le (k cnt : ℕ) (hk : k ≤ 30) (hc : cnt ≤ 2 ^ 20) (C : ℝ) (hC : 0 ≤ C) :
    backErr (17 * uu) k (eP (17 * uu) k * (1 + uu) ^ cnt) C ≤ uu * C * (66 * k + 2 * cnt + 6) := by
  have hu := uu_pos
  have hus : uu ≤ 1 / 10 ^ 15 := by unfold uu; norm_num
  have hkR : (k : ℝ) ≤ 30 := by exact_mod_cast hk
  have hcR : (cnt : ℝ) ≤ 2 ^ 20 := by exact_mod_cast hc
  have hku : (k : ℝ) * uu ≤ 30 * uu := mul_le_mul_of_nonneg_right hkR hu.le
  have hcu : (cnt : ℝ) * uu ≤ 2 ^ 20 * uu := mul_le_mul_of_nonneg_right hcR hu.le
  have hku0 : 0 ≤ (k : ℝ) * uu := by positivity
  have hcu0 : 0 ≤ (cnt : ℝ) * uu := by positivity
  have s1 : √2 ≤ 1.41422 := by
    rw [Real.sqrt_le_left (by norm_num)]; norm_num
  have pI := powI_bound k hk
  have pG := gain_bound k cnt hk hc
  have hG0 : 0 ≤ eP (17 * uu) k * (1 + uu) ^ cnt := by
    have := one_le_eP k (17 * uu) (by positivity)
    positivity
  unfold backErr
  generalize (1 + cI (17 * uu)) ^ k = F at *
  generalize eP (17 * uu) k * (1 + uu) ^ cnt = G at *
  obtain ⟨x, hx⟩ : ∃ x, x = 21.1 * (k : ℝ) * uu := ⟨_, rfl⟩
  obtain ⟨y, hy⟩ : ∃ y, y = 1.001 * (44.1 * (k : ℝ) * uu + 3 * uu + 1.001 * cnt * uu) := ⟨_, rfl⟩
  rw [← hx] at pI
  rw [← hy] at pG
  have hx0 : 0 ≤ x := by rw [hx]; positivity
  have hy0 : 0 ≤ y := by rw [hy]; positivity
  have hxs : x ≤ 1 / 10 ^ 8 := by rw [hx]; linarith
  have hys : y ≤ 1 / 10 ^ 8 := by rw [hy]; linarith
  have h1 : F * G ≤ (1 + x) * (1 + y) := mul_le_mul pI (by linarith) hG0 (by linarith)
  have h2 : F * G - 1 ≤ 1.0001 * (x + y) := by nlinarith
  have h3 : (1 + uu) * (F * (G * C) - C) ≤ (1 + uu) * (1.0001 * (x + y) * C) := by
    refine mul_le_mul_of_nonneg_left ?_ (by linarith)
    have := mul_le_mul_of_nonneg_right h2 hC
    linarith
  have h4 : (1 + uu) * (1.0001 * (x + y)) ≤ 1.0002 * (x + y) := by nlinarith
  have h5 := mul_le_mul_of_nonneg_right h4 hC
  have m3 : uu * (√2 * C) ≤ uu * (1.41422 * C) :=
    mul_le_mul_of_nonneg_left (mul_le_mul_of_nonneg_right s1 hC) hu.le
  have w1 : 0 ≤ uu * C * k := by positivity
  have w3 : 0 ≤ uu * C * cnt := by positivity
  have w4 : 0 ≤ uu * C := by positivity
  have e : 1.0002 * (x + y) * C = 1.0002 * (21.1 + 1.001 * 44.1) * (uu * C * k) + 1.0002 * 1.001 * 3 * (uu * C)
      + 1.0002 * 1.001 * 1.001 * (uu * C * cnt) := by rw [hx, hy]; ring
  rw [e] at h5
  have ex2 : uu * C * (66 * k + 2 * cnt + 6) = 66 * (uu * C * k) + 2 * (uu * C * cnt) + 6 * (uu * C) := by ring
  rw [ex2]
  norm_num at h5 m3 ⊢
  linarith

end GoTfhe
