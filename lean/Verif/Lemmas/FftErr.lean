import Verif.Lemmas.FftReal
import Verif.Lemmas.Float
import Mathlib.Analysis.InnerProductSpace.PiL2

/-!
# Rounding errors of the transform

Errors of the forward transform are bounded in the Euclidean norm over all positions, errors of the inverse
transform by the sum over positions with the same offset inside a block.
-/

namespace GoTfhe

open Complex Finset

/-- A pair of rationals as a complex number -/
def tcQ (x : ℚ × ℚ) : ℂ := ⟨(x.1 : ℝ), (x.2 : ℝ)⟩

/-- The unit roundoff `2^-53` -/
noncomputable def uu : ℝ := 1 / 2 ^ 53

theorem uu_pos : 0 < uu := by unfold uu; positivity
theorem uu_small : uu ≤ 1 / 1000 := by unfold uu; norm_num

/-- Half of the smallest subnormal number: the error of a rounding below the normal range -/
noncomputable def eta : ℝ := 1 / 2 ^ 1075

theorem eta_pos : 0 < eta := by unfold eta; exact div_pos one_pos (pow_pos (by norm_num) _)

/-- The errors of the subnormal range are bounded by rounding errors of a number that has this much more absolute
value. -/
noncomputable def tinyE : ℝ := 1 / 2 ^ 400

theorem tinyE_pos : 0 < tinyE := by unfold tinyE; exact div_pos one_pos (pow_pos (by norm_num) _)

theorem tinyE_sq : tinyE ^ 2 = 1 / 2 ^ 800 := by
  unfold tinyE
  rw [div_pow, one_pow, ← pow_mul]

theorem tinyE_le (n : ℕ) (hn : n ≤ 400) : tinyE ≤ 1 / 2 ^ n := by
  unfold tinyE
  exact one_div_le_one_div_of_le (pow_pos (by norm_num) _) (pow_le_pow_right₀ (by norm_num) hn)

theorem tinyE_le_one : tinyE ≤ 1 := by simpa using tinyE_le 0 (by norm_num)

theorem eta_le : 2 ^ 200 * eta ≤ uu * tinyE ^ 2 := by
  rw [tinyE_sq]
  unfold eta uu
  rw [mul_one_div, one_div_mul_one_div, ← pow_add, div_le_div_iff₀ (pow_pos (by norm_num) _) (pow_pos (by norm_num) _),
    one_mul, ← pow_add]
  exact pow_le_pow_right₀ (by norm_num) (by norm_num)

theorem eta_le' : 2 ^ 200 * eta ≤ uu * tinyE := by
  refine le_trans eta_le (mul_le_mul_of_nonneg_left ?_ uu_pos.le)
  have h1 := tinyE_pos
  have h2 := tinyE_le_one
  nlinarith

theorem eta_small : 2 ^ 200 * eta ≤ uu := by
  refine le_trans eta_le' ?_
  have h1 := tinyE_le_one
  have h2 := uu_pos
  nlinarith

theorem eta_eq : eta = 1 / 2 ^ 1075 := rfl

attribute [irreducible] eta tinyE

/-- Error of one forward butterfly relative to its inputs -/
noncomputable def cF (τ : ℝ) : ℝ := τ + 3 * uu * (1 + τ) + uu * (1 + τ) * (1 + 3 * uu) + uu

/-- Error of one inverse butterfly relative to its outputs -/
noncomputable def cI (τ : ℝ) : ℝ := uu + (1 + uu) * (τ + 3 * uu * (1 + τ))

section

variable {fl : ℚ → ℚ} (hfl : IsRoundU fl) (fu : Fusing) (pi : ℚ) (ce : ℚ → ℚ × ℚ)

include hfl

theorem fl_err (x : ℚ) : |((fl x : ℚ) : ℝ) - (x : ℝ)| ≤ uu * |(x : ℝ)| + eta := by
  have := hfl.err x
  have h : ((|fl x - x| : ℚ) : ℝ) ≤ ((|x| / 2 ^ 53 + 1 / 2 ^ 1075 : ℚ) : ℝ) := Rat.cast_le.2 this
  rw [Rat.cast_add, Rat.cast_div, Rat.cast_div, Rat.cast_pow, Rat.cast_pow, Rat.cast_abs, Rat.cast_abs, Rat.cast_sub,
    Rat.cast_one, Rat.cast_ofNat] at h
  rw [uu, eta_eq, one_div_mul_eq_div]
  exact h

omit hfl in
theorem norm_le_of_sq (z : ℂ) (b : ℝ) (hb : 0 ≤ b) (h : z.re ^ 2 + z.im ^ 2 ≤ b ^ 2) : ‖z‖ ≤ b := by
  rw [← sq_le_sq₀ (norm_nonneg _) hb, Complex.sq_norm, Complex.normSq_apply]
  nlinarith

omit hfl in
theorem norm_sq_eq (z : ℂ) : ‖z‖ ^ 2 = z.re ^ 2 + z.im ^ 2 := by
  rw [Complex.sq_norm, Complex.normSq_apply]; ring

omit hfl in
theorem norm_le_of_comp (x y a b : ℝ) (c d : ℝ) (hc : 0 ≤ c) (hd : 0 ≤ d) (ha : |x| ≤ c * |a| + d)
    (hb : |y| ≤ c * |b| + d) : ‖(⟨x, y⟩ : ℂ)‖ ≤ c * ‖(⟨a, b⟩ : ℂ)‖ + 2 * d := by
  apply norm_le_of_sq _ _ (by positivity)
  have h1 := pow_le_pow_left₀ (abs_nonneg x) ha 2
  have h2 := pow_le_pow_left₀ (abs_nonneg y) hb 2
  rw [sq_abs] at h1 h2
  have e : ‖(⟨a, b⟩ : ℂ)‖ ^ 2 = a ^ 2 + b ^ 2 := norm_sq_eq _
  have m1 : |a| ≤ ‖(⟨a, b⟩ : ℂ)‖ := Complex.abs_re_le_norm ⟨a, b⟩
  have m2 : |b| ≤ ‖(⟨a, b⟩ : ℂ)‖ := Complex.abs_im_le_norm ⟨a, b⟩
  set n := ‖(⟨a, b⟩ : ℂ)‖
  have hcd : 0 ≤ c * d := by positivity
  have p1 := mul_le_mul_of_nonneg_left m1 hcd
  have p2 := mul_le_mul_of_nonneg_left m2 hcd
  have sa := sq_abs a
  have sb := sq_abs b
  have e' : c ^ 2 * n ^ 2 = c ^ 2 * |a| ^ 2 + c ^ 2 * |b| ^ 2 := by rw [e, sa, sb]; ring
  calc x ^ 2 + y ^ 2 ≤ (c * |a| + d) ^ 2 + (c * |b| + d) ^ 2 := add_le_add h1 h2
    _ = c ^ 2 * n ^ 2 + 2 * (c * d * |a|) + 2 * (c * d * |b|) + 2 * d ^ 2 := by rw [e']; ring
    _ ≤ c ^ 2 * n ^ 2 + 4 * (c * d * n) + 4 * d ^ 2 := by nlinarith [sq_nonneg d]
    _ = (c * n + 2 * d) ^ 2 := by ring

theorem cround_err (a b : ℚ) : ‖tcQ (fl a, fl b) - tcQ (a, b)‖ ≤ uu * ‖tcQ (a, b)‖ + 2 * eta :=
  norm_le_of_comp _ _ _ _ uu eta uu_pos.le eta_pos.le (fl_err hfl a) (fl_err hfl b)

/-- Sum of two products, at most one of them fused. -/
theorem fl_dot (f : Fuse) (a b c d : ℚ) (sgn : ℚ) (hs : sgn = 1 ∨ sgn = -1) :
    |((fusedDot fl f sgn a c b d : ℚ) : ℝ) - ((a : ℝ) * c + sgn * (b * d))|
      ≤ (2 * uu + uu ^ 2) * (|(a : ℝ) * c| + |(b : ℝ) * d|) + 4 * eta := by
  have hη := eta_pos
  have hus := uu_small
  obtain ⟨x, y, hx, hy, he⟩ : ∃ x y : ℚ, |(x : ℝ) - a * c| ≤ uu * |(a : ℝ) * c| + eta
      ∧ |(y : ℝ) - b * d| ≤ uu * |(b : ℝ) * d| + eta ∧ fusedDot fl f sgn a c b d = fl (x + sgn * y) := by
    have h1 := fl_err hfl (a * c)
    have h2 := fl_err hfl (b * d)
    push_cast at h1 h2
    have hz : ∀ z : ℝ, |z - z| ≤ uu * |z| + eta := by
      intro z
      rw [sub_self, abs_zero]
      exact add_nonneg (mul_nonneg uu_pos.le (abs_nonneg _)) hη.le
    cases f with
    | neither => exact ⟨_, _, h1, h2, rfl⟩
    | left => exact ⟨a * c, _, by push_cast; exact hz _, h2, rfl⟩
    | right => exact ⟨_, b * d, h1, by push_cast; exact hz _, rfl⟩
  have h1 := hx
  have h2 := hy
  have h3 := fl_err hfl (x + sgn * y)
  rw [he]
  push_cast at h3
  set X : ℝ := (x : ℝ)
  set Y : ℝ := (y : ℝ)
  set Z : ℝ := ((fl (x + sgn * y) : ℚ) : ℝ)
  set P : ℝ := (a : ℝ) * c
  set Q : ℝ := (b : ℝ) * d
  have hs' : |(sgn : ℝ)| = 1 := by rcases hs with h | h <;> rw [h] <;> norm_num
  have h4 : |X + (sgn : ℝ) * Y - (P + sgn * Q)| ≤ uu * |P| + uu * |Q| + 2 * eta := by
    calc |X + (sgn : ℝ) * Y - (P + sgn * Q)| = |(X - P) + (sgn : ℝ) * (Y - Q)| := by congr 1; ring
      _ ≤ |X - P| + |(sgn : ℝ) * (Y - Q)| := abs_add_le _ _
      _ = |X - P| + |Y - Q| := by rw [abs_mul, hs', one_mul]
      _ ≤ _ := by linarith
  have h5 : |X + (sgn : ℝ) * Y| ≤ (1 + uu) * (|P| + |Q|) + 2 * eta := by
    have e : |P + (sgn : ℝ) * Q| ≤ |P| + |Q| := by
      calc _ ≤ |P| + |(sgn : ℝ) * Q| := abs_add_le _ _
        _ = _ := by rw [abs_mul (sgn : ℝ) Q, hs', one_mul]
    calc |X + (sgn : ℝ) * Y| = |(X + (sgn : ℝ) * Y - (P + sgn * Q)) + (P + sgn * Q)| := by congr 1; ring
      _ ≤ |X + (sgn : ℝ) * Y - (P + sgn * Q)| + |P + sgn * Q| := abs_add_le _ _
      _ ≤ _ := by linarith
  calc |Z - (P + sgn * Q)| = |(Z - (X + sgn * Y)) + (X + sgn * Y - (P + sgn * Q))| := by congr 1; ring
    _ ≤ |Z - (X + sgn * Y)| + |X + sgn * Y - (P + sgn * Q)| := abs_add_le _ _
    _ ≤ uu * ((1 + uu) * (|P| + |Q|)) + (uu * |P| + uu * |Q|) + 4 * eta := by
        have := mul_le_mul_of_nonneg_left h5 uu_pos.le
        nlinarith
    _ = _ := by ring

theorem cmul_err (s : Site) (x y : ℚ × ℚ) :
    ‖tcQ (cmul (floatArith fl fu pi ce) s x y) - tcQ x * tcQ y‖ ≤ 2.9 * uu * (‖tcQ x‖ * ‖tcQ y‖) + 8 * eta := by
  obtain ⟨a, b⟩ := x
  obtain ⟨c, d⟩ := y
  have hP : 0 ≤ ‖tcQ (a, b)‖ * ‖tcQ (c, d)‖ := mul_nonneg (norm_nonneg _) (norm_nonneg _)
  have hu := uu_pos
  have hus := uu_small
  have hη := eta_pos
  have r1 := fl_dot hfl (fu.sub s) a b c d (-1) (Or.inr rfl)
  have r2 := fl_dot hfl (fu.add s) a b d c 1 (Or.inl rfl)
  have hPP : (‖tcQ (a, b)‖ * ‖tcQ (c, d)‖) ^ 2 = ((a : ℝ) ^ 2 + b ^ 2) * (c ^ 2 + d ^ 2) := by
    rw [mul_pow, norm_sq_eq, norm_sq_eq]; rfl
  have cs1 : (|(a : ℝ) * c| + |(b : ℝ) * d|) ^ 2 ≤ (‖tcQ (a, b)‖ * ‖tcQ (c, d)‖) ^ 2 := by
    rw [hPP, abs_mul, abs_mul]
    have := sq_nonneg (|(a : ℝ)| * |(d : ℝ)| - |(b : ℝ)| * |(c : ℝ)|)
    nlinarith [sq_abs (a : ℝ), sq_abs (b : ℝ), sq_abs (c : ℝ), sq_abs (d : ℝ)]
  have cs2 : (|(a : ℝ) * d| + |(b : ℝ) * c|) ^ 2 ≤ (‖tcQ (a, b)‖ * ‖tcQ (c, d)‖) ^ 2 := by
    rw [hPP, abs_mul, abs_mul]
    have := sq_nonneg (|(a : ℝ)| * |(c : ℝ)| - |(b : ℝ)| * |(d : ℝ)|)
    nlinarith [sq_abs (a : ℝ), sq_abs (b : ℝ), sq_abs (c : ℝ), sq_abs (d : ℝ)]
  have b1 : |(a : ℝ) * c| + |(b : ℝ) * d| ≤ ‖tcQ (a, b)‖ * ‖tcQ (c, d)‖ :=
    (sq_le_sq₀ (by positivity) hP).1 cs1
  have b2 : |(a : ℝ) * d| + |(b : ℝ) * c| ≤ ‖tcQ (a, b)‖ * ‖tcQ (c, d)‖ :=
    (sq_le_sq₀ (by positivity) hP).1 cs2
  set P := ‖tcQ (a, b)‖ * ‖tcQ (c, d)‖
  have hc : 0 ≤ 2 * uu + uu ^ 2 := by positivity
  have e1 : |(tcQ (cmul (floatArith fl fu pi ce) s (a, b) (c, d)) - tcQ (a, b) * tcQ (c, d)).re|
      ≤ (2 * uu + uu ^ 2) * P + 4 * eta := by
    refine le_trans (le_of_eq ?_) (le_trans r1 (add_le_add (mul_le_mul_of_nonneg_left b1 hc) le_rfl))
    simp only [tcQ, cmul, floatArith, Complex.sub_re, Complex.mul_re]
    push_cast
    congr 1
    ring
  have e2 : |(tcQ (cmul (floatArith fl fu pi ce) s (a, b) (c, d)) - tcQ (a, b) * tcQ (c, d)).im|
      ≤ (2 * uu + uu ^ 2) * P + 4 * eta := by
    refine le_trans (le_of_eq ?_) (le_trans r2 (add_le_add (mul_le_mul_of_nonneg_left b2 hc) le_rfl))
    simp only [tcQ, cmul, floatArith, Complex.sub_im, Complex.mul_im]
    push_cast
    congr 1
    ring
  apply norm_le_of_sq _ _ (by positivity)
  have s1 := pow_le_pow_left₀ (abs_nonneg _) e1 2
  have s2 := pow_le_pow_left₀ (abs_nonneg _) e2 2
  rw [sq_abs] at s1 s2
  have hk : 2 * (2 * uu + uu ^ 2) ^ 2 ≤ (2.9 * uu) ^ 2 := by
    have : 2 * (2 + uu) ^ 2 ≤ 8.41 := by nlinarith
    nlinarith [sq_nonneg uu]
  have hPn := sq_nonneg P
  have hPη : 0 ≤ uu * P * eta := by positivity
  have hPη2 : uu ^ 2 * P * eta ≤ uu * P * eta := by
    have : uu * (uu * P * eta) ≤ 1 * (uu * P * eta) := mul_le_mul_of_nonneg_right (by linarith) hPη
    linarith
  have hkP := mul_le_mul_of_nonneg_right hk hPn
  calc _ ≤ ((2 * uu + uu ^ 2) * P + 4 * eta) ^ 2 + ((2 * uu + uu ^ 2) * P + 4 * eta) ^ 2 := add_le_add s1 s2
    _ = 2 * (2 * uu + uu ^ 2) ^ 2 * P ^ 2 + 32 * (uu * P * eta) + 16 * (uu ^ 2 * P * eta) + 32 * eta ^ 2 := by ring
    _ ≤ _ := by nlinarith [sq_nonneg eta]

theorem cadd_err (x y : ℚ × ℚ) :
    ‖tcQ ((floatArith fl fu pi ce).add x.1 y.1, (floatArith fl fu pi ce).add x.2 y.2) - (tcQ x + tcQ y)‖
      ≤ uu * ‖tcQ x + tcQ y‖ + 2 * eta := by
  have e : tcQ x + tcQ y = tcQ (x.1 + y.1, x.2 + y.2) := by
    apply Complex.ext <;> simp [tcQ]
  rw [e]
  exact cround_err hfl _ _

theorem csub_err (x y : ℚ × ℚ) :
    ‖tcQ ((floatArith fl fu pi ce).sub x.1 y.1, (floatArith fl fu pi ce).sub x.2 y.2) - (tcQ x - tcQ y)‖
      ≤ uu * ‖tcQ x - tcQ y‖ + 2 * eta := by
  have e : tcQ x - tcQ y = tcQ (x.1 - y.1, x.2 - y.2) := by
    apply Complex.ext <;> simp [tcQ]
  rw [e]
  exact cround_err hfl _ _

omit hfl in
theorem bf2_fwd_eq (A : Arith ℚ) (m q : ℕ) (w u v : ℚ × ℚ) : bfF A m q w u v
    = ((A.add u.1 (cmul A (2, m, q) v w).1, A.add u.2 (cmul A (2, m, q) v w).2), (A.sub u.1 (cmul A (2, m, q) v w).1, A.sub u.2 (cmul A (2, m, q) v w).2)) :=
  rfl

omit hfl in
theorem bf2_inv_eq (A : Arith ℚ) (m q : ℕ) (w u v : ℚ × ℚ) : bfI A m q w u v
    = ((A.add u.1 v.1, A.add u.2 v.2), cmul A (3, m, q) (A.sub u.1 v.1, A.sub u.2 v.2) w) := rfl

/-- The product inside a butterfly. -/
theorem mulW_err (s : Site) (τ : ℝ) (w : ℂ) (hw : ‖w‖ = 1) (w' v : ℚ × ℚ) (hτ : ‖tcQ w' - w‖ ≤ τ) :
    ‖tcQ (cmul (floatArith fl fu pi ce) s v w') - tcQ v * w‖ ≤ (τ + 3 * uu * (1 + τ)) * ‖tcQ v‖ + 8 * eta := by
  have h1 := cmul_err hfl fu pi ce s v w'
  have hu := uu_pos
  have hn : ‖tcQ w'‖ ≤ 1 + τ := by
    calc ‖tcQ w'‖ = ‖w + (tcQ w' - w)‖ := by congr 1; ring
      _ ≤ ‖w‖ + ‖tcQ w' - w‖ := norm_add_le _ _
      _ ≤ _ := by rw [hw]; linarith
  have hv := norm_nonneg (tcQ v)
  calc ‖tcQ (cmul (floatArith fl fu pi ce) s v w') - tcQ v * w‖
      = ‖(tcQ (cmul (floatArith fl fu pi ce) s v w') - tcQ v * tcQ w') + tcQ v * (tcQ w' - w)‖ := by congr 1; ring
    _ ≤ ‖tcQ (cmul (floatArith fl fu pi ce) s v w') - tcQ v * tcQ w'‖ + ‖tcQ v * (tcQ w' - w)‖ := norm_add_le _ _
    _ ≤ 3 * uu * (‖tcQ v‖ * ‖tcQ w'‖) + ‖tcQ v‖ * ‖tcQ w' - w‖ + 8 * eta := by
        rw [norm_mul (tcQ v)]
        have : 0 ≤ uu * (‖tcQ v‖ * ‖tcQ w'‖) := by positivity
        linarith
    _ ≤ 3 * uu * (‖tcQ v‖ * (1 + τ)) + ‖tcQ v‖ * τ + 8 * eta := by
        have a1 := mul_le_mul_of_nonneg_left hn hv
        have a2 := mul_le_mul_of_nonneg_left hτ hv
        have a3 := mul_le_mul_of_nonneg_left a1 (show 0 ≤ 3 * uu by linarith)
        linarith
    _ = _ := by ring

theorem fwd_local (mm q : ℕ) (τ : ℝ) (hτ0 : 0 ≤ τ) (w : ℂ) (hw : ‖w‖ = 1) (w' u v : ℚ × ℚ) (hτ : ‖tcQ w' - w‖ ≤ τ) :
    ‖tcQ (bfF (floatArith fl fu pi ce) mm q w' u v).1 - (fwdB mm q w (tcQ u) (tcQ v)).1‖
        ≤ cF τ * max ‖tcQ u‖ ‖tcQ v‖ + 12 * eta ∧
    ‖tcQ (bfF (floatArith fl fu pi ce) mm q w' u v).2 - (fwdB mm q w (tcQ u) (tcQ v)).2‖
        ≤ cF τ * max ‖tcQ u‖ ‖tcQ v‖ + 12 * eta := by
  have hη := eta_pos
  have hus := uu_small
  have hm := mulW_err hfl fu pi ce (2, mm, q) τ w hw w' v hτ
  have hu := uu_pos
  set A := floatArith fl fu pi ce with hA
  set m := cmul A (2, mm, q) v w' with hmd
  have hmn : ‖tcQ m‖ ≤ (1 + τ) * (1 + 3 * uu) * ‖tcQ v‖ + 8 * eta := by
    calc ‖tcQ m‖ = ‖(tcQ m - tcQ v * w) + tcQ v * w‖ := by congr 1; ring
      _ ≤ ‖tcQ m - tcQ v * w‖ + ‖tcQ v * w‖ := norm_add_le _ _
      _ ≤ (τ + 3 * uu * (1 + τ)) * ‖tcQ v‖ + ‖tcQ v‖ + 8 * eta := by
          have : ‖tcQ v * w‖ = ‖tcQ v‖ := by rw [norm_mul, hw, mul_one]
          rw [this]; linarith
      _ = _ := by ring
  have hun : ‖tcQ u‖ ≤ max ‖tcQ u‖ ‖tcQ v‖ := le_max_left _ _
  have hvn : ‖tcQ v‖ ≤ max ‖tcQ u‖ ‖tcQ v‖ := le_max_right _ _
  have hsum : ∀ x : ℂ, ‖x‖ ≤ ‖tcQ u‖ + ‖tcQ m‖ → ∀ y : ℂ, ‖y‖ ≤ uu * ‖x‖ + 2 * eta + ‖tcQ m - tcQ v * w‖ →
      ‖y‖ ≤ cF τ * max ‖tcQ u‖ ‖tcQ v‖ + 12 * eta := by
    intro x hx y hy
    have a0 : uu * (8 * eta) ≤ 1 / 1000 * (8 * eta) := mul_le_mul_of_nonneg_right hus (by positivity)
    have a1 : uu * ‖x‖ ≤ uu * (‖tcQ u‖ + ((1 + τ) * (1 + 3 * uu) * ‖tcQ v‖ + 8 * eta)) :=
      mul_le_mul_of_nonneg_left (by linarith) hu.le
    have c1 : 0 ≤ τ + 3 * uu * (1 + τ) + uu * ((1 + τ) * (1 + 3 * uu)) := by positivity
    have a2 := mul_le_mul_of_nonneg_left hvn c1
    have a3 := mul_le_mul_of_nonneg_left hun hu.le
    unfold cF
    nlinarith
  rw [bf2_fwd_eq, fwdB]
  constructor
  · apply hsum (tcQ u + tcQ m) (norm_add_le _ _)
    have := cadd_err hfl fu pi ce u m
    calc _ = ‖(tcQ (A.add u.1 m.1, A.add u.2 m.2) - (tcQ u + tcQ m)) + (tcQ m - tcQ v * w)‖ := by
          congr 1; simp only; ring
      _ ≤ _ := le_trans (norm_add_le _ _) (by linarith)
  · apply hsum (tcQ u - tcQ m) (norm_sub_le _ _)
    have := csub_err hfl fu pi ce u m
    calc _ = ‖(tcQ (A.sub u.1 m.1, A.sub u.2 m.2) - (tcQ u - tcQ m)) - (tcQ m - tcQ v * w)‖ := by
          congr 1; simp only; ring
      _ ≤ _ := le_trans (norm_sub_le _ _) (by linarith)

theorem inv_local (mm q : ℕ) (τ : ℝ) (hτ0 : 0 ≤ τ) (hτ1 : τ ≤ 1 / 10) (w : ℂ) (hw : ‖w‖ = 1) (w' u v : ℚ × ℚ) (hτ : ‖tcQ w' - w‖ ≤ τ) :
    ‖tcQ (bfI (floatArith fl fu pi ce) mm q w' u v).1 - (invB mm q w (tcQ u) (tcQ v)).1‖
        ≤ cI τ * ‖(invB mm q w (tcQ u) (tcQ v)).1‖ + 12 * eta ∧
    ‖tcQ (bfI (floatArith fl fu pi ce) mm q w' u v).2 - (invB mm q w (tcQ u) (tcQ v)).2‖
        ≤ cI τ * ‖(invB mm q w (tcQ u) (tcQ v)).2‖ + 12 * eta := by
  have hη := eta_pos
  have hus := uu_small
  have hu := uu_pos
  set A := floatArith fl fu pi ce with hA
  rw [bf2_inv_eq, invB]
  constructor
  · have := cadd_err hfl fu pi ce u v
    refine le_trans this (add_le_add (mul_le_mul_of_nonneg_right ?_ (norm_nonneg _)) (by linarith))
    unfold cI
    have : 0 ≤ (1 + uu) * (τ + 3 * uu * (1 + τ)) := by positivity
    linarith
  · simp only
    set d : ℚ × ℚ := (A.sub u.1 v.1, A.sub u.2 v.2) with hd
    have h1 : ‖tcQ d - (tcQ u - tcQ v)‖ ≤ uu * ‖tcQ u - tcQ v‖ + 2 * eta := csub_err hfl fu pi ce u v
    have h2 := mulW_err hfl fu pi ce (3, mm, q) τ w hw w' d hτ
    have hdn : ‖tcQ d‖ ≤ (1 + uu) * ‖tcQ u - tcQ v‖ + 2 * eta := by
      calc ‖tcQ d‖ = ‖(tcQ d - (tcQ u - tcQ v)) + (tcQ u - tcQ v)‖ := by congr 1; ring
        _ ≤ _ := le_trans (norm_add_le _ _) (by linarith)
    have hc : 0 ≤ τ + 3 * uu * (1 + τ) := by positivity
    have a1 := mul_le_mul_of_nonneg_left hdn hc
    have e : ‖(tcQ u - tcQ v) * w‖ = ‖tcQ u - tcQ v‖ := by rw [norm_mul, hw, mul_one]
    rw [e]
    calc ‖tcQ (cmul A (3, mm, q) d w') - (tcQ u - tcQ v) * w‖
        = ‖(tcQ (cmul A (3, mm, q) d w') - tcQ d * w) + (tcQ d - (tcQ u - tcQ v)) * w‖ := by congr 1; ring
      _ ≤ ‖tcQ (cmul A (3, mm, q) d w') - tcQ d * w‖ + ‖(tcQ d - (tcQ u - tcQ v)) * w‖ := norm_add_le _ _
      _ = ‖tcQ (cmul A (3, mm, q) d w') - tcQ d * w‖ + ‖tcQ d - (tcQ u - tcQ v)‖ := by rw [norm_mul _ w, hw, mul_one]
      _ ≤ _ := by
        have a2 : (τ + 3 * uu * (1 + τ)) * (2 * eta) ≤ 1 / 2 * (2 * eta) :=
          mul_le_mul_of_nonneg_right (by nlinarith) (by positivity)
        unfold cI
        nlinarith

end

end GoTfhe
