import Verif.Lemmas.FftTw
import Verif.Props.Fft

/-!
# The transform never leaves the range of `float64`

`gl` is a rounding function that cannot overflow and `fl` one that agrees with it up to `2^700`. Every number that the
transforms, the pointwise products, sums of up to `2^20` products and the reduction modulo `2^32` round stays below
`2^700`, so both give the same results.
-/

namespace GoTfhe

/-- Both components are at most `2^n` in absolute value. -/
def Bd (n : ℕ) (x : ℚ × ℚ) : Prop := |x.1| ≤ 2 ^ n ∧ |x.2| ≤ 2 ^ n

theorem le_pow_mono {x : ℚ} {m n : ℕ} (h : x ≤ 2 ^ m) (hmn : m ≤ n) : x ≤ 2 ^ n :=
  le_trans h (pow_le_pow_right₀ (by norm_num) hmn)

theorem Bd.mono {m n : ℕ} {x : ℚ × ℚ} (h : Bd m x) (hmn : m ≤ n) : Bd n x :=
  ⟨le_pow_mono h.1 hmn, le_pow_mono h.2 hmn⟩

theorem abs_mul_le_pow {x y : ℚ} {m n : ℕ} (hx : |x| ≤ 2 ^ m) (hy : |y| ≤ 2 ^ n) : |x * y| ≤ 2 ^ (m + n) := by
  rw [abs_mul, pow_add]
  exact mul_le_mul hx hy (abs_nonneg _) (by positivity)

theorem abs_add_le_pow {x y : ℚ} {n : ℕ} (hx : |x| ≤ 2 ^ n) (hy : |y| ≤ 2 ^ n) : |x + y| ≤ 2 ^ (n + 1) := by
  rw [pow_succ]
  linarith [abs_add_le x y]

theorem abs_sub_le_pow {x y : ℚ} {n : ℕ} (hx : |x| ≤ 2 ^ n) (hy : |y| ≤ 2 ^ n) : |x - y| ≤ 2 ^ (n + 1) := by
  rw [sub_eq_add_neg]
  exact abs_add_le_pow hx (by rwa [abs_neg])

theorem eta_le_one : (1 : ℚ) / 2 ^ 1075 ≤ 1 / 4 := by
  rw [show (4 : ℚ) = 2 ^ 2 by norm_num]
  exact one_div_le_one_div_of_le (by positivity) (pow_le_pow_right₀ (by norm_num) (by norm_num))

section

variable {fl gl : ℚ → ℚ} (hg : IsRoundU gl) (hag : ∀ x, |x| ≤ 2 ^ 700 → fl x = gl x)

include hg in
theorem gl_fine (x : ℚ) : |gl x| ≤ |x| + |x| / 2 ^ 53 + 1 / 4 := by
  have h1 := hg.err x
  have h2 : |gl x| ≤ |gl x - x| + |x| := by
    calc |gl x| = |(gl x - x) + x| := by congr 1; ring
      _ ≤ _ := abs_add_le _ _
  linarith [eta_le_one]

include hg in
theorem gl_le {x : ℚ} {n : ℕ} (hx : |x| ≤ 2 ^ n) : |gl x| ≤ 2 ^ (n + 1) := by
  have h1 := gl_fine hg x
  have h2 : (1 : ℚ) ≤ 2 ^ n := one_le_pow₀ (by norm_num)
  have h3 : |x| / 2 ^ 53 ≤ 2 ^ n / 2 ^ 53 := div_le_div_of_nonneg_right hx (by positivity)
  have h4 : (2 : ℚ) ^ n / 2 ^ 53 ≤ 2 ^ n / 2 := div_le_div_of_nonneg_left (by positivity) (by norm_num) (by norm_num)
  rw [pow_succ]
  linarith

include hag in
theorem fl_eq {x : ℚ} {n : ℕ} (hx : |x| ≤ 2 ^ n) (hn : n ≤ 700) : fl x = gl x := hag x (le_pow_mono hx hn)

include hg hag

theorem fusedDot_range (f : Fuse) (sgn a b c d : ℚ) (hs : sgn = 1 ∨ sgn = -1) (m n : ℕ) (ha : |a| ≤ 2 ^ m) (hb : |b| ≤ 2 ^ n)
    (hc : |c| ≤ 2 ^ m) (hd : |d| ≤ 2 ^ n) (hmn : m + n + 2 ≤ 700) :
    fusedDot fl f sgn a b c d = fusedDot gl f sgn a b c d ∧ |fusedDot gl f sgn a b c d| ≤ 2 ^ (m + n + 3) := by
  have h1 := abs_mul_le_pow ha hb
  have h2 := abs_mul_le_pow hc hd
  have e1 : fl (a * b) = gl (a * b) := fl_eq hag h1 (by omega)
  have e2 : fl (c * d) = gl (c * d) := fl_eq hag h2 (by omega)
  have g1 := gl_le hg h1
  have g2 := gl_le hg h2
  have l1 := le_pow_mono h1 (Nat.le_succ (m + n))
  have l2 := le_pow_mono h2 (Nat.le_succ (m + n))
  have hsg : ∀ y : ℚ, |sgn * y| = |y| := by
    intro y
    rcases hs with rfl | rfl
    · rw [one_mul]
    · rw [neg_one_mul, abs_neg]
  have key : ∀ x y : ℚ, |x| ≤ 2 ^ (m + n + 1) → |y| ≤ 2 ^ (m + n + 1) →
      fl (x + sgn * y) = gl (x + sgn * y) ∧ |gl (x + sgn * y)| ≤ 2 ^ (m + n + 3) := by
    intro x y hx hy
    have h := abs_add_le_pow hx (show |sgn * y| ≤ 2 ^ (m + n + 1) by rw [hsg]; exact hy)
    exact ⟨fl_eq hag h (by omega), gl_le hg h⟩
  cases f
  · simp only [fusedDot]; rw [e1, e2]; exact key _ _ g1 g2
  · simp only [fusedDot]; rw [e2]; exact key _ _ l1 g2
  · simp only [fusedDot]; rw [e1]; exact key _ _ g1 l2

variable (fu : Fusing) (pi : ℚ) (ce : ℚ → ℚ × ℚ)

theorem cmul_range (s : Site) (x y : ℚ × ℚ) (m n : ℕ) (hx : Bd m x) (hy : Bd n y) (hmn : m + n + 2 ≤ 700) :
    cmul (floatArith fl fu pi ce) s x y = cmul (floatArith gl fu pi ce) s x y ∧
      Bd (m + n + 3) (cmul (floatArith gl fu pi ce) s x y) := by
  have h1 := fusedDot_range hg hag (fu.sub s) (-1) x.1 y.1 x.2 y.2 (Or.inr rfl) m n hx.1 hy.1 hx.2 hy.2 hmn
  have h2 := fusedDot_range hg hag (fu.add s) 1 x.1 y.2 x.2 y.1 (Or.inl rfl) m n hx.1 hy.2 hx.2 hy.1 hmn
  exact ⟨Prod.ext h1.1 h2.1, h1.2, h2.2⟩

theorem add_range (x y : ℚ) (n : ℕ) (hx : |x| ≤ 2 ^ n) (hy : |y| ≤ 2 ^ n) (hn : n + 1 ≤ 700) :
    (floatArith fl fu pi ce).add x y = (floatArith gl fu pi ce).add x y ∧ |(floatArith gl fu pi ce).add x y| ≤ 2 ^ (n + 2) :=
  ⟨fl_eq hag (abs_add_le_pow hx hy) hn, gl_le hg (abs_add_le_pow hx hy)⟩

theorem sub_range (x y : ℚ) (n : ℕ) (hx : |x| ≤ 2 ^ n) (hy : |y| ≤ 2 ^ n) (hn : n + 1 ≤ 700) :
    (floatArith fl fu pi ce).sub x y = (floatArith gl fu pi ce).sub x y ∧ |(floatArith gl fu pi ce).sub x y| ≤ 2 ^ (n + 2) :=
  ⟨fl_eq hag (abs_sub_le_pow hx hy) hn, gl_le hg (abs_sub_le_pow hx hy)⟩

/-- Two butterflies agree on operands up to `2^n` and enlarge them by at most `2^6`. -/
def BfRange (b b' : ℕ → ℕ → ℚ × ℚ → ℚ × ℚ → ℚ × ℚ → (ℚ × ℚ) × (ℚ × ℚ)) : Prop :=
  ∀ m q w u v n, n + 6 ≤ 700 → Bd 1 w → Bd n u → Bd n v →
    b m q w u v = b' m q w u v ∧ Bd (n + 6) (b' m q w u v).1 ∧ Bd (n + 6) (b' m q w u v).2

theorem bfF_range : BfRange (bfF (floatArith fl fu pi ce)) (bfF (floatArith gl fu pi ce)) := by
  intro m q w u v n hn hw hu hv
  rw [bf2_fwd_eq, bf2_fwd_eq]
  obtain ⟨e, hb⟩ := cmul_range hg hag fu pi ce (2, m, q) v w n 1 hv hw (by omega)
  rw [e]
  set c := cmul (floatArith gl fu pi ce) (2, m, q) v w
  have hu' : Bd (n + 4) u := hu.mono (by omega)
  have a1 := add_range hg hag fu pi ce u.1 c.1 (n + 4) hu'.1 hb.1 (by omega)
  have a2 := add_range hg hag fu pi ce u.2 c.2 (n + 4) hu'.2 hb.2 (by omega)
  have s1 := sub_range hg hag fu pi ce u.1 c.1 (n + 4) hu'.1 hb.1 (by omega)
  have s2 := sub_range hg hag fu pi ce u.2 c.2 (n + 4) hu'.2 hb.2 (by omega)
  refine ⟨?_, ⟨a1.2, a2.2⟩, ⟨s1.2, s2.2⟩⟩
  rw [a1.1, a2.1, s1.1, s2.1]

theorem bfI_range : BfRange (bfI (floatArith fl fu pi ce)) (bfI (floatArith gl fu pi ce)) := by
  intro m q w u v n hn hw hu hv
  obtain ⟨a1, b1⟩ := add_range hg hag fu pi ce u.1 v.1 n hu.1 hv.1 (by omega)
  obtain ⟨a2, b2⟩ := add_range hg hag fu pi ce u.2 v.2 n hu.2 hv.2 (by omega)
  obtain ⟨s1, t1⟩ := sub_range hg hag fu pi ce u.1 v.1 n hu.1 hv.1 (by omega)
  obtain ⟨s2, t2⟩ := sub_range hg hag fu pi ce u.2 v.2 n hu.2 hv.2 (by omega)
  have hs : Bd (n + 2) ((floatArith gl fu pi ce).sub u.1 v.1, (floatArith gl fu pi ce).sub u.2 v.2) := ⟨t1, t2⟩
  have ha : Bd (n + 2) ((floatArith gl fu pi ce).add u.1 v.1, (floatArith gl fu pi ce).add u.2 v.2) := ⟨b1, b2⟩
  obtain ⟨e, hb⟩ := cmul_range hg hag fu pi ce (3, m, q) _ w (n + 2) 1 hs hw (by omega)
  have ha' : Bd (n + 6) _ := ha.mono (by omega)
  have hb' : Bd (n + 6) _ := hb.mono (by omega)
  rw [bf2_inv_eq, bf2_inv_eq, a1, a2, s1, s2, e]
  exact ⟨rfl, ha', hb'⟩

omit hg hag

theorem stage_range {b b' : ℕ → ℕ → ℚ × ℚ → ℚ × ℚ → ℚ × ℚ → (ℚ × ℚ) × (ℚ × ℚ)} (hb : BfRange b b') (mm h m : ℕ) (hh : 0 < h)
    (w w' : ℕ → ℚ × ℚ) (z z' : ℕ → ℚ × ℚ) (n : ℕ) (hn : n + 6 ≤ 700) (hw : ∀ i < m, w i = w' i ∧ Bd 1 (w' i))
    (hz : ∀ x < m * (2 * h), z x = z' x ∧ Bd n (z' x)) (x : ℕ) (hx : x < m * (2 * h)) :
    stage (b mm) h w z x = stage (b' mm) h w' z' x ∧ Bd (n + 6) (stage (b' mm) h w' z' x) := by
  have hlt : x / (2 * h) < m := Nat.div_lt_of_lt_mul (by rw [mul_comm]; exact hx)
  have hle : (x / (2 * h) + 1) * (2 * h) ≤ m * (2 * h) := Nat.mul_le_mul_right _ hlt
  have hml := Nat.mod_lt x (show 0 < 2 * h by omega)
  have hd' : x = x / (2 * h) * (2 * h) + x % (2 * h) := by rw [mul_comm]; exact (Nat.div_add_mod x (2 * h)).symm
  rw [add_mul, one_mul] at hle
  unfold stage
  obtain ⟨ew, hbw⟩ := hw _ hlt
  rw [ew]
  split_ifs with h1
  · obtain ⟨e1, b1⟩ := hz x hx
    obtain ⟨e2, b2⟩ := hz (x + h) (by omega)
    rw [e1, e2]
    have := hb mm x (w' (x / (2 * h))) (z' x) (z' (x + h)) n hn hbw b1 b2
    exact ⟨by rw [this.1], this.2.1⟩
  · obtain ⟨e1, b1⟩ := hz x hx
    obtain ⟨e2, b2⟩ := hz (x - h) (by omega)
    rw [e1, e2]
    have := hb mm (x - h) (w' (x / (2 * h))) (z' (x - h)) (z' x) n hn hbw b2 b1
    exact ⟨by rw [this.1], this.2.2⟩

theorem fftC_range {b b' : ℕ → ℕ → ℚ × ℚ → ℚ × ℚ → ℚ × ℚ → (ℚ × ℚ) × (ℚ × ℚ)} (hb : BfRange b b') (k : ℕ)
    (g g' : ℕ → ℚ × ℚ) (hw : ∀ s < k, ∀ i < 2 ^ s, g (2 ^ s - 1 + i) = g' (2 ^ s - 1 + i) ∧ Bd 1 (g' (2 ^ s - 1 + i)))
    (z z' : ℕ → ℚ × ℚ) (n : ℕ) (hn : n + 6 * k ≤ 700) (hz : ∀ x < 2 ^ k, z x = z' x ∧ Bd n (z' x)) (s : ℕ) (hs : s ≤ k) :
    ∀ x < 2 ^ k, fftC b k g s z x = fftC b' k g' s z' x ∧ Bd (n + 6 * s) (fftC b' k g' s z' x) := by
  induction s with
  | zero => exact hz
  | succ s ih =>
    intro x hx
    have hm : 2 ^ s * (2 * 2 ^ (k - 1 - s)) = 2 ^ k := by
      rw [← pow_succ', ← pow_add]; congr 1; omega
    rw [fftC, fftC]
    exact stage_range hb _ _ (2 ^ s) (Nat.pow_pos (by omega)) _ _ _ _ (n + 6 * s) (by omega) (hw s (by omega))
      (by rw [hm]; exact ih (by omega)) x (by rw [hm]; exact hx)

theorem ifftC_range {b b' : ℕ → ℕ → ℚ × ℚ → ℚ × ℚ → ℚ × ℚ → (ℚ × ℚ) × (ℚ × ℚ)} (hb : BfRange b b') (k : ℕ)
    (g g' : ℕ → ℚ × ℚ) (hw : ∀ j < k, ∀ i < 2 ^ (k - 1 - j), g (2 ^ k - 2 ^ (k - j) + i) = g' (2 ^ k - 2 ^ (k - j) + i)
      ∧ Bd 1 (g' (2 ^ k - 2 ^ (k - j) + i)))
    (z z' : ℕ → ℚ × ℚ) (n : ℕ) (hn : n + 6 * k ≤ 700) (hz : ∀ x < 2 ^ k, z x = z' x ∧ Bd n (z' x)) (j : ℕ) (hj : j ≤ k) :
    ∀ x < 2 ^ k, ifftC b k g j z x = ifftC b' k g' j z' x ∧ Bd (n + 6 * j) (ifftC b' k g' j z' x) := by
  induction j with
  | zero => exact hz
  | succ j ih =>
    intro x hx
    have hm : 2 ^ (k - 1 - j) * (2 * 2 ^ j) = 2 ^ k := by
      rw [← pow_succ', ← pow_add]; congr 1; omega
    rw [ifftC, ifftC]
    exact stage_range hb _ _ (2 ^ (k - 1 - j)) (Nat.pow_pos (by omega)) _ _ _ _ (n + 6 * j) (by omega) (hw j (by omega))
      (by rw [hm]; exact ih (by omega)) x (by rw [hm]; exact hx)

/-! ### Twiddle factors -/

include hg hag

theorem angle_range (sg : ℤ) (hs : sg = 2 ∨ sg = -2) (t D : ℕ) (ht : t ≤ 2 ^ 40) (hD : 0 < D) :
    fl (fl (fl ((sg : ℚ) * mathPi) * (t : ℚ)) / (D : ℚ)) = gl (gl (gl ((sg : ℚ) * mathPi) * (t : ℚ)) / (D : ℚ)) := by
  have h1 : |(sg : ℚ) * mathPi| ≤ 2 ^ 3 := by
    rcases hs with rfl | rfl <;> · rw [mathPi]; norm_num [abs_le]
  rw [fl_eq hag h1 (by norm_num)]
  have ht' : |(t : ℚ)| ≤ 2 ^ 40 := by
    rw [Nat.abs_cast]; exact_mod_cast ht
  have h2 := abs_mul_le_pow (gl_le hg h1) ht'
  rw [fl_eq hag h2 (by norm_num)]
  have h3 := gl_le hg h2
  have hD1 : (1 : ℚ) ≤ D := by exact_mod_cast hD
  refine fl_eq hag (n := 45) ?_ (by norm_num)
  rw [abs_div, Nat.abs_cast]
  exact le_trans (div_le_self (abs_nonneg _) hD1) h3

omit hag in
theorem angle_le_four (sg : ℤ) (hs : sg = 2 ∨ sg = -2) (t D : ℕ) (hD : 0 < D) (htD : 2 * t ≤ D) :
    |gl (gl (gl ((sg : ℚ) * mathPi) * (t : ℚ)) / (D : ℚ))| ≤ 4 := by
  have h := angle_err hg sg hs t D hD
  set x := gl (gl (gl ((sg : ℚ) * mathPi) * (t : ℚ)) / (D : ℚ))
  have hρ : (t : ℝ) / D ≤ 1 / 2 := by
    rw [div_le_div_iff₀ (by exact_mod_cast hD) (by norm_num)]
    have : ((2 * t : ℕ) : ℝ) ≤ D := by exact_mod_cast htD
    push_cast at this
    linarith
  have hρ0 : 0 ≤ (t : ℝ) / D := by positivity
  have hpi := Real.pi_lt_d2
  have hpi0 := Real.pi_pos
  have e : |(sg : ℝ) * Real.pi * t / D| = 2 * Real.pi * (t / D) := by
    have : (sg : ℝ) * Real.pi * t / D = sg * (Real.pi * (t / D)) := by ring
    rw [this, abs_mul, abs_of_nonneg (show 0 ≤ Real.pi * (t / D) by positivity)]
    rcases hs with rfl | rfl <;> norm_num <;> ring
  have hu := uu_small
  have hu0 := uu_pos
  have hη := eta_small
  have hη0 := eta_pos
  have h4 : |(x : ℝ)| ≤ 4 := by
    calc |(x : ℝ)| = |((x : ℝ) - sg * Real.pi * t / D) + sg * Real.pi * t / D| := by congr 1; ring
      _ ≤ _ := le_trans (abs_add_le _ _) (by rw [e]; nlinarith)
  exact_mod_cast h4

omit hg hag in
theorem bd_of_norm (x : ℚ × ℚ) (z : ℂ) (hz : ‖z‖ = 1) (τ : ℝ) (hτ : τ ≤ 1) (h : ‖tcQ x - z‖ ≤ τ) : Bd 1 x := by
  have hn : ‖tcQ x‖ ≤ 2 := by
    calc ‖tcQ x‖ = ‖(tcQ x - z) + z‖ := by congr 1; ring
      _ ≤ _ := le_trans (norm_add_le _ _) (by rw [hz]; linarith)
  have h1 := le_trans (Complex.abs_re_le_norm (tcQ x)) hn
  have h2 := le_trans (Complex.abs_im_le_norm (tcQ x)) hn
  rw [tcQ_re] at h1
  rw [tcQ_im] at h2
  constructor
  · rw [pow_one]; exact_mod_cast h1
  · rw [pow_one]; exact_mod_cast h2

omit hg hag in
theorem bd_cexp (hce : CexpAccurate ce (1 / 2 ^ 52)) (x : ℚ) (hx : |x| ≤ 4) : Bd 1 (ce x) :=
  bd_of_norm _ _ (Complex.norm_exp_ofReal_mul_I _) _ (by norm_num) (hce x hx)

theorem tw_range (hce : CexpAccurate ce (1 / 2 ^ 52)) (k : ℕ) (hk : k ≤ 30) (s : ℕ) (hs : s < k) (i : ℕ) (hi : i < 2 ^ s) :
    (twF (floatArith fl fu mathPi ce) k s i = twF (floatArith gl fu mathPi ce) k s i
      ∧ Bd 1 (twF (floatArith gl fu mathPi ce) k s i)) ∧
    (twI (floatArith fl fu mathPi ce) k s i = twI (floatArith gl fu mathPi ce) k s i
      ∧ Bd 1 (twI (floatArith gl fu mathPi ce) k s i)) := by
  have htw := twClose hg fu ce _ (by norm_num) (le_of_eq (by unfold uu; norm_num)) hce k s hs i hi
  have hτ : 17 * uu ≤ 1 := by unfold uu; norm_num
  have hW : ‖W s i‖ = 1 := by
    rw [W_eq]; exact Complex.norm_exp_ofReal_mul_I _
  have hk1 : 2 ^ k = 2 * 2 ^ (k - 1) := by rw [← pow_succ']; congr 1; omega
  have hr := rev_lt (k - 1) i
  have h40 : 2 ^ k ≤ 2 ^ 40 := Nat.pow_le_pow_right (by omega) (by omega)
  have ht : 2 ^ (k - 1 - s) ≤ 2 ^ (k - 1) := Nat.pow_le_pow_right (by omega) (by omega)
  have hp : 0 < 2 ^ k := Nat.pow_pos (by omega)
  have e1 : twAngle (floatArith fl fu mathPi ce) (2 ^ k) (rev (k - 1) i)
      = twAngle (floatArith gl fu mathPi ce) (2 ^ k) (rev (k - 1) i) :=
    angle_range hg hag (-2) (Or.inr rfl) (rev (k - 1) i) (2 ^ k) (by omega) hp
  have b1 : |twAngle (floatArith gl fu mathPi ce) (2 ^ k) (rev (k - 1) i)| ≤ 4 :=
    angle_le_four hg (-2) (Or.inr rfl) (rev (k - 1) i) (2 ^ k) hp (by omega)
  have e2 : ∀ sg : ℤ, (sg = 2 ∨ sg = -2) → foldAngle (floatArith fl fu mathPi ce) sg (2 ^ k) (2 ^ (k - 1 - s))
      = foldAngle (floatArith gl fu mathPi ce) sg (2 ^ k) (2 ^ (k - 1 - s)) := fun sg h =>
    angle_range hg hag sg h (2 ^ (k - 1 - s)) (4 * 2 ^ k) (by omega) (by omega)
  have b2 : ∀ sg : ℤ, (sg = 2 ∨ sg = -2) → |foldAngle (floatArith gl fu mathPi ce) sg (2 ^ k) (2 ^ (k - 1 - s))| ≤ 4 :=
    fun sg h => angle_le_four hg sg h (2 ^ (k - 1 - s)) (4 * 2 ^ k) (by omega) (by omega)
  have hn : ∀ a : ℚ → ℚ, (floatArith a fu mathPi ce).neg = fun x => -x := fun _ => rfl
  have hc : ∀ a : ℚ → ℚ, (floatArith a fu mathPi ce).cexp = ce := fun _ => rfl
  refine ⟨⟨?_, bd_of_norm _ _ hW _ hτ htw.1⟩, ⟨?_, bd_of_norm _ _ (by rw [norm_inv, hW, inv_one]) _ hτ htw.2⟩⟩
  · unfold twF
    rw [e1, e2 2 (Or.inl rfl), hc, hc]
    exact (cmul_range hg hag fu mathPi ce _ _ _ 1 1 (bd_cexp ce hce _ b1) (bd_cexp ce hce _ (b2 2 (Or.inl rfl)))
      (by norm_num)).1
  · unfold twI
    rw [e1, e2 (-2) (Or.inr rfl), hc, hc, hn, hn]
    exact (cmul_range hg hag fu mathPi ce _ _ _ 1 1 (bd_cexp ce hce _ (by rwa [abs_neg]))
      (bd_cexp ce hce _ (b2 (-2) (Or.inr rfl))) (by norm_num)).1

/-! ### The operations of the evaluator -/

variable {ce} (hce : CexpAccurate ce (1 / 2 ^ 52)) (k : ℕ) (hk3 : 3 ≤ k) (hk : k ≤ 30)

include hce hk

theorem specT_range (p : List Torus) : ∀ x < 2 ^ k,
    specT (floatArith fl fu mathPi ce) k p x = specT (floatArith gl fu mathPi ce) k p x
      ∧ Bd 211 (specT (floatArith gl fu mathPi ce) k p x) := by
  intro x hx
  have hc : ∀ t : Torus, |((t.toInt : ℤ) : ℚ)| ≤ 2 ^ 31 := by
    intro t
    have h1 := BitVec.two_mul_toInt_lt (x := t)
    have h2 := BitVec.le_two_mul_toInt (x := t)
    have : |t.toInt| ≤ 2 ^ 31 := by rw [abs_le]; constructor <;> omega
    exact_mod_cast this
  have h := fftC_range (bfF_range hg hag fu mathPi ce) k (twFAll (floatArith fl fu mathPi ce) k)
    (twFAll (floatArith gl fu mathPi ce) k) (fun s hs i hi => by
      rw [twFAll_eq _ _ _ _ hi, twFAll_eq _ _ _ _ hi]
      exact (tw_range hg hag fu ce hce k hk s hs i hi).1)
    (foldP (floatArith fl fu mathPi ce) (2 ^ k) p) (foldP (floatArith gl fu mathPi ce) (2 ^ k) p) 31 (by omega)
    (fun x _ => ⟨rfl, hc _, hc _⟩) k le_rfl x hx
  exact ⟨h.1, h.2.mono (by omega)⟩

include hk3

omit hg hag hce hk in
theorem pack_congr' {R : Type} {z z' : ℕ → R × R} (h : ∀ p < 2 ^ k, z p = z' p) :
    pack (2 ^ (k + 1)) z = pack (2 ^ (k + 1)) z' := by
  obtain ⟨B, h8, h4⟩ := pow_eq_eight k hk3
  rw [h8]
  exact pack_congr B (by rw [← h4]; exact h)

theorem fftT_range (p : List Torus) : fftT (floatArith fl fu mathPi ce) k p = fftT (floatArith gl fu mathPi ce) k p :=
  pack_congr' k hk3 fun x hx => (specT_range hg hag fu hce k hk p x hx).1

theorem fftT_bd (p : List Torus) : ∀ x < 2 ^ k, Bd 211 (unpack 0 (fftT (floatArith gl fu mathPi ce) k p) x) := by
  intro x hx
  rw [fftT, unpack_pack _ k hk3 _ x hx]
  exact (specT_range hg hag fu hce k hk p x hx).2

omit hce hk in
theorem fftMul_range (a b : List ℚ) (ha : ∀ x < 2 ^ k, Bd 211 (unpack 0 a x)) (hb : ∀ x < 2 ^ k, Bd 211 (unpack 0 b x)) :
    fftMul (floatArith fl fu mathPi ce) k a b = fftMul (floatArith gl fu mathPi ce) k a b ∧
      ∀ x < 2 ^ k, Bd 446 (unpack 0 (fftMul (floatArith gl fu mathPi ce) k a b) x) := by
  have h := fun x hx => cmul_range hg hag fu mathPi ce (6, 0, x) _ _ 211 211 (ha x hx) (hb x hx) (by norm_num)
  refine ⟨pack_congr' k hk3 fun x hx => (h x hx).1, ?_⟩
  intro x hx
  rw [fftMul, unpack_pack _ k hk3 _ x hx]
  exact (h x hx).2.mono (by norm_num)

/-- The `m`-th partial sum of products stays below `2^425 * 2m`. -/
def AccBd (k m : ℕ) (f : List ℚ) : Prop :=
  ∀ x < 2 ^ k, |(unpack 0 f x).1| ≤ 2 * m * 2 ^ 425 ∧ |(unpack 0 f x).2| ≤ 2 * m * 2 ^ 425

omit hce hk hag hk3 in
theorem acc_le (P x y : ℚ) (hP : 1 ≤ P) (m : ℕ) (hm : m ≤ 2 ^ 20) (hx : |x| ≤ 2 * m * P) (hy : |y| ≤ P) :
    |x + y| ≤ 2 ^ 22 * P ∧ |gl (x + y)| ≤ 2 * (m + 1 : ℕ) * P := by
  have hm' : (m : ℚ) ≤ 2 ^ 20 := by exact_mod_cast hm
  have hs : |x + y| ≤ (2 * m + 1) * P := by linarith [abs_add_le x y]
  have h1 := gl_fine hg (x + y)
  have h2 : (2 * m + 1 : ℚ) * P ≤ (2 * 2 ^ 20 + 1) * P := mul_le_mul_of_nonneg_right (by linarith) (by linarith)
  refine ⟨?_, ?_⟩
  · exact le_trans hs (le_trans h2 (mul_le_mul_of_nonneg_right (by norm_num) (by linarith)))
  · have h3 : |x + y| / 2 ^ 53 ≤ P / 4 := by
      rw [div_le_div_iff₀ (by norm_num) (by norm_num)]
      calc |x + y| * 4 ≤ ((2 * 2 ^ 20 + 1) * P) * 4 := by linarith
        _ ≤ P * 2 ^ 53 := by nlinarith
    push_cast
    linarith

omit hg hag hce hk hk3 in
theorem one_le_P : (1 : ℚ) ≤ 2 ^ 425 := one_le_pow₀ (by norm_num)

omit hg hag hce hk hk3 in
theorem pow_447 : (2 : ℚ) ^ 22 * 2 ^ 425 = 2 ^ 447 := by rw [← pow_add]

omit hg hag hce hk hk3 in
theorem roundAway_le {y : ℚ} {n : ℕ} (hy : |y| ≤ 2 ^ n) : |((roundAway y : ℤ) : ℚ)| ≤ 2 ^ (n + 1) := by
  have h1 := roundAway_near y
  have h2 : |((roundAway y : ℤ) : ℚ)| ≤ |((roundAway y : ℤ) : ℚ) - y| + |y| := by
    calc |((roundAway y : ℤ) : ℚ)| = |(((roundAway y : ℤ) : ℚ) - y) + y| := by congr 1; ring
      _ ≤ _ := abs_add_le _ _
  have h3 : (1 : ℚ) ≤ 2 ^ n := one_le_pow₀ (by norm_num)
  rw [pow_succ]
  linarith

omit hce hk in
theorem fftMulAdd_range (a b c : List ℚ) (m : ℕ) (hm : m ≤ 2 ^ 20) (ha : ∀ x < 2 ^ k, Bd 211 (unpack 0 a x))
    (hb : ∀ x < 2 ^ k, Bd 211 (unpack 0 b x)) (hc : AccBd k m c) :
    fftMulAdd (floatArith fl fu mathPi ce) k a b c = fftMulAdd (floatArith gl fu mathPi ce) k a b c ∧
      AccBd k (m + 1) (fftMulAdd (floatArith gl fu mathPi ce) k a b c) := by
  have h := fun x hx => cmul_range hg hag fu mathPi ce (7, 0, x) _ _ 211 211 (ha x hx) (hb x hx) (by norm_num)
  have ac1 := fun x hx => acc_le hg _ _ _ one_le_P m hm (hc x hx).1 (h x hx).2.1
  have ac2 := fun x hx => acc_le hg _ _ _ one_le_P m hm (hc x hx).2 (h x hx).2.2
  simp only [pow_447] at ac1 ac2
  constructor
  · refine pack_congr' k hk3 fun x hx => ?_
    have e := (h x hx).1
    have hz : ∀ a : ℚ → ℚ, (floatArith a fu mathPi ce).zero = 0 := fun _ => rfl
    simp only [hz]
    rw [e]
    exact Prod.ext (fl_eq hag (ac1 x hx).1 (by norm_num)) (fl_eq hag (ac2 x hx).1 (by norm_num))
  · intro x hx
    rw [fftMulAdd, unpack_pack _ k hk3 _ x hx]
    exact ⟨(ac1 x hx).2, (ac2 x hx).2⟩

theorem accum_range (l : List (List Torus × List Torus)) : ∀ (m : ℕ) (acc : List ℚ), m + l.length ≤ 2 ^ 20 → AccBd k m acc →
    l.foldl (fun acc q => fftMulAdd (floatArith fl fu mathPi ce) k (fftT (floatArith fl fu mathPi ce) k q.1)
        (fftT (floatArith fl fu mathPi ce) k q.2) acc) acc
      = l.foldl (fun acc q => fftMulAdd (floatArith gl fu mathPi ce) k (fftT (floatArith gl fu mathPi ce) k q.1)
        (fftT (floatArith gl fu mathPi ce) k q.2) acc) acc ∧
    AccBd k (m + l.length) (l.foldl (fun acc q => fftMulAdd (floatArith gl fu mathPi ce) k
      (fftT (floatArith gl fu mathPi ce) k q.1) (fftT (floatArith gl fu mathPi ce) k q.2) acc) acc) := by
  induction l with
  | nil => intro m acc _ h; exact ⟨rfl, h⟩
  | cons q l ih =>
    intro m acc hm h
    rw [List.length_cons] at hm
    rw [List.foldl_cons, List.foldl_cons, fftT_range hg hag fu hce k hk3 hk, fftT_range hg hag fu hce k hk3 hk]
    obtain ⟨e, h'⟩ := fftMulAdd_range hg hag fu k hk3 (ce := ce) _ _ acc m (by omega) (fftT_bd hg hag fu hce k hk3 hk q.1)
      (fftT_bd hg hag fu hce k hk3 hk q.2) h
    rw [e]
    have := ih (m + 1) _ (by omega) h'
    rw [List.length_cons, show m + (l.length + 1) = m + 1 + l.length by ring]
    exact this

omit hg hag hce hk hk3 in
theorem AccBd.bd {k m : ℕ} {f : List ℚ} (h : AccBd k m f) (hm : m ≤ 2 ^ 20) : ∀ x < 2 ^ k, Bd 446 (unpack 0 f x) := by
  intro x hx
  have hm' : (m : ℚ) ≤ 2 ^ 20 := by exact_mod_cast hm
  have e : (2 : ℚ) * m * 2 ^ 425 ≤ 2 ^ 446 := by
    have : (2 : ℚ) ^ 446 = 2 ^ 21 * 2 ^ 425 := by rw [← pow_add]
    rw [this]
    exact mul_le_mul_of_nonneg_right (by linarith) (by positivity)
  exact ⟨le_trans (h x hx).1 e, le_trans (h x hx).2 e⟩

omit hce hk hk3 in
theorem modQ_range (s : Site) (c : ℚ) (hc : |c| ≤ 2 ^ 627) :
    modQ (floatArith fl fu mathPi ce) s ((floatArith fl fu mathPi ce).ofInt 4294967296) c
      = modQ (floatArith gl fu mathPi ce) s ((floatArith gl fu mathPi ce).ofInt 4294967296) c := by
  have hQ : (((4294967296 : ℤ)) : ℚ) = 2 ^ 32 := by norm_num
  have hq : |c / ((4294967296 : ℤ) : ℚ)| ≤ 2 ^ 627 := by
    rw [abs_div, hQ, abs_of_pos (show (0 : ℚ) < 2 ^ 32 by norm_num)]
    exact le_trans (div_le_self (abs_nonneg _) (by norm_num)) hc
  have e1 : fl (c / ((4294967296 : ℤ) : ℚ)) = gl (c / ((4294967296 : ℤ) : ℚ)) := fl_eq hag hq (by norm_num)
  have g1 := gl_le hg hq
  set y := gl (c / ((4294967296 : ℤ) : ℚ)) with hy
  have hr := roundAway_le g1
  have hm := abs_mul_le_pow (x := ((4294967296 : ℤ) : ℚ)) (m := 32) (by rw [hQ]; norm_num) hr
  have e2 : fl (((4294967296 : ℤ) : ℚ) * ((roundAway y : ℤ) : ℚ)) = gl (((4294967296 : ℤ) : ℚ) * ((roundAway y : ℤ) : ℚ)) :=
    fl_eq hag hm (by norm_num)
  have g2 := gl_le hg hm
  simp only [modQ, floatArith]
  rw [e1, ← hy, e2]
  suffices h : |c - if fu.subMul s = true then ((4294967296 : ℤ) : ℚ) * ((roundAway y : ℤ) : ℚ)
      else gl (((4294967296 : ℤ) : ℚ) * ((roundAway y : ℤ) : ℚ))| ≤ 2 ^ 663 by
    rw [fl_eq hag h (by norm_num)]
  refine abs_sub_le_pow (n := 662) (le_pow_mono hc (by norm_num)) ?_
  split_ifs
  · exact le_pow_mono hm (by norm_num)
  · exact le_pow_mono g2 (by norm_num)

omit hk3 in
theorem specI_range (z : ℕ → ℚ × ℚ) (hz : ∀ x < 2 ^ k, Bd 446 (z x)) : ∀ x < 2 ^ k,
    specI (floatArith fl fu mathPi ce) k z x = specI (floatArith gl fu mathPi ce) k z x
      ∧ Bd 627 (specI (floatArith gl fu mathPi ce) k z x) := by
  intro x hx
  have h := ifftC_range (bfI_range hg hag fu mathPi ce) k (twIAll (floatArith fl fu mathPi ce) k)
    (twIAll (floatArith gl fu mathPi ce) k) (fun j hj i hi => by
      rw [twIAll_eq _ _ _ _ hj hi, twIAll_eq _ _ _ _ hj hi]
      exact (tw_range hg hag fu ce hce k hk (k - 1 - j) (by omega) i hi).2)
    z z 446 (by omega) (fun x hx => ⟨rfl, hz x hx⟩) k le_rfl x hx
  have hb := h.2.mono (show 446 + 6 * k ≤ 626 by omega)
  unfold specI cdivs
  rw [h.1]
  set y := ifftC (bfI (floatArith gl fu mathPi ce)) k (twIAll (floatArith gl fu mathPi ce) k) k z x
  have hd : ∀ c : ℚ, |c| ≤ 2 ^ 626 → |c / (((2 ^ k : ℕ) : ℤ) : ℚ)| ≤ 2 ^ 626 := by
    intro c hc
    have h1 : (1 : ℚ) ≤ (((2 ^ k : ℕ) : ℤ) : ℚ) := by
      have : 1 ≤ 2 ^ k := Nat.one_le_two_pow
      exact_mod_cast this
    rw [abs_div, abs_of_nonneg (show (0 : ℚ) ≤ (((2 ^ k : ℕ) : ℤ) : ℚ) by linarith)]
    exact le_trans (div_le_self (abs_nonneg _) h1) hc
  exact ⟨Prod.ext (fl_eq hag (hd _ hb.1) (by norm_num)) (fl_eq hag (hd _ hb.2) (by norm_num)),
    gl_le hg (hd _ hb.1), gl_le hg (hd _ hb.2)⟩

omit hk3 in
theorem fftR_range (f : List ℚ) (hf : ∀ x < 2 ^ k, Bd 446 (unpack 0 f x)) :
    fftR (floatArith fl fu mathPi ce) k f = fftR (floatArith gl fu mathPi ce) k f := by
  apply tab_congr
  intro i hi
  have hpw : 2 ^ (k + 1) = 2 ^ k + 2 ^ k := by ring
  have key : ∀ x < 2 ^ k, specQ (floatArith fl fu mathPi ce) k (unpack 0 f) x
      = specQ (floatArith gl fu mathPi ce) k (unpack 0 f) x := by
    intro x hx
    have h := specI_range hg hag fu hce k hk _ hf x hx
    unfold specQ
    rw [h.1, modQ_range hg hag fu _ _ h.2.1, modQ_range hg hag fu _ _ h.2.2]
  show unfoldP _ _ (specQ _ k (unpack 0 f)) i = unfoldP _ _ (specQ _ k (unpack 0 f)) i
  unfold unfoldP
  by_cases h : i < 2 ^ k
  · rw [if_pos h, if_pos h, key i h]; rfl
  · rw [if_neg h, if_neg h, key (i - 2 ^ k) (by omega)]; rfl

end

theorem accBd_zero (k : ℕ) (hk : 3 ≤ k) : AccBd k 0 (mkSlice (2 ^ (k + 1)) (0 : ℚ)) := by
  intro x hx
  rw [unpack_zero _ k hk x hx]
  simp

section

variable {fl gl : ℚ → ℚ} (hg : IsRoundU gl) (hag : ∀ x, |x| ≤ 2 ^ 700 → fl x = gl x) {fu : Fusing} {ce : ℚ → ℚ × ℚ}
  (hce : CexpAccurate ce (1 / 2 ^ 52))

include hg hag hce

/-- The sum of products in the two arithmetics -/
theorem accumR_range (k : ℕ) (hk : 3 ≤ k) (hk' : k ≤ 30) (l : List (List Torus × List Torus)) (hl : l.length ≤ 2 ^ 20) :
    (fftLaws (floatArith fl fu mathPi ce) k hk).R ((fftLaws (floatArith fl fu mathPi ce) k hk).accum l)
      = (fftLaws (floatArith gl fu mathPi ce) k hk).R ((fftLaws (floatArith gl fu mathPi ce) k hk).accum l) := by
  have e := accum_range hg hag fu hce k hk hk' l 0 _ (by omega) (accBd_zero k hk)
  have er := fftR_range hg hag fu hce k hk' _ (e.2.bd (by omega))
  exact (congrArg (fftR (floatArith fl fu mathPi ce) k) e.1).trans er

/-- One product in the two arithmetics -/
theorem mulR_range (k : ℕ) (hk : 3 ≤ k) (hk' : k ≤ 30) (a b : List Torus) :
    fftR (floatArith fl fu mathPi ce) k (fftMul (floatArith fl fu mathPi ce) k (fftT (floatArith fl fu mathPi ce) k a)
        (fftT (floatArith fl fu mathPi ce) k b))
      = fftR (floatArith gl fu mathPi ce) k (fftMul (floatArith gl fu mathPi ce) k (fftT (floatArith gl fu mathPi ce) k a)
        (fftT (floatArith gl fu mathPi ce) k b)) := by
  have e1 := fftT_range hg hag fu hce k hk hk' a
  have e2 := fftT_range hg hag fu hce k hk hk' b
  have e := fftMul_range hg hag fu (ce := ce) k hk _ _
    (fftT_bd hg hag fu hce k hk hk' a) (fftT_bd hg hag fu hce k hk hk' b)
  have er := fftR_range hg hag fu hce k hk' _ e.2
  rw [e1, e2, e.1]
  exact er

/-- Accuracy carries over. -/
theorem accurateR (k : ℕ) (hk : 3 ≤ k) (hk' : k ≤ 30) (cnt bnd D : ℕ) (hc : cnt ≤ 2 ^ 20)
    (h : (fftLaws (floatArith gl fu mathPi ce) k hk).Accurate cnt bnd D) :
    (fftLaws (floatArith fl fu mathPi ce) k hk).Accurate cnt bnd D := by
  intro l hl hb i hi
  rw [accumR_range hg hag hce k hk hk' l (le_trans hl hc)]
  exact h l hl hb i hi

theorem mulAccurateR (k : ℕ) (hk : 3 ≤ k) (hk' : k ≤ 30) (bnd D : ℕ)
    (h : (fftLaws (floatArith gl fu mathPi ce) k hk).MulAccurate bnd D) :
    (fftLaws (floatArith fl fu mathPi ce) k hk).MulAccurate bnd D := by
  intro a b ha hb hbn i hi
  have e := mulR_range hg hag (fu := fu) hce k hk hk' a b
  have := h a b ha hb hbn i hi
  show nrm (at' (fftR _ k (fftMul _ k (fftT _ k a) (fftT _ k b))) i - _) ≤ D
  rw [e]
  exact this

end

theorem noOverflow_agree (fl : ℚ → ℚ) : ∀ x, |x| ≤ 2 ^ 700 → fl x = noOverflow fl x :=
  fun x hx => (noOverflow_eq fl x (le_pow_mono hx (by norm_num))).symm

end GoTfhe
