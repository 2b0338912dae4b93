import Verif.Lemmas.FftExact
import Verif.Lemmas.FftLaws
import Verif.Lemmas.Torus
import Verif.Model.FftArith

/-! # The transform in exact arithmetic -/

namespace GoTfhe

open Complex Finset

/-- A pair as a complex number -/
def toC (x : ℝ × ℝ) : ℂ := ⟨x.1, x.2⟩

theorem toC_cmul (s : Site) (x y : ℝ × ℝ) : toC (cmul realArith s x y) = toC x * toC y := by
  apply Complex.ext <;> simp [toC, cmul, realArith]

theorem toC_cexp (x : ℝ) : toC (realArith.cexp x) = exp (x * I) := by
  rw [Complex.exp_mul_I]
  apply Complex.ext <;> simp [toC, realArith, ← Complex.ofReal_cos, ← Complex.ofReal_sin]

theorem stage_hom {C D : Type} (φ : C → D) (b : ℕ → C → C → C → C × C) (b' : ℕ → D → D → D → D × D)
    (h1 : ∀ q w u v, φ (b q w u v).1 = (b' q (φ w) (φ u) (φ v)).1)
    (h2 : ∀ q w u v, φ (b q w u v).2 = (b' q (φ w) (φ u) (φ v)).2) (h : ℕ) (w z : ℕ → C) (x : ℕ) :
    φ (stage b h w z x) = stage b' h (fun i => φ (w i)) (fun i => φ (z i)) x := by
  unfold stage
  split_ifs
  · rw [h1]
  · rw [h2]

theorem fftC_hom {C D : Type} (φ : C → D) (b : ℕ → ℕ → C → C → C → C × C) (b' : ℕ → ℕ → D → D → D → D × D)
    (h1 : ∀ m q w u v, φ (b m q w u v).1 = (b' m q (φ w) (φ u) (φ v)).1)
    (h2 : ∀ m q w u v, φ (b m q w u v).2 = (b' m q (φ w) (φ u) (φ v)).2) (k : ℕ) (g z : ℕ → C) (s : ℕ) (x : ℕ) :
    φ (fftC b k g s z x) = fftC b' k (fun i => φ (g i)) s (fun i => φ (z i)) x := by
  induction s generalizing x with
  | zero => rfl
  | succ s ih =>
    rw [fftC, fftC, stage_hom φ _ _ (h1 _) (h2 _)]
    congr 1
    funext y
    exact ih y

theorem ifftC_hom {C D : Type} (φ : C → D) (b : ℕ → ℕ → C → C → C → C × C) (b' : ℕ → ℕ → D → D → D → D × D)
    (h1 : ∀ m q w u v, φ (b m q w u v).1 = (b' m q (φ w) (φ u) (φ v)).1)
    (h2 : ∀ m q w u v, φ (b m q w u v).2 = (b' m q (φ w) (φ u) (φ v)).2) (k : ℕ) (g z : ℕ → C) (s : ℕ) (x : ℕ) :
    φ (ifftC b k g s z x) = ifftC b' k (fun i => φ (g i)) s (fun i => φ (z i)) x := by
  induction s generalizing x with
  | zero => rfl
  | succ s ih =>
    rw [ifftC, ifftC, stage_hom φ _ _ (h1 _) (h2 _)]
    congr 1
    funext y
    exact ih y

theorem bf2_butterfly (m q : ℕ) (w u v : ℝ × ℝ) :
    toC (bfF realArith m q w u v).1 = (fwdB m q (toC w) (toC u) (toC v)).1
    ∧ toC (bfF realArith m q w u v).2 = (fwdB m q (toC w) (toC u) (toC v)).2 := by
  constructor <;> apply Complex.ext <;> simp [toC, bfF, bf2, butterfly, realArith, fwdB]

theorem bf2_invButterfly (m q : ℕ) (w u v : ℝ × ℝ) :
    toC (bfI realArith m q w u v).1 = (invB m q (toC w) (toC u) (toC v)).1
    ∧ toC (bfI realArith m q w u v).2 = (invB m q (toC w) (toC u) (toC v)).2 := by
  constructor <;> apply Complex.ext <;> simp [toC, bfI, bf2, invButterfly, realArith, invB]

/-- The exact angle of factor `i` of stage `s` -/
noncomputable def wAngle (s i : ℕ) : ℝ := 2 * Real.pi * ((1 - 4 * (rev s i : ℝ)) / (8 * 2 ^ s))

theorem W_eq (s i : ℕ) : W s i = exp (wAngle s i * I) := by
  rw [W, wAngle]
  congr 1
  push_cast
  ring

theorem angle_sum (k s i : ℕ) (hs : s < k) (hi : i < 2 ^ s) :
    twAngle realArith (2 ^ k) (rev (k - 1) i) + foldAngle realArith 2 (2 ^ k) (2 ^ (k - 1 - s)) = wAngle s i := by
  obtain ⟨d, rfl⟩ : ∃ d, k = s + d + 1 := ⟨k - s - 1, by omega⟩
  rw [show s + d + 1 - 1 = s + d by omega, rev_add d s i hi, show s + d - s = d by omega]
  simp only [twAngle, foldAngle, realArith, wAngle]
  push_cast
  have h1 : (2 : ℝ) ^ s ≠ 0 := by positivity
  have h2 : (2 : ℝ) ^ d ≠ 0 := by positivity
  rw [pow_succ, pow_add]
  field_simp
  ring

theorem foldAngle_neg (N t : ℕ) : foldAngle realArith (-2) N t = -foldAngle realArith 2 N t := by
  simp only [foldAngle, realArith]
  push_cast
  ring

theorem isTw_real (k : ℕ) : IsTw k fun i => toC (twFAll realArith k i) := by
  intro s hs i hi
  simp only
  rw [twFAll_eq _ k s i hi, twF, toC_cmul, toC_cexp, toC_cexp, ← Complex.exp_add, W_eq, ← angle_sum k s i hs hi]
  congr 1
  push_cast
  ring

theorem isTwInv_real (k : ℕ) : IsTwInv k fun i => toC (twIAll realArith k i) := by
  intro j hj i hi
  simp only
  rw [twIAll_eq _ k j i hj hi, twI, toC_cmul, toC_cexp, toC_cexp, ← Complex.exp_add, W_eq, ← Complex.exp_neg,
    ← angle_sum k (k - 1 - j) i (by omega) hi, foldAngle_neg]
  congr 1
  have : realArith.neg = fun x => -x := rfl
  rw [this]
  push_cast
  ring

theorem toC_specT (k : ℕ) (p : List Torus) (x : ℕ) (hx : x < 2 ^ k) :
    toC (specT realArith k p x) = ∑ j ∈ range (2 ^ (k + 1)), (((at' p j).toInt : ℤ) : ℂ) * pt k x ^ j := by
  rw [specT, fftC_hom toC _ fwdB (fun m q w u v => (bf2_butterfly m q w u v).1) (fun m q w u v => (bf2_butterfly m q w u v).2),
    fft_eval k _ (isTw_real k) _ x hx]
  have e : ∀ r, toC (foldP realArith (2 ^ k) p r)
      = (((at' p r).toInt : ℤ) : ℂ) + (((at' p (r + 2 ^ k)).toInt : ℤ) : ℂ) * I := by
    intro r
    apply Complex.ext <;> simp [toC, foldP, realArith]
  simp only [e]
  rw [fold_eval (2 ^ k) (pt k x) (pt_pow k x hx) (fun j => (((at' p j).toInt : ℤ) : ℂ)), pow_succ, mul_two]

theorem roundAway_int (n : ℤ) : roundAway (n : ℝ) = n := by
  unfold roundAway
  split_ifs with h
  · rw [Int.floor_eq_iff]
    constructor <;> linarith
  · rw [Int.ceil_eq_iff]
    constructor <;> linarith

theorem truncZ_int (n : ℤ) : truncZ (n : ℝ) = n := by
  unfold truncZ
  split_ifs <;> simp

theorem modQ_real_int (s : Site) (n : ℤ) :
    BitVec.ofInt 32 (realArith.toInt (modQ realArith s (realArith.ofInt 4294967296) (n : ℝ))) = BitVec.ofInt 32 n := by
  have e : modQ realArith s (realArith.ofInt 4294967296) (n : ℝ)
      = ((n - 4294967296 * roundAway ((n : ℝ) / 4294967296) : ℤ) : ℝ) := by
    simp only [modQ, realArith]
    rw [show ((n : ℝ) - ((4294967296 : ℤ) : ℝ) * ((roundAway ((n : ℝ) / ((4294967296 : ℤ) : ℝ)) : ℤ) : ℝ))
      = ((n - 4294967296 * roundAway ((n : ℝ) / 4294967296) : ℤ) : ℝ) by push_cast; ring]
    rw [roundAway_int]
  rw [e]
  have : realArith.toInt = truncZ := rfl
  rw [this, truncZ_int]
  apply BitVec.eq_of_toInt_eq
  rw [BitVec.toInt_ofInt, BitVec.toInt_ofInt]
  rw [show ((2 : ℕ) ^ 32) = 4294967296 by norm_num]
  rw [sub_eq_add_neg, ← mul_neg]
  exact Int.add_mul_bmod_self_left n 4294967296 _

theorem unpack_pack {R : Type} (d : R) (k : ℕ) (hk : 3 ≤ k) (z : ℕ → R × R) (x : ℕ) (hx : x < 2 ^ k) :
    unpack d (pack (2 ^ (k + 1)) z) x = z x := by
  obtain ⟨B, h8, h4⟩ := pow_eq_eight k hk
  rw [h8]
  exact pack_inj B (pack_unpack d B _ (by simp)) x (by omega)

/-- Transforming back from the values of an integer polynomial gives its coefficients modulo `2^32`. -/
theorem specQ_values (k : ℕ) (y : ℕ → ℝ × ℝ) (n : ℕ → ℤ)
    (hy : ∀ x < 2 ^ k, toC (y x) = ∑ j ∈ range (2 ^ (k + 1)), ((n j : ℤ) : ℂ) * pt k x ^ j) (i : ℕ)
    (hi : i < 2 ^ (k + 1)) :
    unfoldP realArith (2 ^ k) (specQ realArith k y) i = BitVec.ofInt 32 (n i) := by
  let z : ℕ → ℂ := fun r => ((n r : ℤ) : ℂ) + ((n (r + 2 ^ k) : ℤ) : ℂ) * I
  have hy' : ∀ p < 2 ^ k, toC (y p) = fftC fwdB k (fun i => toC (twFAll realArith k i)) k z p := by
    intro p hp
    rw [hy p hp, fft_eval k _ (isTw_real k) z p hp]
    simp only [z]
    rw [fold_eval (2 ^ k) (pt k p) (pt_pow k p hp) (fun j => ((n j : ℤ) : ℂ)), pow_succ, mul_two]
  have hI : ∀ x < 2 ^ k, specI realArith k y x = ((n x : ℝ), (n (x + 2 ^ k) : ℝ)) := by
    intro x hx
    have h1 := ifft_fft k _ _ (isTw_real k) (isTwInv_real k) (fun p => toC (y p)) z hy' k le_rfl x hx
    rw [Nat.sub_self, fftC] at h1
    have h2 := ifftC_hom toC _ invB (fun m q w u v => (bf2_invButterfly m q w u v).1) (fun m q w u v => (bf2_invButterfly m q w u v).2)
      k (twIAll realArith k) y k x
    rw [h1] at h2
    have hp : (2 : ℝ) ^ k ≠ 0 := by positivity
    have h3 : toC (ifftC (bfI realArith) k (twIAll realArith k) k y x)
        = toC ((2 : ℝ) ^ k * n x, (2 : ℝ) ^ k * n (x + 2 ^ k)) := by
      rw [h2]
      have : (2 : ℂ) ^ k = (((2 : ℝ) ^ k : ℝ) : ℂ) := by push_cast; rfl
      rw [this]
      generalize (2 : ℝ) ^ k = P
      apply Complex.ext <;> simp [toC, z]
    have h4 : ∀ a b : ℝ × ℝ, toC a = toC b → a = b := by
      intro a b h
      have := Complex.ext_iff.1 h
      exact Prod.ext this.1 this.2
    rw [specI, h4 _ _ h3]
    simp only [cdivs, realArith]
    push_cast
    rw [mul_div_cancel_left₀ _ hp, mul_div_cancel_left₀ _ hp]
  have hpw : 2 ^ (k + 1) = 2 ^ k + 2 ^ k := by ring
  unfold unfoldP specQ
  by_cases h : i < 2 ^ k
  · rw [if_pos h, hI i h]
    exact modQ_real_int _ _
  · rw [if_neg h, hI (i - 2 ^ k) (by omega)]
    simp only
    rw [show i - 2 ^ k + 2 ^ k = i by omega]
    exact modQ_real_int _ _

/-- Coefficient `k` of the negacyclic product of integer polynomials -/
def negMulZ (N : ℕ) (a b : ℕ → ℤ) (k : ℕ) : ℤ :=
  ∑ i ∈ range N, if i ≤ k then a i * b (k - i) else -(a i * b (k + N - i))

theorem ofInt_negMulZ (N : ℕ) (a b : ℕ → Torus) (k : ℕ) :
    BitVec.ofInt 32 (negMulZ N (fun i => (a i).toInt) (fun i => (b i).toInt) k) = negMul N a b k := by
  rw [← cast_int_eq, negMulZ, negMul, Int.cast_sum]
  apply Finset.sum_congr rfl
  intro i _
  have h : ∀ x : Torus, ((x.toInt : ℤ) : Torus) = x := fun x => by rw [cast_int_eq]; exact ofInt_toInt32 x
  split_ifs
  · rw [Int.cast_mul, h, h]
  · rw [Int.cast_neg, Int.cast_mul, h, h]

theorem pt_pow_N (k x : ℕ) (hx : x < 2 ^ k) : pt k x ^ 2 ^ (k + 1) = -1 := by
  rw [pow_succ, pow_mul, pt_pow k x hx, I_sq]

/-- Values of the product. -/
theorem eval_negMulZ (k x : ℕ) (hx : x < 2 ^ k) (a b : ℕ → ℤ) :
    (∑ j ∈ range (2 ^ (k + 1)), ((a j : ℤ) : ℂ) * pt k x ^ j)
      * (∑ j ∈ range (2 ^ (k + 1)), ((b j : ℤ) : ℂ) * pt k x ^ j)
    = ∑ j ∈ range (2 ^ (k + 1)), ((negMulZ (2 ^ (k + 1)) a b j : ℤ) : ℂ) * pt k x ^ j := by
  rw [eval_mul _ _ (pt_pow_N k x hx)]
  apply Finset.sum_congr rfl
  intro j _
  congr 1
  unfold negMulZ
  push_cast
  apply Finset.sum_congr rfl
  intro i _
  split_ifs <;> push_cast <;> rfl

end GoTfhe
