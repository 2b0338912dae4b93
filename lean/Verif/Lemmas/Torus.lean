import Verif.Lemmas.Prelude
import Verif.Model.Utils
import Mathlib.Data.BitVec
import Mathlib.Tactic.NormNum
import Mathlib.Tactic.Push
import Mathlib.Algebra.Order.BigOperators.Group.Finset
import Mathlib.Algebra.Order.Floor.Ring

/-!
# Arithmetic of torus words and of the float conversions
-/

namespace GoTfhe

/-! ### Signed view -/

theorem toInt_lo (x : Torus) : -2147483648 ≤ x.toInt := by
  have := BitVec.le_toInt x; norm_num at this; exact this

theorem toInt_hi (x : Torus) : x.toInt < 2147483648 := by
  have := BitVec.toInt_lt (x := x); norm_num at this; exact this

theorem toInt_ofInt32 (z : ℤ) : (BitVec.ofInt 32 z).toInt = z.bmod 4294967296 := by
  rw [BitVec.toInt_ofInt]

theorem bmod32_of_range (z : ℤ) (h1 : -2147483648 ≤ z) (h2 : z < 2147483648) :
    z.bmod 4294967296 = z := by
  rw [Int.bmod_def]
  split_ifs with h <;> omega

theorem bmod32_cases (z : ℤ) : ∃ k : ℤ, z.bmod 4294967296 = z + k * 4294967296 ∧
    -2147483648 ≤ z.bmod 4294967296 ∧ z.bmod 4294967296 < 2147483648 := by
  rw [Int.bmod_def]
  split_ifs with h
  · exact ⟨-(z / 4294967296), by omega, by omega, by omega⟩
  · exact ⟨-(z / 4294967296) - 1, by omega, by omega, by omega⟩

theorem bmod32_abs_le (z : ℤ) : (z.bmod 4294967296).natAbs ≤ z.natAbs := by
  obtain ⟨k, h1, h2, h3⟩ := bmod32_cases z
  rcases lt_trichotomy k 0 with hk | hk | hk
  · omega
  · subst hk; omega
  · omega

theorem toInt_add32 (x y : Torus) : (x + y).toInt = (x.toInt + y.toInt).bmod 4294967296 := by
  rw [BitVec.toInt_add]

theorem toInt_sub32 (x y : Torus) : (x - y).toInt = (x.toInt - y.toInt).bmod 4294967296 := by
  rw [BitVec.toInt_sub]

theorem toInt_neg32 (x : Torus) : (-x).toInt = (-x.toInt).bmod 4294967296 := by
  rw [BitVec.toInt_neg]

theorem toInt_mul32 (x y : Torus) : (x * y).toInt = (x.toInt * y.toInt).bmod 4294967296 := by
  rw [BitVec.toInt_mul]

theorem toInt_add_of_range (x y : Torus) (h1 : -2147483648 ≤ x.toInt + y.toInt)
    (h2 : x.toInt + y.toInt < 2147483648) : (x + y).toInt = x.toInt + y.toInt := by
  rw [toInt_add32, bmod32_of_range _ h1 h2]

/-! ### The torus seminorm -/

theorem nrm_le (x : Torus) : nrm x ≤ 2147483648 := by
  have := toInt_lo x; have := toInt_hi x; unfold nrm; omega

theorem nrm_add (x y : Torus) : nrm (x + y) ≤ nrm x + nrm y := by
  unfold nrm
  rw [toInt_add32]
  exact (bmod32_abs_le _).trans (Int.natAbs_add_le _ _)

theorem nrm_neg (x : Torus) : nrm (-x) = nrm x := by
  unfold nrm
  rw [toInt_neg32]
  have h1 := toInt_lo x
  have h2 := toInt_hi x
  obtain ⟨k, h3, h4, h5⟩ := bmod32_cases (-x.toInt)
  have : k = 0 ∨ k = -1 := by omega
  rcases this with rfl | rfl <;> omega

theorem nrm_sub (x y : Torus) : nrm (x - y) ≤ nrm x + nrm y := by
  rw [sub_eq_add_neg]
  exact (nrm_add _ _).trans (by rw [nrm_neg])

theorem nrm_mul (x y : Torus) : nrm (x * y) ≤ nrm x * nrm y := by
  unfold nrm
  rw [toInt_mul32]
  exact (bmod32_abs_le _).trans (Int.natAbs_mul _ _).le

@[simp] theorem nrm_zero : nrm (0 : Torus) = 0 := by decide

@[simp] theorem nrm_zero' : nrm 0#32 = 0 := by decide

@[simp] theorem nrm_one : nrm (1 : Torus) = 1 := by decide

theorem nrm_sum {ι : Type*} (s : Finset ι) (f : ι → Torus) :
    nrm (∑ i ∈ s, f i) ≤ ∑ i ∈ s, nrm (f i) := by
  classical
  induction s using Finset.induction_on with
  | empty => simp
  | insert a s ha ih =>
    rw [Finset.sum_insert ha, Finset.sum_insert ha]
    exact (nrm_add _ _).trans (Nat.add_le_add_left ih _)

theorem nrm_sum_le {ι : Type*} (s : Finset ι) (f : ι → Torus) (B : ℕ)
    (h : ∀ i ∈ s, nrm (f i) ≤ B) : nrm (∑ i ∈ s, f i) ≤ s.card * B := by
  refine (nrm_sum s f).trans ?_
  simpa using Finset.sum_le_card_nsmul s (fun i => nrm (f i)) B h

theorem nrm_ofInt (z : ℤ) : nrm (BitVec.ofInt 32 z) ≤ z.natAbs := by
  unfold nrm
  rw [toInt_ofInt32]
  exact bmod32_abs_le z

theorem nrm_eq_toNat (x : Torus) (h : x.toNat < 2147483648) : nrm x = x.toNat := by
  unfold nrm
  rw [BitVec.toInt_eq_toNat_of_lt (by omega)]
  simp

theorem cast_int_eq (z : ℤ) : ((z : ℤ) : Torus) = BitVec.ofInt 32 z := rfl

theorem ofInt_add32 (a b : ℤ) : BitVec.ofInt 32 (a + b) = BitVec.ofInt 32 a + BitVec.ofInt 32 b := by
  rw [← cast_int_eq, ← cast_int_eq, ← cast_int_eq]; push_cast; rfl

theorem ofInt_neg32 (a : ℤ) : BitVec.ofInt 32 (-a) = -BitVec.ofInt 32 a := by
  rw [← cast_int_eq, ← cast_int_eq]; push_cast; rfl

theorem ofInt_toInt32 (x : Torus) : BitVec.ofInt 32 x.toInt = x := BitVec.ofInt_toInt

theorem ofInt_toNat32 (x : Torus) : BitVec.ofInt 32 (x.toNat : ℤ) = x := by
  apply BitVec.eq_of_toNat_eq
  rw [BitVec.toNat_ofInt]
  have := x.isLt
  norm_num at *
  omega

/-! ### `F64ToTorus` -/

theorem truncQ_intCast (z : ℤ) : truncQ (z : ℚ) = z := by
  unfold truncQ; split_ifs <;> simp

theorem truncQ_neg (x : ℚ) : truncQ (-x) = -truncQ x := by
  unfold truncQ
  by_cases h : x = 0
  · subst h; simp
  · by_cases hx : 0 ≤ x
    · have : ¬ (0 : ℚ) ≤ -x := by
        intro h'; exact h (le_antisymm (by linarith) hx)
      rw [if_pos hx, if_neg this, Int.ceil_neg]
    · rw [if_neg hx, if_pos (by linarith [not_le.1 hx]), Int.floor_neg]

theorem truncQ_sub_lt (x : ℚ) : |x - truncQ x| < 1 := by
  unfold truncQ
  split_ifs with h
  · rw [abs_lt]
    have := Int.floor_le x; have := Int.lt_floor_add_one x
    constructor <;> linarith
  · rw [abs_lt]
    have := Int.le_ceil x; have := Int.ceil_lt_add_one x
    constructor <;> linarith

theorem truncQ_nonneg {x : ℚ} (h : 0 ≤ x) : 0 ≤ truncQ x := by
  unfold truncQ; rw [if_pos h]; exact Int.floor_nonneg.2 h

theorem truncQ_le_of_nonneg {x : ℚ} (h : 0 ≤ x) : (truncQ x : ℚ) ≤ x := by
  unfold truncQ; rw [if_pos h]; exact Int.floor_le x

theorem truncQ_add_int {x : ℚ} (h : 0 ≤ x) (n : ℕ) : truncQ (x + n) = truncQ x + n := by
  unfold truncQ
  rw [if_pos h, if_pos (by positivity), Int.floor_add_natCast]

theorem truncQ_abs_le (x : ℚ) : |(truncQ x : ℚ)| ≤ |x| := by
  rcases le_or_gt 0 x with h | h
  · have h1 := truncQ_nonneg h
    have h2 := truncQ_le_of_nonneg h
    have h1' : (0 : ℚ) ≤ (truncQ x : ℚ) := by exact_mod_cast h1
    rw [abs_of_nonneg h, abs_of_nonneg h1']; exact h2
  · have hx : (0 : ℚ) ≤ -x := by linarith
    have h1 := truncQ_nonneg hx
    have h2 := truncQ_le_of_nonneg hx
    rw [truncQ_neg] at h1 h2
    have h1' : (0 : ℚ) ≤ -(truncQ x : ℚ) := by exact_mod_cast h1
    push_cast at h2
    rw [abs_of_neg h, abs_of_nonpos (by linarith)]; exact h2

theorem f64ToTorus_neg (d : ℚ) : f64ToTorus (-d) = -f64ToTorus d := by
  have h : fmod1 (-d) * 2 ^ 32 = -(fmod1 d * 2 ^ 32) := by
    unfold fmod1; rw [truncQ_neg]; push_cast; ring
  unfold f64ToTorus
  rw [h, truncQ_neg, ofInt_neg32]

/-- For magnitudes below one the conversion is `trunc(d * 2^32)`. -/
theorem f64ToTorus_of_abs_lt_one (d : ℚ) (h : |d| < 1) :
    f64ToTorus d = BitVec.ofInt 32 (truncQ (d * 2 ^ 32)) := by
  have : truncQ d = 0 := by
    have h1 := truncQ_abs_le d
    have h2 : |(truncQ d : ℚ)| < 1 := lt_of_le_of_lt h1 h
    have h3 : |truncQ d| < 1 := by exact_mod_cast h2
    exact Int.abs_lt_one_iff.1 h3
  unfold f64ToTorus fmod1
  rw [this]; simp

theorem toInt_f64ToTorus_of_lt_half (d : ℚ) (h : |d| < 1 / 2) :
    (f64ToTorus d).toInt = truncQ (d * 2 ^ 32) := by
  rw [f64ToTorus_of_abs_lt_one d (by linarith), toInt_ofInt32]
  have h1 := truncQ_abs_le (d * 2 ^ 32)
  have h2 : |d * 2 ^ 32| < 2147483648 := by
    rw [abs_mul, abs_of_pos (by norm_num : (0 : ℚ) < 2 ^ 32)]
    norm_num; linarith
  have h3 : |(truncQ (d * 2 ^ 32) : ℚ)| < 2147483648 := lt_of_le_of_lt h1 h2
  have h4 : |truncQ (d * 2 ^ 32)| < 2147483648 := by exact_mod_cast h3
  rw [abs_lt] at h4
  exact bmod32_of_range _ (by omega) (by omega)

theorem f64ToTorus_int_div (z : ℤ) (h1 : -4294967296 < z) (h2 : z < 4294967296) :
    f64ToTorus ((z : ℚ) / 2 ^ 32) = BitVec.ofInt 32 z := by
  rw [f64ToTorus_of_abs_lt_one]
  · rw [div_mul_cancel₀ _ (by norm_num), truncQ_intCast]
  · rw [abs_lt]
    have h1' : (-4294967296 : ℚ) < z := by exact_mod_cast h1
    have h2' : (z : ℚ) < 4294967296 := by exact_mod_cast h2
    constructor
    · rw [lt_div_iff₀ (by norm_num)]; norm_num; linarith
    · rw [div_lt_iff₀ (by norm_num)]; norm_num; linarith

theorem f64ToTorus_eighth : f64ToTorus 0.125 = 536870912#32 := by
  have := f64ToTorus_int_div 536870912 (by norm_num) (by norm_num)
  norm_num at this ⊢
  exact this

theorem f64ToTorus_neg_eighth : f64ToTorus (-0.125) = -536870912#32 := by
  rw [f64ToTorus_neg, f64ToTorus_eighth]

end GoTfhe
