import Verif.Lemmas.Torus
import Verif.Lemmas.Bits

/-!
# C01-C04: torus/float and integer/bit conversions
-/

namespace GoTfhe

/-- C01: converting a torus word to a float and back returns the word, for every word. -/
theorem C01_roundtrip (t : Torus) : f64ToTorus (torusToF64 t) = t := by
  have h := f64ToTorus_int_div (t.toNat : ℤ) (by omega) (by have := t.isLt; omega)
  unfold torusToF64
  push_cast at h
  rw [h, ofInt_toNat32]

/-- C01: the float is in `[0, 1)`. -/
theorem C01_range (t : Torus) : 0 ≤ torusToF64 t ∧ torusToF64 t < 1 := by
  unfold torusToF64
  have h : ((t.toNat : ℕ) : ℚ) < 2 ^ 32 := by exact_mod_cast t.isLt
  exact ⟨by positivity, by rw [div_lt_one (by norm_num)]; exact h⟩

/-- C01: different words give different floats. -/
theorem C01_injective {s t : Torus} (h : torusToF64 s = torusToF64 t) : s = t := by
  rw [← C01_roundtrip s, h, C01_roundtrip]

example : f64ToTorus (torusToF64 0xFFFFFFFF#32) = 0xFFFFFFFF#32 := C01_roundtrip _

/-- C02: accuracy. The word is within one unit of `d * 2^32` modulo `2^32`. -/
theorem C02_accuracy (d : ℚ) :
    ∃ k : ℤ, |((f64ToTorus d).toNat : ℚ) - d * 2 ^ 32 - k * 2 ^ 32| < 1 := by
  obtain ⟨k, hk⟩ : ∃ k : ℤ, ((f64ToTorus d).toNat : ℤ) = truncQ (fmod1 d * 2 ^ 32) + k * 2 ^ 32 := by
    refine ⟨-(truncQ (fmod1 d * 2 ^ 32) / 2 ^ 32), ?_⟩
    unfold f64ToTorus
    rw [BitVec.toNat_ofInt]
    norm_num
    omega
  refine ⟨k - truncQ d, ?_⟩
  have hk' : ((f64ToTorus d).toNat : ℚ) = (truncQ (fmod1 d * 2 ^ 32) : ℚ) + k * 2 ^ 32 := by
    exact_mod_cast hk
  have h := truncQ_sub_lt (fmod1 d * 2 ^ 32)
  rw [hk']
  have e : (truncQ (fmod1 d * 2 ^ 32) : ℚ) + k * 2 ^ 32 - d * 2 ^ 32 - ((k - truncQ d : ℤ) : ℚ) * 2 ^ 32
      = -(fmod1 d * 2 ^ 32 - truncQ (fmod1 d * 2 ^ 32)) := by
    unfold fmod1; push_cast; ring
  rw [e, abs_neg]
  exact h

/-- C02: the conversion is odd. -/
theorem C02_odd (d : ℚ) : f64ToTorus (-d) = -f64ToTorus d := f64ToTorus_neg d

/-- C02: adding an integer of the same sign does not change the word. -/
theorem C02_periodic (d : ℚ) (n : ℕ) :
    (0 ≤ d → f64ToTorus (d + n) = f64ToTorus d) ∧ (d ≤ 0 → f64ToTorus (d - n) = f64ToTorus d) := by
  have key : ∀ d : ℚ, 0 ≤ d → f64ToTorus (d + n) = f64ToTorus d := by
    intro d h
    unfold f64ToTorus fmod1
    rw [truncQ_add_int h]
    push_cast
    ring_nf
  refine ⟨key d, fun h => ?_⟩
  have := key (-d) (by linarith)
  rw [show -d + (n : ℚ) = -(d - n) by ring, f64ToTorus_neg, f64ToTorus_neg] at this
  exact neg_injective this

/-- C02 is about signs: adding 1 to `-1/2^33` crosses zero and does change the word. -/
theorem C02_crossing_zero_changes :
    f64ToTorus (-(1 / 2 ^ 33)) = 0 ∧ f64ToTorus (-(1 / 2 ^ 33) + 1) ≠ 0 := by
  constructor
  · rw [f64ToTorus_of_abs_lt_one _ (by rw [abs_neg, abs_of_pos] <;> norm_num), neg_mul, truncQ_neg]
    norm_num [truncQ]
    rfl
  · rw [f64ToTorus_of_abs_lt_one _ (by rw [abs_of_pos] <;> norm_num)]
    have : truncQ ((-(1 / 2 ^ 33) + 1) * 2 ^ 32) = 4294967295 := by
      unfold truncQ
      rw [if_pos (by norm_num), Int.floor_eq_iff]
      norm_num
    rw [this]; decide

/-- C03: `ConvertU64(ToBits(v, size)) = v mod 2^size`, for every value and every size. -/
theorem C03_toBits_convert (v : BitVec 64) (size : ℕ) :
    (toBits v size).bind (convertU 64) = some (BitVec.ofNat 64 (v.toNat % 2 ^ size)) := by
  rw [toBits_eq]
  simp only [Option.bind_some, convertU_eq, valLE_tab]

/-- C03 at the four widths. -/
theorem C03_widths :
    (∀ v : BitVec 8, (u8ToBits v).bind (convertU 8) = some v) ∧
    (∀ v : BitVec 16, (u16ToBits v).bind (convertU 16) = some v) ∧
    (∀ v : BitVec 32, (u32ToBits v).bind (convertU 32) = some v) ∧
    (∀ v : BitVec 64, (u64ToBits v).bind (convertU 64) = some v) := by
  have key : ∀ (w : ℕ) (x : BitVec 64) (v : BitVec w), x.toNat = v.toNat →
      (toBits x (w : ℤ)).bind (convertU w) = some v := by
    intro w x v h
    rw [toBits_eq]
    simp only [Option.bind_some, convertU_eq, valLE_tab, h]
    congr 1
    apply BitVec.eq_of_toNat_eq
    have := v.isLt
    rw [BitVec.toNat_ofNat, Nat.mod_mod, Nat.mod_eq_of_lt this]
  refine ⟨fun v => key 8 _ v ?_, fun v => key 16 _ v ?_, fun v => key 32 _ v ?_,
    fun v => key 64 v v rfl⟩ <;>
  · rw [BitVec.toNat_setWidth]
    exact Nat.mod_eq_of_lt (lt_of_lt_of_le v.isLt (by norm_num))

/-- C03: a negative size panics. -/
theorem C03_negative_size (v : BitVec 64) (size : ℤ) (h : size < 0) : toBits v size = none := by
  simp [toBits, h]

/-- C04: bits to integer to bits is the identity up to the width. -/
theorem C04_convert_toBits (w : ℕ) (hw : w ≤ 64) (bits : List Bool) (h : bits.length ≤ w) :
    (convertU w bits).bind (fun v => toBits (v.zeroExtend 64) bits.length) = some bits := by
  rw [convertU_eq]
  simp only [Option.bind_some]
  rw [toBits_eq]
  congr 1
  symm
  apply eq_tab_of _ _ _ rfl
  intro i hi
  have hlt : valLE bits < 2 ^ w := lt_of_lt_of_le (valLE_lt bits) (Nat.pow_le_pow_right (by norm_num) h)
  have hlt2 : valLE bits < 2 ^ 64 := lt_of_lt_of_le hlt (Nat.pow_le_pow_right (by norm_num) hw)
  rw [BitVec.toNat_setWidth, BitVec.toNat_ofNat, Nat.mod_eq_of_lt hlt, Nat.mod_eq_of_lt hlt2,
    valLE_testBit]
  simp [hi]

/-- C04: the value returned is that of the low `w` bits, whatever the length: the others are
dropped silently. It never panics. -/
theorem C04_truncation (w : ℕ) (bits : List Bool) :
    ∃ v, convertU w bits = some v ∧ v.toNat = valLE (bits.take w) ∧
      convertU w (bits.take w) = some v := by
  refine ⟨_, convertU_eq w bits, ?_, ?_⟩
  · rw [BitVec.toNat_ofNat, valLE_take]
  · rw [convertU_eq, valLE_take]
    congr 1
    apply BitVec.eq_of_toNat_eq
    simp

example : (convertU 8 [true, false, true]).bind (fun v => toBits (v.zeroExtend 64) 3)
    = some [true, false, true] := C04_convert_toBits 8 (by norm_num) [true, false, true] (by decide)

end GoTfhe
