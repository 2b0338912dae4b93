import Verif.Lemmas.Prelude
import Verif.Model.Bits
import Verif.Spec.Bits
import Mathlib.Data.Nat.Bitwise

/-! # Closed forms of the bit conversion loops -/

namespace GoTfhe

theorem shl_or_one (w v : ℕ) (b : Bool) :
    (if b then BitVec.ofNat w v <<< 1 ||| 1#w else BitVec.ofNat w v <<< 1)
      = BitVec.ofNat w (b.toNat + 2 * v) := by
  rcases Nat.eq_zero_or_pos w with rfl | hw
  · exact Subsingleton.elim _ _
  · have h2 : 2 ∣ 2 ^ w := dvd_pow_self 2 (by omega)
    have h1 : (1 : ℕ) < 2 ^ w := Nat.one_lt_two_pow (by omega)
    obtain ⟨m, hm⟩ := h2
    have e : (BitVec.ofNat w v <<< 1).toNat = (2 * v) % 2 ^ w := by
      rw [BitVec.toNat_shiftLeft, BitVec.toNat_ofNat, Nat.shiftLeft_eq, pow_one, mul_comm]
      rw [Nat.mul_mod, Nat.mod_mod, ← Nat.mul_mod]
    have e2 : (2 * v) % 2 ^ w = 2 * (v % m) := by rw [hm, Nat.mul_mod_mul_left]
    apply BitVec.eq_of_toNat_eq
    cases b
    · simp [e]
    · simp only [if_true, BitVec.toNat_or, e, e2, Bool.toNat_true, BitVec.toNat_ofNat]
      rw [Nat.mod_eq_of_lt h1]
      have := Nat.two_pow_add_eq_or_of_lt (i := 1) (b := 1) (by norm_num) (v % m)
      rw [pow_one] at this
      rw [← this, hm]
      have hv : v % m < m := Nat.mod_lt _ (by omega)
      have : (1 + 2 * v) % (2 * m) = 2 * (v % m) + 1 := by
        have h := Nat.div_add_mod v m
        conv_lhs => rw [← h]
        rw [show 1 + 2 * (m * (v / m) + v % m) = (2 * (v % m) + 1) + (2 * m) * (v / m) by ring,
          Nat.add_mul_mod_self_left, Nat.mod_eq_of_lt (by omega)]
      rw [this]

theorem convertU_eq (w : ℕ) (bits : List Bool) :
    convertU w bits = some (BitVec.ofNat w (valLE bits)) := by
  unfold convertU
  have := forDown_eq bits.length (fun i (result : BitVec w) => do
    let result := result <<< 1
    let b ← rd bits i
    pure (if b then result ||| 1#w else result))
    (fun i => BitVec.ofNat w (valLE (bits.drop i))) (by
      intro i hi
      rw [List.drop_eq_getElem_cons hi, rd_eq bits i hi]
      exact congrArg some (shl_or_one w _ _))
  simpa [valLE] using this

theorem valLE_lt (bits : List Bool) : valLE bits < 2 ^ bits.length := by
  induction bits with
  | nil => simp [valLE]
  | cons b bs ih =>
    simp only [valLE, List.length_cons, pow_succ]
    cases b <;> simp <;> omega

theorem valLE_testBit (bits : List Bool) (i : ℕ) :
    (valLE bits).testBit i = bits.getD i false := by
  induction bits generalizing i with
  | nil => simp [valLE]
  | cons b bs ih =>
    cases i with
    | zero => cases b <;> simp [valLE, Nat.testBit_zero]
    | succ i =>
      rw [Nat.testBit_succ]
      have : valLE (b :: bs) / 2 = valLE bs := by
        cases b <;> simp [valLE] <;> omega
      rw [this, ih]; simp

theorem toBits_eq (val : BitVec 64) (size : ℕ) :
    toBits val size = some (tab size fun i => val.toNat.testBit i) := by
  unfold toBits
  rw [if_neg (by omega)]
  simp only [Int.toNat_natCast]
  apply forRange_fill_full _ _ _ (by simp)
  intro i hi r hr
  have : decide (val >>> i &&& 1#64 ≠ 0) = val.toNat.testBit i := by
    rw [Nat.testBit_eq_decide_div_mod_eq]
    rw [decide_eq_decide, Ne, ← BitVec.toNat_inj]
    simp only [BitVec.toNat_and, BitVec.toNat_ushiftRight, BitVec.toNat_ofNat]
    norm_num [Nat.and_one_is_mod, Nat.shiftRight_eq_div_pow]
    change ¬ _ = 0 ↔ _
    omega
  rw [this]

theorem valLE_tab (v : ℕ) (size : ℕ) : valLE (tab size fun i => v.testBit i) = v % 2 ^ size := by
  apply Nat.eq_of_testBit_eq
  intro i
  rw [valLE_testBit, Nat.testBit_mod_two_pow, List.getD_eq_getElem?_getD, getElem?_tab]
  split_ifs with h <;> simp [h]

theorem valLE_take (bits : List Bool) (w : ℕ) : valLE (bits.take w) = valLE bits % 2 ^ w := by
  apply Nat.eq_of_testBit_eq
  intro i
  rw [valLE_testBit, Nat.testBit_mod_two_pow, valLE_testBit]
  simp only [List.getD_eq_getElem?_getD, List.getElem?_take]
  split_ifs with h <;> simp [h]

end GoTfhe
