import Verif.Lemmas.LweMessage
import Mathlib.Data.Nat.Cast.Order.Field

/-!
# C09-C11: integer messages
-/

namespace GoTfhe

/-- Encoding with a power-of-two modulus is exact: slot `r` starts at `r * 2^(31-k)`. -/
theorem enc_pow2 (fl : ℚ → ℚ) (hfl : IsRound fl) (k : ℕ) (hk : k ≤ 31) (r : ℤ)
    (h0 : 0 ≤ r) (hr : r < 2 ^ k) :
    f64ToTorus (fl ((r : ℚ) * fl ((2 ^ 31 : ℚ) / (((2 ^ k : ℕ) : ℤ) : ℚ))) / 2 ^ 32)
      = BitVec.ofInt 32 (r * (2 ^ 31 / 2 ^ k : ℕ)) := by
  have e1 : (2 ^ 31 : ℚ) / (((2 ^ k : ℕ) : ℤ) : ℚ) = ((1 : ℤ) : ℚ) * 2 ^ ((31 : ℤ) - k) := by
    rw [zpow_sub₀ (by norm_num)]; push_cast; rw [zpow_natCast]; norm_num
  have hr31 : r < 2 ^ 31 := lt_of_lt_of_le hr (by
    exact_mod_cast Nat.pow_le_pow_right (by norm_num : 0 < 2) hk)
  rw [e1, hfl.exact 1 _ (by norm_num) (by omega) (by omega)]
  rw [show ((r : ℚ) * (((1 : ℤ) : ℚ) * 2 ^ ((31 : ℤ) - k))) = (r : ℚ) * 2 ^ ((31 : ℤ) - k) by push_cast; ring]
  rw [hfl.exact r _ (by rw [abs_of_nonneg h0]; linarith) (by omega) (by omega)]
  have e2 : (r : ℚ) * 2 ^ ((31 : ℤ) - k) = ((r * (2 ^ 31 / 2 ^ k : ℕ) : ℤ) : ℚ) := by
    rw [Nat.pow_div hk (by norm_num)]
    push_cast
    congr 1
    rw [show ((31 : ℤ) - k) = ((31 - k : ℕ) : ℤ) by omega, zpow_natCast]
  rw [e2]
  apply f64ToTorus_int_div
  · have : 0 ≤ r * (2 ^ 31 / 2 ^ k : ℕ) := by positivity
    omega
  · have h1 : (2 ^ 31 / 2 ^ k : ℕ) * 2 ^ k = 2 ^ 31 := Nat.div_mul_cancel (pow_dvd_pow 2 hk)
    have h2 : ((2 ^ 31 / 2 ^ k : ℕ) : ℤ) * 2 ^ k = 2 ^ 31 := by exact_mod_cast h1
    have h3 : r * (2 ^ 31 / 2 ^ k : ℕ) ≤ 2 ^ k * (2 ^ 31 / 2 ^ k : ℕ) :=
      mul_le_mul_of_nonneg_right hr.le (by positivity)
    rw [mul_comm, mul_comm (2 ^ k)] at h3
    rw [h2] at h3
    rw [mul_comm]
    omega

/-- C09: with `messageModulus = 2^k`, `k ≤ 30`, any int message, any rounding, mask and key: decryption
returns `message mod 2^k` exactly when the signed error is in `[-S/2, S/2)` up to a half turn,
where `S = 2^31/2^k` is the slot width. Nothing panics. -/
theorem C09_pow2_roundtrip_iff (fl : ℚ → ℚ) (hfl : IsRound fl) (P : Params) (t key : List Torus)
    (msg : ℤ) (k : ℕ) (hk30 : k ≤ 30) (draw : ℕ → Torus) (sample : ℚ)
    (hk : P.tlweLv0.N ≤ key.length) (ht : P.tlweLv0.N < t.length) :
    ∃ c, encryptLWEMessage fl P t msg (2 ^ k : ℕ) key draw sample = some c ∧
      (decryptLWEMessage P c (2 ^ k : ℕ) key = some (msg % (2 ^ k : ℕ)) ↔
        ((f64ToTorus sample).toInt + 2 ^ (30 - k)) % 2 ^ 31 < 2 ^ (31 - k)) := by
  have hm1 : 1 ≤ 2 ^ k := Nat.one_le_two_pow
  have hm2 : 2 ^ k ≤ 2 ^ 31 := Nat.pow_le_pow_right (by norm_num) (by omega)
  obtain ⟨c, hc, hl, -, hp⟩ := encryptLWEMessage_eq fl P t key msg (2 ^ k) hm1 draw sample hk ht
  refine ⟨c, hc, ?_⟩
  rw [decryptLWEMessage_eq P c key (2 ^ k) hm1 hm2 hk (by omega), hp]
  have hr0 := Int.emod_nonneg msg (show ((2 ^ k : ℕ) : ℤ) ≠ 0 by positivity)
  have hr1 := Int.emod_lt_of_pos msg (show (0 : ℤ) < ((2 ^ k : ℕ) : ℤ) by positivity)
  rw [enc_pow2 fl hfl k (by omega) _ hr0 (by simpa using hr1)]
  obtain ⟨r, hr⟩ := Int.eq_ofNat_of_zero_le hr0
  rw [hr] at hr1 ⊢
  have hrm : r < 2 ^ k := by exact_mod_cast hr1
  rw [Option.some.injEq, Nat.cast_inj]
  set e := f64ToTorus sample with he
  have hS : 2 ^ 31 / 2 ^ k = 2 ^ (31 - k) := Nat.pow_div (by omega) (by norm_num)
  have hS2 : 2 ^ (31 - k) / 2 = 2 ^ (30 - k) := by
    rw [show 31 - k = (30 - k) + 1 by omega, pow_succ]; simp
  have hSm : 2 ^ (31 - k) * 2 ^ k = 2 ^ 31 := by rw [← pow_add]; congr 1; omega
  have eT : (((BitVec.ofInt 32 ((r : ℤ) * (2 ^ 31 / 2 ^ k : ℕ)) + e).toNat + 2 ^ (30 - k)) % 2 ^ 32 : ℕ)
      % 2 ^ 31 = (((r : ℤ) * 2 ^ (31 - k) + (e.toInt + 2 ^ (30 - k))) % 2 ^ 31).toNat := by
    have h1 : ((BitVec.ofInt 32 ((r : ℤ) * (2 ^ 31 / 2 ^ k : ℕ)) + e).toNat : ℤ)
        = ((r : ℤ) * 2 ^ (31 - k) + e.toInt) % 4294967296 := by
      conv_lhs => rw [← ofInt_toInt32 e, ← ofInt_add32, hS, BitVec.toNat_ofInt]
      norm_num
      omega
    generalize (BitVec.ofInt 32 ((r : ℤ) * (2 ^ 31 / 2 ^ k : ℕ)) + e).toNat = N at h1 ⊢
    have hn : (0 : ℤ) ≤ ((r : ℤ) * 2 ^ (31 - k) + (e.toInt + 2 ^ (30 - k))) % 2 ^ 31 :=
      Int.emod_nonneg _ (by norm_num)
    zify
    rw [Int.toNat_of_nonneg hn, h1]
    generalize (r : ℤ) * 2 ^ (31 - k) = A
    generalize (2 : ℤ) ^ (30 - k) = B
    omega
  have hdec : decodeMsg (2 ^ k) (BitVec.ofInt 32 ((r : ℤ) * (2 ^ 31 / 2 ^ k : ℕ)) + e)
      = (((r : ℤ) * 2 ^ (31 - k) + (e.toInt + 2 ^ (30 - k))) % 2 ^ 31).toNat / 2 ^ (31 - k) := by
    unfold decodeMsg
    rw [← eT, hS, hS2]
    conv_rhs => rw [← hSm]
    rw [Nat.mod_mul_right_div_self]
  rw [hdec]
  set S : ℕ := 2 ^ (31 - k) with hSdef
  have hSpos : 0 < S := by positivity
  have hcast : ((2 : ℤ) ^ (31 - k)) = (S : ℤ) := by rw [hSdef]; push_cast; rfl
  rw [hcast]
  set E : ℤ := (e.toInt + 2 ^ (30 - k)) % 2 ^ 31 with hE
  have hE0 : 0 ≤ E := Int.emod_nonneg _ (by norm_num)
  have hE1 : E < 2 ^ 31 := Int.emod_lt_of_pos _ (by norm_num)
  have hsum : ((r : ℤ) * S + (e.toInt + 2 ^ (30 - k))) % 2 ^ 31 = ((r : ℤ) * S + E) % 2 ^ 31 := by
    rw [hE, Int.add_emod_emod]
  rw [hsum]
  have hrS : ((r : ℤ) + 1) * S ≤ 2 ^ 31 := by
    have : (r + 1) * S ≤ 2 ^ 31 := by rw [← hSm, mul_comm S]; exact Nat.mul_le_mul_right _ hrm
    exact_mod_cast this
  have hexp : ((r : ℤ) + 1) * S = (r : ℤ) * S + S := by ring
  have hrS0 : (0 : ℤ) ≤ (r : ℤ) * S := by positivity
  constructor
  · intro h
    rw [Nat.div_eq_iff hSpos] at h
    have hn : (0 : ℤ) ≤ ((r : ℤ) * S + E) % 2 ^ 31 := Int.emod_nonneg _ (by norm_num)
    obtain ⟨h3, h4⟩ := h
    zify [show 1 ≤ r * S + S by omega] at h3 h4
    rw [Int.toNat_of_nonneg hn] at h3 h4
    rw [hexp] at hrS
    generalize (r : ℤ) * S = A at *
    omega
  · intro h
    rw [Int.emod_eq_of_lt (by omega) (by omega)]
    rw [Nat.div_eq_iff hSpos]
    constructor
    · zify; rw [Int.toNat_of_nonneg (by omega)]; omega
    · zify [show 1 ≤ S by omega]; rw [Int.toNat_of_nonneg (by omega)]; omega

/-- C09: noise in `[-S/2, S/2)` round-trips. -/
theorem C09_pow2_roundtrip (fl : ℚ → ℚ) (hfl : IsRound fl) (P : Params) (t key : List Torus)
    (msg : ℤ) (k : ℕ) (hk30 : k ≤ 30) (draw : ℕ → Torus) (sample : ℚ)
    (hk : P.tlweLv0.N ≤ key.length) (ht : P.tlweLv0.N < t.length)
    (h1 : -2 ^ (30 - k) ≤ (f64ToTorus sample).toInt) (h2 : (f64ToTorus sample).toInt < 2 ^ (30 - k)) :
    (encryptLWEMessage fl P t msg (2 ^ k : ℕ) key draw sample).bind
      (fun c => decryptLWEMessage P c (2 ^ k : ℕ) key) = some (msg % (2 ^ k : ℕ)) := by
  obtain ⟨c, hc, h⟩ := C09_pow2_roundtrip_iff fl hfl P t key msg k hk30 draw sample hk ht
  rw [hc]
  refine h.2 ?_
  have hp : (2 : ℤ) ^ (31 - k) = 2 * 2 ^ (30 - k) := by
    rw [show 31 - k = (30 - k) + 1 by omega, pow_succ]; ring
  have hb : (2 : ℤ) ^ (30 - k) ≤ 2 ^ 30 := by
    exact_mod_cast Nat.pow_le_pow_right (by norm_num : 0 < 2) (by omega : 30 - k ≤ 30)
  rw [hp]
  generalize (2 : ℤ) ^ (30 - k) = B at *
  omega

/-- Non-vacuity for C09: modulus 8 at the Uint3 parameters, message -3, no hypotheses left. -/
example : (encryptLWEMessage rne (paramsFor 3) (newTLWELv0 (paramsFor 3)) (-3) (2 ^ 3 : ℕ)
    (tab 820 fun i => if i % 2 = 0 then 1 else 0) (fun i => BitVec.ofNat 32 (i * 40503)) 0).bind
    (fun c => decryptLWEMessage (paramsFor 3) c (2 ^ 3 : ℕ) (tab 820 fun i => if i % 2 = 0 then 1 else 0))
    = some 5 := by
  have hz : (f64ToTorus 0).toInt = 0 := by
    rw [toInt_f64ToTorus_of_lt_half _ (by norm_num)]; simp [truncQ]
  exact C09_pow2_roundtrip rne isRound_rne _ _ _ (-3) 3 (by norm_num) _ 0 (by simp; rfl)
    (by simp [newTLWELv0]) (by rw [hz]; norm_num) (by rw [hz]; norm_num)

/-- Two roundings of the encoder move the encoded message by less than one unit. -/
theorem enc_general (fl : ℚ → ℚ) (hfl : IsRound fl) (m : ℕ) (hm : 1 ≤ m) (hm31 : m ≤ 2 ^ 31) (r : ℕ) (hr : r < m) :
    ∃ x : ℤ, f64ToTorus (fl (((r : ℤ) : ℚ) * fl ((2 ^ 31 : ℚ) / ((m : ℤ) : ℚ))) / 2 ^ 32)
      = BitVec.ofInt 32 x ∧ (r : ℤ) * (2 ^ 31 / m : ℕ) - 1 ≤ x ∧
        x < (r : ℤ) * (2 ^ 31 / m : ℕ) + m + 1 := by
  set s := fl ((2 ^ 31 : ℚ) / ((m : ℤ) : ℚ)) with hs
  set y := fl (((r : ℤ) : ℚ) * s) with hy
  have hmq : (0 : ℚ) < (m : ℚ) := by exact_mod_cast hm
  have hm1 : (1 : ℚ) ≤ (m : ℚ) := by exact_mod_cast hm
  have hrq : (r : ℚ) + 1 ≤ m := by exact_mod_cast hr
  have hr0 : (0 : ℚ) ≤ r := by positivity
  set q : ℚ := 2 ^ 31 / (m : ℚ) with hq
  have hqpos : 0 < q := by positivity
  have hqm : q * m = 2 ^ 31 := by rw [hq]; field_simp
  have hm31q : (m : ℚ) ≤ 2 ^ 31 := by exact_mod_cast hm31
  have hq1 : 1 ≤ q := by rw [hq, le_div_iff₀ hmq]; linarith
  have hq31 : q ≤ 2 ^ 31 := by rw [hq]; exact div_le_self (by norm_num) hm1
  have e1 := hfl.rel ((2 ^ 31 : ℚ) / ((m : ℤ) : ℚ)) (Or.inr (by
    push_cast
    rw [← hq, abs_of_pos hqpos]
    exact le_trans (by norm_num) hq1)) (by
    push_cast
    rw [← hq, abs_of_pos hqpos]
    exact le_trans hq31 (by norm_num))
  rw [← hs] at e1
  push_cast at e1
  rw [← hq, abs_of_pos hqpos, abs_le] at e1
  have hrq2 : (r : ℚ) * q ≤ 2 ^ 31 := by nlinarith
  have hspos : 0 ≤ s := by
    have : q / 2 ^ 53 ≤ q := div_le_self hqpos.le (by norm_num)
    linarith [e1.1]
  have hs2 : 1 / 2 ≤ s := by
    have : q / 2 ^ 53 ≤ q / 2 := by
      apply div_le_div_of_nonneg_left hqpos.le <;> norm_num
    linarith [e1.1]
  have hsq : s ≤ 2 * q := by
    have : q / 2 ^ 53 ≤ q := div_le_self hqpos.le (by norm_num)
    linarith [e1.2]
  have hrs0 : 0 ≤ (r : ℚ) * s := mul_nonneg hr0 hspos
  have e2 := hfl.rel (((r : ℤ) : ℚ) * s) (by
    push_cast
    rcases Nat.eq_zero_or_pos r with h0 | h0
    · left; rw [h0]; simp
    · right
      have h1 : (1 : ℚ) ≤ r := by exact_mod_cast h0
      rw [abs_of_nonneg hrs0]
      have h2 : s ≤ r * s := le_mul_of_one_le_left hspos h1
      exact le_trans (by norm_num) (le_trans hs2 h2)) (by
    push_cast
    rw [abs_of_nonneg hrs0]
    have h2 : (r : ℚ) * s ≤ r * (2 * q) := mul_le_mul_of_nonneg_left hsq hr0
    have h3 : (r : ℚ) * (2 * q) ≤ 2 ^ 32 := by linarith
    exact le_trans h2 (le_trans h3 (by norm_num)))
  rw [← hy] at e2
  push_cast at e2
  rw [abs_of_nonneg (mul_nonneg hr0 hspos), abs_le] at e2
  -- |y - r q| is tiny
  have b1 : (r : ℚ) * s ≤ (r : ℚ) * q + 2 ^ 31 / 2 ^ 53 := by
    have : (r : ℚ) * s ≤ (r : ℚ) * (q + q / 2 ^ 53) := mul_le_mul_of_nonneg_left (by linarith [e1.2]) hr0
    have h3 : (r : ℚ) * (q + q / 2 ^ 53) = r * q + (r * q) / 2 ^ 53 := by ring
    have h4 : (r * q) / 2 ^ 53 ≤ 2 ^ 31 / 2 ^ 53 := by gcongr
    linarith
  have b2 : (r : ℚ) * q - 2 ^ 31 / 2 ^ 53 ≤ (r : ℚ) * s := by
    have : (r : ℚ) * (q - q / 2 ^ 53) ≤ (r : ℚ) * s := mul_le_mul_of_nonneg_left (by linarith [e1.1]) hr0
    have h3 : (r : ℚ) * (q - q / 2 ^ 53) = r * q - (r * q) / 2 ^ 53 := by ring
    have h4 : (r * q) / 2 ^ 53 ≤ 2 ^ 31 / 2 ^ 53 := by gcongr
    linarith
  have b3 : (r : ℚ) * s / 2 ^ 53 ≤ 2 ^ 32 / 2 ^ 53 := by
    have : (r : ℚ) * s ≤ 2 ^ 32 := by norm_num at b1 hrq2 ⊢; linarith
    gcongr
  have y1 : y < (r : ℚ) * q + 1 / 4 := by norm_num at b1 b3 e2 ⊢; linarith [e2.2]
  have y2 : (r : ℚ) * q - 1 / 4 < y := by norm_num at b2 b3 e2 ⊢; linarith [e2.1]
  have y0 : 0 ≤ y := by
    have h5 : (r : ℚ) * s / 2 ^ 53 ≤ (r : ℚ) * s := div_le_self (mul_nonneg hr0 hspos) (by norm_num)
    linarith [e2.1]
  refine ⟨truncQ y, ?_, ?_, ?_⟩
  · rw [f64ToTorus_of_abs_lt_one]
    · rw [div_mul_cancel₀ _ (by norm_num)]
    · rw [abs_of_nonneg (by positivity), div_lt_one (by norm_num)]
      norm_num at hrq2 ⊢
      linarith
  · have hfl2 : ((2 ^ 31 / m : ℕ) : ℚ) ≤ q := by
      rw [hq]
      have := Nat.cast_div_le (α := ℚ) (m := 2 ^ 31) (n := m)
      push_cast at this ⊢
      exact this
    unfold truncQ
    rw [if_pos y0]
    generalize 2 ^ 31 / m = S at *
    have h6 : (r : ℚ) * (S : ℚ) ≤ r * q := mul_le_mul_of_nonneg_left hfl2 hr0
    rw [Int.le_floor]
    push_cast
    linarith
  · have hfl2 : q < ((2 ^ 31 / m : ℕ) : ℚ) + 1 := by
      rw [hq, div_lt_iff₀ hmq]
      have := Nat.lt_div_mul_add (a := 2 ^ 31) (b := m) (by omega)
      have h8 : 2 ^ 31 < (2 ^ 31 / m + 1) * m := by rw [add_mul, one_mul]; exact this
      exact_mod_cast h8
    have h7 := truncQ_le_of_nonneg y0
    generalize 2 ^ 31 / m = S at *
    have h6 : (r : ℚ) * q ≤ r * ((S : ℚ) + 1) := mul_le_mul_of_nonneg_left hfl2.le hr0
    have h9 : (truncQ y : ℚ) < ((r : ℤ) * S + m + 1 : ℤ) := by
      push_cast
      linarith
    exact_mod_cast h9

/-- C10: any modulus. Decryption returns `message mod m` whenever `|e| + m + 1` is at most
half a slot, whatever the rounding mode of the encoder. -/
theorem C10_general_roundtrip (fl : ℚ → ℚ) (hfl : IsRound fl) (P : Params) (t key : List Torus)
    (msg : ℤ) (m : ℕ) (hm : 1 ≤ m) (draw : ℕ → Torus) (sample : ℚ)
    (hk : P.tlweLv0.N ≤ key.length) (ht : P.tlweLv0.N < t.length)
    (hnoise : nrm (f64ToTorus sample) + m + 1 ≤ 2 ^ 31 / m / 2) :
    (encryptLWEMessage fl P t msg m key draw sample).bind
      (fun c => decryptLWEMessage P c m key) = some (msg % m) := by
  have hm2 : m ≤ 2 ^ 31 := by
    by_contra h
    have : 2 ^ 31 / m = 0 := Nat.div_eq_of_lt (by omega)
    omega
  obtain ⟨c, hc, hl, -, hp⟩ := encryptLWEMessage_eq fl P t key msg m hm draw sample hk ht
  rw [hc]
  change decryptLWEMessage P c m key = _
  rw [decryptLWEMessage_eq P c key m hm hm2 hk (by omega), hp]
  have hr0 := Int.emod_nonneg msg (show (m : ℤ) ≠ 0 by omega)
  have hr1 := Int.emod_lt_of_pos msg (show (0 : ℤ) < m by omega)
  obtain ⟨r, hr⟩ := Int.eq_ofNat_of_zero_le hr0
  rw [hr] at hr1 ⊢
  have hrm : r < m := by exact_mod_cast hr1
  obtain ⟨x, hx, hx1, hx2⟩ := enc_general fl hfl m hm hm2 r hrm
  have hx' : f64ToTorus (fl ((((r : ℕ) : ℤ) : ℚ) * fl ((2 ^ 31 : ℚ) / ((m : ℤ) : ℚ))) / 2 ^ 32)
      = BitVec.ofInt 32 x := hx
  rw [hx']
  set e := f64ToTorus sample with he
  conv_lhs => rw [← ofInt_toInt32 e, ← ofInt_add32,
    show x + e.toInt = (r : ℤ) * (2 ^ 31 / m : ℕ) + (x - (r : ℤ) * (2 ^ 31 / m : ℕ) + e.toInt) by ring]
  unfold nrm at hnoise
  rw [decodeMsg_near m hm hm2 r hrm _ (by omega) (by omega)]

/-- Non-vacuity for C10: modulus 10 with noise `2^-10`. -/
example : (encryptLWEMessage rne (paramsFor 3) (newTLWELv0 (paramsFor 3)) 7 (10 : ℕ)
    (tab 820 fun i => if i % 2 = 0 then 1 else 0) (fun i => BitVec.ofNat 32 (i * 40503)) (1 / 1024)).bind
    (fun c => decryptLWEMessage (paramsFor 3) c (10 : ℕ) (tab 820 fun i => if i % 2 = 0 then 1 else 0))
    = some 7 := by
  have hz : nrm (f64ToTorus (1 / 1024)) = 4194304 := by
    unfold nrm
    rw [toInt_f64ToTorus_of_lt_half _ (by rw [abs_of_pos] <;> norm_num)]
    norm_num [truncQ]
  exact C10_general_roundtrip rne isRound_rne _ _ _ 7 10 (by norm_num) _ _ (by simp; rfl)
    (by simp [newTLWELv0]) (by rw [hz]; norm_num)

/-- C11: with well-sized arguments, decryption panics exactly when the modulus, reduced to 32 bits,
is `0` or above `2^31`. -/
theorem C11_panics_iff (P : Params) (t key : List Torus) (m : ℤ)
    (hk : P.tlweLv0.N ≤ key.length) (ht : P.tlweLv0.N < t.length) :
    decryptLWEMessage P t m key = none ↔ m % 2 ^ 32 = 0 ∨ 2 ^ 31 < m % 2 ^ 32 := by
  have hmT : ((BitVec.ofInt 32 m).toNat : ℤ) = m % 2 ^ 32 := by
    rw [BitVec.toNat_ofInt]; norm_num; omega
  have hz : ∀ x : Torus, x = 0 ↔ x.toNat = 0 := by
    intro x
    rw [← BitVec.toNat_inj]; rfl
  set b := BitVec.ofInt 32 m with hb
  unfold decryptLWEMessage
  rw [← hb]
  by_cases h0 : b = 0
  · have : m % 2 ^ 32 = 0 := by rw [← hmT, (hz b).1 h0]; rfl
    unfold udiv32
    rw [if_pos h0]
    exact ⟨fun _ => Or.inl this, fun _ => rfl⟩
  · have hb0 : b.toNat ≠ 0 := fun h => h0 ((hz b).2 h)
    have hm0 : m ≠ 0 := by
      rintro rfl
      apply hb0
      have : ((b.toNat : ℕ) : ℤ) = 0 := by rw [hmT]; norm_num
      exact_mod_cast this
    set sc : Torus := BitVec.ofNat 32 (2 ^ 31) / b with hsc
    have hscN : sc.toNat = 2 ^ 31 / b.toNat := by rw [hsc, BitVec.toNat_udiv]; rfl
    simp only [udiv32_some _ _ h0, ← hsc, decInner_eq _ t key hk ht.le, rd_at' t _ ht,
      udiv32_some sc 2 (by decide), Option.bind_eq_bind, Option.bind_some]
    by_cases hs0 : sc = 0
    · have h1 : 2 ^ 31 < b.toNat := by
        have h2 := (hz sc).1 hs0
        rw [hscN, Nat.div_eq_zero_iff] at h2
        omega
      have h2 : (2 : ℤ) ^ 31 < m % 2 ^ 32 := by rw [← hmT]; exact_mod_cast h1
      unfold udiv32
      rw [if_pos hs0]
      exact ⟨fun _ => Or.inr h2, fun _ => rfl⟩
    · rw [udiv32_some _ _ hs0]
      simp only [Option.bind_some, goMod, if_neg hm0]
      refine ⟨fun h => (by cases h), fun h => ?_⟩
      exfalso
      rcases h with h | h
      · rw [← hmT] at h; exact hb0 (by exact_mod_cast h)
      · rw [← hmT] at h
        have h1 : 2 ^ 31 < b.toNat := by exact_mod_cast h
        apply hs0
        rw [hz, hscN]
        exact Nat.div_eq_of_lt h1

/-- C11: for a positive modulus the value returned, if any, is in `[0, m)`. -/
theorem C11_range (P : Params) (t key : List Torus) (m : ℤ) (hm : 0 < m) (v : ℤ)
    (h : decryptLWEMessage P t m key = some v) : 0 ≤ v ∧ v < m := by
  unfold decryptLWEMessage at h
  simp only [Option.bind_eq_bind, Option.bind_eq_some_iff] at h
  obtain ⟨sc, -, ip, -, b, -, hf, -, q, -, r, hr, hv⟩ := h
  have g := goMod_fix (q.toNat : ℤ) m hm
  rw [hr] at g
  simp only [Option.map_some, Option.some.injEq] at g
  simp only [Option.pure_def, Option.some.injEq] at hv
  rw [← hv, g]
  exact ⟨Int.emod_nonneg _ (by omega), Int.emod_lt_of_pos _ hm⟩

example : decryptLWEMessage (paramsFor 80) (newTLWELv0 (paramsFor 80)) (-1) (tab 550 fun _ => 1) = none :=
  (C11_panics_iff _ _ _ _ (by simp; rfl) (by simp [newTLWELv0])).2 (Or.inr (by norm_num))

end GoTfhe
