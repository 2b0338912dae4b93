import Verif.Lemmas.Tlwe
import Verif.Lemmas.Float
import Verif.Model.LweMessage
import Mathlib.Tactic.NormNum.Ineq
import Mathlib.Tactic.Zify

/-! # Closed forms for the integer message encoding -/

namespace GoTfhe

/-- The decoding step: nearest multiple of the slot width, modulo `m`. -/
def decodeMsg (m : ℕ) (ph : Torus) : ℕ :=
  ((ph.toNat + 2 ^ 31 / m / 2) % 2 ^ 32 / (2 ^ 31 / m)) % m

theorem goMod_fix (a m : ℤ) (hm : 0 < m) :
    (goMod a m).map (fun r => if r < 0 then r + m else r) = some (a % m) := by
  unfold goMod
  rw [if_neg (by omega)]
  simp only [Option.map_some, Option.some.injEq]
  have h1 := Int.tmod_def a m
  rcases le_or_gt 0 a with h | h
  · have : Int.tmod a m = a % m := Int.tmod_eq_emod_of_nonneg h
    rw [this, if_neg (by have := Int.emod_nonneg a hm.ne'; omega)]
  · have e : Int.tmod a m = -((-a) % m) := by
      have h' : Int.tmod (-(-a)) m = -Int.tmod (-a) m := Int.neg_tmod _ _
      rw [neg_neg] at h'
      rw [h', Int.tmod_eq_emod_of_nonneg (by omega)]
    rw [e]
    by_cases hz : (-a) % m = 0
    · rw [hz]
      have : m ∣ a := by
        have := Int.dvd_of_emod_eq_zero hz
        exact (Int.dvd_neg).1 this
      rw [Int.emod_eq_zero_of_dvd this]; simp
    · have hp : 0 < (-a) % m := lt_of_le_of_ne (Int.emod_nonneg _ hm.ne') (Ne.symm hz)
      rw [if_pos (by omega)]
      have hl := Int.emod_lt_of_pos (-a) hm
      have : (a : ℤ) = -((-a) % m) + m + m * (-((-a) / m) - 1) := by
        have := Int.emod_add_mul_ediv (-a) m
        linarith
      generalize (-a) % m = c at *
      generalize (-a) / m = q at *
      rw [this, Int.add_mul_emod_self_left, Int.emod_eq_of_lt (by omega) (by omega)]

theorem udiv32_some (a b : Torus) (h : b ≠ 0) : udiv32 a b = some (a / b) := by
  unfold udiv32; rw [if_neg h]

theorem toNat_ofInt_small (m : ℤ) (h1 : 0 ≤ m) (h2 : m < 4294967296) :
    (BitVec.ofInt 32 m).toNat = m.toNat := by
  rw [BitVec.toNat_ofInt]
  norm_num
  rw [Int.emod_eq_of_lt h1 h2]

theorem decryptLWEMessage_eq (P : Params) (t key : List Torus) (m : ℕ)
    (h1 : 1 ≤ m) (h2 : m ≤ 2 ^ 31)
    (hk : P.tlweLv0.N ≤ key.length) (ht : P.tlweLv0.N < t.length) :
    decryptLWEMessage P t m key = some (decodeMsg m (phase P.tlweLv0.N t key) : ℤ) := by
  have hmT : (BitVec.ofInt 32 (m : ℤ)).toNat = m := by
    rw [toNat_ofInt_small _ (by omega) (by omega)]; simp
  have hm0 : BitVec.ofInt 32 (m : ℤ) ≠ 0 := by
    intro h
    have := congrArg BitVec.toNat h
    rw [hmT] at this
    change m = 0 at this
    omega
  set sc : Torus := BitVec.ofNat 32 (2 ^ 31) / BitVec.ofInt 32 (m : ℤ) with hsc
  have hscN : sc.toNat = 2 ^ 31 / m := by
    rw [hsc, BitVec.toNat_udiv, hmT]; rfl
  have hpos : 0 < 2 ^ 31 / m := Nat.div_pos h2 (by omega)
  have hsc0 : sc ≠ 0 := by
    intro h
    have := congrArg BitVec.toNat h
    rw [hscN] at this
    change 2 ^ 31 / m = 0 at this
    omega
  unfold decryptLWEMessage
  simp only [udiv32_some _ _ hm0, ← hsc, decInner_eq _ t key hk ht.le, rd_at' t _ ht,
    udiv32_some _ _ hsc0, udiv32_some sc 2 (by decide), Option.bind_eq_bind, Option.bind_some]
  have key2 : ((phase P.tlweLv0.N t key + sc / 2) / sc).toNat
      = (((phase P.tlweLv0.N t key).toNat + 2 ^ 31 / m / 2) % 2 ^ 32) / (2 ^ 31 / m) := by
    rw [BitVec.toNat_udiv, BitVec.toNat_add, BitVec.toNat_udiv, hscN]; rfl
  have g := goMod_fix (((phase P.tlweLv0.N t key + sc / 2) / sc).toNat : ℤ) m (by omega)
  change (goMod (((phase P.tlweLv0.N t key + sc / 2) / sc).toNat : ℤ) m).bind
    (fun r => some (if r < 0 then r + m else r)) = _
  have hb : ∀ o : Option ℤ, o.bind (fun r => some (if r < 0 then r + (m : ℤ) else r))
      = o.map (fun r => if r < 0 then r + (m : ℤ) else r) := by
    intro o; cases o <;> rfl
  rw [hb, g, key2, decodeMsg]
  push_cast
  rfl

theorem encryptLWEMessage_eq (fl : ℚ → ℚ) (P : Params) (t key : List Torus) (msg : ℤ) (m : ℕ)
    (hm : 1 ≤ m) (draw : ℕ → Torus) (sample : ℚ)
    (hk : P.tlweLv0.N ≤ key.length) (ht : P.tlweLv0.N < t.length) :
    ∃ c, encryptLWEMessage fl P t msg m key draw sample = some c ∧ c.length = t.length ∧
      (∀ i < P.tlweLv0.N, at' c i = draw i) ∧
      phase P.tlweLv0.N c key =
        f64ToTorus (fl (((msg % m : ℤ) : ℚ) * fl ((2 ^ 31 : ℚ) / ((m : ℤ) : ℚ))) / 2 ^ 32)
          + f64ToTorus sample := by
  obtain ⟨c, hc⟩ := tlwe0EncryptF64_eq P t key
    (fl (((msg % m : ℤ) : ℚ) * fl ((2 ^ 31 : ℚ) / ((m : ℤ) : ℚ))) / 2 ^ 32) draw sample hk ht
  refine ⟨c, ?_, hc.2⟩
  rw [← hc.1]
  unfold encryptLWEMessage
  have g := goMod_fix msg m (by omega)
  cases hg : goMod msg m with
  | none => rw [hg] at g; cases g
  | some r =>
    rw [hg] at g
    simp only [Option.map_some, Option.some.injEq] at g
    simp only [hg] at *
    change tlwe0EncryptF64 P t (fl (((if r < 0 then r + (m : ℤ) else r : ℤ) : ℚ) * _) / 2 ^ 32) key draw sample = _
    rw [g]

/-- Nearest-slot decoding of a phase that is `r` slots plus a small offset. -/
theorem decodeMsg_near (m : ℕ) (h1 : 1 ≤ m) (h2 : m ≤ 2 ^ 31) (r : ℕ) (hr : r < m) (d : ℤ)
    (hd1 : -((2 ^ 31 / m / 2 : ℕ) : ℤ) ≤ d)
    (hd2 : d < (2 ^ 31 / m : ℕ) - ((2 ^ 31 / m / 2 : ℕ) : ℤ)) :
    decodeMsg m (BitVec.ofInt 32 ((r : ℤ) * (2 ^ 31 / m : ℕ) + d)) = r := by
  unfold decodeMsg
  set S := 2 ^ 31 / m with hS
  have hSpos : 0 < S := Nat.div_pos h2 (by omega)
  have hSm : S * m ≤ 2 ^ 31 := Nat.div_mul_le_self _ _
  have hrS : (r + 1) * S ≤ 2 ^ 31 := le_trans (by nlinarith) hSm
  set x : ℤ := (r : ℤ) * S + d with hx
  have hrS' : (((r : ℤ) + 1) * S) ≤ 2 ^ 31 := by exact_mod_cast hrS
  set hlf := S / 2 with hh
  have hrS0 : (0 : ℤ) ≤ (r : ℤ) * S := by positivity
  have hexp : ((r : ℤ) + 1) * S = (r : ℤ) * S + S := by ring
  have key : (((BitVec.ofInt 32 x).toNat + hlf) % 2 ^ 32 : ℕ) = (x + hlf).toNat := by
    have e : ((BitVec.ofInt 32 x).toNat : ℤ) = x % 4294967296 := by
      rw [BitVec.toNat_ofInt]; norm_num; omega
    zify
    rw [Int.toNat_of_nonneg (by omega), e]
    norm_num
    rw [Int.emod_eq_of_lt (by omega) (by omega)]
  rw [key]
  have hq : (x + hlf).toNat / S = r := by
    rw [Nat.div_eq_iff hSpos]
    constructor
    · zify; rw [Int.toNat_of_nonneg (by omega)]; rw [hx]; omega
    · zify [show 1 ≤ S by omega]
      rw [Int.toNat_of_nonneg (by omega)]; rw [hx]; omega
  rw [hq, Nat.mod_eq_of_lt hr]

end GoTfhe
