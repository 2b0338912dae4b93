import Verif.Model.Linear
import Verif.Props.Tlwe
import Verif.Props.LweMessage
import Verif.Props.PbsOverflow

/-!
# C96: linear programs on encrypted messages
-/

namespace GoTfhe

/-- `w` holds `z` steps of size `S`, up to `b`. -/
def Holds (P : Params) (s0 : List Torus) (S : ℤ) (w : List Torus) (z : ℤ) (b : ℕ) : Prop :=
  w.length = P.tlweLv0.N + 1 ∧ ∃ d : ℤ, |d| ≤ b ∧ phase P.tlweLv0.N w s0 = BitVec.ofInt 32 (z * S + d)

/-- All wires hold their values. -/
def AllHold (P : Params) (s0 : List Torus) (S : ℤ) (ws : List (List Torus)) (zs : List ℤ) (bs : List ℕ) : Prop :=
  ws.length = zs.length ∧ bs.length = zs.length ∧
    ∀ (i : ℕ) (z : ℤ), zs[i]? = some z → ∃ w b, ws[i]? = some w ∧ bs[i]? = some b ∧ Holds P s0 S w z b

theorem AllHold.snoc {P : Params} {s0 : List Torus} {S : ℤ} {ws : List (List Torus)} {zs : List ℤ} {bs : List ℕ}
    (h : AllHold P s0 S ws zs bs) {w : List Torus} {z : ℤ} {b : ℕ} (hw : Holds P s0 S w z b) :
    AllHold P s0 S (ws ++ [w]) (zs ++ [z]) (bs ++ [b]) := by
  obtain ⟨h1, h2, h3⟩ := h
  refine ⟨by simp [h1], by simp [h2], fun i x hx => ?_⟩
  rcases lt_trichotomy i zs.length with hi | hi | hi
  · rw [List.getElem?_append_left hi] at hx
    rw [List.getElem?_append_left (by omega), List.getElem?_append_left (by omega)]
    exact h3 i x hx
  · subst hi
    rw [List.getElem?_concat_length] at hx
    obtain rfl := Option.some.inj hx
    exact ⟨w, b, by rw [← h1, List.getElem?_concat_length], by rw [← h2, List.getElem?_concat_length], hw⟩
  · rw [List.getElem?_eq_none (by simp; omega)] at hx
    cases hx

theorem LinInstr.step {P : Params} {s0 : List Torus} {S : ℤ} {ws : List (List Torus)} {zs : List ℤ} {bs : List ℕ}
    (h : AllHold P s0 S ws zs bs) (p : LinInstr) (z : ℤ) (hz : p.val zs = some z) :
    ∃ w b, p.run P ws = some w ∧ p.bound bs = some b ∧ Holds P s0 S w z b := by
  have key : ∀ (i : ℕ) (x : ℤ), zs[i]? = some x → ∃ w b, ws[i]? = some w ∧ bs[i]? = some b ∧ Holds P s0 S w x b := h.2.2
  have mul : ∀ (c : Torus) (y : ℤ), c * BitVec.ofInt 32 y = BitVec.ofInt 32 (c.toInt * y) := by
    intro c y
    rw [BitVec.ofInt_mul, ofInt_toInt32]
  cases p with
  | neg i =>
    simp only [LinInstr.val, Option.bind_eq_bind, Option.pure_def] at hz
    obtain ⟨x, hx, rfl⟩ : ∃ x, zs[i]? = some x ∧ -x = z := by
      simpa [Option.bind_eq_some_iff] using hz
    obtain ⟨w, b, hw, hb, l, d, hd, hp⟩ := key i x hx
    obtain ⟨-, -, ⟨c, e1, e2, e3⟩, -⟩ := C07_linear P w w 0 l l
    refine ⟨c, b, by simp [LinInstr.run, hw, e1], by simp [LinInstr.bound, hb], e2, -d, by rwa [abs_neg], ?_⟩
    rw [e3, hp, ← ofInt_neg32]
    congr 1; ring
  | add i j =>
    obtain ⟨x, y, hx, hy, rfl⟩ : ∃ x y, zs[i]? = some x ∧ zs[j]? = some y ∧ x + y = z := by
      simpa [LinInstr.val, Option.bind_eq_some_iff] using hz
    obtain ⟨w, b, hw, hb, l, d, hd, hp⟩ := key i x hx
    obtain ⟨w', b', hw', hb', l', d', hd', hp'⟩ := key j y hy
    obtain ⟨⟨c, e1, e2, e3⟩, -⟩ := C07_linear P w w' 0 l l'
    refine ⟨c, b + b', by simp [LinInstr.run, hw, hw', e1], by simp [LinInstr.bound, hb, hb'], e2, d + d', ?_, ?_⟩
    · have := abs_add_le d d'; push_cast; omega
    · rw [e3, hp, hp', ← ofInt_add32]
      congr 1; ring
  | sub i j =>
    obtain ⟨x, y, hx, hy, rfl⟩ : ∃ x y, zs[i]? = some x ∧ zs[j]? = some y ∧ x - y = z := by
      simpa [LinInstr.val, Option.bind_eq_some_iff] using hz
    obtain ⟨w, b, hw, hb, l, d, hd, hp⟩ := key i x hx
    obtain ⟨w', b', hw', hb', l', d', hd', hp'⟩ := key j y hy
    obtain ⟨-, ⟨c, e1, e2, e3⟩, -⟩ := C07_linear P w w' 0 l l'
    refine ⟨c, b + b', by simp [LinInstr.run, hw, hw', e1], by simp [LinInstr.bound, hb, hb'], e2, d - d', ?_, ?_⟩
    · have := abs_sub d d'; push_cast; omega
    · rw [e3, hp, hp', sub_eq_add_neg, ← ofInt_neg32, ← ofInt_add32]
      congr 1; ring
  | addMul i j m =>
    obtain ⟨x, y, hx, hy, rfl⟩ : ∃ x y, zs[i]? = some x ∧ zs[j]? = some y ∧ x + m.toInt * y = z := by
      simpa [LinInstr.val, Option.bind_eq_some_iff] using hz
    obtain ⟨w, b, hw, hb, l, d, hd, hp⟩ := key i x hx
    obtain ⟨w', b', hw', hb', l', d', hd', hp'⟩ := key j y hy
    obtain ⟨-, -, -, ⟨c, e1, e2, e3⟩, -⟩ := C07_linear P w w' m l l'
    refine ⟨c, b + m.toInt.natAbs * b', by simp [LinInstr.run, hw, hw', e1], by simp [LinInstr.bound, hb, hb'], e2,
      d + m.toInt * d', ?_, ?_⟩
    · have h1 := abs_add_le d (m.toInt * d')
      rw [abs_mul] at h1
      have h2 := mul_le_mul_of_nonneg_left hd' (abs_nonneg m.toInt)
      push_cast
      rw [Int.abs_eq_natAbs] at *
      push_cast at *
      linarith
    · rw [e3, hp, hp', mul, ← ofInt_add32]
      congr 1; ring
  | subMul i j m =>
    obtain ⟨x, y, hx, hy, rfl⟩ : ∃ x y, zs[i]? = some x ∧ zs[j]? = some y ∧ x - m.toInt * y = z := by
      simpa [LinInstr.val, Option.bind_eq_some_iff] using hz
    obtain ⟨w, b, hw, hb, l, d, hd, hp⟩ := key i x hx
    obtain ⟨w', b', hw', hb', l', d', hd', hp'⟩ := key j y hy
    obtain ⟨-, -, -, -, ⟨c, e1, e2, e3⟩⟩ := C07_linear P w w' m l l'
    refine ⟨c, b + m.toInt.natAbs * b', by simp [LinInstr.run, hw, hw', e1], by simp [LinInstr.bound, hb, hb'], e2,
      d - m.toInt * d', ?_, ?_⟩
    · have h1 := abs_sub d (m.toInt * d')
      rw [abs_mul] at h1
      have h2 := mul_le_mul_of_nonneg_left hd' (abs_nonneg m.toInt)
      push_cast
      rw [Int.abs_eq_natAbs] at *
      push_cast at *
      linarith
    · rw [e3, hp, hp', mul, sub_eq_add_neg, ← ofInt_neg32, ← ofInt_add32]
      congr 1; ring

/-- A program keeps every wire at its integer value, up to the bound. -/
theorem runLin_hold {P : Params} {s0 : List Torus} {S : ℤ} (ps : List LinInstr) :
    ∀ {ws : List (List Torus)} {zs : List ℤ} {bs : List ℕ} (_ : AllHold P s0 S ws zs bs) (zs' : List ℤ)
      (_ : runLin LinInstr.val ps zs = some zs'),
    ∃ ws' bs', runLin (LinInstr.run P) ps ws = some ws' ∧ runLin LinInstr.bound ps bs = some bs' ∧
      AllHold P s0 S ws' zs' bs' := by
  induction ps with
  | nil =>
    intro ws zs bs h zs' hz
    obtain rfl := Option.some.inj hz
    exact ⟨ws, bs, rfl, rfl, h⟩
  | cons p ps ih =>
    intro ws zs bs h zs' hz
    simp only [runLin, Option.bind_eq_bind] at hz
    obtain ⟨z, hz1, hz2⟩ := Option.bind_eq_some_iff.1 hz
    obtain ⟨w, b, e1, e2, e3⟩ := LinInstr.step h p z hz1
    obtain ⟨ws', bs', f1, f2, f3⟩ := ih (h.snoc e3) zs' hz2
    exact ⟨ws', bs', by simp [runLin, e1, f1], by simp [runLin, e2, f2], f3⟩

/-- Nearest-step decoding of any integer number of steps. Every turn around the torus costs the `2^32 - 2 m S` words
that `2 m` steps leave free. -/
theorem decodeMsg_any (m : ℕ) (h1 : 1 ≤ m) (h2 : m ≤ 2 ^ 31) (z d : ℤ)
    (hd1 : -((2 ^ 31 / m / 2 : ℕ) : ℤ) ≤ d - z / (2 * m) * (2 ^ 32 - 2 * m * (2 ^ 31 / m : ℕ)))
    (hd2 : d - z / (2 * m) * (2 ^ 32 - 2 * m * (2 ^ 31 / m : ℕ)) < (2 ^ 31 / m : ℕ) - ((2 ^ 31 / m / 2 : ℕ) : ℤ)) :
    (decodeMsg m (BitVec.ofInt 32 (z * (2 ^ 31 / m : ℕ) + d)) : ℤ) = z % m := by
  unfold decodeMsg
  have hSpos : 0 < 2 ^ 31 / m := Nat.div_pos h2 (by omega)
  have hSm : 2 ^ 31 / m * m ≤ 2 ^ 31 := Nat.div_mul_le_self _ _
  set S := 2 ^ 31 / m with hS
  set t := z / (2 * (m : ℤ)) with ht
  set r := z % (2 * (m : ℤ)) with hr
  have hz : r + 2 * m * t = z := Int.emod_add_mul_ediv z _
  have hr0 : 0 ≤ r := Int.emod_nonneg _ (by omega)
  have hr1 : r < 2 * m := Int.emod_lt_of_pos _ (by omega)
  set d' := d - t * (2 ^ 32 - 2 * m * (S : ℤ)) with hd'
  set hlf := S / 2 with hh
  have hrS : (0 : ℤ) ≤ r * S := mul_nonneg hr0 (by omega)
  have hrS' : (r + 1) * S ≤ 2 ^ 32 := by
    have h3 : (r + 1) * (S : ℤ) ≤ (2 * m) * S := mul_le_mul_of_nonneg_right (by omega) (by omega)
    have h4 : (S : ℤ) * m ≤ 2 ^ 31 := by exact_mod_cast hSm
    nlinarith
  have e : ((BitVec.ofInt 32 (z * S + d)).toNat : ℤ) = (z * S + d) % 4294967296 := by
    rw [BitVec.toNat_ofInt]; norm_num; omega
  have e2 : (z * S + d + hlf) % 4294967296 = r * S + d' + hlf := by
    have : z * S + d + hlf = (r * S + d' + hlf) + 4294967296 * t := by
      rw [hd', ← hz]; ring
    rw [this, Int.add_mul_emod_self_left]
    apply Int.emod_eq_of_lt
    · omega
    · have : (r + 1) * (S : ℤ) = r * S + S := by ring
      norm_num at hrS'
      omega
  push_cast
  rw [e]
  rw [Int.emod_add_emod, e2]
  have e3 : (r * S + d' + hlf) / (S : ℤ) = r := by
    rw [add_assoc, add_comm, Int.add_mul_ediv_right _ _ (by omega), Int.ediv_eq_zero_of_lt (by omega) (by omega), zero_add]
  rw [e3, hr, Int.emod_emod_of_dvd _ (Dvd.intro_left _ rfl)]

/-- **C96.** Any program of `Add`, `Sub`, `Neg`, `AddMul` and `SubMul` on ciphertexts that hold integers up to a known
offset: it succeeds, and a result decrypts to its integer value modulo `m`, although the sum may have gone round the torus
any number of times, as long as its offset is below half a step. A turn round the torus costs `2^32 - 2 m ⌊2^31 / m⌋`. -/
theorem C96_program (P : Params) (s0 : List Torus) (hs0 : P.tlweLv0.N ≤ s0.length) (m : ℕ) (h1 : 1 ≤ m) (h2 : m ≤ 2 ^ 31)
    (ps : List LinInstr) (ws : List (List Torus)) (zs : List ℤ) (bs : List ℕ)
    (h : AllHold P s0 (2 ^ 31 / m : ℕ) ws zs bs) (zs' : List ℤ) (hz : runLin LinInstr.val ps zs = some zs') :
    ∃ ws' bs', runLin (LinInstr.run P) ps ws = some ws' ∧ runLin LinInstr.bound ps bs = some bs' ∧
      ws'.length = zs'.length ∧
      ∀ (i : ℕ) (w : List Torus) (z : ℤ) (b : ℕ), ws'[i]? = some w → zs'[i]? = some z → bs'[i]? = some b →
        b + (z / (2 * m)).natAbs * (2 ^ 32 - 2 * m * (2 ^ 31 / m)) < 2 ^ 31 / m / 2 →
        decryptLWEMessage P w m s0 = some (z % m) := by
  obtain ⟨ws', bs', e1, e2, e3⟩ := runLin_hold ps h zs' hz
  refine ⟨ws', bs', e1, e2, e3.1, fun i w z b hw hz hb hlt => ?_⟩
  obtain ⟨w', b', hw', hb', l, d, hd, hp⟩ := e3.2.2 i z hz
  obtain rfl := Option.some.inj (hw.symm.trans hw')
  obtain rfl := Option.some.inj (hb.symm.trans hb')
  rw [decryptLWEMessage_eq P w s0 m h1 h2 hs0 (by omega), hp]
  congr 1
  have hSm : 2 ^ 31 / m * m ≤ 2 ^ 31 := Nat.div_mul_le_self _ _
  set S := 2 ^ 31 / m
  have hle : 2 * m * S ≤ 2 ^ 32 := by nlinarith
  have hc : ((2 ^ 32 - 2 * m * S : ℕ) : ℤ) = 2 ^ 32 - 2 * m * (S : ℤ) := by
    rw [Nat.cast_sub hle]; push_cast; ring
  have hlt' : (b : ℤ) + |z / (2 * m)| * (2 ^ 32 - 2 * m * (S : ℤ)) < (S / 2 : ℕ) := by
    rw [← hc, Int.abs_eq_natAbs]
    exact_mod_cast hlt
  have habs : |d - z / (2 * m) * (2 ^ 32 - 2 * m * (S : ℤ))| ≤ b + |z / (2 * m)| * (2 ^ 32 - 2 * m * (S : ℤ)) := by
    refine (abs_sub _ _).trans ?_
    rw [abs_mul, ← hc, abs_of_nonneg (Int.natCast_nonneg _)]
    linarith
  have h3 := abs_le.1 habs
  have h4 : ((S / 2 : ℕ) : ℤ) * 2 ≤ S := by exact_mod_cast Nat.div_mul_le_self S 2
  refine decodeMsg_any m h1 h2 z d ?_ ?_
  · linarith [h3.1]
  · linarith [h3.2]

/-- Fresh encryptions of messages. -/
def encryptAll (fl : ℚ → ℚ) (P : Params) (m : ℤ) (s0 : List Torus) (xs : List (ℤ × (ℕ → Torus) × ℚ)) :
    Option (List (List Torus)) :=
  xs.mapM fun x => encryptLWEMessage fl P (newTLWELv0 P) x.1 m s0 x.2.1 x.2.2

theorem encryptAll_hold (fl : ℚ → ℚ) (P : Params) (m : ℕ) (s0 : List Torus) (S : ℤ) (bd : ℚ → ℕ)
    (h : ∀ (msg : ℤ) (draw : ℕ → Torus) (sample : ℚ), ∃ c,
      encryptLWEMessage fl P (newTLWELv0 P) msg m s0 draw sample = some c ∧ Holds P s0 S c (msg % m) (bd sample))
    (xs : List (ℤ × (ℕ → Torus) × ℚ)) :
    ∃ ws, encryptAll fl P m s0 xs = some ws ∧
      AllHold P s0 S ws (xs.map fun x => x.1 % m) (xs.map fun x => bd x.2.2) := by
  choose g hg using h
  refine ⟨xs.map fun x => g x.1 x.2.1 x.2.2, ?_, by simp, by simp, ?_⟩
  · unfold encryptAll
    induction xs with
    | nil => rfl
    | cons x xs ih => simp [List.mapM_cons, (hg x.1 x.2.1 x.2.2).1, ih]
  · intro i z hz
    rw [List.getElem?_map] at hz
    obtain ⟨x, hx, rfl⟩ := Option.map_eq_some_iff.1 hz
    exact ⟨_, _, by rw [List.getElem?_map, hx]; rfl, by rw [List.getElem?_map, hx]; rfl, (hg _ _ _).2⟩

/-- **C96**, from encryption to decryption, for every modulus. -/
theorem C96_end_to_end (fl : ℚ → ℚ) (hfl : IsRound fl) (P : Params) (s0 : List Torus) (hs0 : P.tlweLv0.N ≤ s0.length)
    (m : ℕ) (h1 : 1 ≤ m) (h2 : m ≤ 2 ^ 31) (xs : List (ℤ × (ℕ → Torus) × ℚ)) (ps : List LinInstr) (zs' : List ℤ)
    (hz : runLin LinInstr.val ps (xs.map fun x => x.1 % m) = some zs') :
    ∃ ws ws' bs', encryptAll fl P m s0 xs = some ws ∧ runLin (LinInstr.run P) ps ws = some ws' ∧
      runLin LinInstr.bound ps (xs.map fun x => nrm (f64ToTorus x.2.2) + m + 1) = some bs' ∧
      ws'.length = zs'.length ∧
      ∀ (i : ℕ) (w : List Torus) (z : ℤ) (b : ℕ), ws'[i]? = some w → zs'[i]? = some z → bs'[i]? = some b →
        b + (z / (2 * m)).natAbs * (2 ^ 32 - 2 * m * (2 ^ 31 / m)) < 2 ^ 31 / m / 2 →
        decryptLWEMessage P w m s0 = some (z % m) := by
  obtain ⟨ws, ew, hw⟩ := encryptAll_hold fl P m s0 (2 ^ 31 / m : ℕ) (fun q => nrm (f64ToTorus q) + m + 1) (by
    intro msg draw sample
    obtain ⟨r, hr⟩ := Int.eq_ofNat_of_zero_le (Int.emod_nonneg msg (show (m : ℤ) ≠ 0 by omega))
    have hrm : r < m := by
      have := Int.emod_lt_of_pos msg (show (0 : ℤ) < m by omega)
      omega
    obtain ⟨c, ec, lc, -, pc⟩ := encryptLWEMessage_eq fl P (newTLWELv0 P) s0 msg m h1 draw sample hs0
      (by simp [newTLWELv0])
    obtain ⟨x, hx, hx1, hx2⟩ := enc_general fl hfl m h1 h2 r hrm
    refine ⟨c, ec, by rw [lc]; simp [newTLWELv0],
      x - (r : ℤ) * (2 ^ 31 / m : ℕ) + (f64ToTorus sample).toInt, ?_, ?_⟩
    · refine (abs_add_le _ _).trans ?_
      have : |(f64ToTorus sample).toInt| = (nrm (f64ToTorus sample) : ℤ) := by unfold nrm; exact Int.abs_eq_natAbs _
      rw [this]
      have : |x - (r : ℤ) * (2 ^ 31 / m : ℕ)| ≤ m + 1 := abs_le.2 ⟨by omega, by omega⟩
      push_cast at *
      linarith
    · rw [pc, hr]
      conv_lhs => rw [← ofInt_toInt32 (f64ToTorus sample)]
      rw [hx, ← ofInt_add32]
      congr 1
      ring) xs
  obtain ⟨ws', bs', a, b, c, d⟩ := C96_program P s0 hs0 m h1 h2 ps ws _ _ hw zs' hz
  exact ⟨ws, ws', bs', ew, a, b, c, d⟩

/-- **C96**, moduli `2^k`: encoding and turns round the torus cost nothing. -/
theorem C96_pow2 (fl : ℚ → ℚ) (hfl : IsRound fl) (P : Params) (s0 : List Torus) (hs0 : P.tlweLv0.N ≤ s0.length)
    (k : ℕ) (hk : k ≤ 29) (xs : List (ℤ × (ℕ → Torus) × ℚ)) (ps : List LinInstr) (zs' : List ℤ)
    (hz : runLin LinInstr.val ps (xs.map fun x => x.1 % (2 ^ k : ℕ)) = some zs') :
    ∃ ws ws' bs', encryptAll fl P (2 ^ k : ℕ) s0 xs = some ws ∧ runLin (LinInstr.run P) ps ws = some ws' ∧
      runLin LinInstr.bound ps (xs.map fun x => nrm (f64ToTorus x.2.2)) = some bs' ∧ ws'.length = zs'.length ∧
      ∀ (i : ℕ) (w : List Torus) (z : ℤ) (b : ℕ), ws'[i]? = some w → zs'[i]? = some z → bs'[i]? = some b →
        b < 2 ^ (30 - k) → decryptLWEMessage P w (2 ^ k : ℕ) s0 = some (z % (2 ^ k : ℕ)) := by
  have hm2 : 2 ^ k ≤ 2 ^ 31 := Nat.pow_le_pow_right (by norm_num) (by omega)
  obtain ⟨ws, ew, hw⟩ := encryptAll_hold fl P (2 ^ k) s0 (2 ^ 31 / 2 ^ k : ℕ) (fun q => nrm (f64ToTorus q)) (by
    intro msg draw sample
    obtain ⟨c, ec, lc, pc⟩ := encryptLWEMessage_mEnc (P := P) fl hfl k hk msg s0 hs0 draw sample
    refine ⟨c, ec, lc, (f64ToTorus sample).toInt, ?_, ?_⟩
    · unfold nrm
      rw [Int.abs_eq_natAbs]
    · rw [pc, half_step k hk, Int.toNat_of_nonneg (Int.emod_nonneg _ (by positivity))]
      conv_lhs => rw [← ofInt_toInt32 (f64ToTorus sample)]
      rw [← ofInt_add32]) xs
  obtain ⟨ws', bs', a, b, c, d⟩ := C96_program P s0 hs0 (2 ^ k) Nat.one_le_two_pow hm2 ps ws _ _ hw zs' hz
  refine ⟨ws, ws', bs', ew, a, b, c, fun i w z b hw hz hb hlt => d i w z b hw hz hb ?_⟩
  have e1 : 2 ^ 31 / 2 ^ k * 2 ^ k = 2 ^ 31 := Nat.div_mul_cancel (pow_dvd_pow 2 (by omega))
  have e2 : 2 * 2 ^ k * (2 ^ 31 / 2 ^ k) = 2 ^ 32 := by
    rw [mul_assoc, mul_comm (2 ^ k), e1]; norm_num
  rw [e2, Nat.sub_self, mul_zero, add_zero, half_step k hk, Nat.mul_div_cancel_left _ (by norm_num : 0 < 2),
    Nat.pow_div (by omega) (by norm_num)]
  exact hlt

/-- Non-vacuity for C96: at 128 bits, modulo 10 (not a power of two): `7 + 8`, `7 + 8 + 3 * 9`, its negative and
`7 - 5 * 42`, with noise up to `2^18`. The values go round the torus and still decrypt modulo 10. -/
example (s0 : List Torus) (hs0 : 700 ≤ s0.length) (da db dc : ℕ → Torus) (ea eb ec : ℚ)
    (ha : nrm (f64ToTorus ea) ≤ 2 ^ 18) (hb : nrm (f64ToTorus eb) ≤ 2 ^ 18) (hc : nrm (f64ToTorus ec) ≤ 2 ^ 18) :
    ∃ ws ws', encryptAll rne (paramsFor 128) (10 : ℕ) s0 [(7, da, ea), (8, db, eb), (9, dc, ec)] = some ws ∧
      runLin (LinInstr.run (paramsFor 128)) [.add 0 1, .addMul 3 2 3, .neg 4, .subMul 0 4 5] ws = some ws' ∧
      ws'.length = 7 ∧
      (∀ w, ws'[4]? = some w → decryptLWEMessage (paramsFor 128) w (10 : ℕ) s0 = some 2) ∧
      (∀ w, ws'[5]? = some w → decryptLWEMessage (paramsFor 128) w (10 : ℕ) s0 = some 8) ∧
      (∀ w, ws'[6]? = some w → decryptLWEMessage (paramsFor 128) w (10 : ℕ) s0 = some 7) := by
  obtain ⟨ws, ws', bs', e1, e2, e3, e4, h⟩ := C96_end_to_end rne isRound_rne (paramsFor 128) s0 hs0 10 (by norm_num)
    (by norm_num) [(7, da, ea), (8, db, eb), (9, dc, ec)] [.add 0 1, .addMul 3 2 3, .neg 4, .subMul 0 4 5]
    [7, 8, 9, 15, 42, -42, -203] (by simp [runLin, LinInstr.val])
  simp [runLin, LinInstr.bound] at e3
  subst e3
  refine ⟨ws, ws', e1, e2, e4, fun w hw => h 4 w 42 _ hw rfl rfl ?_, fun w hw => h 5 w (-42) _ hw rfl rfl ?_,
    fun w hw => h 6 w (-203) _ hw rfl rfl ?_⟩ <;> norm_num at * <;> omega

end GoTfhe
