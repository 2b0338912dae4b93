import Verif.Spec.PbsOverflow
import Verif.Props.MsgProgram

/-!
# C95: table look-ups on messages outside the range
-/

namespace GoTfhe

variable {O : FourierOps}

/-- Decoding for moduli `2^k`: any integer number of steps is reduced modulo `2^k`. -/
theorem decodeMsg_pow2 (k : ℕ) (hk : k ≤ 29) (z d : ℤ) (h1 : -((2 ^ 30 / 2 ^ k : ℕ) : ℤ) ≤ d)
    (h2 : d < (2 ^ 30 / 2 ^ k : ℕ)) :
    (decodeMsg (2 ^ k) (BitVec.ofInt 32 (z * (2 * (2 ^ 30 / 2 ^ k) : ℕ) + d)) : ℤ) = z % (2 ^ k : ℕ) := by
  have hSm := half_step_mul k hk
  unfold decodeMsg
  rw [half_step k hk, Nat.mul_div_cancel_left _ (by norm_num : 0 < 2)]
  set S := 2 ^ 30 / 2 ^ k
  set M := 2 ^ k
  have hS : 0 < S := by
    rcases Nat.eq_zero_or_pos S with h | h
    · rw [h] at hSm; simp at hSm
    · exact h
  have e : ((BitVec.ofInt 32 (z * (2 * S : ℕ) + d)).toNat : ℤ) = (z * (2 * S : ℕ) + d) % 4294967296 := by
    rw [BitVec.toNat_ofInt]; norm_num; omega
  have hSm' : (4294967296 : ℤ) = (2 * S) * (2 * M) := by
    have : (S : ℤ) * M = 2 ^ 30 := by exact_mod_cast hSm
    linear_combination -4 * this
  push_cast at e ⊢
  rw [e, Int.emod_add_emod, hSm', ← Int.emod_emod_of_dvd z (Dvd.intro_left (2 : ℤ) rfl : (M : ℤ) ∣ 2 * M)]
  congr 1
  have h3 : (z * (2 * S) + d + S) / (2 * S) = z := by
    rw [show z * (2 * (S : ℤ)) + d + S = (d + S) + z * (2 * S) by ring, Int.add_mul_ediv_right _ _ (by omega),
      Int.ediv_eq_zero_of_lt (by omega) (by omega), zero_add]
  conv_rhs => rw [← h3]
  generalize z * (2 * (S : ℤ)) + d + S = a
  rw [Int.emod_def, show (2 * (S : ℤ)) * (2 * M) * (a / (2 * S * (2 * M))) = (2 * M * (a / (2 * S * (2 * M)))) * (2 * S) by ring,
    sub_eq_add_neg, ← neg_mul, Int.add_mul_ediv_right _ _ (by omega), Int.emod_def, Int.ediv_ediv_of_nonneg (by omega)]
  ring

theorem ext_add_mul_N (N : ℕ) (hN : 0 < N) (B : ℕ → Torus) (h : ∀ p, ext N B (p + N) = -ext N B p) (q t : ℤ) :
    ext N B (q + t * N) = if t % 2 = 0 then ext N B q else -ext N B q := by
  rcases Int.emod_two_eq_zero_or_one t with ht | ht
  · rw [if_pos ht]
    apply ext_mod N hN
    obtain ⟨u, rfl⟩ : ∃ u, t = 2 * u := ⟨t / 2, by omega⟩
    exact ⟨u, by ring⟩
  · rw [if_neg (by omega), ← h]
    apply ext_mod N hN
    obtain ⟨u, rfl⟩ : ∃ u, t = 2 * u + 1 := ⟨t / 2, by omega⟩
    exact ⟨u, by ring⟩

/-- The rounded phase of `z` steps plus a small offset lies in the slot of `z mod m`, shifted by `N` per wrap. -/
theorem slot_of_steps {P : Params} (W : WellFormed P) (c s : List Torus) (k : ℕ) (hk : k ≤ 29)
    (hN : 2 * 2 ^ k ∣ P.trgswLv1.N) (z : ℤ) (e : Torus) (d : ℕ) (hnear : Near P c s d)
    (hph : phase P.tlweLv0.N c s = BitVec.ofInt 32 (z * (2 * (2 ^ 30 / 2 ^ k) : ℕ)) + e)
    (he : nrm e + d < 2 ^ 30 / 2 ^ k) :
    ∃ q : ℤ, (2 * P.trgswLv1.N : ℤ) ∣ msPhase P.trgswLv1.N P.tlweLv0.N c s
        - (q + z / (2 ^ k : ℕ) * P.trgswLv1.N) ∧
      InSlot P.trgswLv1.N (2 ^ k) (z % (2 ^ k : ℕ)).toNat q := by
  have hSm := half_step_mul k hk
  obtain ⟨ρ, h1, h2⟩ := hnear
  have hn := W.nbit_le
  set B : ℤ := 2 ^ (31 - P.trgswLv1.NBIT) with hB
  have hBpos : 0 < B := by positivity
  have eN : B * P.trgswLv1.N = 2 ^ 31 := by
    rw [W.pow2, hB]; push_cast; rw [← pow_add, Nat.sub_add_cancel (by omega)]; norm_num
  set S := 2 ^ 30 / 2 ^ k
  have hSm' : (S : ℤ) * (2 ^ k : ℕ) = 2 ^ 30 := by exact_mod_cast hSm
  have hMpos : (0 : ℤ) < (2 ^ k : ℕ) := by positivity
  obtain ⟨j, hj⟩ : ∃ j : ℤ, (phase P.tlweLv0.N c s).toInt = z * (2 * S : ℕ) + e.toInt + j * 2 ^ 32 := by
    rw [hph]
    conv in (_ + e) => rw [← ofInt_toInt32 e, ← ofInt_add32]
    rw [toInt_ofInt32, Int.bmod_eq_emod, Int.emod_def]
    split
    · exact ⟨-((z * (2 * S : ℕ) + e.toInt) / (2 ^ 32 : ℕ)) - 1, by push_cast; ring⟩
    · exact ⟨-((z * (2 * S : ℕ) + e.toInt) / (2 ^ 32 : ℕ)), by push_cast; ring⟩
  set M : ℕ := 2 ^ k
  refine ⟨ρ - j * (2 * P.trgswLv1.N) - z / M * P.trgswLv1.N, ?_, ?_⟩
  · obtain ⟨u, hu⟩ := h1
    exact ⟨u + j, by linear_combination hu⟩
  · rw [C52_slot_exact _ _ (by omega) hN]
    have hr : ((z % (M : ℤ)).toNat : ℤ) = z % M := Int.toNat_of_nonneg (Int.emod_nonneg _ hMpos.ne')
    rw [hr]
    have hz := Int.emod_add_mul_ediv z M
    set r := z % (M : ℤ)
    set t := z / (M : ℤ)
    set Q := ρ - j * (2 * P.trgswLv1.N) - t * P.trgswLv1.N with hQ
    -- the slot centre, in torus units
    have hc : |Q * B - r * (2 * S)| < S := by
      have e1 : Q * B - r * (2 * S) = (ρ * B - (phase P.tlweLv0.N c s).toInt) + e.toInt := by
        rw [hj, hQ]
        have : z = r + M * t := hz.symm
        push_cast
        rw [this]
        linear_combination (-2 * j - t) * eN + 2 * t * hSm'
      rw [e1]
      have h3 : |e.toInt| = (nrm e : ℤ) := by unfold nrm; exact Int.abs_eq_natAbs _
      have h4 : (nrm e : ℤ) + d < S := by exact_mod_cast he
      have := abs_add_le (ρ * B - (phase P.tlweLv0.N c s).toInt) e.toInt
      omega
    have hc' := abs_lt.1 hc
    have e3 : (2 : ℤ) ^ 31 = 2 * 2 ^ 30 := by norm_num
    have k1 : B * P.trgswLv1.N = 2 * (S * M) := by rw [eN, hSm', e3]
    constructor
    · refine le_of_mul_le_mul_left ?_ hBpos
      have : (M : ℤ) * (r * (2 * S) - S) ≤ M * (Q * B) := mul_le_mul_of_nonneg_left (by linarith [hc'.1]) hMpos.le
      nlinarith [k1]
    · refine lt_of_mul_lt_mul_left ?_ hBpos.le
      have : (M : ℤ) * (Q * B) < M * (r * (2 * S) + S) := mul_lt_mul_of_pos_left (by linarith [hc'.2]) hMpos
      nlinarith [k1]

/-- **C95.** `BootstrapFunc` on a ciphertext whose phase is `z` message steps plus noise, for any integer `z` (a sum or
difference that left the range `0 .. 2^k - 1` included): the function sees `z` modulo `2^k`, and the result is negated
when `z` lies in the upper half of its period `2 * 2^k`. -/
theorem C95_bootstrapFunc {P : Params} (W : WellFormed P) (L : FourierLaws O) (hd : O.deg = P.trgswLv1.N)
    (ck : CloudKey O) (hb : GoodBsk P L ck.bootstrappingKey) (hks : GoodKsk P ck.keySwitchingKey)
    (s0 s1 : List Torus) (hs0 : P.tlweLv0.N ≤ s0.length)
    (fl : ℚ → ℚ) (hfl : IsRound fl) (k : ℕ) (hk : k ≤ 29) (hN : 2 * 2 ^ k ∣ P.trgswLv1.N)
    (f : ℤ → Option ℤ) (F : ℕ → ℤ) (hf : ∀ x : ℕ, x < 2 ^ k → f x = some (F x))
    (st : EvState O) (hst : EvGood P L st) (ctIn : LRef) (hin : (st.lw ctIn).length = P.tlweLv0.N + 1)
    (z : ℤ) (e : Torus)
    (hph : phase P.tlweLv0.N (st.lw ctIn) s0 = BitVec.ofInt 32 (z * (2 * (2 ^ 30 / 2 ^ k) : ℕ)) + e)
    (he : nrm e + drift P (weight P.tlweLv0.N s0) < 2 ^ 30 / 2 ^ k) :
    ∃ t st' out, (newGenerator fl P ((2 ^ k : ℕ) : ℤ)).genLookUpTable fl P f = some t ∧
      bootstrapFunc fl P st ctIn f ((2 ^ k : ℕ) : ℤ) ck.bootstrappingKey ck.keySwitchingKey ck.decompositionOffset
        = some (st', out) ∧ EvGood P L st' ∧ out.length = P.tlweLv0.N + 1 ∧
      (nrm (bootNoise P L ck s0 s1 t (st.lw ctIn)) < 2 ^ 30 / 2 ^ k →
        decryptLWEMessage P out ((2 ^ k : ℕ) : ℤ) s0 = some (antiValue (2 ^ k) F z % (2 ^ k : ℕ))) := by
  have hm : 1 ≤ 2 ^ k := Nat.one_le_two_pow
  have hm2 : 2 ^ k ≤ 2 ^ 31 := Nat.pow_le_pow_right (by norm_num) (by omega)
  have hm0 : (0 : ℤ) < (2 ^ k : ℕ) := by positivity
  have hNpos : 0 < P.trgswLv1.N := by have := W.min_degree; omega
  obtain ⟨t, ht, hA, hB, htab⟩ := C52_table fl W (2 ^ k) hm f F hf
    (fun x => (newEncoder fl ((2 ^ k : ℕ) : ℤ)).val fl (F x))
    (fun x _ => Encoder.encode_eq fl (newEncoder fl ((2 ^ k : ℕ) : ℤ)) (F x) hm0)
  have hsz : ((st.setTr (.user 0) t).tr (.user 0)).Sized P.trgswLv1.N := by
    rw [EvState.setTr_tr]
    exact ⟨by rw [hA]; simp, hB⟩
  have htr : (st.setTr (.user 0) t).tr (.user 0) = t := EvState.setTr_tr _ _ _
  obtain ⟨st', e1, g1, -⟩ := bootstrapLUT_eq W L hd (st.setTr (.user 0) t) (hst.setTr_user 0 t)
    ck.bootstrappingKey hb ck.keySwitchingKey hks ck.decompositionOffset ctIn (.user 0) hin (by simp) hsz
  rw [htr] at e1
  have hlen : (bootOut P L ck t (st.lw ctIn)).length = P.tlweLv0.N + 1 := length_bootPure P L _ _ _ _ _
  refine ⟨t, st', bootOut P L ck t (st.lw ctIn), ht, ?_, g1, hlen, fun hn => ?_⟩
  · unfold bootstrapFunc
    simp only [ht, Option.bind_eq_bind, Option.bind_some]
    exact e1
  obtain ⟨q, hq, hslot⟩ := slot_of_steps W (st.lw ctIn) s0 k hk hN z e _ (msPhase_near W _ s0) hph he
  have hr0 := Int.emod_nonneg z hm0.ne'
  have hr1 := Int.emod_lt_of_pos z hm0
  have hx : (z % (2 ^ k : ℕ)).toNat < 2 ^ k := by omega
  have hp : phase P.tlweLv0.N (bootOut P L ck t (st.lw ctIn)) s0
      = (if z / (2 ^ k : ℕ) % 2 = 0 then (newEncoder fl ((2 ^ k : ℕ) : ℤ)).val fl (F (z % (2 ^ k : ℕ)).toNat)
          else -(newEncoder fl ((2 ^ k : ℕ) : ℤ)).val fl (F (z % (2 ^ k : ℕ)).toNat))
        + bootNoise P L ck s0 s1 t (st.lw ctIn) := by
    unfold bootNoise
    rw [ext_mod _ hNpos _ hq, ext_congr _ hNpos _ (at' t.B) (fun i hi => trPhase_table _ t hA s1 i hi),
      ext_add_mul_N _ hNpos _ htab.2, htab.1 _ hx q hslot]
    ring
  rw [decryptLWEMessage_eq P _ s0 _ hm hm2 hs0 (by omega), hp]
  generalize bootNoise P L ck s0 s1 t (st.lw ctIn) = η at hn
  obtain ⟨r, hr⟩ := Int.eq_ofNat_of_zero_le (Int.emod_nonneg (F (z % (2 ^ k : ℕ)).toNat) hm0.ne')
  rw [newEncoder_pow2 fl hfl k (by omega) _ r hr, half_step k hk]
  unfold nrm at hn
  have hη1 : -((2 ^ 30 / 2 ^ k : ℕ) : ℤ) ≤ η.toInt := by omega
  have hη2 : η.toInt < (2 ^ 30 / 2 ^ k : ℕ) := by omega
  have hmod : z % (2 * (2 ^ k : ℕ)) = z % (2 ^ k : ℕ) + (2 ^ k : ℕ) * (z / (2 ^ k : ℕ) % 2) := by
    rw [mul_comm (2 : ℤ)]
    have h1 := Int.emod_add_mul_ediv z (2 ^ k : ℕ)
    have h2 := Int.emod_add_mul_ediv (z / (2 ^ k : ℕ)) 2
    have h3 := Int.emod_add_mul_ediv z ((2 ^ k : ℕ) * 2)
    rw [← Int.ediv_ediv_of_nonneg hm0.le] at h3
    linear_combination h3 - h1 - ((2 ^ k : ℕ) : ℤ) * h2
  congr 1
  unfold antiValue
  rw [hmod]
  rcases Int.emod_two_eq_zero_or_one (z / (2 ^ k : ℕ)) with h | h
  · rw [if_pos h, h, mul_zero, add_zero, if_pos hr1]
    conv_lhs => rw [← ofInt_toInt32 η, ← ofInt_add32]
    rw [decodeMsg_pow2 k hk r _ hη1 hη2, ← hr, Int.emod_emod_of_dvd _ (dvd_refl _)]
  · rw [if_neg (by omega), h, mul_one, if_neg (by omega), add_sub_cancel_right]
    conv_lhs => rw [← ofInt_toInt32 η, ← ofInt_neg32, ← ofInt_add32, ← neg_mul]
    rw [decodeMsg_pow2 k hk (-r) _ hη1 hη2, ← hr]
    exact (Int.mod_modEq _ _).neg

/-- A fresh encryption of `msg` modulo `2^k`. -/
theorem encryptLWEMessage_mEnc {P : Params} (fl : ℚ → ℚ) (hfl : IsRound fl) (k : ℕ) (hk : k ≤ 29) (msg : ℤ)
    (s0 : List Torus) (hs0 : P.tlweLv0.N ≤ s0.length) (draw : ℕ → Torus) (sample : ℚ) :
    ∃ c, encryptLWEMessage fl P (newTLWELv0 P) msg ((2 ^ k : ℕ) : ℤ) s0 draw sample = some c ∧
      MEnc P s0 k c (msg % (2 ^ k : ℕ)).toNat (f64ToTorus sample) := by
  have hm0 : (0 : ℤ) < (2 ^ k : ℕ) := by positivity
  obtain ⟨r, hr⟩ := Int.eq_ofNat_of_zero_le (Int.emod_nonneg msg hm0.ne')
  have hrm := Int.emod_lt_of_pos msg hm0
  obtain ⟨c, ec, lc, -, pc⟩ := encryptLWEMessage_eq fl P (newTLWELv0 P) s0 msg (2 ^ k) Nat.one_le_two_pow draw sample
    hs0 (by simp [newTLWELv0])
  rw [hr] at hrm
  rw [hr, enc_pow2 fl hfl k (by omega) r (by omega) (by exact_mod_cast hrm), half_step k hk] at pc
  exact ⟨c, ec, by rw [lc]; simp [newTLWELv0], by rw [pc, hr, Int.toNat_natCast]⟩

/-- **C95**, from encryption to decryption: encrypt `a` and `b`, add the ciphertexts, bootstrap with `f`, decrypt. -/
theorem C95_sum {P : Params} (W : WellFormed P) (L : FourierLaws O) (hd : O.deg = P.trgswLv1.N)
    {D β κ : ℕ} {ck : CloudKey O} {s0 s1 : List Torus} (K : KeysOK P L D β κ ck s0 s1)
    (hs0 : P.tlweLv0.N ≤ s0.length) (fl : ℚ → ℚ) (hfl : IsRound fl) (k : ℕ) (hk : k ≤ 29)
    (hN : 2 * 2 ^ k ∣ P.trgswLv1.N) (f : ℤ → Option ℤ) (F : ℕ → ℤ) (hf : ∀ x : ℕ, x < 2 ^ k → f x = some (F x))
    (a b : ℤ) (da db : ℕ → Torus) (sa sb : ℚ) (st : EvState O) (hst : EvGood P L st)
    (hnoise : nrm (f64ToTorus sa) + nrm (f64ToTorus sb) + drift P (weight P.tlweLv0.N s0) < 2 ^ 30 / 2 ^ k)
    (hboot : bootBound P D β κ (weight P.tlweLv0.N s0) (weight P.trgswLv1.N s1) < 2 ^ 30 / 2 ^ k) :
    ∃ ca cb c st' out,
      encryptLWEMessage fl P (newTLWELv0 P) a ((2 ^ k : ℕ) : ℤ) s0 da sa = some ca ∧
      encryptLWEMessage fl P (newTLWELv0 P) b ((2 ^ k : ℕ) : ℤ) s0 db sb = some cb ∧
      tlwe0Add P ca cb = some c ∧
      bootstrapFunc fl P (st.setLw (.user 0) c) (.user 0) f ((2 ^ k : ℕ) : ℤ) ck.bootstrappingKey
        ck.keySwitchingKey ck.decompositionOffset = some (st', out) ∧ EvGood P L st' ∧
      decryptLWEMessage P out ((2 ^ k : ℕ) : ℤ) s0
        = some (antiValue (2 ^ k) F (a % (2 ^ k : ℕ) + b % (2 ^ k : ℕ)) % (2 ^ k : ℕ)) := by
  have hm0 : (0 : ℤ) < (2 ^ k : ℕ) := by positivity
  obtain ⟨ca, ea, ma⟩ := encryptLWEMessage_mEnc (P := P) fl hfl k hk a s0 hs0 da sa
  obtain ⟨cb, eb, mb⟩ := encryptLWEMessage_mEnc (P := P) fl hfl k hk b s0 hs0 db sb
  obtain ⟨c, ec, mc⟩ := ma.add mb
  have hlw : (st.setLw (.user 0) c).lw (.user 0) = c := by simp [EvState.setLw]
  obtain ⟨err, hbsk, -⟩ := K.bsk
  have hz : (((a % (2 ^ k : ℕ)).toNat + (b % (2 ^ k : ℕ)).toNat : ℕ) : ℤ) = a % (2 ^ k : ℕ) + b % (2 ^ k : ℕ) := by
    rw [Nat.cast_add, Int.toNat_of_nonneg (Int.emod_nonneg a hm0.ne'), Int.toNat_of_nonneg (Int.emod_nonneg b hm0.ne')]
  obtain ⟨t, st', out, -, e1, g1, -, h⟩ := C95_bootstrapFunc W L hd ck (goodBsk_of_isBsk L hd hbsk) K.ksk_good s0 s1 hs0
    fl hfl k hk hN f F hf (st.setLw (.user 0) c) (hst.setLw_user 0 c) (.user 0) (by rw [hlw]; exact mc.1)
    (a % (2 ^ k : ℕ) + b % (2 ^ k : ℕ)) (f64ToTorus sa + f64ToTorus sb) (by rw [hlw, mc.2, hz])
    ((Nat.add_le_add_right (nrm_add _ _) _).trans_lt hnoise)
  refine ⟨ca, cb, c, st', out, ea, eb, ec, e1, g1, h ?_⟩
  rw [hlw]
  exact (nrm_bootNoise W L hd K t c).trans_lt hboot

section

variable {fl : ℚ → ℚ} (hfl : IsRound fl) {fu : Fusing} {ce : ℚ → ℚ × ℚ} (hce : CexpAccurate ce (1 / 2 ^ 52))

include hfl hce

/-- **C95** from key generation on, table generation and transform in `float64` arithmetic. -/
theorem C95_float (level : SecurityLevel) {e : PolyEval ℚ}
    (he : newPolyEval (floatArith fl fu mathPi ce) ((paramsFor level).trgswLv1.N : ℤ) = some e)
    (k0 k1 : List Torus) (R : KeyGenRand)
    (h0 : (paramsFor level).tlweLv0.N ≤ k0.length) (h1 : k1.length = (paramsFor level).trgswLv1.N)
    (hb0 : IsBinary k0) (hb1 : IsBinary k1) {β κ : ℕ}
    (hβ : ∀ i < (paramsFor level).tlweLv0.N, ∀ j < 2 * (paramsFor level).trgswLv1.L,
      ∀ k < (paramsFor level).trgswLv1.N, nrm (f64ToTorus (R.bskSample i j k)) ≤ β)
    (hκ : ∀ i < (paramsFor level).trgswLv1.N, ∀ j < (paramsFor level).trgswLv1.IKS_T,
      ∀ k < 2 ^ (paramsFor level).trgswLv1.BASEBIT, nrm (f64ToTorus (R.kskSample i j k)) ≤ κ)
    (schedK schedB : List ℕ) (ck : CloudKey (fftOps (floatArith fl fu mathPi ce) e))
    (hck : newCloudKey (paramsFor level) _ k0 k1 R schedK schedB = some (true, ck))
    (k : ℕ) (hk : k ≤ 29) (hN : 2 * 2 ^ k ∣ (paramsFor level).trgswLv1.N)
    (f : ℤ → Option ℤ) (F : ℕ → ℤ) (hf : ∀ x : ℕ, x < 2 ^ k → f x = some (F x))
    (a b : ℤ) (da db : ℕ → Torus) (sa sb : ℚ)
    (hnoise : nrm (f64ToTorus sa) + nrm (f64ToTorus sb)
      + drift (paramsFor level) (weight (paramsFor level).tlweLv0.N k0) < 2 ^ 30 / 2 ^ k)
    (hboot : bootBound (paramsFor level) (fftErr (paramsFor level)) β κ
      (weight (paramsFor level).tlweLv0.N k0) (weight (paramsFor level).trgswLv1.N k1) < 2 ^ 30 / 2 ^ k)
    (tr0 : TRef → Trlwe) (lw0 : LRef → List Torus) :
    ∃ st ca cb c st' out,
      newEvaluator (paramsFor level) (fftOps (floatArith fl fu mathPi ce) e) tr0 lw0 = some st ∧
      encryptLWEMessage fl (paramsFor level) (newTLWELv0 (paramsFor level)) a ((2 ^ k : ℕ) : ℤ) k0 da sa = some ca ∧
      encryptLWEMessage fl (paramsFor level) (newTLWELv0 (paramsFor level)) b ((2 ^ k : ℕ) : ℤ) k0 db sb = some cb ∧
      tlwe0Add (paramsFor level) ca cb = some c ∧
      bootstrapFunc fl (paramsFor level) (st.setLw (.user 0) c) (.user 0) f ((2 ^ k : ℕ) : ℤ) ck.bootstrappingKey
        ck.keySwitchingKey ck.decompositionOffset = some (st', out) ∧
      decryptLWEMessage (paramsFor level) out ((2 ^ k : ℕ) : ℤ) k0
        = some (antiValue (2 ^ k) F (a % (2 ^ k : ℕ) + b % (2 ^ k : ℕ)) % (2 ^ k : ℕ)) := by
  obtain ⟨⟨L, -⟩, hd, K, -⟩ := float_keys hfl hce level he k0 k1 R h0 h1 hb0 hb1 hβ hκ schedK schedB ck hck
  obtain ⟨st, es, hst, -⟩ := newEvaluator_good (C63_wellFormed level) L hd tr0 lw0
  obtain ⟨ca, cb, c, st', out, x1, x2, x3, x4, -, x5⟩ := C95_sum (C63_wellFormed level) L hd (K L) h0 fl hfl k hk hN f F hf
    a b da db sa sb st hst hnoise hboot
  exact ⟨st, ca, cb, c, st', out, es, x1, x2, x3, x4, x5⟩

end

/-- The antiperiodic extension of the identity is not reduction modulo `m`: on a sum that has left the range the two agree
modulo `m` only when `m` divides twice the sum. -/
theorem C95_identity (m : ℕ) (z : ℤ) (h0 : (m : ℤ) ≤ z) (h1 : z < 2 * m) :
    antiValue m (fun x => x) z % m = (-z) % m ∧
      (antiValue m (fun x => x) z % m = z % m ↔ (m : ℤ) ∣ 2 * z) := by
  have e : antiValue m (fun x => x) z = -z + m := by
    unfold antiValue
    rw [Int.emod_eq_of_lt (by omega) h1, if_neg (by omega)]
    show -((z - m).toNat : ℤ) = -z + m
    rw [Int.toNat_of_nonneg (by omega)]
    ring
  rw [e, Int.add_emod_right]
  refine ⟨rfl, ?_⟩
  rw [two_mul, show z + z = z - -z by ring]
  exact Int.modEq_iff_dvd

/-- Non-vacuity for C95: at 128 bits, modulo 4, `3 + 2` looked up with the identity decrypts to `3`, not to `1`. -/
example (da db : ℕ → Torus) :
    ∃ (ck : CloudKey (exactOps 1024)) (st st' : EvState (exactOps 1024)) (ca cb c out : List Torus),
      encryptLWEMessage rne (paramsFor 128) (newTLWELv0 (paramsFor 128)) 3 ((2 ^ 2 : ℕ) : ℤ) (unitKey 700) da 0
        = some ca ∧
      encryptLWEMessage rne (paramsFor 128) (newTLWELv0 (paramsFor 128)) 2 ((2 ^ 2 : ℕ) : ℤ) (unitKey 700) db 0
        = some cb ∧
      tlwe0Add (paramsFor 128) ca cb = some c ∧
      bootstrapFunc rne (paramsFor 128) (st.setLw (.user 0) c) (.user 0) (fun x => some x) ((2 ^ 2 : ℕ) : ℤ)
        ck.bootstrappingKey ck.keySwitchingKey ck.decompositionOffset = some (st', out) ∧
      decryptLWEMessage (paramsFor 128) out ((2 ^ 2 : ℕ) : ℤ) (unitKey 700) = some 3 := by
  have W := C63_wellFormed 128
  obtain ⟨ck, K, -⟩ := exists_keysOK W (unitKey 700) (unitKey 1024) (by simp [unitKey]; rfl)
    (isBinary_unitKey _) (isBinary_unitKey _)
  obtain ⟨st, -, hst, -⟩ := newEvaluator_good W (exL W) rfl (fun _ => ⟨[], []⟩) (fun _ => [])
  have w0 : weight (paramsFor 128).tlweLv0.N (unitKey 700) = 1 := weight_unitKey 700 (by norm_num)
  have w1 : weight (paramsFor 128).trgswLv1.N (unitKey 1024) = 1 := weight_unitKey 1024 (by norm_num)
  have hz : nrm (f64ToTorus 0) = 0 := by decide +kernel
  obtain ⟨ca, cb, c, st', out, h1, h2, h3, h4, -, h5⟩ := C95_sum W (exL W) rfl K
    (show 700 ≤ (unitKey 700).length by simp [unitKey]) rne isRound_rne 2 (by norm_num)
    (by show 2 * 2 ^ 2 ∣ 1024; norm_num) (fun x => some x) (fun x => (x : ℤ)) (fun x _ => rfl) 3 2 da db 0 0 st hst
    (by
      rw [w0, hz]
      have hd : drift (paramsFor 128) 1 = 2 ^ 21 := by
        show (1 + 1) * 2 ^ (30 - 10) = 2 ^ 21
        norm_num
      rw [hd]
      norm_num)
    (by rw [w0, w1]
        show (1 + 1) * (1 + 1 * (1 + 2 ^ (32 - 3 * 6))) + 700 * (2 * 3 * 1024 * 2 ^ (6 - 1) * 1 + 0 * (1 + 1)) + 1
          + (1 * 2 ^ (31 - 2 * 9) + 1024 * (9 * 0)) < 2 ^ 30 / 2 ^ 2
        norm_num)
  exact ⟨ck, st, st', ca, cb, c, out, h1, h2, h3, h4, h5⟩

end GoTfhe
