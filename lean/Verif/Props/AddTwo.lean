import Verif.Props.Pbs
import Verif.Model.AddTwo
import Mathlib.Tactic.IntervalCases

/-!
# C57: the nibble adder of `/repo/examples/add_two_numbers`
-/

namespace GoTfhe

variable {O : FourierOps}

theorem sum2_eq (n : ℕ) (x y r : List Torus) (hx : x.length = n + 1) (hy : y.length = n + 1) (hr : r.length = n + 1) :
    (forRange 0 (n + 1) r fun j r => do
      let a ← rd x j
      let b ← rd y j
      wr r j (a + b)) = some (tab (n + 1) fun j => at' x j + at' y j) := by
  refine forRange_fill_full (n + 1) r _ hr _ ?_
  intro i hi l hl
  simp only [rd_at' x i (by omega), rd_at' y i (by omega), Option.bind_eq_bind, Option.bind_some]

theorem sum3_eq (n : ℕ) (x y z r : List Torus) (hx : x.length = n + 1) (hy : y.length = n + 1)
    (hz : z.length = n + 1) (hr : r.length = n + 1) :
    (forRange 0 (n + 1) r fun j r => do
      let a ← rd x j
      let b ← rd y j
      let c ← rd z j
      wr r j (a + b + c)) = some (tab (n + 1) fun j => at' x j + at' y j + at' z j) := by
  refine forRange_fill_full (n + 1) r _ hr _ ?_
  intro i hi l hl
  simp only [rd_at' x i (by omega), rd_at' y i (by omega), rd_at' z i (by omega), Option.bind_eq_bind,
    Option.bind_some]

theorem phase_sum2 (n : ℕ) (x y key : List Torus) :
    phase n (tab (n + 1) fun j => at' x j + at' y j) key = phase n x key + phase n y key := by
  rw [phase_tab]
  unfold phase
  simp only [add_mul, Finset.sum_add_distrib]
  ring

theorem phase_sum3 (n : ℕ) (x y z key : List Torus) :
    phase n (tab (n + 1) fun j => at' x j + at' y j + at' z j) key = phase n x key + phase n y key + phase n z key := by
  rw [phase_tab]
  unfold phase
  simp only [add_mul, Finset.sum_add_distrib]
  ring

theorem lowNibble_eq (a : BitVec 8) : lowNibble a = ((a.toNat % 16 : ℕ) : ℤ) := by
  unfold lowNibble
  rw [BitVec.toNat_and, show (0x0F#8).toNat = 2 ^ 4 - 1 from rfl, Nat.and_two_pow_sub_one_eq_mod]

theorem highNibble_eq (a : BitVec 8) : highNibble a = ((a.toNat / 16 : ℕ) : ℤ) := by
  unfold highNibble
  rw [BitVec.toNat_and, show (0x0F#8).toNat = 2 ^ 4 - 1 from rfl, Nat.and_two_pow_sub_one_eq_mod,
    BitVec.toNat_ushiftRight, Nat.shiftRight_eq_div_pow]
  have := a.isLt
  congr 1
  rw [Nat.mod_eq_of_lt (by omega)]

theorem combine_nibbles : ∀ l h : Fin 16,
    ((BitVec.ofInt 64 ((l : ℕ) : ℤ) ||| (BitVec.ofInt 64 ((h : ℕ) : ℤ) <<< 4)).setWidth 8)
      = BitVec.ofNat 8 ((l : ℕ) + 16 * (h : ℕ)) := by
  decide

/-- One table look-up at modulus 32. -/
theorem pbs32 {P : Params} (W : WellFormed P) (L : FourierLaws O) (ck : CloudKey O) (s0 s1 : List Torus)
    (fl : ℚ → ℚ) (hfl : IsRound fl) (h64 : 64 ∣ P.trgswLv1.N) (F : ℕ → ℕ) (hF : ∀ x < 32, F x < 32) (t : Trlwe)
    (hA : t.A = tab P.trgswLv1.N fun _ => 0)
    (ht : TableFor P.trgswLv1.N 32 (at' t.B) fun x => (newEncoder fl ((32 : ℕ) : ℤ)).val fl (F x : ℤ))
    (c : List Torus) (x : ℕ) (hx : x < 32) (e : Torus)
    (hc : phase P.tlweLv0.N c s0 = BitVec.ofInt 32 ((x : ℤ) * 2 ^ 26) + e)
    (he : nrm e + drift P (weight P.tlweLv0.N s0) < 2 ^ 25) :
    phase P.tlweLv0.N (bootOut P L ck t c) s0
      = BitVec.ofInt 32 ((F x : ℤ) * 2 ^ 26) + bootNoise P L ck s0 s1 t c := by
  have hea : |e.toInt| = (nrm e : ℤ) := by unfold nrm; exact Int.abs_eq_natAbs _
  have hle : |e.toInt| < 2 ^ 25 := by rw [hea]; exact_mod_cast (by omega : nrm e < 2 ^ 25)
  have hphi : (phase P.tlweLv0.N c s0).toInt = (x : ℤ) * 2 ^ 26 + e.toInt := by
    rw [hc]
    conv_lhs => rw [← ofInt_toInt32 e, ← ofInt_add32]
    rw [toInt_ofInt32]
    have := abs_lt.1 hle
    rw [Int.bmod_eq_of_le] <;> norm_num at * <;> omega
  obtain ⟨p, hp, hslot⟩ := slot_of_margin W c s0 (msPhase_near W c s0) 32 (by norm_num) x (.inr ⟨h64, by
    rw [hphi]
    have e1 : 2 * ((32 : ℕ) : ℤ) * ((x : ℤ) * 2 ^ 26 + e.toInt) - x * 2 ^ 32 = 64 * e.toInt := by push_cast; ring
    rw [e1, abs_mul, hea]
    have : (nrm e : ℤ) + (drift P (weight P.tlweLv0.N s0) : ℕ) < 2 ^ 25 := by exact_mod_cast he
    norm_num
    norm_num at this
    linarith⟩)
  have h := phase_bootOut_slot W L ck s0 s1 t hA 32 _ ht c x hx p hp hslot
  rw [h]
  have := newEncoder_pow2 fl hfl 5 (by norm_num) (F x : ℤ) (F x)
    (by have := hF x hx; rw [Int.emod_eq_of_lt] <;> norm_num; exact this)
  norm_num at this ⊢
  rw [this]

theorem decrypt32 {P : Params} (fl : ℚ → ℚ) (hfl : IsRound fl) (y : ℕ) (hy : y < 32) (c s0 : List Torus)
    (hk : P.tlweLv0.N ≤ s0.length) (hc : P.tlweLv0.N < c.length) (e : Torus)
    (hph : phase P.tlweLv0.N c s0 = BitVec.ofInt 32 ((y : ℤ) * 2 ^ 26) + e) (he : nrm e < 2 ^ 25) :
    decryptLWEMessage P c 32 s0 = some (y : ℤ) := by
  have hv := newEncoder_pow2 fl hfl 5 (by norm_num) (y : ℤ) y (by rw [Int.emod_eq_of_lt] <;> norm_num; exact hy)
  have := decrypt_encoded (P := P) fl hfl 32 (by norm_num) (y : ℤ) c s0 hk hc e (by
    rw [hph]
    norm_num at hv ⊢
    rw [hv]) (.inr ⟨⟨5, by norm_num, by norm_num⟩, by
      unfold nrm at he
      norm_num at *
      omega⟩)
  have e2 : (y : ℤ) % ((32 : ℕ) : ℤ) = y := by rw [Int.emod_eq_of_lt] <;> norm_num; exact hy
  rw [e2] at this
  exact this

/-- **C57.** Whatever the two bytes, the keys and the randomness, the program runs to its end, and its result
is the sum of the bytes modulo 256 whenever the noise of the encryptions and of the three bootstraps stays
within half a message step. Every quantity in the conditions is the one realised in this run. -/
theorem C57_adds {P : Params} (W : WellFormed P) (L : FourierLaws O) (hd : O.deg = P.trgswLv1.N)
    (h64 : 64 ∣ P.trgswLv1.N) (ck : CloudKey O) (hb : GoodBsk P L ck.bootstrappingKey)
    (hks : GoodKsk P ck.keySwitchingKey) (s0 s1 : List Torus) (hs0 : P.tlweLv0.N ≤ s0.length)
    (fl : ℚ → ℚ) (hfl : IsRound fl) (st : EvState O) (hst : EvGood P L st) (a b : BitVec 8)
    (draw : ℕ → ℕ → Torus) (sample : ℕ → ℚ) :
    ∃ st' r, addTwoNumbers fl P st ck s0 a b draw sample = some (st', r) ∧ EvGood P L st' ∧
      (nrm (f64ToTorus (sample 0)) + nrm (f64ToTorus (sample 2)) + drift P (weight P.tlweLv0.N s0) < 2 ^ 25 →
        nrm (f64ToTorus (sample 1)) + nrm (f64ToTorus (sample 3))
          + nrm (bootNoise P L ck s0 s1 r.lutCarryLow r.tempLow) + drift P (weight P.tlweLv0.N s0) < 2 ^ 25 →
        nrm (bootNoise P L ck s0 s1 r.lutSumLow r.tempLow) < 2 ^ 25 →
        nrm (bootNoise P L ck s0 s1 r.lutSumHigh r.tempHigh) < 2 ^ 25 →
        r.result = a + b) := by
  have hnew : (newTLWELv0 P).length = P.tlweLv0.N + 1 := by simp [newTLWELv0]
  -- tables
  have tbl : ∀ (f : ℤ → Option ℤ) (F : ℕ → ℕ), (∀ x < 32, f (x : ℕ) = some ((F x : ℕ) : ℤ)) →
      ∃ t : Trlwe, (newGenerator fl P 32).genLookUpTable fl P f = some t ∧ t.A = tab P.trgswLv1.N (fun _ => 0) ∧
        t.B.length = P.trgswLv1.N ∧
        TableFor P.trgswLv1.N 32 (at' t.B) fun x => (newEncoder fl ((32 : ℕ) : ℤ)).val fl (F x : ℤ) :=
    fun f F hf => C52_table fl W 32 (by norm_num) f (fun x => (F x : ℤ)) hf _
      (fun x _ => Encoder.encode_eq fl _ _ (by show (0 : ℤ) < ((32 : ℕ) : ℤ); norm_num))
  have gm : ∀ x < 32, goMod ((x : ℕ) : ℤ) 16 = some ((x % 16 : ℕ) : ℤ) := by
    intro x hx
    unfold goMod
    rw [if_neg (by norm_num)]
    rfl
  obtain ⟨t0, et0, hA0, hB0, ht0⟩ := tbl (fun x => goMod x 16) (fun x => x % 16) gm
  obtain ⟨t1, et1, hA1, hB1, ht1⟩ := tbl (fun x => some (if x ≥ 16 then 1 else 0))
    (fun x => if x ≥ 16 then 1 else 0) (fun x _ => by
      by_cases h : 16 ≤ x
      · have : (16 : ℤ) ≤ x := by exact_mod_cast h
        simp [h, this]
      · have : ¬ (16 : ℤ) ≤ x := by exact_mod_cast h
        simp [h, this])
  -- encryptions
  have enc : ∀ (y : ℕ), y < 32 → ∀ i, ∃ c, encryptLWEMessage fl P (newTLWELv0 P) (y : ℤ) 32 s0 (draw i) (sample i)
      = some c ∧ c.length = P.tlweLv0.N + 1 ∧
        phase P.tlweLv0.N c s0 = BitVec.ofInt 32 ((y : ℤ) * 2 ^ 26) + f64ToTorus (sample i) := by
    intro y hy i
    obtain ⟨c, ec, lc, -, pc⟩ := encryptLWEMessage_eq fl P (newTLWELv0 P) s0 (y : ℤ) 32 (by norm_num) (draw i)
      (sample i) hs0 (by omega)
    refine ⟨c, ec, lc.trans hnew, ?_⟩
    rw [pc]
    have h1 : (y : ℤ) % ((32 : ℕ) : ℤ) = y := by rw [Int.emod_eq_of_lt] <;> norm_num; exact hy
    have h2 := enc_pow2 fl hfl 5 (by norm_num) (y : ℤ) (by omega) (by norm_num; exact hy)
    rw [h1]
    norm_num at h2 ⊢
    rw [h2]
  have ha := a.isLt
  have hbl := b.isLt
  obtain ⟨c0, ec0, lc0, pc0⟩ := enc (a.toNat % 16) (by omega) 0
  obtain ⟨c1, ec1, lc1, pc1⟩ := enc (a.toNat / 16) (by omega) 1
  obtain ⟨c2, ec2, lc2, pc2⟩ := enc (b.toNat % 16) (by omega) 2
  obtain ⟨c3, ec3, lc3, pc3⟩ := enc (b.toNat / 16) (by omega) 3
  set lo : List Torus := tab (P.tlweLv0.N + 1) fun j => at' c0 j + at' c2 j with hlo
  have llo : lo.length = P.tlweLv0.N + 1 := length_tab _ _
  -- first bootstrap
  set stA := (((st.setTr (.user 0) t0).setTr (.user 1) t1).setTr (.user 2) t0).setLw (.user 0) lo with hstA
  have gA : EvGood P L stA := (((hst.setTr_user 0 t0).setTr_user 1 t1).setTr_user 2 t0).setLw_user 0 lo
  have rA0 : stA.tr (.user 0) = t0 := by simp [hstA, EvState.setTr, EvState.setLw, Function.update]
  have rA1 : stA.tr (.user 1) = t1 := by simp [hstA, EvState.setTr, EvState.setLw, Function.update]
  have rA2 : stA.tr (.user 2) = t0 := by simp [hstA, EvState.setTr, EvState.setLw, Function.update]
  have rAl : stA.lw (.user 0) = lo := by simp [hstA, EvState.setTr, EvState.setLw, Function.update]
  obtain ⟨stB, eB, gB, fB1, fB2, -⟩ := bootstrapLUT_eq W L hd stA gA ck.bootstrappingKey hb ck.keySwitchingKey hks
    ck.decompositionOffset (.user 0) (.user 0) (by rw [rAl]; exact llo) (by simp)
    (by rw [rA0]; exact ⟨by rw [hA0]; simp, hB0⟩)
  have rBl : stB.lw (.user 0) = lo := (fB1 _ (by simp) (by simp)).trans rAl
  have rB1 : stB.tr (.user 1) = t1 := (fB2 (.user 1) (by simp [TRef.internal])).trans rA1
  have rB2 : stB.tr (.user 2) = t0 := (fB2 (.user 2) (by simp [TRef.internal])).trans rA2
  obtain ⟨stC, eC, gC, fC1, fC2, -⟩ := bootstrapLUT_eq W L hd stB gB ck.bootstrappingKey hb ck.keySwitchingKey hks
    ck.decompositionOffset (.user 0) (.user 1) (by rw [rBl]; exact llo) (by simp)
    (by rw [rB1]; exact ⟨by rw [hA1]; simp, hB1⟩)
  have rC2 : stC.tr (.user 2) = t0 := (fC2 (.user 2) (by simp [TRef.internal])).trans rB2
  rw [rA0, rAl] at eB
  rw [rB1, rBl] at eC
  have eB' : bootstrapLUT P stA (.user 0) (.user 0) ck.bootstrappingKey ck.keySwitchingKey ck.decompositionOffset
    = some (stB, bootOut P L ck t0 lo) := eB
  have eC' : bootstrapLUT P stB (.user 0) (.user 1) ck.bootstrappingKey ck.keySwitchingKey ck.decompositionOffset
    = some (stC, bootOut P L ck t1 lo) := eC
  have lbo : ∀ t c, (bootOut P L ck t c).length = P.tlweLv0.N + 1 := fun t c => length_bootPure P L _ _ _ _ _
  set hi : List Torus := tab (P.tlweLv0.N + 1) fun j => at' c1 j + at' c3 j + at' (bootOut P L ck t1 lo) j with hhi
  have lhi : hi.length = P.tlweLv0.N + 1 := length_tab _ _
  set stD := stC.setLw (.user 1) hi with hstD
  have gD : EvGood P L stD := gC.setLw_user 1 hi
  have rD2 : stD.tr (.user 2) = t0 := rC2
  have rDl : stD.lw (.user 1) = hi := by simp [hstD, EvState.setLw]
  obtain ⟨stE, eE, gE, -⟩ := bootstrapLUT_eq W L hd stD gD ck.bootstrappingKey hb ck.keySwitchingKey hks
    ck.decompositionOffset (.user 1) (.user 2) (by rw [rDl]; exact lhi) (by simp)
    (by rw [rD2]; exact ⟨by rw [hA0]; simp, hB0⟩)
  rw [rD2, rDl] at eE
  have eE' : bootstrapLUT P stD (.user 1) (.user 2) ck.bootstrappingKey ck.keySwitchingKey ck.decompositionOffset
    = some (stE, bootOut P L ck t0 hi) := eE
  have dec : ∀ c : List Torus, c.length = P.tlweLv0.N + 1 → decryptLWEMessage P c 32 s0
      = some ((decodeMsg 32 (phase P.tlweLv0.N c s0) : ℕ) : ℤ) :=
    fun c hc => decryptLWEMessage_eq P c s0 32 (by norm_num) (by norm_num) hs0 (by omega)
  have hrun : addTwoNumbers fl P st ck s0 a b draw sample = some (stE, ⟨t0, t1, t0, lo, bootOut P L ck t0 lo,
      bootOut P L ck t1 lo, hi, bootOut P L ck t0 hi,
      (BitVec.ofInt 64 ((decodeMsg 32 (phase P.tlweLv0.N (bootOut P L ck t0 lo) s0) : ℕ) : ℤ) |||
        (BitVec.ofInt 64 ((decodeMsg 32 (phase P.tlweLv0.N (bootOut P L ck t0 hi) s0) : ℕ) : ℤ) <<< 4)).setWidth 8⟩) := by
    unfold addTwoNumbers
    simp only [lowNibble_eq, highNibble_eq, et0, et1, ec0, ec1, ec2, ec3, Option.bind_eq_bind, Option.bind_some]
    have s2 := sum2_eq P.tlweLv0.N c0 c2 (newTLWELv0 P) lc0 lc2 hnew
    simp only [Option.bind_eq_bind] at s2
    rw [s2]
    simp only [Option.bind_some]
    rw [← hlo, ← hstA, eB']
    simp only [Option.bind_some]
    rw [eC']
    simp only [Option.bind_some]
    have s3 := sum3_eq P.tlweLv0.N c1 c3 (bootOut P L ck t1 lo) (newTLWELv0 P) lc1 lc3 (lbo _ _) hnew
    simp only [Option.bind_eq_bind] at s3
    rw [s3]
    simp only [Option.bind_some]
    rw [← hhi, ← hstD, eE']
    simp only [Option.bind_some]
    rw [dec _ (lbo _ _), dec _ (lbo _ _)]
    rfl
  refine ⟨stE, _, hrun, gE, ?_⟩
  intro h1 h2 h3 h4
  -- phases
  have plo : phase P.tlweLv0.N lo s0 = BitVec.ofInt 32 (((a.toNat % 16 + b.toNat % 16 : ℕ) : ℤ) * 2 ^ 26)
      + (f64ToTorus (sample 0) + f64ToTorus (sample 2)) := by
    rw [hlo, phase_sum2, pc0, pc2]
    rw [show (((a.toNat % 16 + b.toNat % 16 : ℕ) : ℤ) * 2 ^ 26)
      = ((a.toNat % 16 : ℕ) : ℤ) * 2 ^ 26 + ((b.toNat % 16 : ℕ) : ℤ) * 2 ^ 26 by push_cast; ring, ofInt_add32]
    ring
  have nlo : nrm (f64ToTorus (sample 0) + f64ToTorus (sample 2)) + drift P (weight P.tlweLv0.N s0) < 2 ^ 25 :=
    lt_of_le_of_lt (Nat.add_le_add_right (nrm_add _ _) _) h1
  have p0 := pbs32 W L ck s0 s1 fl hfl h64 (fun x => x % 16) (fun x _ => by omega) t0 hA0 ht0 lo _ (by omega) _ plo nlo
  have p1 := pbs32 W L ck s0 s1 fl hfl h64 (fun x => if x ≥ 16 then 1 else 0)
    (fun x _ => by split_ifs <;> norm_num) t1 hA1 ht1 lo _ (by omega) _ plo nlo
  set cy : ℕ := if a.toNat % 16 + b.toNat % 16 ≥ 16 then 1 else 0 with hcy
  have hcy1 : cy ≤ 1 := by rw [hcy]; split_ifs <;> norm_num
  have phi : phase P.tlweLv0.N hi s0 = BitVec.ofInt 32 (((a.toNat / 16 + b.toNat / 16 + cy : ℕ) : ℤ) * 2 ^ 26)
      + (f64ToTorus (sample 1) + f64ToTorus (sample 3) + bootNoise P L ck s0 s1 t1 lo) := by
    rw [hhi, phase_sum3, pc1, pc3, p1]
    rw [show (((a.toNat / 16 + b.toNat / 16 + cy : ℕ) : ℤ) * 2 ^ 26)
      = ((a.toNat / 16 : ℕ) : ℤ) * 2 ^ 26 + ((b.toNat / 16 : ℕ) : ℤ) * 2 ^ 26 + (cy : ℤ) * 2 ^ 26 by push_cast; ring,
      ofInt_add32, ofInt_add32]
    ring
  have nhi : nrm (f64ToTorus (sample 1) + f64ToTorus (sample 3) + bootNoise P L ck s0 s1 t1 lo)
      + drift P (weight P.tlweLv0.N s0) < 2 ^ 25 := by
    refine lt_of_le_of_lt (Nat.add_le_add_right ((nrm_add _ _).trans (Nat.add_le_add_right (nrm_add _ _) _)) _) h2
  have p2 := pbs32 W L ck s0 s1 fl hfl h64 (fun x => x % 16) (fun x _ => by omega) t0 hA0 ht0 hi _ (by omega) _ phi nhi
  have d0 := decrypt32 fl hfl _ (by omega) _ s0 hs0 (by rw [lbo]; omega) _ p0 h3
  have d2 := decrypt32 fl hfl _ (by omega) _ s0 hs0 (by rw [lbo]; omega) _ p2 h4
  rw [dec _ (lbo _ _)] at d0 d2
  show (BitVec.ofInt 64 _ ||| (BitVec.ofInt 64 _ <<< 4)).setWidth 8 = a + b
  rw [Option.some.inj d0, Option.some.inj d2]
  have cn := combine_nibbles ⟨(a.toNat % 16 + b.toNat % 16) % 16, by omega⟩
    ⟨(a.toNat / 16 + b.toNat / 16 + cy) % 16, by omega⟩
  refine cn.trans ?_
  apply BitVec.eq_of_toNat_eq
  rw [BitVec.toNat_ofNat, BitVec.toNat_add]
  simp only
  split_ifs at hcy <;> omega

/-- **C57**, in the worst case over all bootstraps: the bound `B` on the noise of a bootstrapping is the one of
`nrm_bootNoise`. -/
theorem C57_adds_worst_case {P : Params} (W : WellFormed P) (L : FourierLaws O) (hd : O.deg = P.trgswLv1.N)
    (h64 : 64 ∣ P.trgswLv1.N) {D β κ : ℕ} {ck : CloudKey O} {s0 s1 : List Torus} (K : KeysOK P L D β κ ck s0 s1)
    (hs0 : P.tlweLv0.N ≤ s0.length) (fl : ℚ → ℚ) (hfl : IsRound fl) (st : EvState O) (hst : EvGood P L st)
    (a b : BitVec 8) (draw : ℕ → ℕ → Torus) (sample : ℕ → ℚ) (α : ℕ) (hα : ∀ i, nrm (f64ToTorus (sample i)) ≤ α)
    (h : 2 * α + bootBound P D β κ (weight P.tlweLv0.N s0) (weight P.trgswLv1.N s1)
      + drift P (weight P.tlweLv0.N s0) < 2 ^ 25) :
    ∃ st' r, addTwoNumbers fl P st ck s0 a b draw sample = some (st', r) ∧ EvGood P L st' ∧ r.result = a + b := by
  obtain ⟨err, hbsk, -⟩ := K.bsk
  obtain ⟨st', r, e, g, hr⟩ := C57_adds W L hd h64 ck (goodBsk_of_isBsk L hd hbsk) K.ksk_good s0 s1 hs0 fl hfl st hst
    a b draw sample
  have h0 := hα 0
  have h1 := hα 1
  have h2 := hα 2
  have h3 := hα 3
  have n1 := nrm_bootNoise W L hd K r.lutCarryLow r.tempLow
  have n2 := nrm_bootNoise W L hd K r.lutSumLow r.tempLow
  have n3 := nrm_bootNoise W L hd K r.lutSumHigh r.tempHigh
  exact ⟨st', r, e, g, hr (by omega) (by omega) (by omega) (by omega)⟩

/-- Non-vacuity for C57: the parameters of the program (`SecurityUint5`), all pairs of bytes, any masks and
encryption noise up to `2^22`; the keys have weight one and the bootstrapping key is free of noise. -/
example (a b : BitVec 8) (draw : ℕ → ℕ → Torus) (sample : ℕ → ℚ) (h : ∀ i, nrm (f64ToTorus (sample i)) ≤ 2 ^ 22) :
    ∃ (ck : CloudKey (exactOps 2048)) (st st' : EvState (exactOps 2048)) (r : AddTwoRun),
      addTwoNumbers rne (paramsFor 5) st ck (unitKey 1071) a b draw sample = some (st', r) ∧ r.result = a + b := by
  have W := C63_wellFormed 5
  obtain ⟨ck, K⟩ := exists_keysOK_noise W (unitKey 1071) (unitKey 2048) (by simp [unitKey]; rfl)
    (isBinary_unitKey _) (isBinary_unitKey _) (fun _ _ _ => 0) 0 (fun _ _ _ => by simp [nrm])
  obtain ⟨st, -, hst, -⟩ := newEvaluator_good W (exL W) rfl (fun _ => ⟨[], []⟩) (fun _ => [])
  have w0 : weight (paramsFor 5).tlweLv0.N (unitKey 1071) = 1 := weight_unitKey 1071 (by norm_num)
  have w1 : weight (paramsFor 5).trgswLv1.N (unitKey 2048) = 1 := weight_unitKey 2048 (by norm_num)
  obtain ⟨st', r, e, -, hr⟩ := C57_adds_worst_case W (exL W) rfl (by show 64 ∣ 2048; norm_num) K
    (show 1071 ≤ (unitKey 1071).length by simp [unitKey]) rne isRound_rne st hst a b draw sample (2 ^ 22) h
    (by rw [w0, w1]
        show 2 * 2 ^ 22 + ((1 + 1) * (1 + 1 * (1 + 2 ^ (32 - 1 * 22)))
          + 1071 * (2 * 1 * 2048 * 2 ^ (22 - 1) * 0 + 0 * (1 + 1)) + 1
          + (1 * 2 ^ (31 - 6 * 3) + 2048 * (3 * 0))) + (1 + 1) * 2 ^ (30 - 11) < 2 ^ 25
        norm_num)
  exact ⟨ck, st, st', r, e, hr⟩

end GoTfhe
