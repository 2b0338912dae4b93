import Verif.Props.FloatPbs
import Verif.Model.MsgProgram

/-!
# C76: programs of sums and table look-ups on encrypted messages
-/

namespace GoTfhe

variable {O : FourierOps}

/-- `w` encrypts the message `x` modulo `2^k` with noise `e`. -/
def MEnc (P : Params) (s0 : List Torus) (k : ℕ) (w : List Torus) (x : ℕ) (e : Torus) : Prop :=
  w.length = P.tlweLv0.N + 1 ∧
    phase P.tlweLv0.N w s0 = BitVec.ofInt 32 ((x : ℤ) * (2 * (2 ^ 30 / 2 ^ k) : ℕ)) + e

theorem half_step (k : ℕ) (hk : k ≤ 29) : 2 ^ 31 / 2 ^ k = 2 * (2 ^ 30 / 2 ^ k) := by
  rw [Nat.pow_div (by omega) (by norm_num), Nat.pow_div (by omega) (by norm_num), ← pow_succ']
  congr 1; omega

theorem half_step_mul (k : ℕ) (hk : k ≤ 29) : 2 ^ 30 / 2 ^ k * 2 ^ k = 2 ^ 30 :=
  Nat.div_mul_cancel (pow_dvd_pow 2 (by omega))

/-- The phase as an integer. -/
theorem MEnc.toInt {P : Params} {s0 : List Torus} {k : ℕ} (hk : k ≤ 29) {w : List Torus} {x : ℕ} {e : Torus}
    (h : MEnc P s0 k w x e) (hx : x < 2 ^ k) (he : nrm e < 2 ^ 30 / 2 ^ k) :
    (phase P.tlweLv0.N w s0).toInt = (x : ℤ) * (2 * (2 ^ 30 / 2 ^ k : ℕ)) + e.toInt := by
  have hSm := half_step_mul k hk
  rw [h.2]
  set S := 2 ^ 30 / 2 ^ k
  have hrS : (x + 1) * S ≤ 2 ^ 30 := by
    rw [← hSm, mul_comm]; exact Nat.mul_le_mul_left _ hx
  conv_lhs => rw [← ofInt_toInt32 e, ← ofInt_add32]
  rw [toInt_ofInt32]
  have h1 : ((x : ℤ) + 1) * S ≤ 2 ^ 30 := by exact_mod_cast hrS
  have h2 : (0 : ℤ) ≤ (x : ℤ) * S := by positivity
  unfold nrm at he
  push_cast
  rw [Int.bmod_eq_of_le] <;> norm_num at * <;> nlinarith [abs_le.1 (le_refl |e.toInt|)]

/-- A message with noise below half a step decrypts. -/
theorem MEnc.decrypts {P : Params} {s0 : List Torus} {k : ℕ} (hk : k ≤ 29) {w : List Torus} {x : ℕ} {e : Torus}
    (h : MEnc P s0 k w x e) (hx : x < 2 ^ k) (he : nrm e < 2 ^ 30 / 2 ^ k) (hs0 : P.tlweLv0.N ≤ s0.length) :
    decryptLWEMessage P w ((2 ^ k : ℕ) : ℤ) s0 = some (x : ℤ) := by
  have hm2 : 2 ^ k ≤ 2 ^ 31 := Nat.pow_le_pow_right (by norm_num) (by omega)
  have h1 := h.1
  rw [decryptLWEMessage_eq P w s0 _ Nat.one_le_two_pow hm2 hs0 (by omega), h.2]
  conv_lhs => rw [← ofInt_toInt32 e, ← ofInt_add32, ← half_step k hk]
  unfold nrm at he
  have := half_step k hk
  rw [decodeMsg_near (2 ^ k) Nat.one_le_two_pow hm2 x hx _ (by omega) (by omega)]

/-- One table look-up, with the table of `f`. -/
theorem MEnc.lookup {P : Params} (W : WellFormed P) (L : FourierLaws O) (ck : CloudKey O) (s0 s1 : List Torus)
    (fl : ℚ → ℚ) (hfl : IsRound fl) (k : ℕ) (hk : k ≤ 29) (hN : 2 * 2 ^ k ∣ P.trgswLv1.N)
    (f : ℤ → Option ℤ) (hf : ∀ x < 2 ^ k, (f (x : ℕ)).isSome) (t : Trlwe)
    (ht : (newGenerator fl P ((2 ^ k : ℕ) : ℤ)).genLookUpTable fl P f = some t) (w : List Torus) (x : ℕ) (e : Torus)
    (h : MEnc P s0 k w x e) (hx : x < 2 ^ k) (he : nrm e + drift P (weight P.tlweLv0.N s0) < 2 ^ 30 / 2 ^ k)
    (y : ℕ) (hy : msgApply (2 ^ k) f x = some y) :
    t.Sized P.trgswLv1.N ∧ y < 2 ^ k ∧
      MEnc P s0 k (bootOut P L ck t w) y (bootNoise P L ck s0 s1 t w) := by
  have hm : 1 ≤ 2 ^ k := Nat.one_le_two_pow
  have hF : ∀ x : ℕ, x < 2 ^ k → f x = some ((fun x : ℕ => (f (x : ℕ)).getD 0) x) := by
    intro x hx
    obtain ⟨v, hv⟩ := Option.isSome_iff_exists.1 (hf x hx)
    simp [hv]
  obtain ⟨t', e', hA, hB, htab⟩ := C52_table fl W (2 ^ k) hm f _ hF
    (fun x => (newEncoder fl ((2 ^ k : ℕ) : ℤ)).val fl ((f (x : ℕ)).getD 0))
    (fun x _ => Encoder.encode_eq fl (newEncoder fl ((2 ^ k : ℕ) : ℤ)) _ (by show (0 : ℤ) < (2 ^ k : ℕ); positivity))
  obtain rfl : t = t' := Option.some.inj (ht.symm.trans e')
  have hSm := half_step_mul k hk
  have hphi := h.toInt hk hx (by omega)
  obtain ⟨p, hp, hslot⟩ := slot_of_margin W w s0 (msPhase_near W w s0) (2 ^ k) hm x (.inr ⟨hN, by
    rw [hphi]
    set S := 2 ^ 30 / 2 ^ k
    have e1 : 2 * ((2 ^ k : ℕ) : ℤ) * ((x : ℤ) * (2 * S) + e.toInt) - x * 2 ^ 32 = 2 * (2 ^ k : ℕ) * e.toInt := by
      have : ((2 ^ k : ℕ) : ℤ) * S = 2 ^ 30 := by rw [mul_comm]; exact_mod_cast hSm
      linear_combination 4 * (x : ℤ) * this
    rw [e1, abs_mul, abs_of_pos (by positivity : (0 : ℤ) < 2 * (2 ^ k : ℕ)), ← mul_add]
    have h2 : |e.toInt| + (drift P (weight P.tlweLv0.N s0) : ℤ) < S := by
      have : |e.toInt| = (nrm e : ℤ) := by unfold nrm; exact Int.abs_eq_natAbs _
      rw [this]; exact_mod_cast he
    have h3 : 2 * ((2 ^ k : ℕ) : ℤ) * (|e.toInt| + (drift P (weight P.tlweLv0.N s0) : ℤ)) < 2 * (2 ^ k : ℕ) * S :=
      mul_lt_mul_of_pos_left h2 (by positivity)
    have : ((2 ^ k : ℕ) : ℤ) * S = 2 ^ 30 := by rw [mul_comm]; exact_mod_cast hSm
    linarith⟩)
  have hph := phase_bootOut_slot W L ck s0 s1 t hA (2 ^ k) _ htab w x hx p hp hslot
  unfold msgApply at hy
  rw [hF x hx, Option.map_some, Option.some.injEq] at hy
  have hy0 : ((f (x : ℕ)).getD 0) % ((2 ^ k : ℕ) : ℤ) = (y : ℤ) := by
    rw [← hy, Int.toNat_of_nonneg (Int.emod_nonneg _ (by positivity))]
  have hyk : y < 2 ^ k := by
    have := Int.emod_lt_of_pos ((f (x : ℕ)).getD 0) (show (0 : ℤ) < (2 ^ k : ℕ) by positivity)
    rw [hy0] at this
    exact_mod_cast this
  refine ⟨⟨by rw [hA]; simp, hB⟩, hyk, length_bootPure P L _ _ _ _ _, ?_⟩
  rw [hph, newEncoder_pow2 fl hfl k (by omega) _ y hy0, half_step k hk]

theorem MEnc.add {P : Params} {s0 : List Torus} {k : ℕ} {a b : List Torus} {x y : ℕ} {ea eb : Torus}
    (ha : MEnc P s0 k a x ea) (hb : MEnc P s0 k b y eb) :
    ∃ r, tlwe0Add P a b = some r ∧ MEnc P s0 k r (x + y) (ea + eb) := by
  obtain ⟨⟨r, h1, h2, h3⟩, -⟩ := C07_linear P a b 0 ha.1 hb.1
  refine ⟨r, h1, h2, ?_⟩
  rw [h3, ha.2, hb.2, Nat.cast_add, add_mul, ofInt_add32]
  ring

theorem MEnc.sub {P : Params} {s0 : List Torus} {k : ℕ} {a b : List Torus} {x y : ℕ} {ea eb : Torus}
    (ha : MEnc P s0 k a x ea) (hb : MEnc P s0 k b y eb) (hxy : y ≤ x) :
    ∃ r, tlwe0Sub P a b = some r ∧ MEnc P s0 k r (x - y) (ea - eb) := by
  obtain ⟨-, ⟨r, h1, h2, h3⟩, -⟩ := C07_linear P a b 0 ha.1 hb.1
  refine ⟨r, h1, h2, ?_⟩
  have : BitVec.ofInt 32 ((x : ℤ) * (2 * (2 ^ 30 / 2 ^ k) : ℕ))
      = BitVec.ofInt 32 (((x - y : ℕ) : ℤ) * (2 * (2 ^ 30 / 2 ^ k) : ℕ))
        + BitVec.ofInt 32 ((y : ℤ) * (2 * (2 ^ 30 / 2 ^ k) : ℕ)) := by
    rw [← ofInt_add32, ← add_mul, ← Nat.cast_add, Nat.sub_add_cancel hxy]
  rw [h3, ha.2, hb.2, this]
  ring

theorem natCast_mul_ofInt (c : ℕ) (z : ℤ) : ((c : ℕ) : Torus) * BitVec.ofInt 32 z = BitVec.ofInt 32 (c * z) := by
  have h : ((c : ℕ) : Torus) = BitVec.ofInt 32 (c : ℤ) := by
    rw [← cast_int_eq, Int.cast_natCast]
  rw [h, BitVec.ofInt_mul]

theorem MEnc.addMul {P : Params} {s0 : List Torus} {k : ℕ} {a b : List Torus} {x y : ℕ} {ea eb : Torus}
    (ha : MEnc P s0 k a x ea) (hb : MEnc P s0 k b y eb) (c : ℕ) :
    ∃ r, tlwe0AddMul P a b (c : ℕ) = some r ∧ MEnc P s0 k r (x + c * y) (ea + (c : ℕ) * eb) := by
  obtain ⟨-, -, -, ⟨r, h1, h2, h3⟩, -⟩ := C07_linear P a b (c : ℕ) ha.1 hb.1
  refine ⟨r, h1, h2, ?_⟩
  rw [h3, ha.2, hb.2, mul_add, natCast_mul_ofInt, Nat.cast_add, add_mul, ofInt_add32, Nat.cast_mul c y, ← mul_assoc]
  ring

theorem MEnc.subMul {P : Params} {s0 : List Torus} {k : ℕ} {a b : List Torus} {x y : ℕ} {ea eb : Torus}
    (ha : MEnc P s0 k a x ea) (hb : MEnc P s0 k b y eb) (c : ℕ) (hxy : c * y ≤ x) :
    ∃ r, tlwe0SubMul P a b (c : ℕ) = some r ∧ MEnc P s0 k r (x - c * y) (ea - (c : ℕ) * eb) := by
  obtain ⟨-, -, -, -, ⟨r, h1, h2, h3⟩⟩ := C07_linear P a b (c : ℕ) ha.1 hb.1
  refine ⟨r, h1, h2, ?_⟩
  have : BitVec.ofInt 32 ((x : ℤ) * (2 * (2 ^ 30 / 2 ^ k) : ℕ))
      = BitVec.ofInt 32 (((x - c * y : ℕ) : ℤ) * (2 * (2 ^ 30 / 2 ^ k) : ℕ))
        + BitVec.ofInt 32 (c * ((y : ℤ) * (2 * (2 ^ 30 / 2 ^ k) : ℕ))) := by
    rw [← ofInt_add32, ← mul_assoc, ← add_mul, ← Nat.cast_mul c y, ← Nat.cast_add, Nat.sub_add_cancel hxy]
  rw [h3, ha.2, hb.2, mul_add, natCast_mul_ofInt, this]
  ring

/-- Every wire encrypts its message, with at most as many noises of size `η` as the meaning counts. -/
def MEncAll (P : Params) (s0 : List Torus) (k η : ℕ) (ws : List (List Torus)) (vs : List (ℕ × ℕ)) : Prop :=
  List.Forall₂ (fun w v => ∃ e, MEnc P s0 k w v.1 e ∧ nrm e ≤ v.2 * η) ws vs

theorem MEncAll.get {P : Params} {s0 : List Torus} {k η : ℕ} {ws : List (List Torus)} {vs : List (ℕ × ℕ)}
    (h : MEncAll P s0 k η ws vs) {i : ℕ} {v : ℕ × ℕ} (hv : vs[i]? = some v) :
    ∃ w e, ws[i]? = some w ∧ MEnc P s0 k w v.1 e ∧ nrm e ≤ v.2 * η := by
  unfold MEncAll at h
  induction h generalizing i with
  | nil => simp at hv
  | cons h1 h2 ih =>
    cases i with
    | zero =>
      simp only [List.getElem?_cons_zero, Option.some.injEq] at hv
      subst hv
      obtain ⟨e, he⟩ := h1
      exact ⟨_, e, rfl, he⟩
    | succ i =>
      simp only [List.getElem?_cons_succ] at hv ⊢
      exact ih hv

/-- Values of a well-formed state: below the modulus and within the budget. -/
def ValsOK (M B : ℕ) (vs : List (ℕ × ℕ)) : Prop := ∀ v ∈ vs, v.1 < M ∧ v.2 ≤ B

/-- The evaluator holds the tables of the functions. -/
def TablesOK (fl : ℚ → ℚ) (P : Params) (M : ℤ) (st : EvState O) (tabs : List (ℤ → Option ℤ)) : Prop :=
  ∀ (i : ℕ) (f : ℤ → Option ℤ), tabs[i]? = some f →
    (newGenerator fl P M).genLookUpTable fl P f = some (st.tr (.user (i + 1)))

/-- The bootstrappings of an instruction: table and ciphertext. -/
def MInstr.boots (fl : ℚ → ℚ) (P : Params) (M : ℤ) (st : EvState O) (ws : List (List Torus)) :
    MInstr → List (Trlwe × List Torus)
  | .lut t i => (ws[i]?.map fun w => (st.tr (.user (t + 1)), w)).toList
  | .func f i => (ws[i]?.bind fun w => ((newGenerator fl P M).genLookUpTable fl P f).map fun t => (t, w)).toList
  | _ => []

/-- Every bootstrapping of the run has noise at most `η`. -/
def ProgNoise (fl : ℚ → ℚ) (P : Params) (M : ℤ) (L : FourierLaws O) (ck : CloudKey O) (s0 s1 : List Torus) (η : ℕ) :
    EvState O → List (List Torus) → List MInstr → Prop
  | _, _, [] => True
  | st, ws, c :: cs =>
    (∀ p ∈ c.boots fl P M st ws, nrm (bootNoise P L ck s0 s1 p.1 p.2) ≤ η) ∧
      ∀ st' w, c.run fl P M ck st ws = some (st', w) → ProgNoise fl P M L ck s0 s1 η st' (ws ++ [w]) cs

theorem msgVal_some {M B x c : ℕ} {v : ℕ × ℕ} (h : msgVal M B x c = some v) : v = (x, c) ∧ x < M ∧ c ≤ B := by
  unfold msgVal at h
  split_ifs at h with hc
  exact ⟨(Option.some.inj h).symm, hc⟩

theorem genLookUpTable_some {P : Params} (W : WellFormed P) (fl : ℚ → ℚ) (k : ℕ) (f : ℤ → Option ℤ)
    (hf : ∀ x < 2 ^ k, (f (x : ℕ)).isSome) :
    ∃ t, (newGenerator fl P ((2 ^ k : ℕ) : ℤ)).genLookUpTable fl P f = some t := by
  obtain ⟨t, h, -⟩ := C52_table fl W (2 ^ k) Nat.one_le_two_pow f (fun x : ℕ => (f (x : ℕ)).getD 0)
    (fun x hx => by obtain ⟨v, hv⟩ := Option.isSome_iff_exists.1 (hf x hx); simp [hv])
    (fun x => (newEncoder fl ((2 ^ k : ℕ) : ℤ)).val fl ((f (x : ℕ)).getD 0))
    (fun x _ => Encoder.encode_eq fl (newEncoder fl ((2 ^ k : ℕ) : ℤ)) _ (by show (0 : ℤ) < (2 ^ k : ℕ); positivity))
  exact ⟨t, h⟩

/-- One call of a program. -/
theorem minstr_step {P : Params} (W : WellFormed P) (L : FourierLaws O) (hd : O.deg = P.trgswLv1.N)
    (ck : CloudKey O) (hb : GoodBsk P L ck.bootstrappingKey) (hks : GoodKsk P ck.keySwitchingKey)
    (s0 s1 : List Torus) (fl : ℚ → ℚ) (hfl : IsRound fl) (k : ℕ) (hk : k ≤ 29) (hN : 2 * 2 ^ k ∣ P.trgswLv1.N)
    {B η : ℕ} (hB : 1 ≤ B) (hη : B * η + drift P (weight P.tlweLv0.N s0) < 2 ^ 30 / 2 ^ k)
    (tabs : List (ℤ → Option ℤ)) (htot : ∀ f ∈ tabs, ∀ x < 2 ^ k, (f (x : ℕ)).isSome)
    {st : EvState O} (hst : EvGood P L st) (hT : TablesOK fl P ((2 ^ k : ℕ) : ℤ) st tabs)
    {ws : List (List Torus)} {vs : List (ℕ × ℕ)} (h : MEncAll P s0 k η ws vs) (hv : ValsOK (2 ^ k) B vs)
    (c : MInstr) (hc : c.Total (2 ^ k)) {v : ℕ × ℕ} (he : c.eval (2 ^ k) B tabs vs = some v)
    (hn : ∀ p ∈ c.boots fl P ((2 ^ k : ℕ) : ℤ) st ws, nrm (bootNoise P L ck s0 s1 p.1 p.2) ≤ η) :
    ∃ st' w e, c.run fl P ((2 ^ k : ℕ) : ℤ) ck st ws = some (st', w) ∧ EvGood P L st' ∧
      TablesOK fl P ((2 ^ k : ℕ) : ℤ) st' tabs ∧ MEnc P s0 k w v.1 e ∧ nrm e ≤ v.2 * η ∧ v.1 < 2 ^ k ∧ v.2 ≤ B := by
  have mul_le : ∀ (c : ℕ) (e : Torus), nrm ((c : ℕ) * e) ≤ c * nrm e := by
    intro c e
    rw [← nsmul_eq_mul]
    induction c with
    | zero => simp
    | succ c ih => rw [succ_nsmul]; exact (nrm_add _ _).trans (by rw [add_mul, one_mul]; omega)
  cases c with
  | add i j =>
    simp only [MInstr.eval, Option.bind_eq_bind, Option.bind_eq_some_iff] at he
    obtain ⟨x, hx, y, hy, he⟩ := he
    obtain ⟨rfl, h1, h2⟩ := msgVal_some he
    obtain ⟨a, ea, ia, ha, na⟩ := h.get hx
    obtain ⟨b, eb, ib, hb, nb⟩ := h.get hy
    obtain ⟨r, hr, hE⟩ := ha.add hb
    refine ⟨st, r, _, by simp [MInstr.run, ia, ib, hr], hst, hT, hE, ?_, h1, h2⟩
    exact (nrm_add _ _).trans (by simp only [add_mul]; omega)
  | sub i j =>
    simp only [MInstr.eval, Option.bind_eq_bind, Option.bind_eq_some_iff] at he
    obtain ⟨x, hx, y, hy, he⟩ := he
    split_ifs at he with hxy
    obtain ⟨rfl, h1, h2⟩ := msgVal_some he
    obtain ⟨a, ea, ia, ha, na⟩ := h.get hx
    obtain ⟨b, eb, ib, hb, nb⟩ := h.get hy
    obtain ⟨r, hr, hE⟩ := ha.sub hb hxy
    refine ⟨st, r, _, by simp [MInstr.run, ia, ib, hr], hst, hT, hE, ?_, h1, h2⟩
    exact (nrm_sub _ _).trans (by simp only [add_mul]; omega)
  | addMul i j m =>
    simp only [MInstr.eval, Option.bind_eq_bind, Option.bind_eq_some_iff] at he
    obtain ⟨x, hx, y, hy, he⟩ := he
    obtain ⟨rfl, h1, h2⟩ := msgVal_some he
    obtain ⟨a, ea, ia, ha, na⟩ := h.get hx
    obtain ⟨b, eb, ib, hb, nb⟩ := h.get hy
    obtain ⟨r, hr, hE⟩ := ha.addMul hb m
    refine ⟨st, r, _, by simp only [MInstr.run, ia, ib, hr, Option.bind_eq_bind, Option.bind_some, Option.pure_def], hst, hT, hE, ?_, h1, h2⟩
    have := (mul_le m eb).trans (Nat.mul_le_mul_left m nb)
    exact (nrm_add _ _).trans (by simp only [add_mul, mul_assoc]; omega)
  | subMul i j m =>
    simp only [MInstr.eval, Option.bind_eq_bind, Option.bind_eq_some_iff] at he
    obtain ⟨x, hx, y, hy, he⟩ := he
    split_ifs at he with hxy
    obtain ⟨rfl, h1, h2⟩ := msgVal_some he
    obtain ⟨a, ea, ia, ha, na⟩ := h.get hx
    obtain ⟨b, eb, ib, hb, nb⟩ := h.get hy
    obtain ⟨r, hr, hE⟩ := ha.subMul hb m hxy
    refine ⟨st, r, _, by simp only [MInstr.run, ia, ib, hr, Option.bind_eq_bind, Option.bind_some, Option.pure_def], hst, hT, hE, ?_, h1, h2⟩
    have := (mul_le m eb).trans (Nat.mul_le_mul_left m nb)
    exact (nrm_sub _ _).trans (by simp only [add_mul, mul_assoc]; omega)
  | lut t i =>
    simp only [MInstr.eval, Option.bind_eq_bind, Option.bind_eq_some_iff, Option.pure_def, Option.some.injEq] at he
    obtain ⟨f, hf, x, hx, y, hy, rfl⟩ := he
    obtain ⟨a, ea, ia, ha, na⟩ := h.get hx
    obtain ⟨hxM, hxB⟩ := hv x (List.mem_of_getElem? hx)
    obtain ⟨hsz, hyM, hE⟩ := ha.lookup W L ck s0 s1 fl hfl k hk hN f (htot f (List.mem_of_getElem? hf)) _ (hT t f hf) a x.1 ea hxM
      (by have := Nat.mul_le_mul_right η hxB; omega) y hy
    have hlw : (st.setLw (.user 0) a).lw (.user 0) = a := by simp [EvState.setLw]
    have htr : ∀ r, (st.setLw (.user 0) a).tr r = st.tr r := fun _ => rfl
    obtain ⟨st', e1, g1, -, fr, -⟩ := bootstrapLUT_eq W L hd _ (hst.setLw_user 0 a) ck.bootstrappingKey hb
      ck.keySwitchingKey hks ck.decompositionOffset (.user 0) (.user (t + 1)) (by rw [hlw]; exact ha.1) (by simp)
      (by rw [htr]; exact hsz)
    rw [htr, hlw] at e1
    refine ⟨st', bootOut P L ck (st.tr (.user (t + 1))) a, _, by simp only [MInstr.run, ia]; exact e1, g1, ?_, hE, ?_, hyM, hB⟩
    · intro i f hf
      rw [fr (.user (i + 1)) (by simp [TRef.internal]), htr]
      exact hT i f hf
    · rw [one_mul]
      exact hn (st.tr (.user (t + 1)), a) (by simp [MInstr.boots, ia])
  | func f i =>
    simp only [MInstr.eval, Option.bind_eq_bind, Option.bind_eq_some_iff, Option.pure_def, Option.some.injEq] at he
    obtain ⟨x, hx, y, hy, rfl⟩ := he
    obtain ⟨a, ea, ia, ha, na⟩ := h.get hx
    obtain ⟨hxM, hxB⟩ := hv x (List.mem_of_getElem? hx)
    obtain ⟨t, ht⟩ := genLookUpTable_some W fl k f hc
    obtain ⟨hsz, hyM, hE⟩ := ha.lookup W L ck s0 s1 fl hfl k hk hN f hc t ht a x.1 ea hxM
      (by have := Nat.mul_le_mul_right η hxB; omega) y hy
    have hlw : ((st.setLw (.user 0) a).setTr (.user 0) t).lw (.user 0) = a := by simp [EvState.setLw, EvState.setTr]
    have htr : ((st.setLw (.user 0) a).setTr (.user 0) t).tr (.user 0) = t := EvState.setTr_tr _ _ _
    obtain ⟨st', e1, g1, -, fr, -⟩ := bootstrapLUT_eq W L hd _ ((hst.setLw_user 0 a).setTr_user 0 t) ck.bootstrappingKey hb
      ck.keySwitchingKey hks ck.decompositionOffset (.user 0) (.user 0) (by rw [hlw]; exact ha.1) (by simp)
      (by rw [htr]; exact hsz)
    rw [htr, hlw] at e1
    refine ⟨st', bootOut P L ck t a, _, ?_, g1, ?_, hE, ?_, hyM, hB⟩
    · simp only [MInstr.run, ia, bootstrapFunc, Option.bind_eq_bind, Option.bind_some, ht]
      exact e1
    · intro i f hf
      rw [fr (.user (i + 1)) (by simp [TRef.internal]), EvState.setTr_tr_ne _ _ _ _ (by simp)]
      exact hT i f hf
    · rw [one_mul]
      exact hn (t, a) (by simp only [MInstr.boots, ia, ht]; exact List.mem_singleton.2 rfl)

/-- **C76.** A program of sums, differences, table look-ups (any number with the same table) and bootstrapped functions,
run on encrypted messages with one evaluator: when its meaning is defined, it runs to its end, every wire encrypts the
value of the meaning, and decrypts to it. -/
theorem C76_program {P : Params} (W : WellFormed P) (L : FourierLaws O) (hd : O.deg = P.trgswLv1.N)
    (ck : CloudKey O) (hb : GoodBsk P L ck.bootstrappingKey) (hks : GoodKsk P ck.keySwitchingKey)
    (s0 s1 : List Torus) (hs0 : P.tlweLv0.N ≤ s0.length)
    (fl : ℚ → ℚ) (hfl : IsRound fl) (k : ℕ) (hk : k ≤ 29) (hN : 2 * 2 ^ k ∣ P.trgswLv1.N)
    {B η : ℕ} (hB : 1 ≤ B) (hη : B * η + drift P (weight P.tlweLv0.N s0) < 2 ^ 30 / 2 ^ k)
    (tabs : List (ℤ → Option ℤ)) (htot : ∀ f ∈ tabs, ∀ x < 2 ^ k, (f (x : ℕ)).isSome) (prog : List MInstr) :
    ∀ (_ : ∀ c ∈ prog, c.Total (2 ^ k)) (st : EvState O) (_ : EvGood P L st)
      (_ : TablesOK fl P ((2 ^ k : ℕ) : ℤ) st tabs) (ws : List (List Torus)) (vs vs' : List (ℕ × ℕ))
      (_ : MEncAll P s0 k η ws vs) (_ : ValsOK (2 ^ k) B vs) (_ : evalProgram (2 ^ k) B tabs vs prog = some vs')
      (_ : ProgNoise fl P ((2 ^ k : ℕ) : ℤ) L ck s0 s1 η st ws prog),
      ∃ st' ws', runProgram fl P ((2 ^ k : ℕ) : ℤ) ck st ws prog = some (st', ws') ∧ EvGood P L st' ∧
        MEncAll P s0 k η ws' vs' ∧
        List.Forall₂ (fun w v => decryptLWEMessage P w ((2 ^ k : ℕ) : ℤ) s0 = some ((v.1 : ℕ) : ℤ)) ws' vs' := by
  induction prog with
  | nil =>
    intro _ st hst _ ws vs vs' h hv he hn
    clear hn
    obtain rfl : vs = vs' := Option.some.inj he
    refine ⟨st, ws, rfl, hst, h, ?_⟩
    clear he
    unfold MEncAll at h
    induction h with
    | nil => exact .nil
    | cons h1 h2 ih =>
      obtain ⟨e, hE, hn⟩ := h1
      obtain ⟨hM, hB'⟩ := hv _ List.mem_cons_self
      refine .cons (hE.decrypts hk hM ?_ hs0) (ih fun v hv' => hv v (List.mem_cons_of_mem _ hv'))
      have := Nat.mul_le_mul_right η hB'
      omega
  | cons c cs ih =>
    intro htp st hst hT ws vs vs' h hv he hn
    simp only [evalProgram, Option.bind_eq_bind, Option.bind_eq_some_iff] at he
    obtain ⟨v, hev, he⟩ := he
    obtain ⟨st', w, e, hr, hg, hT', hE, hle, hM, hB'⟩ := minstr_step W L hd ck hb hks s0 s1 fl hfl k hk hN hB hη tabs
      htot hst hT h hv c (htp c List.mem_cons_self) hev hn.1
    obtain ⟨st2, ws2, hr2, rest⟩ := ih (fun c hc => htp c (List.mem_cons_of_mem _ hc)) st' hg hT' (ws ++ [w])
      (vs ++ [v]) vs' (List.rel_append h (.cons ⟨e, hE, hle⟩ .nil))
      (by
        intro u hu
        rcases List.mem_append.1 hu with hu | hu
        · exact hv u hu
        · obtain rfl := List.mem_singleton.1 hu
          exact ⟨hM, hB'⟩) he (hn.2 st' w hr)
    refine ⟨st2, ws2, ?_, rest⟩
    simp only [runProgram, hr, Option.bind_eq_bind, Option.bind_some, hr2]

/-- A fresh encryption. -/
theorem mEnc_of_encrypt (fl : ℚ → ℚ) (hfl : IsRound fl) (P : Params) (s0 : List Torus) (h0 : P.tlweLv0.N ≤ s0.length)
    (k : ℕ) (hk : k ≤ 29) (msg : ℤ) (draw : ℕ → Torus) (sample : ℚ) :
    ∃ c, encryptLWEMessage fl P (newTLWELv0 P) msg ((2 ^ k : ℕ) : ℤ) s0 draw sample = some c ∧
      MEnc P s0 k c (msg % ((2 ^ k : ℕ) : ℤ)).toNat (f64ToTorus sample) ∧ (msg % ((2 ^ k : ℕ) : ℤ)).toNat < 2 ^ k := by
  obtain ⟨r, hr⟩ := Int.eq_ofNat_of_zero_le (Int.emod_nonneg msg (show ((2 ^ k : ℕ) : ℤ) ≠ 0 by positivity))
  have hrm : r < 2 ^ k := by
    have := Int.emod_lt_of_pos msg (show (0 : ℤ) < (2 ^ k : ℕ) by positivity)
    omega
  obtain ⟨c, ec, lc, -, pc⟩ := encryptLWEMessage_eq fl P (newTLWELv0 P) s0 msg (2 ^ k) Nat.one_le_two_pow draw sample h0
    (by simp [newTLWELv0])
  rw [hr, enc_pow2 fl hfl k (by omega) r (by omega) (by exact_mod_cast hrm), half_step k hk] at pc
  rw [hr, Int.toNat_natCast]
  exact ⟨c, ec, ⟨by rw [lc]; simp [newTLWELv0], pc⟩, hrm⟩

/-- The inputs of a program: message and one noise each. -/
def inputVals (k : ℕ) (inputs : List (ℤ × (ℕ → Torus) × ℚ)) : List (ℕ × ℕ) :=
  inputs.map fun x => ((x.1 % ((2 ^ k : ℕ) : ℤ)).toNat, 1)

theorem mEncAll_of_encrypt (fl : ℚ → ℚ) (hfl : IsRound fl) (P : Params) (s0 : List Torus)
    (h0 : P.tlweLv0.N ≤ s0.length) (k : ℕ) (hk : k ≤ 29) {B η : ℕ} (hB : 1 ≤ B)
    (inputs : List (ℤ × (ℕ → Torus) × ℚ)) (hin : ∀ x ∈ inputs, nrm (f64ToTorus x.2.2) ≤ η) :
    ∃ ws, (inputs.mapM fun x => encryptLWEMessage fl P (newTLWELv0 P) x.1 ((2 ^ k : ℕ) : ℤ) s0 x.2.1 x.2.2) = some ws ∧
      MEncAll P s0 k η ws (inputVals k inputs) ∧ ValsOK (2 ^ k) B (inputVals k inputs) := by
  induction inputs with
  | nil => exact ⟨[], rfl, .nil, by simp [ValsOK, inputVals]⟩
  | cons x xs ih =>
    obtain ⟨ws, h, hE, hV⟩ := ih fun y hy => hin y (List.mem_cons_of_mem _ hy)
    obtain ⟨a, ea, ha, hlt⟩ := mEnc_of_encrypt fl hfl P s0 h0 k hk x.1 x.2.1 x.2.2
    refine ⟨a :: ws, ?_, .cons ⟨_, ha, by rw [one_mul]; exact hin x List.mem_cons_self⟩ hE, ?_⟩
    · rw [List.mapM_cons, ea, h]; rfl
    · intro v hv
      rcases List.mem_cons.1 hv with rfl | hv
      · exact ⟨hlt, hB⟩
      · exact hV v hv

theorem genTables_ok {P : Params} (W : WellFormed P) (fl : ℚ → ℚ) (k : ℕ) (tabs : List (ℤ → Option ℤ))
    (htot : ∀ f ∈ tabs, ∀ x < 2 ^ k, (f (x : ℕ)).isSome) :
    ∃ ts, genTables fl P ((2 ^ k : ℕ) : ℤ) tabs = some ts ∧
      ∀ st : EvState O, TablesOK fl P ((2 ^ k : ℕ) : ℤ) (st.setTables ts) tabs := by
  have main : ∃ ts, genTables fl P ((2 ^ k : ℕ) : ℤ) tabs = some ts ∧ ∀ (i : ℕ) (f : ℤ → Option ℤ), tabs[i]? = some f →
      ∃ t, ts[i]? = some t ∧ (newGenerator fl P ((2 ^ k : ℕ) : ℤ)).genLookUpTable fl P f = some t := by
    unfold genTables
    induction tabs with
    | nil => exact ⟨[], rfl, by simp⟩
    | cons f fs ih =>
      obtain ⟨ts, h1, h2⟩ := ih fun g hg => htot g (List.mem_cons_of_mem _ hg)
      obtain ⟨t, ht⟩ := genLookUpTable_some W fl k f (htot f List.mem_cons_self)
      refine ⟨t :: ts, ?_, ?_⟩
      · rw [List.mapM_cons, ht, h1]; rfl
      · intro i g hg
        cases i with
        | zero =>
          simp only [List.getElem?_cons_zero, Option.some.injEq] at hg ⊢
          subst hg
          exact ⟨t, rfl, ht⟩
        | succ i =>
          simp only [List.getElem?_cons_succ] at hg ⊢
          exact h2 i g hg
  obtain ⟨ts, h1, h2⟩ := main
  refine ⟨ts, h1, fun st i f hf => ?_⟩
  obtain ⟨t, ht, hg⟩ := h2 i f hf
  rw [hg]
  simp [EvState.setTables, ht]

theorem EvGood.setTables {P : Params} {L : FourierLaws O} {st : EvState O} (h : EvGood P L st) (ts : List Trlwe) :
    EvGood P L (st.setTables ts) := by
  refine ⟨h.dec_len, h.dec_row, h.four_len, h.four_ok, h.okA, h.okB, ?_, h.ext_len, h.pool_len, h.idx_lt⟩
  intro r hr
  cases r <;> first | exact h.tr_len _ hr | exact absurd hr (by simp [TRef.internal])

theorem mapM_decryptMsg {P : Params} {M : ℤ} {k0 : List Torus} {ws : List (List Torus)} {vs : List (ℕ × ℕ)}
    (h : List.Forall₂ (fun w v => decryptLWEMessage P w M k0 = some ((v.1 : ℕ) : ℤ)) ws vs) :
    (ws.mapM fun w => decryptLWEMessage P w M k0) = some (vs.map fun v => ((v.1 : ℕ) : ℤ)) := by
  induction h with
  | nil => rfl
  | cons h _ ih => rw [List.mapM_cons, h, ih]; rfl

theorem progNoise_of_bound {P : Params} (W : WellFormed P) (L : FourierLaws O) (hd : O.deg = P.trgswLv1.N)
    {D β κ : ℕ} {ck : CloudKey O} {s0 s1 : List Torus} (K : KeysOK P L D β κ ck s0 s1) {η : ℕ}
    (hB : bootBound P D β κ (weight P.tlweLv0.N s0) (weight P.trgswLv1.N s1) ≤ η) (fl : ℚ → ℚ) (M : ℤ)
    (prog : List MInstr) :
    ∀ (st : EvState O) (ws : List (List Torus)), ProgNoise fl P M L ck s0 s1 η st ws prog := by
  induction prog with
  | nil => intro _ _; trivial
  | cons c cs ih => exact fun st ws => ⟨fun p _ => (nrm_bootNoise W L hd K _ _).trans hB, fun st' w _ => ih st' _⟩

section

variable {fl : ℚ → ℚ} (hfl : IsRound fl) {fu : Fusing} {ce : ℚ → ℚ × ℚ} (hce : CexpAccurate ce (1 / 2 ^ 52))

include hfl hce

/-- **C76**, from key generation to decryption, everything in `float64` arithmetic: generate the keys under any schedules,
create the evaluator, generate the tables, encrypt the messages, run the program, decrypt all wires. Every wire decrypts
to the value of the meaning when the bootstrappings of this run have noise at most `η`. -/
theorem C76_end_to_end (level : SecurityLevel) {e : PolyEval ℚ}
    (he : newPolyEval (floatArith fl fu mathPi ce) ((paramsFor level).trgswLv1.N : ℤ) = some e)
    (k0 k1 : List Torus) (R : KeyGenRand)
    (h0 : (paramsFor level).tlweLv0.N ≤ k0.length) (h1 : k1.length = (paramsFor level).trgswLv1.N)
    (hb0 : IsBinary k0) (hb1 : IsBinary k1)
    (schedK schedB : List ℕ) (ck : CloudKey (fftOps (floatArith fl fu mathPi ce) e))
    (hck : newCloudKey (paramsFor level) _ k0 k1 R schedK schedB = some (true, ck))
    (k : ℕ) (hk : k ≤ 29) (hN : 2 * 2 ^ k ∣ (paramsFor level).trgswLv1.N) {B η : ℕ} (hB : 1 ≤ B)
    (hη : B * η + drift (paramsFor level) (weight (paramsFor level).tlweLv0.N k0) < 2 ^ 30 / 2 ^ k)
    (tabs : List (ℤ → Option ℤ)) (htot : ∀ f ∈ tabs, ∀ x < 2 ^ k, (f (x : ℕ)).isSome)
    (inputs : List (ℤ × (ℕ → Torus) × ℚ)) (hin : ∀ x ∈ inputs, nrm (f64ToTorus x.2.2) ≤ η)
    (tr0 : TRef → Trlwe) (lw0 : LRef → List Torus) :
    ∃ st ts ws, newEvaluator (paramsFor level) (fftOps (floatArith fl fu mathPi ce) e) tr0 lw0 = some st ∧
      genTables fl (paramsFor level) ((2 ^ k : ℕ) : ℤ) tabs = some ts ∧
      (inputs.mapM fun x => encryptLWEMessage fl (paramsFor level) (newTLWELv0 (paramsFor level)) x.1
        ((2 ^ k : ℕ) : ℤ) k0 x.2.1 x.2.2) = some ws ∧
      ∀ (L : FourierLaws (fftOps (floatArith fl fu mathPi ce) e)) (prog : List MInstr) (vs : List (ℕ × ℕ)),
        (∀ c ∈ prog, c.Total (2 ^ k)) →
        evalProgram (2 ^ k) B tabs (inputVals k inputs) prog = some vs →
        ProgNoise fl (paramsFor level) ((2 ^ k : ℕ) : ℤ) L ck k0 k1 η (st.setTables ts) ws prog →
        ∃ st' ws', runProgram fl (paramsFor level) ((2 ^ k : ℕ) : ℤ) ck (st.setTables ts) ws prog = some (st', ws') ∧
          (ws'.mapM fun w => decryptLWEMessage (paramsFor level) w ((2 ^ k : ℕ) : ℤ) k0)
            = some (vs.map fun v => ((v.1 : ℕ) : ℤ)) := by
  obtain ⟨⟨L, -⟩, hd, K, -⟩ := float_keys hfl hce level he k0 k1 R h0 h1 hb0 hb1
    (fun _ _ _ _ _ _ => nrm_le _) (fun _ _ _ _ _ _ => nrm_le _) schedK schedB ck hck
  have W := C63_wellFormed level
  obtain ⟨st, es, -⟩ := newEvaluator_good W L hd tr0 lw0
  obtain ⟨ts, hts, hT⟩ := genTables_ok (O := fftOps (floatArith fl fu mathPi ce) e) W fl k tabs htot
  obtain ⟨ws, hws, hE, hV⟩ := mEncAll_of_encrypt fl hfl (paramsFor level) k0 h0 k hk hB inputs hin
  refine ⟨st, ts, ws, es, hts, hws, fun L' prog vs htp hev hn => ?_⟩
  obtain ⟨st2, es2, hst, -⟩ := newEvaluator_good W L' hd tr0 lw0
  obtain rfl := Option.some.inj (es.symm.trans es2)
  obtain ⟨err, hbsk, -⟩ := (K L').bsk
  obtain ⟨st', ws', hr, -, -, hdec⟩ := C76_program W L' hd ck (goodBsk_of_isBsk L' hd hbsk) (K L').ksk_good k0 k1 h0 fl hfl
    k hk hN hB hη tabs htot prog htp (st.setTables ts) (hst.setTables ts) (hT st) ws _ vs hE hV hev hn
  exact ⟨st', ws', hr, mapM_decryptMsg hdec⟩

/-- **C76**, worst case: with the worst-case noise of the level below `η`, whatever the randomness was. -/
theorem C76_worst_case (level : SecurityLevel) {e : PolyEval ℚ}
    (he : newPolyEval (floatArith fl fu mathPi ce) ((paramsFor level).trgswLv1.N : ℤ) = some e)
    (k0 k1 : List Torus) (R : KeyGenRand)
    (h0 : (paramsFor level).tlweLv0.N ≤ k0.length) (h1 : k1.length = (paramsFor level).trgswLv1.N)
    (hb0 : IsBinary k0) (hb1 : IsBinary k1) {β κ : ℕ}
    (hβ : ∀ i < (paramsFor level).tlweLv0.N, ∀ j < 2 * (paramsFor level).trgswLv1.L,
      ∀ k < (paramsFor level).trgswLv1.N, nrm (f64ToTorus (R.bskSample i j k)) ≤ β)
    (hκ : ∀ i < (paramsFor level).trgswLv1.N, ∀ j < (paramsFor level).trgswLv1.IKS_T,
      ∀ k < 2 ^ (paramsFor level).trgswLv1.BASEBIT, nrm (f64ToTorus (R.kskSample i j k)) ≤ κ)
    (schedK schedB : List ℕ) (ck : CloudKey (fftOps (floatArith fl fu mathPi ce) e))
    (hck : newCloudKey (paramsFor level) _ k0 k1 R schedK schedB = some (true, ck))
    (k : ℕ) (hk : k ≤ 29) (hN : 2 * 2 ^ k ∣ (paramsFor level).trgswLv1.N) {B η : ℕ} (hB : 1 ≤ B)
    (hbound : bootBound (paramsFor level) (fftErr (paramsFor level)) β κ (weight (paramsFor level).tlweLv0.N k0)
      (weight (paramsFor level).trgswLv1.N k1) ≤ η)
    (hη : B * η + drift (paramsFor level) (weight (paramsFor level).tlweLv0.N k0) < 2 ^ 30 / 2 ^ k)
    (tabs : List (ℤ → Option ℤ)) (htot : ∀ f ∈ tabs, ∀ x < 2 ^ k, (f (x : ℕ)).isSome)
    (inputs : List (ℤ × (ℕ → Torus) × ℚ)) (hin : ∀ x ∈ inputs, nrm (f64ToTorus x.2.2) ≤ η)
    (prog : List MInstr) (htp : ∀ c ∈ prog, c.Total (2 ^ k)) (vs : List (ℕ × ℕ))
    (hev : evalProgram (2 ^ k) B tabs (inputVals k inputs) prog = some vs)
    (tr0 : TRef → Trlwe) (lw0 : LRef → List Torus) :
    ∃ st ts ws st' ws', newEvaluator (paramsFor level) (fftOps (floatArith fl fu mathPi ce) e) tr0 lw0 = some st ∧
      genTables fl (paramsFor level) ((2 ^ k : ℕ) : ℤ) tabs = some ts ∧
      (inputs.mapM fun x => encryptLWEMessage fl (paramsFor level) (newTLWELv0 (paramsFor level)) x.1
        ((2 ^ k : ℕ) : ℤ) k0 x.2.1 x.2.2) = some ws ∧
      runProgram fl (paramsFor level) ((2 ^ k : ℕ) : ℤ) ck (st.setTables ts) ws prog = some (st', ws') ∧
      (ws'.mapM fun w => decryptLWEMessage (paramsFor level) w ((2 ^ k : ℕ) : ℤ) k0)
        = some (vs.map fun v => ((v.1 : ℕ) : ℤ)) := by
  obtain ⟨⟨L, -⟩, hd, K, -⟩ := float_keys hfl hce level he k0 k1 R h0 h1 hb0 hb1 hβ hκ schedK schedB ck hck
  obtain ⟨st, ts, ws, a, b, c, h⟩ := C76_end_to_end hfl hce level he k0 k1 R h0 h1 hb0 hb1 schedK schedB ck hck k hk hN hB hη
    tabs htot inputs hin tr0 lw0
  obtain ⟨st', ws', d, f⟩ := h L prog vs htp hev
    (progNoise_of_bound (C63_wellFormed level) L hd (K L) hbound fl _ prog _ _)
  exact ⟨st, ts, ws, st', ws', a, b, c, d, f⟩

end

/-- Non-vacuity of `C76_worst_case` at 80 bit, messages modulo 4 and budget 2, a key of weight one and key noise at most
one: the numeric hypotheses hold, and a program with both kinds of functions and reuse of wires has a meaning. -/
example : bootBound (paramsFor 80) (fftErr (paramsFor 80)) 1 0
      (weight 550 (unitKey 550)) (weight 1024 (unitKey 1024)) ≤ 2 ^ 27 - 2 ^ 22 ∧
    2 * (2 ^ 27 - 2 ^ 22) + drift (paramsFor 80) (weight 550 (unitKey 550)) < 2 ^ 30 / 2 ^ 2 ∧
    2 * 2 ^ 2 ∣ (paramsFor 80).trgswLv1.N := by
  refine ⟨?_, ?_, by show 2 * 2 ^ 2 ∣ 1024; norm_num⟩
  · rw [weight_unitKey 550 (by norm_num), weight_unitKey 1024 (by norm_num)]
    show (1 + 1) * (1 + 1 * (1 + 2 ^ (32 - 3 * 6))) + 550 * (2 * 3 * 1024 * 2 ^ (6 - 1) * 1 + 29 * (1 + 1)) + 1
      + (1 * 2 ^ (31 - 2 * 7) + 1024 * (7 * 0)) ≤ 2 ^ 27 - 2 ^ 22
    norm_num
  · rw [weight_unitKey 550 (by norm_num)]
    show 2 * (2 ^ 27 - 2 ^ 22) + (1 + 1) * 2 ^ (30 - 10) < 2 ^ 30 / 2 ^ 2
    norm_num

/-- `max` of two messages in `0 .. 1`, modulo 4: add, look up `x ≠ 0`, then square it, with the sum used twice. -/
example : evalProgram 4 2 [fun x => some (if x = 0 then 0 else 1)] [(1, 1), (1, 1)]
    [.add 0 1, .lut 0 2, .func (fun x => some (x * x)) 2, .add 3 4]
    = some [(1, 1), (1, 1), (2, 2), (1, 1), (0, 1), (1, 2)] := by decide

end GoTfhe
