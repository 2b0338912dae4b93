import Verif.Lemmas.Tlwe
import Verif.Lemmas.Bits
import Verif.Model.Alias

/-!
# C05-C08, C12: LWE encryption and linear operations
-/

namespace GoTfhe

/-- The exact set of signed errors under which a Boolean ciphertext decrypts to `b`. -/
def boolMargin (b : Bool) (e : ℤ) : Prop :=
  if b then -2 ^ 29 ≤ e ∧ e < 3 * 2 ^ 29 else -3 * 2 ^ 29 ≤ e ∧ e < 2 ^ 29

/-- C05: encryption never panics and decryption returns the message exactly when the noise, read as
a signed torus error, is in the margin. Any receiver, mask, noise and key. -/
theorem C05_enc_dec_iff (P : Params) (t key : List Torus) (b : Bool) (draw : ℕ → Torus)
    (sample : ℚ) (hk : P.tlweLv0.N ≤ key.length) (ht : P.tlweLv0.N < t.length) :
    ∃ c, tlwe0EncryptBool P t b key draw sample = some c ∧
      (tlwe0DecryptBool P c key = some b ↔ boolMargin b (f64ToTorus sample).toInt) := by
  obtain ⟨c, hc, hl, -, hp⟩ :=
    tlwe0EncryptF64_eq P t key (if b then 0.125 else -0.125) draw sample hk ht
  refine ⟨c, hc, ?_⟩
  rw [tlwe0DecryptBool_eq P c key hk (by omega), hp, f64ToTorus_bool, Option.some.injEq, sign_margin]
  unfold boolMargin
  norm_num

/-- C05: in terms of the Gaussian sample itself, `|sample| < 1/8` suffices. -/
theorem C05_enc_dec (P : Params) (t key : List Torus) (b : Bool) (draw : ℕ → Torus)
    (sample : ℚ) (hk : P.tlweLv0.N ≤ key.length) (ht : P.tlweLv0.N < t.length)
    (hs : |sample| < 1 / 8) :
    (tlwe0EncryptBool P t b key draw sample).bind (fun c => tlwe0DecryptBool P c key) = some b := by
  obtain ⟨c, hc, h⟩ := C05_enc_dec_iff P t key b draw sample hk ht
  rw [hc]
  refine h.2 ?_
  have := toInt_of_small_sample sample hs
  unfold boolMargin
  split_ifs <;> omega

/-- C05, sharpness: noise of exactly `-1/8` is still accepted for true, `1/8` is not for false. -/
theorem C05_boundary :
    boolMargin true (f64ToTorus (-0.125)).toInt ∧ ¬ boolMargin false (f64ToTorus 0.125).toInt := by
  rw [f64ToTorus_eighth, f64ToTorus_neg_eighth]
  unfold boolMargin
  decide

/-- Non-vacuity for C05 at the default parameters. -/
example : (tlwe0EncryptBool (paramsFor 128) (newTLWELv0 (paramsFor 128)) true
    (tab 700 fun i => if i % 3 = 0 then 1 else 0) (fun i => BitVec.ofNat 32 (i * 2654435761)) (1 / 1000)).bind
    (fun c => tlwe0DecryptBool (paramsFor 128) c (tab 700 fun i => if i % 3 = 0 then 1 else 0)) = some true :=
  C05_enc_dec _ _ _ _ _ _ (by simp; rfl) (by simp [newTLWELv0])
    (by rw [abs_of_pos] <;> norm_num)

/-- C06: the same for level 1, where decryption locates `b` through the length of the key. -/
theorem C06_enc_dec_iff (P : Params) (t key : List Torus) (b : Bool) (draw : ℕ → Torus)
    (sample : ℚ) (hk : key.length = P.tlweLv1.N) (ht : P.tlweLv1.N < t.length) :
    ∃ c, tlwe1EncryptBool P t b key draw sample = some c ∧
      (tlwe1DecryptBool P c key = some b ↔ boolMargin b (f64ToTorus sample).toInt) := by
  obtain ⟨c, hc, hl, -, hp⟩ :=
    tlwe1EncryptF64_eq P t key (if b then 0.125 else -0.125) draw sample hk.ge ht
  refine ⟨c, hc, ?_⟩
  rw [tlwe1DecryptBool_eq P c key hk (by omega), hp, f64ToTorus_bool, Option.some.injEq, sign_margin]
  unfold boolMargin
  norm_num

/-- C06: `|sample| < 1/8` suffices. -/
theorem C06_enc_dec (P : Params) (t key : List Torus) (b : Bool) (draw : ℕ → Torus)
    (sample : ℚ) (hk : key.length = P.tlweLv1.N) (ht : P.tlweLv1.N < t.length)
    (hs : |sample| < 1 / 8) :
    (tlwe1EncryptBool P t b key draw sample).bind (fun c => tlwe1DecryptBool P c key) = some b := by
  obtain ⟨c, hc, h⟩ := C06_enc_dec_iff P t key b draw sample hk ht
  rw [hc]
  refine h.2 ?_
  have := toInt_of_small_sample sample hs
  unfold boolMargin
  split_ifs <;> omega

/-- C06: with a key longer than the dimension, level-1 decryption indexes outside the ciphertext
and panics (level 0 ignores the excess). -/
theorem C06_long_key_panics (P : Params) (t key : List Torus) (hk : P.tlweLv1.N < key.length)
    (ht : t.length = P.tlweLv1.N + 1) : tlwe1DecryptBool P t key = none := by
  unfold tlwe1DecryptBool
  simp only [decInner_eq _ t key hk.le (by omega)]
  change (rd t key.length).bind _ = none
  rw [rd_none _ _ (by omega)]; rfl

/-- Non-vacuity for C06. -/
example : (tlwe1EncryptBool (paramsFor 2) (newTLWELv1 (paramsFor 2)) false
    (tab 512 fun i => if i % 5 = 0 then 1 else 0) (fun i => BitVec.ofNat 32 (i * 2654435761)) (-1 / 9)).bind
    (fun c => tlwe1DecryptBool (paramsFor 2) c (tab 512 fun i => if i % 5 = 0 then 1 else 0)) = some false :=
  C06_enc_dec _ _ _ _ _ _ (by simp; rfl) (by simp [newTLWELv1])
    (by rw [abs_lt]; norm_num)

/-- C07: each linear operation succeeds on ciphertexts of the current dimension, gives a ciphertext
of that dimension, and acts on phases as the corresponding operation of `Z/2^32`, for every key. -/
theorem C07_linear (P : Params) (x y : List Torus) (m : Torus)
    (hx : x.length = P.tlweLv0.N + 1) (hy : y.length = P.tlweLv0.N + 1) :
    let n := P.tlweLv0.N
    (∃ c, tlwe0Add P x y = some c ∧ c.length = n + 1 ∧
      ∀ key, phase n c key = phase n x key + phase n y key) ∧
    (∃ c, tlwe0Sub P x y = some c ∧ c.length = n + 1 ∧
      ∀ key, phase n c key = phase n x key - phase n y key) ∧
    (∃ c, tlwe0Neg P x = some c ∧ c.length = n + 1 ∧ ∀ key, phase n c key = -phase n x key) ∧
    (∃ c, tlwe0AddMul P x y m = some c ∧ c.length = n + 1 ∧
      ∀ key, phase n c key = phase n x key + m * phase n y key) ∧
    (∃ c, tlwe0SubMul P x y m = some c ∧ c.length = n + 1 ∧
      ∀ key, phase n c key = phase n x key - m * phase n y key) := by
  intro n
  have hz : (newTLWELv0 P).length = n + 1 := by simp [newTLWELv0, n]
  have zl : ∀ f, zipLoop f x y (newTLWELv0 P) = some (tab (n + 1) fun i => f (at' x i) (at' y i)) := by
    intro f
    rw [zipLoop_eq f x y _ (by omega) (by omega), hz]
  refine ⟨⟨_, zl _, by simp, ?_⟩, ⟨_, zl _, by simp, ?_⟩, ⟨tab (n + 1) fun i => -at' x i, ?_, by simp, ?_⟩,
    ⟨_, zl _, by simp, ?_⟩, ⟨_, zl _, by simp, ?_⟩⟩
  · intro key
    rw [phase_tab]; unfold phase
    simp only [add_mul, Finset.sum_add_distrib]; ring
  · intro key
    rw [phase_tab]; unfold phase
    simp only [sub_mul, Finset.sum_sub_distrib]; ring
  · unfold tlwe0Neg
    simp only [hz]
    apply forRange_fill_full _ _ _ hz
    intro i hi r hr
    rw [rd_at' x i (by omega)]
    change wr r i (0 - at' x i) = _
    rw [zero_sub]
  · intro key
    rw [phase_tab]; unfold phase
    simp only [neg_mul, Finset.sum_neg_distrib]; ring
  · intro key
    rw [phase_tab]; unfold phase
    simp only [add_mul, Finset.sum_add_distrib, mul_sub, Finset.mul_sum]
    rw [Finset.sum_congr rfl (fun i _ => show at' y i * m * at' key i = m * (at' y i * at' key i) by ring)]
    ring
  · intro key
    rw [phase_tab]; unfold phase
    simp only [sub_mul, Finset.sum_sub_distrib, mul_sub, Finset.mul_sum]
    rw [Finset.sum_congr rfl (fun i _ => show at' y i * m * at' key i = m * (at' y i * at' key i) by ring)]
    ring

/-- C07, `AddAssign`: whatever `output` held before, it ends up with the sum of the operands' phases. -/
theorem C07_addAssign (P : Params) (x y out : List Torus) (hx : x.length = P.tlweLv0.N + 1)
    (hy : y.length = P.tlweLv0.N + 1) (ho : out.length = P.tlweLv0.N + 1) :
    ∃ c, tlwe0AddAssign x y out = some c ∧ c.length = P.tlweLv0.N + 1 ∧ tlwe0Add P x y = some c ∧
      ∀ key, phase P.tlweLv0.N c key = phase P.tlweLv0.N x key + phase P.tlweLv0.N y key := by
  obtain ⟨⟨c, hc, hl, hp⟩, -⟩ := C07_linear P x y 0 hx hy
  refine ⟨c, ?_, hl, hc, hp⟩
  have hz : (newTLWELv0 P).length = P.tlweLv0.N + 1 := by simp [newTLWELv0]
  rw [← hc]
  unfold tlwe0AddAssign tlwe0Add
  rw [zipLoop_eq _ x y _ (by omega) (by omega), zipLoop_eq _ x y _ (by omega) (by omega), hz, ho]

/-- C07, `Mul`: the element-wise product of the two ciphertexts, in every component. -/
theorem C07_mul (P : Params) (x y : List Torus) (hx : x.length = P.tlweLv0.N + 1) (hy : y.length = P.tlweLv0.N + 1) :
    ∃ c, tlwe0Mul P x y = some c ∧ c.length = P.tlweLv0.N + 1 ∧
      ∀ i < P.tlweLv0.N + 1, at' c i = at' x i * at' y i := by
  have hz : (newTLWELv0 P).length = P.tlweLv0.N + 1 := by simp [newTLWELv0]
  refine ⟨_, ?_, ?_, fun i hi => at'_tab (P.tlweLv0.N + 1) (fun i => at' x i * at' y i) i hi⟩
  · unfold tlwe0Mul
    rw [zipLoop_eq _ x y _ (by omega) (by omega), hz]
  · simp

/-- C07: `Mul` does not multiply messages. With one non-zero mask word, noise zero and the key bit set, the phase of the
product is minus the product of the phases. -/
theorem C07_mul_not_homomorphic (P : Params) (hn : 0 < P.tlweLv0.N) : ∃ x y c key : List Torus,
    IsBinary key ∧ tlwe0Mul P x y = some c ∧
      phase P.tlweLv0.N c key ≠ phase P.tlweLv0.N x key * phase P.tlweLv0.N y key := by
  let e : List Torus := tab (P.tlweLv0.N + 1) fun i => if i = 0 then 1 else 0
  obtain ⟨c, hc, -, h⟩ := C07_mul P e e (by simp [e]) (by simp [e])
  refine ⟨e, e, c, [1], by intro x hx; right; simpa using hx, hc, ?_⟩
  have ph : ∀ v : List Torus, (∀ i < P.tlweLv0.N + 1, at' v i = if i = 0 then 1 else 0) →
      phase P.tlweLv0.N v [1] = -1 := by
    intro v hv
    unfold phase
    rw [hv _ (by omega), if_neg (by omega), Finset.sum_eq_single_of_mem 0 (Finset.mem_range.2 hn) (fun i hi h0 => by
      rw [hv i (by have := Finset.mem_range.1 hi; omega), if_neg h0, zero_mul]), hv 0 (by omega), if_pos rfl]
    decide
  have he : ∀ i < P.tlweLv0.N + 1, at' e i = if i = 0 then 1 else 0 := fun i hi => at'_tab _ _ _ hi
  rw [ph c (fun i hi => by rw [h i hi, he i hi]; split_ifs <;> decide), ph e he]
  decide

/-- C07: operands shorter than the current dimension make `Add` panic instead of giving a wrong
ciphertext. -/
theorem C07_short_operand_panics (P : Params) (x y : List Torus)
    (hx : x.length < P.tlweLv0.N + 1) (hy : P.tlweLv0.N + 1 ≤ y.length) :
    tlwe0Add P x y = none := by
  unfold tlwe0Add zipLoop
  have hz : (newTLWELv0 P).length = P.tlweLv0.N + 1 := by simp [newTLWELv0]
  rw [hz]
  have := forRange_none (P.tlweLv0.N + 1) x.length hx
    (fun i r => do let a ← rd x i; let b ← rd y i; wr r i (a + b))
    (fun k => filled k (fun i => at' x i + at' y i) (newTLWELv0 P)) (by
      intro i hi
      simp only [rd_at' x i hi, rd_at' y i (by omega)]
      exact wr_filled i (fun i => at' x i + at' y i) _ (by omega)) (by
      simp only [rd_none x x.length le_rfl]; rfl)
  simpa using this

/-- Noise growth of the linear operations, a consequence of C07: errors add. -/
theorem C07_noise (P : Params) (x y : List Torus) (mx my : Torus) (key : List Torus)
    (hx : x.length = P.tlweLv0.N + 1) (hy : y.length = P.tlweLv0.N + 1) :
    ∃ c, tlwe0Add P x y = some c ∧
      nrm (phase P.tlweLv0.N c key - (mx + my)) ≤
        nrm (phase P.tlweLv0.N x key - mx) + nrm (phase P.tlweLv0.N y key - my) := by
  obtain ⟨⟨c, hc, -, h⟩, -⟩ := C07_linear P x y 0 hx hy
  refine ⟨c, hc, ?_⟩
  rw [h key, show phase P.tlweLv0.N x key + phase P.tlweLv0.N y key - (mx + my)
    = (phase P.tlweLv0.N x key - mx) + (phase P.tlweLv0.N y key - my) by ring]
  exact nrm_add _ _

/-- Non-vacuity for C07. -/
example : ∃ c, tlwe0Add (paramsFor 80) (tab 551 fun i => BitVec.ofNat 32 i) (tab 551 fun _ => 7) = some c :=
  let ⟨⟨c, h, _⟩, _⟩ := C07_linear (paramsFor 80) (tab 551 fun i => BitVec.ofNat 32 i) (tab 551 fun _ => 7) 0
    (by simp; rfl) (by simp; rfl)
  ⟨c, h⟩

/-- C08: `AddAssign` writes the sum of the original operands to `output` and touches nothing else,
for every choice of the three references, equal or not. -/
theorem C08_addAssign_alias (h : LHeap) (t other output : ℕ)
    (ht : (h output).length ≤ (h t).length) (ho : (h output).length ≤ (h other).length) :
    tlwe0AddAssignH h t other output =
      some (Function.update h output
        (tab (h output).length fun i => at' (h t) i + at' (h other) i)) := by
  unfold tlwe0AddAssignH
  set g : ℕ → Torus := fun i => at' (h t) i + at' (h other) i with hg
  set n := (h output).length with hn
  have key : ∀ (r k : ℕ), n ≤ (h r).length → k < n →
      rd (Function.update h output (filled k g (h output)) r) k = some (at' (h r) k) := by
    intro r k hr hk
    by_cases e : r = output
    · subst e
      rw [Function.update_self, rd, filled_getElem? _ _ _ hk.le, if_neg (lt_irrefl _)]
      exact rd_at' _ _ hk
    · rw [Function.update_of_ne e]; exact rd_at' _ _ (by omega)
  have := forRange_eq n (fun i (h : LHeap) => do
    let x ← rd (h t) i
    let y ← rd (h other) i
    let o ← wr (h output) i (x + y)
    pure (Function.update h output o))
    (fun k => Function.update h output (filled k g (h output))) (by
      intro k hk
      simp only [key t k ht hk, key other k ho hk, Function.update_self]
      change (wr (filled k g (h output)) k (g k)).bind _ = _
      rw [wr_filled k g _ hk]
      simp)
  simp only [filled_zero, Function.update_eq_self, filled_full' n g (h output) hn.symm] at this
  exact this

/-- Non-vacuity for C08: doubling a ciphertext in place. -/
example : tlwe0AddAssignH (fun _ => [1, 2, 3]) 0 0 0 =
    some (Function.update (fun _ => [1, 2, 3]) 0 [2, 4, 6]) := by
  rw [C08_addAssign_alias _ _ _ _ le_rfl le_rfl]; rfl

/-- C12: encrypting a bit slice and decrypting it, for every length, key and tape with small noise. -/
theorem C12_bits_roundtrip (P : Params) (bits : List Bool) (key : List Torus)
    (draws : ℕ → ℕ → Torus) (samples : ℕ → ℚ) (hk : P.tlweLv0.N ≤ key.length)
    (hs : ∀ i < bits.length, |samples i| < 1 / 8) :
    ∃ cs, encryptBits P bits key draws samples = some cs ∧ cs.length = bits.length ∧
      decryptBits P cs key = some bits := by
  have hz : P.tlweLv0.N < (newTLWELv0 P).length := by simp [newTLWELv0]
  have hc : ∀ i, ∃ c, tlwe0EncryptBool P (newTLWELv0 P) (bits.getD i false) key (draws i) (samples i)
      = some c ∧ (i < bits.length → tlwe0DecryptBool P c key = some (bits.getD i false)) := by
    intro i
    obtain ⟨c, hc, -⟩ := C05_enc_dec_iff P (newTLWELv0 P) key (bits.getD i false) (draws i) (samples i) hk hz
    refine ⟨c, hc, fun hi => ?_⟩
    have := C05_enc_dec P (newTLWELv0 P) key (bits.getD i false) (draws i) (samples i) hk hz (hs i hi)
    rw [hc] at this
    exact this
  choose g hg hd using hc
  refine ⟨tab bits.length g, ?_, by simp, ?_⟩
  · unfold encryptBits
    apply forRange_fill_full _ _ _ (by simp)
    intro i hi r hr
    have e : rd bits i = some (bits.getD i false) := by simp [rd, hi]
    rw [e]
    change (tlwe0EncryptBool P (newTLWELv0 P) (bits.getD i false) key (draws i) (samples i)).bind _ = _
    rw [hg i]; rfl
  · unfold decryptBits
    have : tab bits.length (fun i => bits.getD i false) = bits := by
      symm
      apply eq_tab_of _ _ _ rfl
      intro i hi; simp [hi]
    conv_rhs => rw [← this]
    rw [length_tab]
    apply forRange_fill_full _ _ _ (by simp)
    intro i hi r hr
    rw [rd_tab _ _ _ hi]
    change (tlwe0DecryptBool P (g i) key).bind _ = _
    rw [hd i hi]; rfl

/-- C12: whole integers of every width `w ≤ 64` go through bit encryption unchanged. -/
theorem C12_int_roundtrip (P : Params) (w : ℕ) (hw : w ≤ 64) (v : BitVec w) (key : List Torus)
    (draws : ℕ → ℕ → Torus) (samples : ℕ → ℚ) (hk : P.tlweLv0.N ≤ key.length)
    (hs : ∀ i < w, |samples i| < 1 / 8) :
    ((((toBits (v.zeroExtend 64) w).bind fun bits => encryptBits P bits key draws samples).bind
      fun cs => decryptBits P cs key).bind (convertU w)) = some v := by
  rw [toBits_eq]
  obtain ⟨cs, h1, -, h2⟩ := C12_bits_roundtrip P (tab w fun i => (v.zeroExtend 64).toNat.testBit i) key
    draws samples hk (by simpa using hs)
  simp only [Option.bind_some]
  rw [h1]
  simp only [Option.bind_some]
  rw [h2]
  simp only [Option.bind_some]
  rw [convertU_eq, valLE_tab]
  congr 1
  apply BitVec.eq_of_toNat_eq
  have h := v.isLt
  rw [BitVec.toNat_ofNat, Nat.mod_mod, BitVec.toNat_setWidth,
    Nat.mod_eq_of_lt (lt_of_lt_of_le h (Nat.pow_le_pow_right (by norm_num) hw)), Nat.mod_eq_of_lt h]

end GoTfhe
