import Verif.Lemmas.ProxyReenc
import Verif.Props.LweMessage
import Verif.Props.Tlwe
import Verif.Props.KeySwitch
import Verif.Props.Gates

/-!
# C59 – C62: public-key encryption and proxy re-encryption
-/

namespace GoTfhe

/-! ### C59 -/

theorem f64ToTorus_zero' : f64ToTorus 0 = 0 := by
  have := f64ToTorus_int_div 0 (by norm_num) (by norm_num)
  simpa using this

/-- The contribution of zero encryption `e` with noise `x`: nothing if it is not selected, `x` or `-x` if it
is, depending on the second coin. -/
def signedNoise (sel add : Bool) (x : Torus) : Torus :=
  match sel, add with
  | false, _ => 0
  | true, true => x
  | true, false => -x

theorem factor_mul (c : Coins) (e : ℕ) (x : Torus) : c.factor e * x = signedNoise (c.sel e) (c.add e) x := by
  unfold Coins.factor signedNoise
  cases c.sel e
  · exact zero_mul x
  · cases c.add e
    · exact neg_one_mul x
    · exact one_mul x

/-- **C59.** For every public key of ciphertexts of the right size, every plaintext and every outcome of the
coins, public-key encryption succeeds and the phase under any secret key is exactly the plaintext plus the
fresh noise plus the signed sum of the phases of the selected entries. -/
theorem C59_phase (P : Params) (pk : List (List Torus)) (hpk : ∀ e ∈ pk, e.length = P.tlweLv0.N + 1)
    (p : ℚ) (coins : Coins) (sample : ℚ) :
    ∃ c, pkEncryptF64 P pk p coins sample = some c ∧ c.length = P.tlweLv0.N + 1 ∧
      ∀ s, phase P.tlweLv0.N c s = f64ToTorus p + f64ToTorus sample
        + ∑ e ∈ Finset.range pk.length,
            signedNoise (coins.sel e) (coins.add e) (phase P.tlweLv0.N (entry pk e) s) := by
  refine ⟨_, pkEncryptF64_eq P pk p coins sample (fun e he => (hpk e he).ge), by simp [pkOut], ?_⟩
  intro s
  rw [phase_pkOut]
  congr 1
  · unfold gaussianF64 gaussianTorus
    rw [f64ToTorus_zero', zero_add]
  · exact Finset.sum_congr rfl fun e _ => factor_mul coins e _

/-- **C59.** A key made by `NewPublicKeyLv0WithParams` (any size) from `s`: the phase of a ciphertext under
`s` is message + fresh noise + signed sum of the Gaussian draws of the selected entries. -/
theorem C59_newPublicKey (P : Params) (s : List Torus) (size : ℕ) (draw : ℕ → ℕ → Torus) (noise : ℕ → ℚ)
    (hs : P.tlweLv0.N ≤ s.length) (p : ℚ) (coins : Coins) (sample : ℚ) :
    ∃ pk c, newPublicKeyLv0WithParams P s size draw noise = some pk ∧ pk.length = size ∧
      (∀ e ∈ pk, e.length = P.tlweLv0.N + 1) ∧
      pkEncryptF64 P pk p coins sample = some c ∧ c.length = P.tlweLv0.N + 1 ∧
      phase P.tlweLv0.N c s = f64ToTorus p + f64ToTorus sample
        + ∑ e ∈ Finset.range size, signedNoise (coins.sel e) (coins.add e) (f64ToTorus (noise e)) := by
  obtain ⟨pk, e, hl, hr, hp⟩ := newPublicKey_spec P s size draw noise hs
  obtain ⟨c, ec, hc, hph⟩ := C59_phase P pk hr p coins sample
  refine ⟨pk, c, e, hl, hr, ec, hc, ?_⟩
  rw [hph s, hl]
  congr 1
  apply Finset.sum_congr rfl
  intro i hi
  rw [(hp i (Finset.mem_range.1 hi)).1, f64ToTorus_zero', zero_add]

/-- **C59.** Booleans: with the default key (`2n` entries), decryption returns the message exactly when the
total noise is in the margin. -/
theorem C59_bool_iff (P : Params) (s : List Torus) (draw : ℕ → ℕ → Torus) (noise : ℕ → ℚ)
    (hs : P.tlweLv0.N ≤ s.length) (b : Bool) (coins : Coins) (sample : ℚ) :
    ∃ pk c, newPublicKeyLv0 P s draw noise = some pk ∧ pkEncryptBool P pk b coins sample = some c ∧
      (tlwe0DecryptBool P c s = some b ↔ boolMargin b
        (f64ToTorus sample + ∑ e ∈ Finset.range (P.tlweLv0.N * 2),
          signedNoise (coins.sel e) (coins.add e) (f64ToTorus (noise e))).toInt) := by
  obtain ⟨pk, c, e, -, -, ec, hl, hp⟩ := C59_newPublicKey P s (P.tlweLv0.N * 2) draw noise hs
    (if b then 0.125 else -0.125) coins sample
  refine ⟨pk, c, e, ec, ?_⟩
  rw [tlwe0DecryptBool_eq P c s hs (by omega), hp, f64ToTorus_bool, Option.some.injEq, add_assoc, sign_margin]
  unfold boolMargin
  norm_num

theorem nrm_signedNoise (a b : Bool) (x : Torus) : nrm (signedNoise a b x) ≤ nrm x := by
  cases a <;> cases b <;> simp [signedNoise, nrm_neg]

/-- **C59.** Hence every outcome of the coins decrypts correctly once the noises add up to less than `1/8`:
only the entries actually selected count. -/
theorem C59_bool (P : Params) (s : List Torus) (draw : ℕ → ℕ → Torus) (noise : ℕ → ℚ)
    (hs : P.tlweLv0.N ≤ s.length) (b : Bool) (coins : Coins) (sample : ℚ)
    (hn : nrm (f64ToTorus sample) + ∑ e ∈ Finset.range (P.tlweLv0.N * 2),
      (if coins.sel e then nrm (f64ToTorus (noise e)) else 0) < 2 ^ 29) :
    ∃ pk c, newPublicKeyLv0 P s draw noise = some pk ∧ pkEncryptBool P pk b coins sample = some c ∧
      tlwe0DecryptBool P c s = some b := by
  obtain ⟨pk, c, e, ec, h⟩ := C59_bool_iff P s draw noise hs b coins sample
  refine ⟨pk, c, e, ec, h.2 ?_⟩
  have hb : nrm (f64ToTorus sample + ∑ e ∈ Finset.range (P.tlweLv0.N * 2),
      signedNoise (coins.sel e) (coins.add e) (f64ToTorus (noise e))) < 2 ^ 29 := by
    refine lt_of_le_of_lt ((nrm_add _ _).trans (Nat.add_le_add_left ((nrm_sum _ _).trans ?_) _)) hn
    apply Finset.sum_le_sum
    intro i _
    by_cases hi : coins.sel i
    · rw [if_pos hi]; exact nrm_signedNoise _ _ _
    · rw [if_neg hi]
      have : coins.sel i = false := by simpa using hi
      rw [this]; exact (le_of_eq nrm_zero)
  unfold nrm at hb
  unfold boolMargin
  split_ifs <;> omega

/-- Non-vacuity: default parameters, all coins selecting and alternating signs, every entry with noise `2^-21`. -/
example : ∃ pk c, newPublicKeyLv0 (paramsFor 128) (tab 700 fun i => if i % 3 = 0 then 1 else 0)
      (fun e i => BitVec.ofNat 32 (e * 977 + i * 2654435761)) (fun _ => ((2048 : ℤ) : ℚ) / 2 ^ 32) = some pk ∧
    pkEncryptBool (paramsFor 128) pk true ⟨fun _ => true, fun e => e % 2 = 0⟩ 0 = some c ∧
    tlwe0DecryptBool (paramsFor 128) c (tab 700 fun i => if i % 3 = 0 then 1 else 0) = some true := by
  apply C59_bool
  · simp; rfl
  · rw [f64ToTorus_int_div _ (by norm_num) (by norm_num), f64ToTorus_zero', nrm_zero]
    simp only [if_true, Finset.sum_const, Finset.card_range]
    show 0 + (700 * 2) • nrm (BitVec.ofInt 32 2048) < 2 ^ 29
    decide

/-! ### C60 -/

/-- `rk` re-encrypts from `s1` to `s0` with digits of `b` bits and the given entry errors. -/
structure IsReencKey (n b : ℕ) (rk : ReencKey) (s1 s0 : List Torus) (err : ℕ → ℕ → ℕ → Torus) : Prop where
  base : rk.base = 2 ^ b
  len : rk.keyEncryptions.length = 2 ^ b * rk.t * n
  rows : ∀ e ∈ rk.keyEncryptions, e.length = n + 1
  enc : IsKsk n n b rk.t rk.keyEncryptions s0 s1 err

theorem mem_tab {α : Type*} {n : ℕ} {g : ℕ → α} {x : α} (h : x ∈ tab n g) : ∃ i < n, g i = x := by
  obtain ⟨i, hi, rfl⟩ := List.mem_map.1 h
  exact ⟨i, List.mem_range.1 hi, rfl⟩

theorem mkSlice_tab {α : Type*} (n : ℕ) (z : α) : mkSlice n z = tab n fun _ => z := by
  apply List.ext_getElem
  · simp [mkSlice]
  · intro i h1 h2
    simp [mkSlice, tab]

/-- Common part of the two constructors. -/
theorem reencKey_of_fill (P : Params) (b T : ℕ) (s1 s0 : List Torus) (undef : ℕ → ℕ → ℕ → ℚ)
    (mk : ℕ → ℕ → ℕ → ℚ → Option (List Torus)) (err : ℕ → ℕ → ℕ → Torus)
    (h1 : P.tlweLv0.N ≤ s1.length)
    (hmk : ∀ i < P.tlweLv0.N, ∀ j < T, ∀ k, k ≠ 0 → k < 2 ^ b → ∀ p, ∃ c, mk i j k p = some c ∧
      c.length = P.tlweLv0.N + 1 ∧ phase P.tlweLv0.N c s0 = f64ToTorus p + err i j k) :
    ∃ t, reencFill P.tlweLv0.N (2 ^ b) b T s1 undef mk (mkSlice (2 ^ b * T * P.tlweLv0.N) (newTLWELv0 P)) = some t ∧
      t.length = 2 ^ b * T * P.tlweLv0.N ∧ (∀ e ∈ t, e.length = P.tlweLv0.N + 1) ∧
      (b * T ≤ 31 → IsBinary s1 → IsKsk P.tlweLv0.N P.tlweLv0.N b T t s0 s1 err) := by
  set n := P.tlweLv0.N with hn
  set B := 2 ^ b with hB
  have hBpos : 0 < B := by positivity
  set val : ℕ → List Torus := fun x =>
    (mk (x / (B * T)) (x / B % T) (x % B) (reencPlain (x % B) ((x / B % T + 1) * b) (at' s1 (x / (B * T)))
      (undef (x / (B * T)) (x / B % T) (x % B)))).getD [] with hval
  have dec : ∀ i j k, j < T → k < B → (B * T * i + B * j + k) % B = k ∧ (B * T * i + B * j + k) / B % T = j ∧
      (B * T * i + B * j + k) / (B * T) = i := by
    intro i j k hj hk
    have e : B * T * i + B * j + k = k + B * (j + T * i) := by ring
    have h1 : (B * T * i + B * j + k) / B = j + T * i := by
      rw [e, Nat.add_mul_div_left _ _ hBpos, Nat.div_eq_of_lt hk, zero_add]
    refine ⟨?_, ?_, ?_⟩
    · rw [e, Nat.add_mul_mod_self_left, Nat.mod_eq_of_lt hk]
    · rw [h1, Nat.add_mul_mod_self_left, Nat.mod_eq_of_lt hj]
    · rw [← Nat.div_div_eq_div_mul, h1, Nat.add_mul_div_left _ _ (by omega), Nat.div_eq_of_lt hj, zero_add]
  have hv : ∀ i < n, ∀ j < T, ∀ k, k ≠ 0 → k < B →
      mk i j k (reencPlain k ((j + 1) * b) (at' s1 i) (undef i j k)) = some (val (B * T * i + B * j + k)) := by
    intro i hi j hj k h0 hk
    obtain ⟨d1, d2, d3⟩ := dec i j k hj hk
    obtain ⟨c, e, -⟩ := hmk i hi j hj k h0 hk (reencPlain k ((j + 1) * b) (at' s1 i) (undef i j k))
    simp only [hval]
    rw [d1, d2, d3, e]; rfl
  have hfill := reencFill_eq n B b T s1 undef mk (newTLWELv0 P) h1 val hv
  rw [← mkSlice_tab] at hfill
  refine ⟨_, hfill, by simp, ?_, ?_⟩
  · intro e he
    obtain ⟨x, hx, rfl⟩ := mem_tab he
    by_cases h0 : x % B = 0
    · rw [if_neg (by simpa using h0)]; simp [newTLWELv0, hn]
    · rw [if_pos h0]
      have hBT : 0 < B * T := by
        rcases Nat.eq_zero_or_pos (B * T) with h | h
        · rw [h, zero_mul] at hx; omega
        · exact h
      have hTpos : 0 < T := Nat.pos_of_mul_pos_left hBT
      have hi : x / (B * T) < n := Nat.div_lt_of_lt_mul hx
      have hj : x / B % T < T := Nat.mod_lt _ hTpos
      obtain ⟨c, e, hc, -⟩ := hmk _ hi _ hj _ h0 (Nat.mod_lt x hBpos)
        (reencPlain (x % B) ((x / B % T + 1) * b) (at' s1 (x / (B * T)))
          (undef (x / (B * T)) (x / B % T) (x % B)))
      simp only [hval]
      rw [e]; exact hc
  · intro hT hbin i hi j hj k hk1 hk2
    obtain ⟨d1, d2, d3⟩ := dec i j k hj hk2
    have hlt : B * T * i + B * j + k < B * T * n := by
      have a1 : B * (j + 1) ≤ B * T := Nat.mul_le_mul_left _ hj
      have a2 : B * T * (i + 1) ≤ B * T * n := Nat.mul_le_mul_left _ hi
      rw [Nat.mul_add] at a1 a2
      omega
    obtain ⟨c, e, -, hp⟩ := hmk i hi j hj k (by omega) hk2 (reencPlain k ((j + 1) * b) (at' s1 i) (undef i j k))
    have : entry (tab (B * T * n) fun x => if x % B ≠ 0 then val x else newTLWELv0 P) (B * T * i + B * j + k)
        = c := by
      unfold entry
      rw [List.getD_eq_getElem?_getD, getElem?_tab, if_pos hlt, Option.getD_some, d1, if_pos (by omega)]
      have := hv i hi j hj k (by omega) hk2
      rw [e] at this
      exact (Option.some.inj this).symm
    rw [this, hp, reencPlain_torus k b j T (at' s1 i) _ (isBinary_at' hbin i) hj hT hk2]

/-- **C60**, symmetric constructor: for every pair of keys and every `basebit`, `t` it succeeds, and with
`basebit*t ≤ 31` and a binary source key the result is a re-encryption key whose entry errors are the Gaussian
draws. -/
theorem C60_symmetric (P : Params) (keyFrom keyTo : List Torus) (b T : ℕ) (draw : ℕ → ℕ → ℕ → ℕ → Torus)
    (sample : ℕ → ℕ → ℕ → ℚ) (undef : ℕ → ℕ → ℕ → ℚ)
    (h1 : P.tlweLv0.N ≤ keyFrom.length) (h0 : P.tlweLv0.N ≤ keyTo.length) :
    ∃ rk, newReencKeySym P keyFrom keyTo b T draw sample undef = some rk ∧ rk.base = 2 ^ b ∧ rk.t = T ∧
      rk.keyEncryptions.length = 2 ^ b * T * P.tlweLv0.N ∧
      (b * T ≤ 31 → IsBinary keyFrom →
        IsReencKey P.tlweLv0.N b rk keyFrom keyTo fun i j k => f64ToTorus (sample i j k)) := by
  obtain ⟨t, e, hl, hr, hk⟩ := reencKey_of_fill P b T keyFrom keyTo undef
    (fun i j k p => tlwe0EncryptF64 P (newTLWELv0 P) p keyTo (draw i j k) (sample i j k))
    (fun i j k => f64ToTorus (sample i j k)) h1 (by
      intro i _ j _ k _ _ p
      obtain ⟨c, e, hl, -, hp⟩ := tlwe0EncryptF64_eq P (newTLWELv0 P) keyTo p (draw i j k) (sample i j k) h0
        (by simp [newTLWELv0])
      exact ⟨c, e, by rw [hl]; simp [newTLWELv0], hp⟩)
  refine ⟨⟨t, 2 ^ b, T⟩, ?_, rfl, rfl, hl, fun hT hb => ⟨rfl, hl, hr, hk hT hb⟩⟩
  unfold newReencKeySym
  simp only [Nat.one_shiftLeft]
  rw [e]; rfl

/-- **C60**, asymmetric constructor: the same with a public key; the error of an entry is the fresh draw plus
the signed sum of the selected noises of the public key. -/
theorem C60_asymmetric (P : Params) (keyFrom keyTo : List Torus) (pk : List (List Torus)) (b T : ℕ)
    (coins : ℕ → ℕ → ℕ → Coins) (sample : ℕ → ℕ → ℕ → ℚ) (undef : ℕ → ℕ → ℕ → ℚ)
    (h1 : P.tlweLv0.N ≤ keyFrom.length) (hpk : ∀ e ∈ pk, e.length = P.tlweLv0.N + 1) :
    ∃ rk, newReencKeyAsym P keyFrom pk b T coins sample undef = some rk ∧ rk.base = 2 ^ b ∧ rk.t = T ∧
      rk.keyEncryptions.length = 2 ^ b * T * P.tlweLv0.N ∧
      (b * T ≤ 31 → IsBinary keyFrom →
        IsReencKey P.tlweLv0.N b rk keyFrom keyTo fun i j k => f64ToTorus (sample i j k)
          + ∑ e ∈ Finset.range pk.length, signedNoise ((coins i j k).sel e) ((coins i j k).add e)
              (phase P.tlweLv0.N (entry pk e) keyTo)) := by
  obtain ⟨t, e, hl, hr, hk⟩ := reencKey_of_fill P b T keyFrom keyTo undef
    (fun i j k p => pkEncryptF64 P pk p (coins i j k) (sample i j k))
    (fun i j k => f64ToTorus (sample i j k)
          + ∑ e ∈ Finset.range pk.length, signedNoise ((coins i j k).sel e) ((coins i j k).add e)
              (phase P.tlweLv0.N (entry pk e) keyTo)) h1 (by
      intro i _ j _ k _ _ p
      obtain ⟨c, e, hl, hp⟩ := C59_phase P pk hpk p (coins i j k) (sample i j k)
      exact ⟨c, e, hl, by rw [hp keyTo, add_assoc]⟩)
  refine ⟨⟨t, 2 ^ b, T⟩, ?_, rfl, rfl, hl, fun hT hb => ⟨rfl, hl, hr, hk hT hb⟩⟩
  unfold newReencKeyAsym
  simp only [Nat.one_shiftLeft]
  rw [e]; rfl

/-- The error of one hop from a key of weight `w`. -/
def hopBound (n b T w E : ℕ) : ℕ := w * 2 ^ (31 - b * T) + n * (T * E)

/-- **C60.** Re-encryption of any ciphertext with any re-encryption key: the phase moves from `keyFrom` to
`keyTo` up to `|keyFrom|_1 * 2^(31-basebit*t) + n*t*E`. -/
theorem C60_reencrypt (P : Params) (ct keyFrom keyTo : List Torus) (rk : ReencKey) (b : ℕ)
    (err : ℕ → ℕ → ℕ → Torus) (E : ℕ) (hT : b * rk.t ≤ 31) (hT1 : 1 ≤ b * rk.t)
    (hrk : IsReencKey P.tlweLv0.N b rk keyFrom keyTo err)
    (hE : ∀ i < P.tlweLv0.N, ∀ j < rk.t, ∀ k, 1 ≤ k → k < 2 ^ b → nrm (err i j k) ≤ E)
    (hbin : IsBinary keyFrom) (hct : ct.length = P.tlweLv0.N + 1) :
    ∃ out, reencrypt P ct rk = some out ∧ out.length = P.tlweLv0.N + 1 ∧
      nrm (phase P.tlweLv0.N out keyTo - phase P.tlweLv0.N ct keyFrom)
        ≤ hopBound P.tlweLv0.N b rk.t (weight P.tlweLv0.N keyFrom) E := by
  have hb31 : b ≤ 31 := by
    have : 1 ≤ rk.t := by
      rcases Nat.eq_zero_or_pos rk.t with h | h
      · rw [h] at hT1; omega
      · exact h
    nlinarith
  refine ⟨_, reencrypt_eq P ct rk b hrk.base hT (by omega) hct.ge hrk.len.ge (fun e he => (hrk.rows e he).ge),
    by simp [ksOut], ?_⟩
  exact ksOut_bound' _ _ _ _ _ _ _ _ err E hT hrk.enc hE (fun i _ => isBinary_at' hbin i)

/-- **C60.** `DecryptBool` is preserved for every ciphertext whose phase is farther than the bound from the two
places where the sign changes. -/
theorem C60_decryptBool (P : Params) (ct out keyFrom keyTo : List Torus) (B : ℕ)
    (h1 : P.tlweLv0.N ≤ keyFrom.length) (h0 : P.tlweLv0.N ≤ keyTo.length)
    (hct : ct.length = P.tlweLv0.N + 1) (hout : out.length = P.tlweLv0.N + 1)
    (hB : nrm (phase P.tlweLv0.N out keyTo - phase P.tlweLv0.N ct keyFrom) ≤ B)
    (hm1 : B < nrm (phase P.tlweLv0.N ct keyFrom)) (hm2 : nrm (phase P.tlweLv0.N ct keyFrom) + B < 2 ^ 31) :
    tlwe0DecryptBool P out keyTo = tlwe0DecryptBool P ct keyFrom := by
  rw [tlwe0DecryptBool_eq P out keyTo h0 (by omega), tlwe0DecryptBool_eq P ct keyFrom h1 (by omega)]
  congr 1
  set p := phase P.tlweLv0.N ct keyFrom
  set q := phase P.tlweLv0.N out keyTo
  have e : q = p + (q - p) := by ring
  have hq : q.toInt = p.toInt + (q - p).toInt := by
    conv_lhs => rw [e, toInt_add32]
    unfold nrm at hB hm1 hm2
    obtain ⟨k, hk, hl, hh⟩ := bmod32_cases (p.toInt + (q - p).toInt)
    omega
  unfold nrm at hB hm1 hm2
  rw [decide_eq_decide, hq]
  omega

/-- **C60.** `DecryptLWEMessage` is preserved: a ciphertext of message `r` modulo `m` (phase `r*2^31/m + d`)
whose error `d` leaves room for the bound still decrypts to `r`. -/
theorem C60_decryptMessage (P : Params) (ct out keyFrom keyTo : List Torus) (B m r : ℕ) (d : ℤ)
    (hm : 1 ≤ m) (hm2 : m ≤ 2 ^ 31) (hr : r < m)
    (h0 : P.tlweLv0.N ≤ keyTo.length) (hout : out.length = P.tlweLv0.N + 1)
    (hB : nrm (phase P.tlweLv0.N out keyTo - phase P.tlweLv0.N ct keyFrom) ≤ B)
    (hph : phase P.tlweLv0.N ct keyFrom = BitVec.ofInt 32 ((r : ℤ) * (2 ^ 31 / m : ℕ) + d))
    (hd1 : -((2 ^ 31 / m / 2 : ℕ) : ℤ) ≤ d - B)
    (hd2 : d + B < (2 ^ 31 / m : ℕ) - ((2 ^ 31 / m / 2 : ℕ) : ℤ)) :
    decryptLWEMessage P out m keyTo = some (r : ℤ) := by
  rw [decryptLWEMessage_eq P out keyTo m hm hm2 h0 (by omega)]
  set q := phase P.tlweLv0.N out keyTo
  rw [hph] at hB
  set x := (r : ℤ) * (2 ^ 31 / m : ℕ) + d
  have e : q = BitVec.ofInt 32 ((r : ℤ) * (2 ^ 31 / m : ℕ) + (d + (q - BitVec.ofInt 32 x).toInt)) := by
    rw [← add_assoc]
    show q = BitVec.ofInt 32 (x + (q - BitVec.ofInt 32 x).toInt)
    rw [ofInt_add32, ofInt_toInt32]; ring
  unfold nrm at hB
  rw [e, decodeMsg_near m hm hm2 r hr _ (by omega) (by omega)]

/-- **C60**, end to end with the defaults at any security level: a Boolean encrypted under `keyFrom` with noise
`x`, re-encrypted with a symmetric-mode key, decrypts under `keyTo`. -/
theorem C60_symmetric_bool (level : SecurityLevel) (keyFrom keyTo : List Torus)
    (h1 : keyFrom.length = (paramsFor level).tlweLv0.N) (h0 : keyTo.length = (paramsFor level).tlweLv0.N)
    (hbin : IsBinary keyFrom) (draw : ℕ → ℕ → ℕ → ℕ → Torus) (sample : ℕ → ℕ → ℕ → ℚ)
    (undef : ℕ → ℕ → ℕ → ℚ) (E : ℕ) (hE : ∀ i j k, nrm (f64ToTorus (sample i j k)) ≤ E)
    (m : Bool) (mdraw : ℕ → Torus) (x : ℚ)
    (hmargin : nrm (f64ToTorus x) + hopBound (paramsFor level).tlweLv0.N (paramsFor level).trgswLv1.BASEBIT
      (paramsFor level).trgswLv1.IKS_T (weight (paramsFor level).tlweLv0.N keyFrom) E < 2 ^ 29) :
    ∃ rk ct out, newReencKeySymDefault (paramsFor level) keyFrom keyTo draw sample undef = some rk ∧
      tlwe0EncryptBool (paramsFor level) (newTLWELv0 (paramsFor level)) m keyFrom mdraw x = some ct ∧
      reencrypt (paramsFor level) ct rk = some out ∧ tlwe0DecryptBool (paramsFor level) out keyTo = some m := by
  have W := C63_wellFormed level
  generalize paramsFor level = P at *
  obtain ⟨rk, e, -, hrt, -, hk⟩ := C60_symmetric P keyFrom keyTo P.trgswLv1.BASEBIT P.trgswLv1.IKS_T draw sample
    undef h1.ge h0.ge
  obtain ⟨ct, ec, hl, -, hp⟩ := tlwe0EncryptF64_eq P (newTLWELv0 P) keyFrom (if m then 0.125 else -0.125) mdraw x
    h1.ge (by simp [newTLWELv0])
  have hl' : ct.length = P.tlweLv0.N + 1 := by rw [hl]; simp [newTLWELv0]
  have hfit := W.ks_fits
  have hpos : 1 ≤ P.trgswLv1.BASEBIT * P.trgswLv1.IKS_T :=
    Nat.mul_le_mul W.basebit_pos W.iks_pos
  obtain ⟨out, eo, hlo, hb⟩ := C60_reencrypt P ct keyFrom keyTo rk P.trgswLv1.BASEBIT _ E (by rw [hrt]; exact hfit)
    (by rw [hrt]; exact hpos) (hk hfit hbin) (fun i _ j _ k _ _ => hE i j k) hbin hl'
  refine ⟨rk, ct, out, e, ec, eo, ?_⟩
  rw [hrt] at hb
  have := C05_enc_dec_iff P (newTLWELv0 P) keyFrom m mdraw x h1.ge (by simp [newTLWELv0])
  rw [tlwe0DecryptBool_eq P out keyTo h0.ge (by omega), Option.some.injEq]
  set q := phase P.tlweLv0.N out keyTo
  rw [hp, f64ToTorus_bool] at hb
  have e' : q = (if m then 536870912#32 else -536870912#32)
      + (f64ToTorus x + (q - ((if m then 536870912#32 else -536870912#32) + f64ToTorus x))) := by ring
  rw [e', sign_margin]
  have hn : nrm (f64ToTorus x + (q - ((if m then 536870912#32 else -536870912#32) + f64ToTorus x))) < 2 ^ 29 :=
    lt_of_le_of_lt ((nrm_add _ _).trans (Nat.add_le_add_left hb _)) hmargin
  generalize f64ToTorus x + (q - ((if m then 536870912#32 else -536870912#32) + f64ToTorus x)) = y at hn
  unfold nrm at hn
  split_ifs <;> omega

/-- Non-vacuity at the default level: a key of weight 100, entry errors up to 64. -/
example : nrm (f64ToTorus 0) + hopBound (paramsFor 128).tlweLv0.N (paramsFor 128).trgswLv1.BASEBIT
      (paramsFor 128).trgswLv1.IKS_T (weight (paramsFor 128).tlweLv0.N
        (tab 700 fun i => if i < 100 then 1 else 0)) 64 < 2 ^ 29 := by
  have : weight 700 (tab 700 fun i => if i < 100 then (1 : Torus) else 0) ≤ 700 := by
    unfold weight
    refine (Finset.sum_le_card_nsmul _ _ 1 ?_).trans (by simp)
    intro i hi
    rw [at'_tab _ _ _ (Finset.mem_range.1 hi)]
    split_ifs <;> decide
  rw [f64ToTorus_zero', nrm_zero]
  change weight (paramsFor 128).tlweLv0.N _ ≤ 700 at this
  generalize weight (paramsFor 128).tlweLv0.N _ = w at this
  show 0 + (w * 2 ^ (31 - 2 * 9) + 700 * (9 * 64)) < 2 ^ 29
  omega

/-! ### C61 -/

/-- A chain of re-encryption keys: each from the key before to the key after. `keys` are the targets. -/
inductive IsChain (n B : ℕ) : List Torus → List ReencKey → List Torus → Prop
  | nil (s : List Torus) : IsChain n B s [] s
  | cons {s s' s'' : List Torus} {rk : ReencKey} {rks : List ReencKey} (b : ℕ) (err : ℕ → ℕ → ℕ → Torus) (E : ℕ)
      (hbin : IsBinary s) (hT : b * rk.t ≤ 31) (hT1 : 1 ≤ b * rk.t) (hrk : IsReencKey n b rk s s' err)
      (hE : ∀ i < n, ∀ j < rk.t, ∀ k, 1 ≤ k → k < 2 ^ b → nrm (err i j k) ≤ E)
      (hB : hopBound n b rk.t (weight n s) E ≤ B) (rest : IsChain n B s' rks s'') :
      IsChain n B s (rk :: rks) s''

/-- **C61.** Along any chain of re-encryption keys the phase changes by at most the number of hops times the
bound of a single hop. The decomposition parameters may differ from hop to hop. -/
theorem C61_chain (P : Params) (B : ℕ) (rks : List ReencKey) (s0 sh : List Torus)
    (hc : IsChain P.tlweLv0.N B s0 rks sh) (ct : List Torus) (hct : ct.length = P.tlweLv0.N + 1) :
    ∃ out, reencryptChain P ct rks = some out ∧ out.length = P.tlweLv0.N + 1 ∧
      nrm (phase P.tlweLv0.N out sh - phase P.tlweLv0.N ct s0) ≤ rks.length * B := by
  induction hc generalizing ct with
  | nil s =>
    refine ⟨ct, rfl, hct, ?_⟩
    rw [sub_self, nrm_zero]; exact Nat.zero_le _
  | @cons s s' s'' rk rks b err E hbin hT hT1 hrk hE hB rest ih =>
    obtain ⟨mid, e, hl, h⟩ := C60_reencrypt P ct s s' rk b err E hT hT1 hrk hE hbin hct
    obtain ⟨out, eo, hlo, ho⟩ := ih mid hl
    refine ⟨out, ?_, hlo, ?_⟩
    · unfold reencryptChain at *
      rw [List.foldlM_cons, e]; exact eo
    · have : phase P.tlweLv0.N out s'' - phase P.tlweLv0.N ct s
          = (phase P.tlweLv0.N out s'' - phase P.tlweLv0.N mid s')
            + (phase P.tlweLv0.N mid s' - phase P.tlweLv0.N ct s) := by ring
      rw [this, List.length_cons, Nat.add_mul, Nat.one_mul]
      exact (nrm_add _ _).trans (Nat.add_le_add ho (h.trans hB))

/-- **C61.** Decryption along a chain: the sign survives as long as the phase has more than `h` hops' distance
from the boundaries. -/
theorem C61_chain_bool (P : Params) (B : ℕ) (rks : List ReencKey) (s0 sh : List Torus)
    (hc : IsChain P.tlweLv0.N B s0 rks sh) (h0 : P.tlweLv0.N ≤ s0.length) (hh : P.tlweLv0.N ≤ sh.length)
    (ct : List Torus) (hct : ct.length = P.tlweLv0.N + 1)
    (hm1 : rks.length * B < nrm (phase P.tlweLv0.N ct s0))
    (hm2 : nrm (phase P.tlweLv0.N ct s0) + rks.length * B < 2 ^ 31) :
    (reencryptChain P ct rks).bind (fun c => tlwe0DecryptBool P c sh) = tlwe0DecryptBool P ct s0 := by
  obtain ⟨out, e, hl, h⟩ := C61_chain P B rks s0 sh hc ct hct
  rw [e]
  exact C60_decryptBool P ct out s0 sh _ h0 hh hct hl h hm1 hm2

/-- Non-vacuity: chains of every length exist at every level, through any list of binary keys. -/
theorem chain_exists {P : Params} (W : WellFormed P) (keys : List (List Torus)) (s : List Torus)
    (hs : IsBinary s) (hl : s.length = P.tlweLv0.N)
    (hk : ∀ k ∈ keys, IsBinary k ∧ k.length = P.tlweLv0.N) :
    ∃ rks sh, rks.length = keys.length ∧ IsChain P.tlweLv0.N
      (P.tlweLv0.N * 2 ^ (31 - P.trgswLv1.BASEBIT * P.trgswLv1.IKS_T)) s rks sh ∧
      sh = keys.getLastD s := by
  induction keys generalizing s with
  | nil => exact ⟨[], s, rfl, .nil s, rfl⟩
  | cons k ks ih =>
    obtain ⟨hkb, hkl⟩ := hk k List.mem_cons_self
    obtain ⟨rks, sh, h1, h2, h3⟩ := ih k hkb hkl (fun x hx => hk x (List.mem_cons_of_mem _ hx))
    obtain ⟨rk, -, hb, ht, -, hrk⟩ := C60_symmetric P s k P.trgswLv1.BASEBIT P.trgswLv1.IKS_T
      (fun _ _ _ _ => 0) (fun _ _ _ => 0) (fun _ _ _ => 0) hl.ge hkl.ge
    refine ⟨rk :: rks, sh, by simp [h1], ?_, by rw [h3, List.getLastD_cons]⟩
    refine .cons P.trgswLv1.BASEBIT _ 0 hs (by rw [ht]; exact W.ks_fits)
      (by rw [ht]; exact Nat.mul_le_mul W.basebit_pos W.iks_pos) (hrk W.ks_fits hs) ?_ ?_ h2
    · intro i _ j _ k _ _
      rw [f64ToTorus_zero', nrm_zero]
    · unfold hopBound
      rw [ht, mul_zero, mul_zero, add_zero]
      apply Nat.mul_le_mul_right
      unfold weight
      refine (Finset.sum_le_card_nsmul _ _ 1 ?_).trans (by simp)
      intro i _
      rcases isBinary_at' hs i with h | h <;> rw [h] <;> decide

/-! ### C62 -/

/-- **C62.** With `basebit*t ≥ 32` re-encryption panics on every ciphertext and every key table. -/
theorem C62_panics (P : Params) (ct : List Torus) (rk : ReencKey) (b : ℕ) (hbase : rk.base = 2 ^ b) (hb : b ≤ 62)
    (hT : 32 ≤ b * rk.t) : reencrypt P ct rk = none := by
  unfold reencrypt
  rw [hbase, basebitLoop_pow b 63 0 (by omega) (by omega)]
  simp only [Option.bind_eq_bind, Option.bind_some]
  cases tlwe0B P ct with
  | none => rfl
  | some x =>
    rw [Option.bind_some]
    cases tlwe0SetB P (newTLWELv0 P) x with
    | none => rfl
    | some r => rw [Option.bind_some, if_pos (by omega)]

/-- **C62.** The keys made by the constructors with such parameters: both constructors succeed, and no
ciphertext can be re-encrypted with the result. -/
theorem C62_constructed_panics (P : Params) (keyFrom keyTo : List Torus) (pk : List (List Torus)) (b T : ℕ)
    (hb : b ≤ 62) (hT : 32 ≤ b * T) (h1 : P.tlweLv0.N ≤ keyFrom.length) (h0 : P.tlweLv0.N ≤ keyTo.length)
    (hpk : ∀ e ∈ pk, e.length = P.tlweLv0.N + 1) (draw : ℕ → ℕ → ℕ → ℕ → Torus)
    (coins : ℕ → ℕ → ℕ → Coins) (sample undef : ℕ → ℕ → ℕ → ℚ) :
    (∃ rk, newReencKeySym P keyFrom keyTo b T draw sample undef = some rk ∧ ∀ ct, reencrypt P ct rk = none) ∧
    (∃ rk, newReencKeyAsym P keyFrom pk b T coins sample undef = some rk ∧ ∀ ct, reencrypt P ct rk = none) := by
  obtain ⟨rk, e, hbase, ht, -⟩ := C60_symmetric P keyFrom keyTo b T draw sample undef h1 h0
  obtain ⟨rk', e', hbase', ht', -⟩ := C60_asymmetric P keyFrom keyTo pk b T coins sample undef h1 hpk
  exact ⟨⟨rk, e, fun ct => C62_panics P ct rk b hbase hb (by rw [ht]; exact hT)⟩,
    ⟨rk', e', fun ct => C62_panics P ct rk' b hbase' hb (by rw [ht']; exact hT)⟩⟩

/-- **C62.** With matching sizes re-encryption panics exactly when `basebit*t ≥ 32`. -/
theorem C62_panics_iff (P : Params) (ct : List Torus) (rk : ReencKey) (b : ℕ) (hbase : rk.base = 2 ^ b)
    (hb : b ≤ 62) (hct : ct.length = P.tlweLv0.N + 1)
    (hlen : rk.keyEncryptions.length = 2 ^ b * rk.t * P.tlweLv0.N)
    (hrow : ∀ e ∈ rk.keyEncryptions, e.length = P.tlweLv0.N + 1) :
    reencrypt P ct rk = none ↔ 32 ≤ b * rk.t := by
  constructor
  · intro h
    by_contra hc
    rw [reencrypt_eq P ct rk b hbase (by omega) hb hct.ge hlen.ge (fun e he => (hrow e he).ge)] at h
    simp at h
  · exact C62_panics P ct rk b hbase hb

theorem forRange_map {σ τ : Type*} (F : σ → τ) (lo hi : ℕ) (s : σ) (b1 : ℕ → σ → Option σ)
    (b2 : ℕ → τ → Option τ) (h : ∀ i s, b2 i (F s) = (b1 i s).map F) :
    forRange lo hi (F s) b2 = (forRange lo hi s b1).map F := by
  by_cases hle : lo ≤ hi
  · induction hi, hle using Nat.le_induction with
    | base => rw [forRange_empty _ _ le_rfl, forRange_empty _ _ le_rfl]; rfl
    | succ n hn ih =>
      rw [forRange_succ_right _ _ hn, forRange_succ_right _ _ hn, ih]
      cases forRange lo n s b1 with
      | none => rfl
      | some s' => exact h n s'
  · rw [forRange_empty _ _ (by omega), forRange_empty _ _ (by omega)]; rfl

/-- **C62.** On a heap, whatever references the ciphertext and the key entries are (they may coincide), as long
as `NewTLWELv0` returns a new one: the only reference written is the returned one, and its contents are what
`reencrypt` computes from the contents of the inputs; and it panics exactly when `reencrypt` does. -/
theorem C62_inputs_unchanged (P : Params) (h : LHeap) (fresh ct : ℕ) (keys : List ℕ) (base t : ℕ)
    (hct : ct ≠ fresh) (hkeys : fresh ∉ keys) :
    reencryptH P h fresh ct keys base t
      = (reencrypt P (h ct) ⟨keys.map h, base, t⟩).map (Function.update h fresh) := by
  unfold reencryptH reencrypt
  simp only [Option.bind_eq_bind]
  cases basebitLoop base 63 0 with
  | none => rfl
  | some b =>
    simp only [Option.bind_some, Function.update_of_ne hct, Function.update_self, Function.update_idem]
    cases tlwe0B P (h ct) with
    | none => rfl
    | some bb =>
      simp only [Option.bind_some]
      cases tlwe0SetB P (newTLWELv0 P) bb with
      | none => rfl
      | some r =>
        simp only [Option.bind_some]
        split_ifs with hs
        · rfl
        · apply forRange_map (Function.update h fresh)
          intro i s
          rw [Function.update_of_ne hct]
          cases rd (h ct) i with
          | none => rfl
          | some a =>
            simp only [Option.bind_some]
            apply forRange_map (Function.update h fresh)
            intro j s
            split_ifs with h1 h2
            · rfl
            · apply forRange_map (Function.update h fresh)
              intro x s
              rw [Function.update_self]
              cases rd s x with
              | none => rfl
              | some r =>
                simp only [Option.bind_some]
                have hm : ∀ idx, rd (keys.map h) idx = (rd keys idx).map h := by
                  intro idx; unfold rd; rw [List.getElem?_map]
                rw [hm]
                generalize hidx : (base * t * i + base * j + _ : ℕ) = idx
                cases hk : rd keys idx with
                | none => rfl
                | some e =>
                  have he : e ≠ fresh := by
                    rintro rfl
                    exact hkeys (List.mem_of_getElem? hk)
                  simp only [Option.bind_some, Option.map_some, Function.update_of_ne he]
                  cases rd (h e) x with
                  | none => rfl
                  | some c =>
                    simp only [Option.bind_some]
                    cases wr s x (r - c) with
                    | none => rfl
                    | some r' =>
                      simp [Function.update_idem]
            · rfl

/-- Consequence of the previous theorem in words of the property. -/
theorem C62_no_writes (P : Params) (h h' : LHeap) (fresh ct : ℕ) (keys : List ℕ) (base t : ℕ)
    (hct : ct ≠ fresh) (hkeys : fresh ∉ keys) (hr : reencryptH P h fresh ct keys base t = some h') :
    ∀ x, x ≠ fresh → h' x = h x := by
  rw [C62_inputs_unchanged P h fresh ct keys base t hct hkeys] at hr
  obtain ⟨r, -, rfl⟩ := Option.map_eq_some_iff.1 hr
  intro x hx
  exact Function.update_of_ne hx _ _

/-- Both sides of the limit occur: `basebit = 8, t = 4` panics, `basebit = 2, t = 9` does not. -/
example : (∀ ct k, reencrypt (paramsFor 128) ct ⟨k, 2 ^ 8, 4⟩ = none) ∧
    ∃ rk : ReencKey, rk.base = 2 ^ 2 ∧ rk.t = 9 ∧ reencrypt (paramsFor 128) (newTLWELv0 (paramsFor 128)) rk ≠ none := by
  refine ⟨fun ct k => C62_panics _ ct _ 8 rfl (by norm_num) (by norm_num), ?_⟩
  refine ⟨⟨List.replicate (2 ^ 2 * 9 * (paramsFor 128).tlweLv0.N) (newTLWELv0 (paramsFor 128)), 2 ^ 2, 9⟩, rfl, rfl, ?_⟩
  rw [Ne, C62_panics_iff _ _ _ 2 rfl (by norm_num) (by simp [newTLWELv0]) (by simp)
    (fun e he => by rw [List.eq_of_mem_replicate he]; simp [newTLWELv0])]
  norm_num

end GoTfhe
