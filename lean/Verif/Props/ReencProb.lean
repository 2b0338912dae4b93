import Verif.Props.ProxyReenc
import Verif.Props.Delegation
import Verif.Lemmas.CoinCount
import Mathlib.Analysis.Real.Pi.Bounds
import Mathlib.Analysis.Complex.ExponentialBounds

/-!
# C75: how often asymmetric re-encryption changes the message

Every entry of an asymmetric re-encryption key is a public-key encryption, whose noise is the signed sum of about half of
the `2n` noises of the public key. Re-encryption subtracts one entry per non-zero digit. The probability is over the coins
of the public-key encryptions; masks, keys and Gaussian samples are arbitrary, with their realised size as hypothesis.
-/

namespace GoTfhe

open Finset

/-! ### What is counted -/

/-- Make an asymmetric re-encryption key with the level's defaults, re-encrypt `ct`. -/
def asymReencrypt (P : Params) (keyFrom : List Torus) (pk : List (List Torus)) (coins : ℕ → ℕ → ℕ → Coins)
    (sample undef : ℕ → ℕ → ℕ → ℚ) (ct : List Torus) : Option (List Torus) := do
  let rk ← newReencKeyAsymDefault P keyFrom pk coins sample undef
  reencrypt P ct rk

/-- Coins that never select anything. -/
def noCoins : ℕ → ℕ → ℕ → Coins := fun _ _ _ => ⟨fun _ => false, fun _ => false⟩

/-- The number of entries of the key that re-encrypting `ct` subtracts: the non-zero digits. -/
def usedDigits (n b T : ℕ) (ct : List Torus) : ℕ :=
  ∑ i ∈ range n, ∑ j ∈ range T, if ksDigit b T ct i j ≠ 0 then 1 else 0

/-- The sum of the squares of the noises of a public key of `S` zero encryptions. -/
def noiseEnergy (S : ℕ) (noise : ℕ → ℚ) : ℕ := ∑ e ∈ range S, nrm (f64ToTorus (noise e)) ^ 2

/-- The tapes of one key at a level. -/
abbrev ReencTape (P : Params) :=
  CoinTape (ReencThrow P.tlweLv0.N P.trgswLv1.IKS_T (2 ^ P.trgswLv1.BASEBIT) (P.tlweLv0.N * 2))

/-! ### The phase -/

/-- What throw `(i, j, k, e)` contributes, up to its sign. -/
def reencCoeff (n b T S : ℕ) (ct : List Torus) (x : ℕ → Torus) : ReencThrow n T (2 ^ b) S → ℤ := fun q =>
  if q.2.2.1.val = ksDigit b T ct q.1 q.2.1 ∧ q.2.2.1.val ≠ 0 then (x q.2.2.2).toInt else 0

theorem cast_toInt32 (x : Torus) : ((x.toInt : ℤ) : Torus) = x := by rw [cast_int_eq]; exact ofInt_toInt32 x

theorem signedNoise_eq (c : Bool × Bool) (x : Torus) :
    signedNoise c.1 c.2 x = ((x.toInt * coinSign c : ℤ) : Torus) := by
  obtain ⟨p, q⟩ := c
  cases p <;> cases q <;> simp [signedNoise, coinSign, cast_toInt32]

theorem ksDigit_lt (b T : ℕ) (ct : List Torus) (i j : ℕ) : ksDigit b T ct i j < 2 ^ b := Nat.mod_lt _ (by positivity)

theorem sum_reencCoeff {M : Type} [AddCommMonoid M] (n b T S : ℕ) (ct : List Torus) (x : ℕ → Torus)
    (f : ℤ → ReencThrow n T (2 ^ b) S → M) (hf : ∀ q, f 0 q = 0) (g : ℕ → ℕ → ℕ → M)
    (hg : ∀ i j k e, f (x e.val).toInt (i, j, k, e) = if k.val = ksDigit b T ct i j then g i j e else f (x e.val).toInt (i, j, k, e)) :
    ∑ q, f (reencCoeff n b T S ct x q) q
      = ∑ i ∈ range n, ∑ j ∈ range T, if ksDigit b T ct i j ≠ 0 then ∑ e ∈ range S, g i j e else 0 := by
  rw [Fintype.sum_prod_type, Finset.sum_range]
  refine sum_congr rfl fun i _ => ?_
  rw [Fintype.sum_prod_type, Finset.sum_range]
  refine sum_congr rfl fun j _ => ?_
  rw [Fintype.sum_prod_type]
  have hne : ∀ k : Fin (2 ^ b), k ≠ ⟨ksDigit b T ct i j, ksDigit_lt b T ct i j⟩ →
      ∑ e, f (reencCoeff n b T S ct x (i, j, k, e)) (i, j, k, e) = 0 := by
    intro k hk
    refine sum_eq_zero fun e _ => ?_
    have : ¬ (k.val = ksDigit b T ct i j ∧ k.val ≠ 0) := fun h => hk (Fin.ext h.1)
    simp only [reencCoeff]
    rw [if_neg this, hf]
  rw [sum_eq_single_of_mem _ (mem_univ (⟨ksDigit b T ct i j, ksDigit_lt b T ct i j⟩ : Fin (2 ^ b))) fun k _ h => hne k h]
  by_cases h0 : ksDigit b T ct i j = 0
  · rw [if_neg (not_not.2 h0)]
    refine sum_eq_zero fun e _ => ?_
    simp only [reencCoeff]
    rw [if_neg (by simp [h0]), hf]
  · rw [if_pos h0, Finset.sum_range]
    refine sum_congr rfl fun e _ => ?_
    simp only [reencCoeff]
    rw [if_pos (by simp [h0]), hg, if_pos rfl]

theorem coinSum_reenc (n b T S : ℕ) (ct : List Torus) (x : ℕ → Torus) (a : CoinTape (ReencThrow n T (2 ^ b) S)) :
    ((coinSum (reencCoeff n b T S ct x) a : ℤ) : Torus)
      = ∑ i ∈ range n, ∑ j ∈ range T, if ksDigit b T ct i j ≠ 0 then
          ∑ e ∈ range S, signedNoise ((a.reencCoins i j (ksDigit b T ct i j)).sel e)
            ((a.reencCoins i j (ksDigit b T ct i j)).add e) (x e) else 0 := by
  unfold coinSum
  rw [Int.cast_sum]
  refine sum_reencCoeff n b T S ct x (fun z q => ((z * coinSign (a q) : ℤ) : Torus)) (fun q => by simp) _ fun i j k e => ?_
  by_cases hk : k.val = ksDigit b T ct i j
  · rw [if_pos hk, ← signedNoise_eq]
    have hh : i.val < n ∧ j.val < T ∧ k.val < 2 ^ b ∧ e.val < S := ⟨i.2, j.2, k.2, e.2⟩
    rw [← hk]
    simp only [CoinTape.reencCoins, dif_pos hh]
  · rw [if_neg hk]

theorem sum_sq_reencCoeff (n b T S : ℕ) (ct : List Torus) (noise : ℕ → ℚ) :
    ∑ q, ((reencCoeff n b T S ct (fun e => f64ToTorus (noise e)) q : ℤ) : ℝ) ^ 2
      = ((usedDigits n b T ct * noiseEnergy S noise : ℕ) : ℝ) := by
  rw [sum_reencCoeff n b T S ct (fun e => f64ToTorus (noise e)) (fun z _ => (z : ℝ) ^ 2) (fun q => by simp)
    (fun _ _ e => ((nrm (f64ToTorus (noise e)) ^ 2 : ℕ) : ℝ)) fun i j k e => ?_]
  · unfold usedDigits noiseEnergy
    rw [Nat.cast_mul, Nat.cast_sum, sum_mul]
    refine sum_congr rfl fun i _ => ?_
    rw [Nat.cast_sum, sum_mul]
    refine sum_congr rfl fun j _ => ?_
    split_ifs
    · rw [Nat.cast_sum]; simp
    · simp
  · by_cases hk : k.val = ksDigit b T ct i j
    · rw [if_pos hk]
      unfold nrm
      rw [Nat.cast_pow, Nat.cast_natAbs, Int.cast_abs, sq_abs]
    · rw [if_neg hk]

/-- The re-encrypted phase: the phase without public-key noise minus the sum the tape selects. -/
theorem reenc_phase (P : Params) (W : WellFormed P) (keyFrom keyTo : List Torus)
    (h1 : keyFrom.length = P.tlweLv0.N) (h0 : keyTo.length = P.tlweLv0.N) (hbin : IsBinary keyFrom)
    (draw : ℕ → ℕ → Torus) (noise : ℕ → ℚ) (sample undef : ℕ → ℕ → ℕ → ℚ) (ct : List Torus)
    (hct : ct.length = P.tlweLv0.N + 1) :
    ∃ pk out0, newPublicKeyLv0 P keyTo draw noise = some pk ∧
      asymReencrypt P keyFrom pk noCoins sample undef ct = some out0 ∧ out0.length = P.tlweLv0.N + 1 ∧
      ∀ a : ReencTape P, ∃ out, asymReencrypt P keyFrom pk a.reencCoins sample undef ct = some out ∧
        out.length = P.tlweLv0.N + 1 ∧ phase P.tlweLv0.N out keyTo = phase P.tlweLv0.N out0 keyTo
          - ((coinSum (reencCoeff P.tlweLv0.N P.trgswLv1.BASEBIT P.trgswLv1.IKS_T (P.tlweLv0.N * 2) ct
              fun e => f64ToTorus (noise e)) a : ℤ) : Torus) := by
  obtain ⟨pk, epk, hl, hr, hp⟩ := newPublicKey_spec P keyTo (P.tlweLv0.N * 2) draw noise h0.ge
  have hb := W.basebit_pos
  have hf := W.ks_fits
  have hbb : P.trgswLv1.BASEBIT ≤ 31 := by have := W.iks_pos; nlinarith
  set n := P.tlweLv0.N with hn
  set b := P.trgswLv1.BASEBIT
  set T := P.trgswLv1.IKS_T
  have key : ∀ coins : ℕ → ℕ → ℕ → Coins, ∃ out, asymReencrypt P keyFrom pk coins sample undef ct = some out ∧
      out.length = n + 1 ∧ phase n out keyTo = phase n ct keyFrom
        - ∑ i ∈ range n, ksRound b T (at' ct i) * at' keyFrom i
        - ∑ i ∈ range n, ∑ j ∈ range T, (if ksDigit b T ct i j ≠ 0 then f64ToTorus (sample i j (ksDigit b T ct i j))
            + ∑ e ∈ range (n * 2), signedNoise ((coins i j (ksDigit b T ct i j)).sel e)
              ((coins i j (ksDigit b T ct i j)).add e) (f64ToTorus (noise e)) else 0) := by
    intro coins
    obtain ⟨rk, e, -, hrt, -, hk⟩ := C60_asymmetric P keyFrom keyTo pk b T coins sample undef h1.ge hr
    have hrk := hk hf hbin
    refine ⟨ksOut n n b T ct rk.keyEncryptions, ?_, by simp [ksOut], ?_⟩
    · unfold asymReencrypt newReencKeyAsymDefault
      rw [e, Option.bind_eq_bind, Option.bind_some]
      have hE := reencrypt_eq P ct rk b hrk.base (by rw [hrt]; exact hf) (by omega) hct.ge hrk.len.ge
        fun e he => (hrk.rows e he).ge
      rw [hrt] at hE
      exact hE
    · have henc := hrk.enc
      rw [hrt] at henc
      rw [phase_ksOut n n b T ct _ keyTo keyFrom _ hf henc, hl]
      congr 1
      refine sum_congr rfl fun i _ => sum_congr rfl fun j _ => ?_
      split_ifs
      · congr 1
        refine sum_congr rfl fun e he => ?_
        rw [(hp e (mem_range.1 he)).1, f64ToTorus_zero', zero_add]
      · rfl
  obtain ⟨out0, e0, l0, p0⟩ := key noCoins
  refine ⟨pk, out0, epk, e0, l0, fun a => ?_⟩
  obtain ⟨out, e, l, p⟩ := key a.reencCoins
  refine ⟨out, e, l, ?_⟩
  rw [p, p0, coinSum_reenc, sub_sub (phase n ct keyFrom - _)]
  congr 1
  rw [← sum_add_distrib]
  refine sum_congr rfl fun i _ => ?_
  rw [← sum_add_distrib]
  refine sum_congr rfl fun j _ => ?_
  split_ifs
  · have : ∑ e ∈ range (n * 2), signedNoise ((noCoins i j (ksDigit b T ct i j)).sel e)
        ((noCoins i j (ksDigit b T ct i j)).add e) (f64ToTorus (noise e)) = 0 := sum_eq_zero fun e _ => rfl
    rw [this, add_zero]
  · rw [add_zero]

theorem length_onesThird (n : ℕ) : (onesThird n).length = n := length_tab _ _

theorem exp_neg_le_two (x : ℝ) (n : ℕ) (h : (n : ℝ) ≤ x) : Real.exp (-x) ≤ 1 / 2 ^ n := by
  rw [Real.exp_neg, one_div]
  refine inv_anti₀ (by positivity) ?_
  calc (2 : ℝ) ^ n ≤ Real.exp 1 ^ n := pow_le_pow_left₀ (by norm_num) (by have := Real.add_one_le_exp 1; linarith) n
    _ = Real.exp n := by rw [← Real.exp_nat_mul, mul_one]
    _ ≤ Real.exp x := Real.exp_le_exp.2 h

theorem exp_neg_le' (q x y : ℝ) (hqx : q ≤ x) (hq : 0 ≤ q) (hy : 0 < y)
    (h : y⁻¹ ≤ ∑ i ∈ range 16, q ^ i / (i.factorial : ℝ)) : Real.exp (-x) ≤ y := by
  refine (Real.exp_le_exp.2 (neg_le_neg hqx)).trans ?_
  rw [Real.exp_neg, inv_le_comm₀ (Real.exp_pos _) hy]
  exact h.trans (Real.sum_le_exp_of_nonneg hq 16)

/-! ### Upper bounds -/

/-- Chernoff's bound for both sides. -/
theorem coinProb_tail {ι : Type} [Fintype ι] (u : ι → ℤ) (U : ℕ) (hu : ∑ i, (u i : ℝ) ^ 2 ≤ U) (hU : 0 < U) (T : ℕ) :
    CoinProbLe (fun a => (T : ℤ) ≤ coinSum u a) (Real.exp (-((T : ℝ) ^ 2 / U))) ∧
    CoinProbLe (fun a => (T : ℤ) ≤ -coinSum u a) (Real.exp (-((T : ℝ) ^ 2 / U))) := by
  classical
  have h1 : CoinProbLe (fun a => (T : ℤ) ≤ coinSum u a) (Real.exp (-((T : ℝ) ^ 2 / U))) := by
    unfold CoinProbLe
    rw [Set.ncard_eq_toFinset_card _ (Set.toFinite _)]
    refine coin_tail u U T hu (by exact_mod_cast hU) (Nat.cast_nonneg T) _ fun a ha => ?_
    have : (T : ℤ) ≤ coinSum u a := by simpa using ha
    exact_mod_cast this
  refine ⟨h1, ?_⟩
  unfold CoinProbLe at h1 ⊢
  rw [← (coin_sides u T).2]
  exact h1

theorem CoinProbLe.of_or {ι : Type} [Fintype ι] {E F G : CoinTape ι → Prop} {x y : ℝ} (hF : CoinProbLe F x)
    (hG : CoinProbLe G y) (h : ∀ a, E a → F a ∨ G a) : CoinProbLe E (x + y) := by
  unfold CoinProbLe at *
  have h1 : Set.ncard {a | E a} ≤ Set.ncard {a | F a} + Set.ncard {a | G a} :=
    (Set.ncard_le_ncard (fun a ha => h a ha) (Set.toFinite _)).trans (Set.ncard_union_le {a | F a} {a | G a})
  have h2 : (Set.ncard {a | E a} : ℝ) ≤ Set.ncard {a | F a} + Set.ncard {a | G a} := by exact_mod_cast h1
  rw [add_mul]
  linarith

theorem CoinProbLe.mono {ι : Type} [Fintype ι] {E : CoinTape ι → Prop} {x y : ℝ} (h : CoinProbLe E x) (hxy : x ≤ y) :
    CoinProbLe E y := le_trans h (mul_le_mul_of_nonneg_right hxy (by positivity))

/-- **C75.** For any keys, samples and ciphertext: the probability over the coins that the re-encrypted phase is `T` or
more away from the phase without public-key noise is at most `2 exp(-T²/U)`, with `U` at least the number of digits used
times the energy of the public key's noise. -/
theorem C75_phase (level : SecurityLevel) (keyFrom keyTo : List Torus)
    (h1 : keyFrom.length = (paramsFor level).tlweLv0.N) (h0 : keyTo.length = (paramsFor level).tlweLv0.N)
    (hbin : IsBinary keyFrom) (draw : ℕ → ℕ → Torus) (noise : ℕ → ℚ) (sample undef : ℕ → ℕ → ℕ → ℚ)
    (ct : List Torus) (hct : ct.length = (paramsFor level).tlweLv0.N + 1)
    (pk : List (List Torus)) (hpk : newPublicKeyLv0 (paramsFor level) keyTo draw noise = some pk)
    (out0 : List Torus) (hout0 : asymReencrypt (paramsFor level) keyFrom pk noCoins sample undef ct = some out0)
    (U T : ℕ) (hU : 0 < U)
    (hle : usedDigits (paramsFor level).tlweLv0.N (paramsFor level).trgswLv1.BASEBIT (paramsFor level).trgswLv1.IKS_T ct
      * noiseEnergy ((paramsFor level).tlweLv0.N * 2) noise ≤ U) :
    CoinProbLe (fun a : ReencTape (paramsFor level) =>
      ¬ ∃ out, asymReencrypt (paramsFor level) keyFrom pk a.reencCoins sample undef ct = some out ∧
        out.length = (paramsFor level).tlweLv0.N + 1 ∧
        nrm (phase (paramsFor level).tlweLv0.N out keyTo - phase (paramsFor level).tlweLv0.N out0 keyTo) < T)
      (2 * Real.exp (-((T : ℝ) ^ 2 / U))) := by
  have W := C63_wellFormed level
  generalize paramsFor level = P at *
  obtain ⟨pk', out0', e1, e2, -, h⟩ := reenc_phase P W keyFrom keyTo h1 h0 hbin draw noise sample undef ct hct
  obtain rfl := Option.some.inj (hpk.symm.trans e1)
  obtain rfl := Option.some.inj (hout0.symm.trans e2)
  have ht := coinProb_tail _ U ((sum_sq_reencCoeff _ _ _ _ ct noise).le.trans (by exact_mod_cast hle)) hU T
  rw [two_mul]
  refine CoinProbLe.of_or ht.1 ht.2 fun a ha => ?_
  by_contra hc
  push Not at hc
  obtain ⟨out, eo, lo, po⟩ := h a
  refine ha ⟨out, eo, lo, ?_⟩
  rw [po, sub_sub_cancel_left, nrm_neg, cast_int_eq]
  refine lt_of_le_of_lt (nrm_ofInt _) ?_
  omega

/-- What the delegatee decrypts. -/
def asymReencBool (P : Params) (keyFrom keyTo : List Torus) (pk : List (List Torus)) (coins : ℕ → ℕ → ℕ → Coins)
    (sample undef : ℕ → ℕ → ℕ → ℚ) (ct : List Torus) : Option Bool := do
  let out ← asymReencrypt P keyFrom pk coins sample undef ct
  tlwe0DecryptBool P out keyTo

/-- The phase of an encrypted Boolean without noise, in units of `2^-32`. -/
def boolPhase (m : Bool) : ℤ := if m then 2 ^ 29 else -2 ^ 29

/-- **C75**, upper bound for Booleans. -/
theorem C75_bool (level : SecurityLevel) (keyFrom keyTo : List Torus)
    (h1 : keyFrom.length = (paramsFor level).tlweLv0.N) (h0 : keyTo.length = (paramsFor level).tlweLv0.N)
    (hbin : IsBinary keyFrom) (draw : ℕ → ℕ → Torus) (noise : ℕ → ℚ) (sample undef : ℕ → ℕ → ℕ → ℚ)
    (ct : List Torus) (hct : ct.length = (paramsFor level).tlweLv0.N + 1)
    (pk : List (List Torus)) (hpk : newPublicKeyLv0 (paramsFor level) keyTo draw noise = some pk)
    (out0 : List Torus) (hout0 : asymReencrypt (paramsFor level) keyFrom pk noCoins sample undef ct = some out0)
    (m : Bool) (B : ℕ) (hB : B < 2 ^ 29)
    (hphase : |(phase (paramsFor level).tlweLv0.N out0 keyTo).toInt - boolPhase m| ≤ B)
    (U : ℕ) (hU : 0 < U)
    (hle : usedDigits (paramsFor level).tlweLv0.N (paramsFor level).trgswLv1.BASEBIT (paramsFor level).trgswLv1.IKS_T ct
      * noiseEnergy ((paramsFor level).tlweLv0.N * 2) noise ≤ U) :
    CoinProbLe (fun a : ReencTape (paramsFor level) =>
        asymReencBool (paramsFor level) keyFrom keyTo pk a.reencCoins sample undef ct ≠ some m)
      (Real.exp (-(((2 ^ 29 - B : ℕ) : ℝ) ^ 2 / U)) + Real.exp (-(((3 * 2 ^ 29 - B : ℕ) : ℝ) ^ 2 / U))) := by
  have W := C63_wellFormed level
  generalize paramsFor level = P at *
  obtain ⟨pk', out0', e1, e2, -, h⟩ := reenc_phase P W keyFrom keyTo h1 h0 hbin draw noise sample undef ct hct
  obtain rfl := Option.some.inj (hpk.symm.trans e1)
  obtain rfl := Option.some.inj (hout0.symm.trans e2)
  have hu := (sum_sq_reencCoeff _ _ _ _ ct noise).le.trans (show _ ≤ (U : ℝ) by exact_mod_cast hle)
  have ht := coinProb_tail _ U hu hU (2 ^ 29 - B)
  have ht' := coinProb_tail _ U hu hU (3 * 2 ^ 29 - B)
  have hdec : ∀ a : ReencTape P, asymReencBool P keyFrom keyTo pk a.reencCoins sample undef ct
      = some (decide (0 ≤ ((phase P.tlweLv0.N out0 keyTo).toInt
        - coinSum (reencCoeff P.tlweLv0.N P.trgswLv1.BASEBIT P.trgswLv1.IKS_T (P.tlweLv0.N * 2) ct
              fun e => f64ToTorus (noise e)) a).bmod 4294967296)) := by
    intro a
    obtain ⟨out, eo, lo, po⟩ := h a
    unfold asymReencBool
    rw [eo, Option.bind_eq_bind, Option.bind_some, tlwe0DecryptBool_eq P out keyTo h0.ge (by omega), po]
    congr 3
    conv_lhs => rw [← cast_toInt32 (phase P.tlweLv0.N out0 keyTo), ← Int.cast_sub, cast_int_eq, toInt_ofInt32]
  rw [abs_le] at hphase
  cases m
  · refine CoinProbLe.of_or ht.2 ht'.1 fun a ha => ?_
    by_contra hc
    push Not at hc
    rw [hdec a] at ha
    refine ha (congrArg some (decide_eq_false ?_))
    unfold boolPhase at hphase
    simp only [Bool.false_eq_true, if_false] at hphase
    rw [bmod32_of_range _ (by omega) (by omega)]
    omega
  · refine CoinProbLe.of_or ht.1 ht'.2 fun a ha => ?_
    by_contra hc
    push Not at hc
    rw [hdec a] at ha
    refine ha (congrArg some (decide_eq_true ?_))
    unfold boolPhase at hphase
    simp only [if_true] at hphase
    rw [bmod32_of_range _ (by omega) (by omega)]
    omega

/-- What the delegatee decrypts, as a message modulo `q`. -/
def asymReencMessage (P : Params) (keyFrom keyTo : List Torus) (pk : List (List Torus)) (coins : ℕ → ℕ → ℕ → Coins)
    (sample undef : ℕ → ℕ → ℕ → ℚ) (ct : List Torus) (q : ℕ) : Option ℤ := do
  let out ← asymReencrypt P keyFrom pk coins sample undef ct
  decryptLWEMessage P out q keyTo

/-- **C75**, upper bound for messages modulo `q`, with the message `r` and the deviation `d` of the phase without
public-key noise. -/
theorem C75_message (level : SecurityLevel) (keyFrom keyTo : List Torus)
    (h1 : keyFrom.length = (paramsFor level).tlweLv0.N) (h0 : keyTo.length = (paramsFor level).tlweLv0.N)
    (hbin : IsBinary keyFrom) (draw : ℕ → ℕ → Torus) (noise : ℕ → ℚ) (sample undef : ℕ → ℕ → ℕ → ℚ)
    (ct : List Torus) (hct : ct.length = (paramsFor level).tlweLv0.N + 1)
    (pk : List (List Torus)) (hpk : newPublicKeyLv0 (paramsFor level) keyTo draw noise = some pk)
    (out0 : List Torus) (hout0 : asymReencrypt (paramsFor level) keyFrom pk noCoins sample undef ct = some out0)
    (q r : ℕ) (d : ℤ) (hq : 1 ≤ q) (hq2 : q ≤ 2 ^ 31) (hr : r < q)
    (hphase : phase (paramsFor level).tlweLv0.N out0 keyTo = BitVec.ofInt 32 ((r : ℤ) * (2 ^ 31 / q : ℕ) + d))
    (U T : ℕ) (hU : 0 < U)
    (hle : usedDigits (paramsFor level).tlweLv0.N (paramsFor level).trgswLv1.BASEBIT (paramsFor level).trgswLv1.IKS_T ct
      * noiseEnergy ((paramsFor level).tlweLv0.N * 2) noise ≤ U)
    (hT1 : (T : ℤ) ≤ d + ((2 ^ 31 / q / 2 : ℕ) : ℤ) + 1)
    (hT2 : (T : ℤ) ≤ (2 ^ 31 / q : ℕ) - ((2 ^ 31 / q / 2 : ℕ) : ℤ) - d) :
    CoinProbLe (fun a : ReencTape (paramsFor level) =>
        asymReencMessage (paramsFor level) keyFrom keyTo pk a.reencCoins sample undef ct q ≠ some (r : ℤ))
      (2 * Real.exp (-((T : ℝ) ^ 2 / U))) := by
  have h := C75_phase level keyFrom keyTo h1 h0 hbin draw noise sample undef ct hct pk hpk out0 hout0 U T hU hle
  unfold CoinProbLe at h ⊢
  refine le_trans ?_ h
  have hsub : {a : ReencTape (paramsFor level) |
        asymReencMessage (paramsFor level) keyFrom keyTo pk a.reencCoins sample undef ct q ≠ some (r : ℤ)}
      ⊆ {a | ¬ ∃ out, asymReencrypt (paramsFor level) keyFrom pk a.reencCoins sample undef ct = some out ∧
        out.length = (paramsFor level).tlweLv0.N + 1 ∧
        nrm (phase (paramsFor level).tlweLv0.N out keyTo - phase (paramsFor level).tlweLv0.N out0 keyTo) < T} := by
    rintro a ha ⟨out, e, l, hn⟩
    refine ha ?_
    unfold asymReencMessage
    rw [e, Option.bind_eq_bind, Option.bind_some]
    exact C60_decryptMessage (paramsFor level) out0 out keyTo keyTo (T - 1) q r d hq hq2 hr h0.ge l (by omega) hphase
      (by omega) (by omega)
  exact_mod_cast Set.ncard_le_ncard hsub (Set.toFinite _)

/-- **C75**, public-key encryption alone: the probability over the coins that a Boolean encrypted with the public key
decrypts to something else. -/
theorem C75_publicKey (level : SecurityLevel) (s : List Torus) (hs : s.length = (paramsFor level).tlweLv0.N)
    (draw : ℕ → ℕ → Torus) (noise : ℕ → ℚ) (pk : List (List Torus))
    (hpk : newPublicKeyLv0 (paramsFor level) s draw noise = some pk) (m : Bool) (sample : ℚ)
    (B : ℕ) (hB : nrm (f64ToTorus sample) ≤ B) (hB2 : B < 2 ^ 29)
    (U : ℕ) (hU : 0 < U) (hle : noiseEnergy ((paramsFor level).tlweLv0.N * 2) noise ≤ U) :
    CoinProbLe (fun a : CoinTape (Fin ((paramsFor level).tlweLv0.N * 2)) => ¬ ∃ c,
        pkEncryptBool (paramsFor level) pk m a.coins sample = some c ∧ tlwe0DecryptBool (paramsFor level) c s = some m)
      (2 * Real.exp (-(((2 ^ 29 - B : ℕ) : ℝ) ^ 2 / U))) := by
  generalize paramsFor level = P at *
  set S := P.tlweLv0.N * 2 with hS
  let u : Fin S → ℤ := fun e => (f64ToTorus (noise e)).toInt
  have hu : ∑ e, (u e : ℝ) ^ 2 ≤ U := by
    have : ∑ e, (u e : ℝ) ^ 2 = ((noiseEnergy S noise : ℕ) : ℝ) := by
      unfold noiseEnergy
      rw [Nat.cast_sum, Finset.sum_range]
      refine sum_congr rfl fun e _ => ?_
      unfold nrm
      rw [Nat.cast_pow, Nat.cast_natAbs, Int.cast_abs, sq_abs]
    rw [this]
    exact_mod_cast hle
  have ht := coinProb_tail u U hu hU (2 ^ 29 - B)
  rw [two_mul]
  refine CoinProbLe.of_or ht.1 ht.2 fun a ha => ?_
  by_contra hc
  push Not at hc
  obtain ⟨pk', c, e1, e2, h⟩ := C59_bool_iff P s draw noise hs.ge m a.coins sample
  obtain rfl := Option.some.inj (hpk.symm.trans e1)
  refine ha ⟨c, e2, h.2 ?_⟩
  have hsum : ∑ e ∈ range S, signedNoise (a.coins.sel e) (a.coins.add e) (f64ToTorus (noise e))
      = ((coinSum u a : ℤ) : Torus) := by
    unfold coinSum
    rw [Int.cast_sum, Finset.sum_range]
    refine sum_congr rfl fun e _ => ?_
    rw [← signedNoise_eq]
    simp only [CoinTape.coins, dif_pos e.2]
  have hb : nrm (f64ToTorus sample + ((coinSum u a : ℤ) : Torus)) < 2 ^ 29 := by
    refine lt_of_le_of_lt (nrm_add _ _) ?_
    rw [cast_int_eq]
    have := nrm_ofInt (coinSum u a)
    omega
  rw [← hS, hsum]
  unfold nrm at hb
  unfold boolMargin
  split_ifs <;> omega

/-- **C75**, public-key encryption at every level: with a noise energy below `10^14` (at least twice the expected one) and
a fresh sample below `2^20` times `2^-32`, a wrong decryption has probability at most `2^-200`. -/
theorem C75_publicKey_levels (level : SecurityLevel) (s : List Torus) (hs : s.length = (paramsFor level).tlweLv0.N)
    (draw : ℕ → ℕ → Torus) (noise : ℕ → ℚ) (pk : List (List Torus))
    (hpk : newPublicKeyLv0 (paramsFor level) s draw noise = some pk) (m : Bool) (sample : ℚ)
    (hB : nrm (f64ToTorus sample) ≤ 2 ^ 20)
    (hle : noiseEnergy ((paramsFor level).tlweLv0.N * 2) noise ≤ 10 ^ 14) :
    CoinProbLe (fun a : CoinTape (Fin ((paramsFor level).tlweLv0.N * 2)) => ¬ ∃ c,
        pkEncryptBool (paramsFor level) pk m a.coins sample = some c ∧ tlwe0DecryptBool (paramsFor level) c s = some m)
      (1 / 2 ^ 200) := by
  refine (C75_publicKey level s hs draw noise pk hpk m sample (2 ^ 20) hB (by norm_num) (10 ^ 14) (by norm_num) hle).mono ?_
  have a := exp_neg_le_two (((2 ^ 29 - 2 ^ 20 : ℕ) : ℝ) ^ 2 / ((10 ^ 14 : ℕ) : ℝ)) 201 (by norm_num)
  have e : (1 : ℝ) / 2 ^ 200 = 2 * (1 / 2 ^ 201) := by norm_num
  rw [e]
  exact mul_le_mul_of_nonneg_left a (by norm_num)

/-- The hypotheses hold together: default level, every noise of the key one standard deviation. -/
example : ∃ pk, newPublicKeyLv0 (paramsFor 128) (onesThird 700) (fun e i => BitVec.ofNat 32 (e * 977 + i * 2654435761))
      (fun _ => ((85899 : ℤ) : ℚ) / 2 ^ 32) = some pk ∧
    CoinProbLe (fun a : CoinTape (Fin ((paramsFor 128).tlweLv0.N * 2)) => ¬ ∃ c,
        pkEncryptBool (paramsFor 128) pk true a.coins 0 = some c ∧
        tlwe0DecryptBool (paramsFor 128) c (onesThird 700) = some true) (1 / 2 ^ 200) := by
  have hn : nrm (f64ToTorus (((85899 : ℤ) : ℚ) / 2 ^ 32)) = 85899 := by
    rw [f64ToTorus_int_div _ (by norm_num) (by norm_num)]; decide
  obtain ⟨pk, e, -⟩ := newPublicKey_spec (paramsFor 128) (onesThird 700) (700 * 2)
    (fun e i => BitVec.ofNat 32 (e * 977 + i * 2654435761)) (fun _ => ((85899 : ℤ) : ℚ) / 2 ^ 32)
    (length_onesThird 700).ge
  refine ⟨pk, e, C75_publicKey_levels 128 (onesThird 700) (length_onesThird 700) _ _ pk e true 0
    (by rw [f64ToTorus_zero', nrm_zero]; norm_num) ?_⟩
  change noiseEnergy (700 * 2) _ ≤ _
  unfold noiseEnergy
  simp only [hn]
  rw [sum_const, card_range, smul_eq_mul]
  norm_num

/-! ### Lower bound -/

/-- **C75**, lower bound for Booleans: with `U` the number of digits used times the energy of the noises, none of which
exceeds `M`, the message flips for at least the stated fraction of the tapes. `κ` and `y0` are free parameters. -/
theorem C75_wrong (level : SecurityLevel) (keyFrom keyTo : List Torus)
    (h1 : keyFrom.length = (paramsFor level).tlweLv0.N) (h0 : keyTo.length = (paramsFor level).tlweLv0.N)
    (hbin : IsBinary keyFrom) (draw : ℕ → ℕ → Torus) (noise : ℕ → ℚ) (sample undef : ℕ → ℕ → ℕ → ℚ)
    (ct : List Torus) (hct : ct.length = (paramsFor level).tlweLv0.N + 1)
    (pk : List (List Torus)) (hpk : newPublicKeyLv0 (paramsFor level) keyTo draw noise = some pk)
    (out0 : List Torus) (hout0 : asymReencrypt (paramsFor level) keyFrom pk noCoins sample undef ct = some out0)
    (m : Bool) (B : ℕ) (hB : B < 2 ^ 29)
    (hphase : |(phase (paramsFor level).tlweLv0.N out0 keyTo).toInt - boolPhase m| ≤ B)
    (M : ℕ) (hM : ∀ e, nrm (f64ToTorus (noise e)) ≤ M) (U : ℕ) (hU : 0 < U)
    (heq : usedDigits (paramsFor level).tlweLv0.N (paramsFor level).trgswLv1.BASEBIT (paramsFor level).trgswLv1.IKS_T ct
      * noiseEnergy ((paramsFor level).tlweLv0.N * 2) noise = U)
    (κ y0 : ℝ) (hκ : 0 ≤ κ) (hy0 : 0 ≤ y0) (hy1 : 6 * y0 ≤ 1) (hsmall : 625 * (κ * y0 ^ 2) ≤ 2)
    (hMU : 4 * κ * (M : ℝ) ^ 2 ≤ y0 ^ 2 * U)
    (hTU : 9 * κ * (2 ^ 29 + B + 1 : ℝ) ^ 2 ≤ Real.pi ^ 2 * U) :
    CoinProbGe (fun a : ReencTape (paramsFor level) =>
        asymReencBool (paramsFor level) keyFrom keyTo pk a.reencCoins sample undef ct = some !m)
      (tailComb (gaussMean (Real.exp (-κ)) (κ * y0 ^ 2)) / 2 - Real.exp (-((2 ^ 31 : ℝ) ^ 2 / U))) := by
  classical
  have W := C63_wellFormed level
  generalize paramsFor level = P at *
  obtain ⟨pk', out0', e1, e2, -, h⟩ := reenc_phase P W keyFrom keyTo h1 h0 hbin draw noise sample undef ct hct
  obtain rfl := Option.some.inj (hpk.symm.trans e1)
  obtain rfl := Option.some.inj (hout0.symm.trans e2)
  have hsq := sum_sq_reencCoeff P.tlweLv0.N P.trgswLv1.BASEBIT P.trgswLv1.IKS_T (P.tlweLv0.N * 2) ct noise
  rw [heq] at hsq
  have hcoef : ∀ q, |((reencCoeff P.tlweLv0.N P.trgswLv1.BASEBIT P.trgswLv1.IKS_T (P.tlweLv0.N * 2) ct
      (fun e => f64ToTorus (noise e)) q : ℤ) : ℝ)| ≤ M := by
    intro q
    unfold reencCoeff
    split_ifs
    · have := hM q.2.2.2
      unfold nrm at this
      rw [← Int.cast_abs, ← Nat.cast_natAbs]
      exact_mod_cast this
    · simp
  have hdec : ∀ a : ReencTape P, asymReencBool P keyFrom keyTo pk a.reencCoins sample undef ct
      = some (decide (0 ≤ ((phase P.tlweLv0.N out0 keyTo).toInt
        - coinSum (reencCoeff P.tlweLv0.N P.trgswLv1.BASEBIT P.trgswLv1.IKS_T (P.tlweLv0.N * 2) ct
              fun e => f64ToTorus (noise e)) a).bmod 4294967296)) := by
    intro a
    obtain ⟨out, eo, lo, po⟩ := h a
    unfold asymReencBool
    rw [eo, Option.bind_eq_bind, Option.bind_some, tlwe0DecryptBool_eq P out keyTo h0.ge (by omega), po]
    congr 3
    conv_lhs => rw [← cast_toInt32 (phase P.tlweLv0.N out0 keyTo), ← Int.cast_sub, cast_int_eq, toInt_ofInt32]
  generalize reencCoeff P.tlweLv0.N P.trgswLv1.BASEBIT P.trgswLv1.IKS_T (P.tlweLv0.N * 2) ct
    (fun e => f64ToTorus (noise e)) = u at *
  have hUr : (0 : ℝ) < U := by exact_mod_cast hU
  obtain ⟨θ, hθ⟩ : ∃ θ, θ = Real.sqrt (4 * κ / U) := ⟨_, rfl⟩
  have hθ0 : 0 ≤ θ := by rw [hθ]; exact Real.sqrt_nonneg _
  have hθ2 : θ ^ 2 = 4 * κ / U := by rw [hθ]; exact Real.sq_sqrt (by positivity)
  have hT : θ * (2 ^ 29 + B + 1 : ℝ) ≤ 2 * Real.pi / 3 := by
    refine le_of_sq_le_sq ?_ (by have := Real.pi_pos; positivity)
    rw [mul_pow, hθ2, div_mul_eq_mul_div, div_le_iff₀ hUr]
    nlinarith
  have hy : ∀ q, θ * |(u q : ℝ)| ≤ y0 := by
    intro q
    refine le_trans (mul_le_mul_of_nonneg_left (hcoef q) hθ0) (le_of_sq_le_sq ?_ hy0)
    rw [mul_pow, hθ2, div_mul_eq_mul_div, div_le_iff₀ hUr]
    exact hMU
  obtain ⟨T, hTdef⟩ : ∃ T : ℕ, T = 2 ^ 29 + B + 1 := ⟨_, rfl⟩
  have hfar := coin_far u U (2 ^ 29 + B + 1) θ y0 κ hsq hθ0 (by rw [hθ2]; field_simp) hT hy hy1 hsmall
    (Set.toFinite {a : ReencTape P | (T : ℤ) ≤ |coinSum u a|}).toFinset (by
      intro a ha
      rw [Set.Finite.mem_toFinset]
      have : ((T : ℤ) : ℝ) ≤ |(coinSum u a : ℝ)| := by rw [hTdef]; push_cast; linarith
      show (T : ℤ) ≤ |coinSum u a|
      exact_mod_cast this)
  rw [← Set.ncard_eq_toFinset_card] at hfar
  obtain ⟨hs1, hs2⟩ := coin_sides u (T : ℤ)
  have ht := coinProb_tail u U hsq.le hU (2 ^ 31)
  unfold CoinProbLe at ht
  have final : ∀ (S1 S2 E : Set (ReencTape P)), Set.ncard S1 = Set.ncard {a : ReencTape P | (T : ℤ) ≤ coinSum u a} →
      (Set.ncard S2 : ℝ) ≤ Real.exp (-((2 ^ 31 : ℝ) ^ 2 / U)) * 4 ^ Fintype.card (ReencThrow P.tlweLv0.N P.trgswLv1.IKS_T (2 ^ P.trgswLv1.BASEBIT) (P.tlweLv0.N * 2)) →
      S1 ⊆ E ∪ S2 →
      (tailComb (gaussMean (Real.exp (-κ)) (κ * y0 ^ 2)) / 2 - Real.exp (-((2 ^ 31 : ℝ) ^ 2 / U)))
        * 4 ^ Fintype.card (ReencThrow P.tlweLv0.N P.trgswLv1.IKS_T (2 ^ P.trgswLv1.BASEBIT) (P.tlweLv0.N * 2))
        ≤ (Set.ncard E : ℝ) := by
    intro S1 S2 E a1 a2 a3
    have h3 := (Set.ncard_le_ncard a3 (Set.toFinite _)).trans (Set.ncard_union_le E S2)
    have h4 : (Set.ncard S1 : ℝ) ≤ Set.ncard E + Set.ncard S2 := by exact_mod_cast h3
    rw [a1] at h4
    rw [sub_mul]
    linarith
  rw [abs_le] at hphase
  have e31 : ((2 ^ 31 : ℕ) : ℝ) = 2 ^ 31 := by norm_num
  have e31' : ((2 ^ 31 : ℕ) : ℤ) = 2147483648 := by norm_num
  rw [e31, e31'] at ht
  unfold CoinProbGe
  cases m
  · refine final {a | (T : ℤ) ≤ -coinSum u a} {a | 2147483648 ≤ -coinSum u a} _ hs2.symm ht.2 fun a ha => ?_
    by_cases hc : 2147483648 ≤ -coinSum u a
    · exact Or.inr hc
    left
    show asymReencBool P keyFrom keyTo pk a.reencCoins sample undef ct = some !false
    rw [hdec a]
    refine congrArg some (decide_eq_true ?_)
    have hTa : (T : ℤ) ≤ -coinSum u a := ha
    unfold boolPhase at hphase
    simp only [Bool.false_eq_true, if_false] at hphase
    rw [bmod32_of_range _ (by omega) (by omega)]
    omega
  · refine final {a | (T : ℤ) ≤ coinSum u a} {a | 2147483648 ≤ coinSum u a} _ rfl ht.1 fun a ha => ?_
    by_cases hc : 2147483648 ≤ coinSum u a
    · exact Or.inr hc
    left
    show asymReencBool P keyFrom keyTo pk a.reencCoins sample undef ct = some !true
    rw [hdec a]
    refine congrArg some (decide_eq_false ?_)
    have hTa : (T : ℤ) ≤ coinSum u a := ha
    unfold boolPhase at hphase
    simp only [if_true] at hphase
    rw [bmod32_of_range _ (by omega) (by omega)]
    omega

/-! ### The levels -/

/-- Without public-key noise the phase stays within the bound of C60: rounding, and the fresh samples. -/
theorem reenc_noCoins (level : SecurityLevel) (keyFrom keyTo : List Torus)
    (h1 : keyFrom.length = (paramsFor level).tlweLv0.N) (h0 : keyTo.length = (paramsFor level).tlweLv0.N)
    (hbin : IsBinary keyFrom) (draw : ℕ → ℕ → Torus) (noise : ℕ → ℚ) (sample undef : ℕ → ℕ → ℕ → ℚ)
    (E : ℕ) (hE : ∀ i j k, nrm (f64ToTorus (sample i j k)) ≤ E)
    (ct : List Torus) (hct : ct.length = (paramsFor level).tlweLv0.N + 1) :
    ∃ pk out0, newPublicKeyLv0 (paramsFor level) keyTo draw noise = some pk ∧
      asymReencrypt (paramsFor level) keyFrom pk noCoins sample undef ct = some out0 ∧
      nrm (phase (paramsFor level).tlweLv0.N out0 keyTo - phase (paramsFor level).tlweLv0.N ct keyFrom)
        ≤ hopBound (paramsFor level).tlweLv0.N (paramsFor level).trgswLv1.BASEBIT (paramsFor level).trgswLv1.IKS_T
            (weight (paramsFor level).tlweLv0.N keyFrom) E := by
  have W := C63_wellFormed level
  generalize paramsFor level = P at *
  have hb := W.basebit_pos
  have ht := W.iks_pos
  have hf := W.ks_fits
  obtain ⟨pk, epk, hl, hr, hp⟩ := newPublicKey_spec P keyTo (P.tlweLv0.N * 2) draw noise h0.ge
  obtain ⟨rk, e, -, hrt, -, hk⟩ := C60_asymmetric P keyFrom keyTo pk P.trgswLv1.BASEBIT P.trgswLv1.IKS_T noCoins sample
    undef h1.ge hr
  have hE' : ∀ i j k, nrm (f64ToTorus (sample i j k) + ∑ e ∈ range pk.length, signedNoise ((noCoins i j k).sel e)
      ((noCoins i j k).add e) (phase P.tlweLv0.N (entry pk e) keyTo)) ≤ E := by
    intro i j k
    have : ∑ e ∈ range pk.length, signedNoise ((noCoins i j k).sel e) ((noCoins i j k).add e)
        (phase P.tlweLv0.N (entry pk e) keyTo) = 0 := sum_eq_zero fun e _ => rfl
    rw [this, add_zero]
    exact hE i j k
  obtain ⟨out, eo, -, ho⟩ := C60_reencrypt P ct keyFrom keyTo rk P.trgswLv1.BASEBIT _ E (by rw [hrt]; exact hf)
    (by rw [hrt]; nlinarith) (hk hf hbin) (fun i _ j _ k _ _ => hE' i j k) hbin hct
  refine ⟨pk, out, epk, ?_, by rw [hrt] at ho; exact ho⟩
  unfold asymReencrypt newReencKeyAsymDefault
  rw [e, Option.bind_eq_bind, Option.bind_some]
  exact eo

/-- The claim: at this level, for all keys, samples and ciphertexts whose coin-free phase is within `B` of the message and
whose digits and public-key noises have energy at most `U`, a re-encrypted Boolean decrypts wrongly with probability at
most `δ` over the coins. -/
def ReencReliable (level : SecurityLevel) (U B : ℕ) (δ : ℝ) : Prop :=
  ∀ (keyFrom keyTo : List Torus) (draw : ℕ → ℕ → Torus) (noise : ℕ → ℚ) (sample undef : ℕ → ℕ → ℕ → ℚ)
    (ct : List Torus) (pk : List (List Torus)) (out0 : List Torus) (m : Bool),
    keyFrom.length = (paramsFor level).tlweLv0.N → keyTo.length = (paramsFor level).tlweLv0.N →
    IsBinary keyFrom → IsBinary keyTo → ct.length = (paramsFor level).tlweLv0.N + 1 →
    newPublicKeyLv0 (paramsFor level) keyTo draw noise = some pk →
    asymReencrypt (paramsFor level) keyFrom pk noCoins sample undef ct = some out0 →
    |(phase (paramsFor level).tlweLv0.N out0 keyTo).toInt - boolPhase m| ≤ B →
    usedDigits (paramsFor level).tlweLv0.N (paramsFor level).trgswLv1.BASEBIT (paramsFor level).trgswLv1.IKS_T ct
      * noiseEnergy ((paramsFor level).tlweLv0.N * 2) noise ≤ U →
    CoinProbLe (fun a : ReencTape (paramsFor level) =>
      asymReencBool (paramsFor level) keyFrom keyTo pk a.reencCoins sample undef ct ≠ some m) δ

/-- Per level: the energy (a tenth above the expected one: `n T (1 - 2^-b)` digits times `2n` variances of the noise), the
bound on the coin-free phase, and the reciprocal of the probability. -/
def reencTable : List (SecurityLevel × ℕ × ℕ × ℕ) :=
  [(80, 161 * 10 ^ 15, 2 ^ 24, 5), (110, 9 * 10 ^ 16, 2 ^ 24, 20), (128, 54 * 10 ^ 15, 2 ^ 24, 140),
   (1, 48 * 10 ^ 15, 2 ^ 23, 300), (2, 243 * 10 ^ 14, 2 ^ 25, 30000), (3, 34 * 10 ^ 13, 2 ^ 25, 2 ^ 200),
   (4, 5 * 10 ^ 14, 2 ^ 25, 2 ^ 200), (5, 7 * 10 ^ 11, 2 ^ 25, 2 ^ 200), (6, 7 * 10 ^ 11, 2 ^ 25, 2 ^ 200),
   (7, 65 * 10 ^ 9, 2 ^ 25, 2 ^ 200), (8, 65 * 10 ^ 9, 2 ^ 25, 2 ^ 200)]

theorem reencReliable_of (level : SecurityLevel) (U B : ℕ) (δ : ℝ) (hU : 0 < U) (hB : B < 2 ^ 29)
    (h : Real.exp (-(((2 ^ 29 - B : ℕ) : ℝ) ^ 2 / U)) + Real.exp (-(((3 * 2 ^ 29 - B : ℕ) : ℝ) ^ 2 / U)) ≤ δ) :
    ReencReliable level U B δ := by
  intro keyFrom keyTo draw noise sample undef ct pk out0 m h1 h0 hbin _ hct hpk hout0 hphase hle
  exact (C75_bool level keyFrom keyTo h1 h0 hbin draw noise sample undef ct hct pk hpk out0 hout0 m B hB hphase U hU
    hle).mono h

/-- **C75**, what holds at each level. -/
theorem C75_partial (level : SecurityLevel) (U B D : ℕ) (hrow : (level, U, B, D) ∈ reencTable) :
    ReencReliable level U B (1 / D) := by
  have small : ∀ x y : ℝ, x ≤ 1 / 2 ^ 201 → y ≤ 1 / 2 ^ 201 → x + y ≤ 1 / ((2 ^ 200 : ℕ) : ℝ) := by
    intro x y hx hy
    have e : (1 : ℝ) / ((2 ^ 200 : ℕ) : ℝ) = 1 / 2 ^ 201 + 1 / 2 ^ 201 := by norm_num
    linarith
  unfold reencTable at hrow
  simp only [List.mem_cons, Prod.mk.injEq, List.not_mem_nil, or_false] at hrow
  rcases hrow with ⟨rfl, rfl, rfl, rfl⟩ | ⟨rfl, rfl, rfl, rfl⟩ | ⟨rfl, rfl, rfl, rfl⟩ | ⟨rfl, rfl, rfl, rfl⟩ |
    ⟨rfl, rfl, rfl, rfl⟩ | ⟨rfl, rfl, rfl, rfl⟩ | ⟨rfl, rfl, rfl, rfl⟩ | ⟨rfl, rfl, rfl, rfl⟩ |
    ⟨rfl, rfl, rfl, rfl⟩ | ⟨rfl, rfl, rfl, rfl⟩ | ⟨rfl, rfl, rfl, rfl⟩ <;>
  refine reencReliable_of _ _ _ _ (by norm_num) (by norm_num) ?_
  · have a := exp_neg_le' 1.67 (((2 ^ 29 - 2 ^ 24 : ℕ) : ℝ) ^ 2 / ((161 * 10 ^ 15 : ℕ) : ℝ)) 0.19 (by norm_num) (by norm_num) (by norm_num)
      (by norm_num [Finset.sum_range_succ, Nat.factorial])
    have b := exp_neg_le_two (((3 * 2 ^ 29 - 2 ^ 24 : ℕ) : ℝ) ^ 2 / ((161 * 10 ^ 15 : ℕ) : ℝ)) 10 (by norm_num)
    push_cast at a b ⊢
    norm_num at a b ⊢
    linarith
  · have a := exp_neg_le' 3 (((2 ^ 29 - 2 ^ 24 : ℕ) : ℝ) ^ 2 / ((9 * 10 ^ 16 : ℕ) : ℝ)) 0.0499 (by norm_num) (by norm_num) (by norm_num)
      (by norm_num [Finset.sum_range_succ, Nat.factorial])
    have b := exp_neg_le_two (((3 * 2 ^ 29 - 2 ^ 24 : ℕ) : ℝ) ^ 2 / ((9 * 10 ^ 16 : ℕ) : ℝ)) 20 (by norm_num)
    norm_num at a b ⊢
    linarith
  · have a := exp_neg_le' 5 (((2 ^ 29 - 2 ^ 24 : ℕ) : ℝ) ^ 2 / ((54 * 10 ^ 15 : ℕ) : ℝ)) 0.007 (by norm_num) (by norm_num) (by norm_num)
      (by norm_num [Finset.sum_range_succ, Nat.factorial])
    have b := exp_neg_le_two (((3 * 2 ^ 29 - 2 ^ 24 : ℕ) : ℝ) ^ 2 / ((54 * 10 ^ 15 : ℕ) : ℝ)) 20 (by norm_num)
    norm_num at a b ⊢
    linarith
  · have a := exp_neg_le' 5.8 (((2 ^ 29 - 2 ^ 23 : ℕ) : ℝ) ^ 2 / ((48 * 10 ^ 15 : ℕ) : ℝ)) 0.0032 (by norm_num) (by norm_num) (by norm_num)
      (by norm_num [Finset.sum_range_succ, Nat.factorial])
    have b := exp_neg_le_two (((3 * 2 ^ 29 - 2 ^ 23 : ℕ) : ℝ) ^ 2 / ((48 * 10 ^ 15 : ℕ) : ℝ)) 20 (by norm_num)
    norm_num at a b ⊢
    linarith
  · have a := exp_neg_le' 10.42 (((2 ^ 29 - 2 ^ 25 : ℕ) : ℝ) ^ 2 / ((243 * 10 ^ 14 : ℕ) : ℝ)) 0.0000332 (by norm_num) (by norm_num) (by norm_num)
      (by norm_num [Finset.sum_range_succ, Nat.factorial])
    have b := exp_neg_le_two (((3 * 2 ^ 29 - 2 ^ 25 : ℕ) : ℝ) ^ 2 / ((243 * 10 ^ 14 : ℕ) : ℝ)) 40 (by norm_num)
    norm_num at a b ⊢
    linarith
  · have a := exp_neg_le_two (((2 ^ 29 - 2 ^ 25 : ℕ) : ℝ) ^ 2 / ((34 * 10 ^ 13 : ℕ) : ℝ)) 201 (by norm_num)
    have b := exp_neg_le_two (((3 * 2 ^ 29 - 2 ^ 25 : ℕ) : ℝ) ^ 2 / ((34 * 10 ^ 13 : ℕ) : ℝ)) 201 (by norm_num)
    exact small _ _ a b
  · have a := exp_neg_le_two (((2 ^ 29 - 2 ^ 25 : ℕ) : ℝ) ^ 2 / ((5 * 10 ^ 14 : ℕ) : ℝ)) 201 (by norm_num)
    have b := exp_neg_le_two (((3 * 2 ^ 29 - 2 ^ 25 : ℕ) : ℝ) ^ 2 / ((5 * 10 ^ 14 : ℕ) : ℝ)) 201 (by norm_num)
    exact small _ _ a b
  iterate 2
    · have a := exp_neg_le_two (((2 ^ 29 - 2 ^ 25 : ℕ) : ℝ) ^ 2 / ((7 * 10 ^ 11 : ℕ) : ℝ)) 201 (by norm_num)
      have b := exp_neg_le_two (((3 * 2 ^ 29 - 2 ^ 25 : ℕ) : ℝ) ^ 2 / ((7 * 10 ^ 11 : ℕ) : ℝ)) 201 (by norm_num)
      exact small _ _ a b
  iterate 2
    · have a := exp_neg_le_two (((2 ^ 29 - 2 ^ 25 : ℕ) : ℝ) ^ 2 / ((65 * 10 ^ 9 : ℕ) : ℝ)) 201 (by norm_num)
      have b := exp_neg_le_two (((3 * 2 ^ 29 - 2 ^ 25 : ℕ) : ℝ) ^ 2 / ((65 * 10 ^ 9 : ℕ) : ℝ)) 201 (by norm_num)
      exact small _ _ a b

/-- Per level with a message modulus `2^k`: energy, bound on the coin-free phase, reciprocal of the probability. -/
def reencMsgTable : List (SecurityLevel × ℕ × ℕ × ℕ × ℕ) :=
  [(3, 3, 34 * 10 ^ 13, 2 ^ 25, 2 ^ 28), (4, 4, 5 * 10 ^ 14, 2 ^ 22, 1000), (5, 5, 7 * 10 ^ 11, 2 ^ 22, 2 ^ 200),
   (6, 6, 7 * 10 ^ 11, 2 ^ 22, 2 ^ 200), (7, 7, 65 * 10 ^ 9, 2 ^ 20, 2 ^ 200), (8, 8, 65 * 10 ^ 9, 2 ^ 20, 2 ^ 140)]

/-- The expected energy: `n T (1 - 2^-b)` non-zero digits of a uniform mask, times `2n` public-key noises of variance
`(α 2^32)^2`. -/
def expectedEnergy (P : Params) : ℚ :=
  P.tlweLv0.N * P.trgswLv1.IKS_T * (1 - 1 / 2 ^ P.trgswLv1.BASEBIT) * (P.tlweLv0.N * 2) * (P.tlweLv0.ALPHA * 2 ^ 32) ^ 2

/-- The energies of `reencTable` are those of the code's own noise parameters: between the expected one and 15 percent
more. The energies and the largest noise assumed by `C75_level80` are from nine tenths to twice the expected one and at
least nine standard deviations. -/
theorem C75_energy :
    (∀ row ∈ reencTable, expectedEnergy (paramsFor row.1) ≤ row.2.1 ∧
      (row.2.1 : ℚ) ≤ 115 / 100 * expectedEnergy (paramsFor row.1)) ∧
    (∀ row ∈ reencMsgTable, expectedEnergy (paramsFor row.1) ≤ row.2.2.1 ∧
      (row.2.2.1 : ℚ) ≤ 115 / 100 * expectedEnergy (paramsFor row.1)) ∧
    90 / 100 * expectedEnergy (paramsFor 80) ≤ 132 * 10 ^ 15 ∧ (132 * 10 ^ 15 : ℚ) ≤ 91 / 100 * expectedEnergy (paramsFor 80) ∧
    19 / 10 * expectedEnergy (paramsFor 80) ≤ 2 ^ 58 ∧ 9 * ((paramsFor 80).tlweLv0.ALPHA * 2 ^ 32) ≤ 2 ^ 21 := by
  decide +kernel

/-- **C75** for messages at Uint3 to Uint8, modulo the modulus the level is named for. -/
theorem C75_message_levels (level : SecurityLevel) (k U B D : ℕ) (hrow : (level, k, U, B, D) ∈ reencMsgTable)
    (keyFrom keyTo : List Torus)
    (h1 : keyFrom.length = (paramsFor level).tlweLv0.N) (h0 : keyTo.length = (paramsFor level).tlweLv0.N)
    (hbin : IsBinary keyFrom) (draw : ℕ → ℕ → Torus) (noise : ℕ → ℚ) (sample undef : ℕ → ℕ → ℕ → ℚ)
    (ct : List Torus) (hct : ct.length = (paramsFor level).tlweLv0.N + 1)
    (pk : List (List Torus)) (hpk : newPublicKeyLv0 (paramsFor level) keyTo draw noise = some pk)
    (out0 : List Torus) (hout0 : asymReencrypt (paramsFor level) keyFrom pk noCoins sample undef ct = some out0)
    (r : ℕ) (d : ℤ) (hr : r < 2 ^ k)
    (hphase : phase (paramsFor level).tlweLv0.N out0 keyTo = BitVec.ofInt 32 ((r : ℤ) * (2 ^ 31 / 2 ^ k : ℕ) + d))
    (hd : |d| ≤ B)
    (hle : usedDigits (paramsFor level).tlweLv0.N (paramsFor level).trgswLv1.BASEBIT (paramsFor level).trgswLv1.IKS_T ct
      * noiseEnergy ((paramsFor level).tlweLv0.N * 2) noise ≤ U) :
    CoinProbLe (fun a : ReencTape (paramsFor level) =>
        asymReencMessage (paramsFor level) keyFrom keyTo pk a.reencCoins sample undef ct (2 ^ k) ≠ some (r : ℤ))
      (1 / D) := by
  rw [abs_le] at hd
  have fin : ∀ T : ℕ, 0 < U → k ≤ 31 → T + B = 2 ^ 31 / 2 ^ k / 2 → 2 * (T + B) = 2 ^ 31 / 2 ^ k →
      2 * Real.exp (-((T : ℝ) ^ 2 / U)) ≤ 1 / D →
      CoinProbLe (fun a : ReencTape (paramsFor level) =>
        asymReencMessage (paramsFor level) keyFrom keyTo pk a.reencCoins sample undef ct (2 ^ k) ≠ some (r : ℤ))
      (1 / D) := by
    intro T hU hk hT hT2 he
    exact (C75_message level keyFrom keyTo h1 h0 hbin draw noise sample undef ct hct pk hpk out0 hout0 (2 ^ k) r d
      Nat.one_le_two_pow (Nat.pow_le_pow_right (by norm_num) hk) hr hphase U T hU hle (by omega) (by omega)).mono he
  unfold reencMsgTable at hrow
  simp only [List.mem_cons, Prod.mk.injEq, List.not_mem_nil, or_false] at hrow
  rcases hrow with ⟨rfl, rfl, rfl, rfl, rfl⟩ | ⟨rfl, rfl, rfl, rfl, rfl⟩ | ⟨rfl, rfl, rfl, rfl, rfl⟩ |
    ⟨rfl, rfl, rfl, rfl, rfl⟩ | ⟨rfl, rfl, rfl, rfl, rfl⟩ | ⟨rfl, rfl, rfl, rfl, rfl⟩
  · refine fin (2 ^ 27 - 2 ^ 25) (by norm_num) (by norm_num) (by norm_num) (by norm_num) ?_
    have a := exp_neg_le_two (((2 ^ 27 - 2 ^ 25 : ℕ) : ℝ) ^ 2 / ((34 * 10 ^ 13 : ℕ) : ℝ)) 29 (by norm_num)
    norm_num at a ⊢
    linarith
  · refine fin (2 ^ 26 - 2 ^ 22) (by norm_num) (by norm_num) (by norm_num) (by norm_num) ?_
    have a := exp_neg_le' 7.9 (((2 ^ 26 - 2 ^ 22 : ℕ) : ℝ) ^ 2 / ((5 * 10 ^ 14 : ℕ) : ℝ)) 0.0004 (by norm_num) (by norm_num)
      (by norm_num) (by norm_num [Finset.sum_range_succ, Nat.factorial])
    norm_num at a ⊢
    linarith
  · refine fin (2 ^ 25 - 2 ^ 22) (by norm_num) (by norm_num) (by norm_num) (by norm_num) ?_
    have a := exp_neg_le_two (((2 ^ 25 - 2 ^ 22 : ℕ) : ℝ) ^ 2 / ((7 * 10 ^ 11 : ℕ) : ℝ)) 201 (by norm_num)
    norm_num at a ⊢
    linarith
  · refine fin (2 ^ 24 - 2 ^ 22) (by norm_num) (by norm_num) (by norm_num) (by norm_num) ?_
    have a := exp_neg_le_two (((2 ^ 24 - 2 ^ 22 : ℕ) : ℝ) ^ 2 / ((7 * 10 ^ 11 : ℕ) : ℝ)) 201 (by norm_num)
    norm_num at a ⊢
    linarith
  · refine fin (2 ^ 23 - 2 ^ 20) (by norm_num) (by norm_num) (by norm_num) (by norm_num) ?_
    have a := exp_neg_le_two (((2 ^ 23 - 2 ^ 20 : ℕ) : ℝ) ^ 2 / ((65 * 10 ^ 9 : ℕ) : ℝ)) 201 (by norm_num)
    norm_num at a ⊢
    linarith
  · refine fin (2 ^ 22 - 2 ^ 20) (by norm_num) (by norm_num) (by norm_num) (by norm_num) ?_
    have a := exp_neg_le_two (((2 ^ 22 - 2 ^ 20 : ℕ) : ℝ) ^ 2 / ((65 * 10 ^ 9 : ℕ) : ℝ)) 141 (by norm_num)
    norm_num at a ⊢
    linarith

/-- The hypotheses of `C75_message_levels` hold together: Uint3, message 5 modulo 8. -/
example : ∃ ct pk out0,
    asymReencrypt (paramsFor 3) (unitKey 820) pk noCoins (fun _ _ _ => 0) (fun _ _ _ => 0) ct = some out0 ∧
    CoinProbLe (fun a : ReencTape (paramsFor 3) => asymReencMessage (paramsFor 3) (unitKey 820) (onesThird 820) pk
      a.reencCoins (fun _ _ _ => 0) (fun _ _ _ => 0) ct (2 ^ 3) ≠ some ((5 : ℕ) : ℤ)) (1 / (2 ^ 28 : ℕ)) := by
  have hn : nrm (f64ToTorus (((10000 : ℤ) : ℚ) / 2 ^ 32)) = 10000 := by
    rw [f64ToTorus_int_div _ (by norm_num) (by norm_num)]; decide
  have hz : f64ToTorus 0 = 0 := f64ToTorus_zero'
  have hlen : (unitKey 820).length = (paramsFor 3).tlweLv0.N := length_tab _ _
  obtain ⟨ct, e, hl, hmask, hph⟩ := tlwe0EncryptF64_eq (paramsFor 3) (newTLWELv0 (paramsFor 3)) (unitKey 820)
    (((1342177280 : ℤ) : ℚ) / 2 ^ 32) (fun i => BitVec.ofNat 32 (i * 2654435761)) 0 hlen.ge (by simp [newTLWELv0])
  have hl' : ct.length = 821 := by rw [hl]; simp [newTLWELv0]; rfl
  obtain ⟨pk, out0, epk, eout, hb⟩ := reenc_noCoins 3 (unitKey 820) (onesThird 820) hlen (length_onesThird 820)
    (isBinary_unitKey 820) (fun e i => BitVec.ofNat 32 (e * 977 + i * 2654435761))
    (fun _ => ((10000 : ℤ) : ℚ) / 2 ^ 32) (fun _ _ _ => 0) (fun _ _ _ => 0) 0
    (fun _ _ _ => by rw [hz, nrm_zero]) ct hl'
  change nrm (phase 820 out0 (onesThird 820) - phase 820 ct (unitKey 820)) ≤ hopBound 820 6 2 (weight 820 (unitKey 820)) 0 at hb
  change phase 820 ct (unitKey 820) = _ at hph
  rw [hz, add_zero, f64ToTorus_int_div _ (by norm_num) (by norm_num)] at hph
  rw [weight_unitKey 820 (by norm_num), hph] at hb
  refine ⟨ct, pk, out0, eout, C75_message_levels 3 3 (34 * 10 ^ 13) (2 ^ 25) (2 ^ 28) (by unfold reencMsgTable; exact List.mem_cons_self)
    (unitKey 820) (onesThird 820) hlen (length_onesThird 820) (isBinary_unitKey 820) _ _ _ _ ct hl' pk epk out0 eout 5
    (phase 820 out0 (onesThird 820) - BitVec.ofInt 32 1342177280).toInt (by norm_num) ?_ ?_ ?_⟩
  · change phase 820 out0 (onesThird 820) = _
    have e5 : ((5 : ℕ) : ℤ) * ((2 ^ 31 / 2 ^ 3 : ℕ) : ℤ) = 1342177280 := by norm_num
    rw [e5, ofInt_add32, ofInt_toInt32]
    exact (add_sub_cancel _ _).symm
  · unfold nrm at hb
    rw [Int.abs_eq_natAbs]
    refine Int.ofNat_le.2 (hb.trans ?_)
    show 1 * 2 ^ (31 - 6 * 2) + 820 * (2 * 0) ≤ 2 ^ 25
    norm_num
  · change usedDigits 820 6 2 ct * noiseEnergy (820 * 2) _ ≤ _
    have hu : usedDigits 820 6 2 ct ≤ 1640 := by
      unfold usedDigits
      calc _ ≤ ∑ i ∈ range 820, ∑ j ∈ range 2, 1 := sum_le_sum fun i _ => sum_le_sum fun j _ => by split_ifs <;> omega
        _ = 1640 := by simp
    have he : noiseEnergy (820 * 2) (fun _ => ((10000 : ℤ) : ℚ) / 2 ^ 32) = 1640 * 10000 ^ 2 := by
      unfold noiseEnergy
      simp only [hn]
      rw [sum_const, card_range, smul_eq_mul]
    rw [he]
    calc _ ≤ 1640 * (1640 * 10000 ^ 2) := Nat.mul_le_mul_right _ hu
      _ ≤ _ := by norm_num

/-- The numbers of the lower bound, with cosine means `(5/8)^(k²)`. -/
theorem tailComb_five_eighths (q : ℝ) (hq : q ≤ 1 / 20000) : 0.0068 ≤ tailComb (gaussMean (5 / 8) q) := by
  unfold tailComb gaussMean
  norm_num
  linarith

theorem numbers80 (U : ℕ) (κ : ℝ) (h1 : κ ≤ 0.47005) (hU : (132 * 10 ^ 15 : ℝ) ≤ U) :
    4 * κ * ((2 ^ 21 : ℕ) : ℝ) ^ 2 ≤ (1 / 100) ^ 2 * U ∧
    9 * κ * (2 ^ 29 + ((2 ^ 24 : ℕ) : ℝ) + 1) ^ 2 ≤ Real.pi ^ 2 * U := by
  have hpi : (9.869 : ℝ) ≤ Real.pi ^ 2 := by have := Real.pi_gt_d4; nlinarith
  constructor
  · norm_num; linarith
  · have := mul_le_mul hpi hU (by norm_num) (by positivity)
    norm_num at this ⊢
    linarith

/-- **C75**, the failure at the 80-bit level: for every pair of keys, every ciphertext and all samples such that the
coin-free phase is within `2^24` of the message, no public-key noise exceeds `2^21` (ten standard deviations) and the
energy is between nine tenths and twice the expected one, at least one in 299 tapes flips the message. -/
theorem C75_level80 (keyFrom keyTo : List Torus)
    (h1 : keyFrom.length = (paramsFor 80).tlweLv0.N) (h0 : keyTo.length = (paramsFor 80).tlweLv0.N)
    (hbin : IsBinary keyFrom) (draw : ℕ → ℕ → Torus) (noise : ℕ → ℚ) (sample undef : ℕ → ℕ → ℕ → ℚ)
    (ct : List Torus) (hct : ct.length = (paramsFor 80).tlweLv0.N + 1)
    (pk : List (List Torus)) (hpk : newPublicKeyLv0 (paramsFor 80) keyTo draw noise = some pk)
    (out0 : List Torus) (hout0 : asymReencrypt (paramsFor 80) keyFrom pk noCoins sample undef ct = some out0)
    (m : Bool) (hphase : |(phase (paramsFor 80).tlweLv0.N out0 keyTo).toInt - boolPhase m| ≤ 2 ^ 24)
    (hM : ∀ e, nrm (f64ToTorus (noise e)) ≤ 2 ^ 21)
    (hlo : 132 * 10 ^ 15 ≤ usedDigits (paramsFor 80).tlweLv0.N (paramsFor 80).trgswLv1.BASEBIT
      (paramsFor 80).trgswLv1.IKS_T ct * noiseEnergy ((paramsFor 80).tlweLv0.N * 2) noise)
    (hhi : usedDigits (paramsFor 80).tlweLv0.N (paramsFor 80).trgswLv1.BASEBIT
      (paramsFor 80).trgswLv1.IKS_T ct * noiseEnergy ((paramsFor 80).tlweLv0.N * 2) noise ≤ 2 ^ 58) :
    CoinProbGe (fun a : ReencTape (paramsFor 80) =>
        asymReencBool (paramsFor 80) keyFrom keyTo pk a.reencCoins sample undef ct = some !m) (1 / 299) := by
  obtain ⟨U, hU⟩ : ∃ U, usedDigits (paramsFor 80).tlweLv0.N (paramsFor 80).trgswLv1.BASEBIT
      (paramsFor 80).trgswLv1.IKS_T ct * noiseEnergy ((paramsFor 80).tlweLv0.N * 2) noise = U := ⟨_, rfl⟩
  rw [hU] at hlo hhi
  have hloR : (132 * 10 ^ 15 : ℝ) ≤ U := by exact_mod_cast hlo
  have hhiR : (U : ℝ) ≤ 2 ^ 58 := by exact_mod_cast hhi
  obtain ⟨κ, hκ⟩ : ∃ κ, κ = Real.log (8 / 5) := ⟨_, rfl⟩
  have hκ0 : 0 ≤ κ := by rw [hκ]; exact Real.log_nonneg (by norm_num)
  have hexp : Real.exp (-κ) = 5 / 8 := by
    rw [hκ, Real.exp_neg, Real.exp_log (by norm_num)]; norm_num
  have hκ1 : κ ≤ 0.47005 := by
    rw [hκ, Real.log_le_iff_le_exp (by norm_num)]
    refine le_trans ?_ (Real.sum_le_exp_of_nonneg (by norm_num) 8)
    norm_num [Finset.sum_range_succ, Nat.factorial]
  obtain ⟨n1, n2⟩ := numbers80 U κ hκ1 hloR
  have main := C75_wrong 80 keyFrom keyTo h1 h0 hbin draw noise sample undef ct hct pk hpk out0 hout0 m (2 ^ 24)
    (by norm_num) (by exact_mod_cast hphase) (2 ^ 21) hM U (by omega) hU κ (1 / 100) hκ0 (by norm_num) (by norm_num)
    (by linarith) n1 n2
  refine le_trans (mul_le_mul_of_nonneg_right ?_ (by positivity)) main
  have hUpos : (0 : ℝ) < U := by linarith
  have htail : Real.exp (-((2 ^ 31 : ℝ) ^ 2 / U)) ≤ 1 / 2 ^ 16 := by
    refine exp_neg_le_two _ 16 ?_
    rw [le_div_iff₀ hUpos]
    push_cast
    linarith
  have hc := tailComb_five_eighths (κ * (1 / 100) ^ 2) (by linarith)
  rw [hexp]
  norm_num at htail ⊢
  linarith

/-- A key with every fifth bit set. -/
def onesFifth (n : ℕ) : List Torus := tab n fun i => if i % 5 = 0 then 1 else 0

theorem isBinary_onesFifth (n : ℕ) : IsBinary (onesFifth n) := by
  intro x hx
  obtain ⟨i, -, rfl⟩ := mem_tab hx
  split_ifs
  · right; rfl
  · left; rfl

theorem length_onesFifth (n : ℕ) : (onesFifth n).length = n := length_tab _ _

theorem weight_onesFifth : weight 550 (onesFifth 550) = 110 := by
  unfold weight onesFifth
  rw [sum_congr rfl fun i hi => by rw [at'_tab _ _ _ (mem_range.mp hi)]]
  decide +kernel

/-- The situation of the witness: 80 bits, a fresh encryption of `true` with mask words `0x55555555`, all samples zero,
public-key noises of 0.86 standard deviations each. -/
theorem witness80 : ∃ ct pk out0,
    tlwe0EncryptBool (paramsFor 80) (newTLWELv0 (paramsFor 80)) true (onesFifth 550) (fun _ => 0x55555555) 0 = some ct ∧
    ct.length = 551 ∧
    newPublicKeyLv0 (paramsFor 80) (onesThird 550) (fun e i => BitVec.ofNat 32 (e * 977 + i * 2654435761))
      (fun _ => ((185000 : ℤ) : ℚ) / 2 ^ 32) = some pk ∧
    asymReencrypt (paramsFor 80) (onesFifth 550) pk noCoins (fun _ _ _ => 0) (fun _ _ _ => 0) ct = some out0 ∧
    |(phase 550 out0 (onesThird 550)).toInt - boolPhase true| ≤ 2 ^ 24 ∧
    usedDigits 550 2 7 ct * noiseEnergy (550 * 2) (fun _ => ((185000 : ℤ) : ℚ) / 2 ^ 32) = 144942875000000000 ∧
    nrm (f64ToTorus (((185000 : ℤ) : ℚ) / 2 ^ 32)) = 185000 := by
  have hn : nrm (f64ToTorus (((185000 : ℤ) : ℚ) / 2 ^ 32)) = 185000 := by
    rw [f64ToTorus_int_div _ (by norm_num) (by norm_num)]; decide
  have hz : f64ToTorus 0 = 0 := f64ToTorus_zero'
  obtain ⟨ct, e, hl, hmask, hph⟩ := tlwe0EncryptF64_eq (paramsFor 80) (newTLWELv0 (paramsFor 80)) (onesFifth 550)
    (if true then 0.125 else -0.125) (fun _ => 0x55555555) 0 (length_onesFifth 550).ge (by simp [newTLWELv0])
  have hl' : ct.length = 551 := by rw [hl]; simp [newTLWELv0]; rfl
  obtain ⟨pk, out0, epk, eout, hb⟩ := reenc_noCoins 80 (onesFifth 550) (onesThird 550) (length_onesFifth 550)
    (length_onesThird 550)
    (isBinary_onesFifth 550) (fun e i => BitVec.ofNat 32 (e * 977 + i * 2654435761))
    (fun _ => ((185000 : ℤ) : ℚ) / 2 ^ 32) (fun _ _ _ => 0) (fun _ _ _ => 0) 0
    (fun _ _ _ => by rw [hz, nrm_zero]) ct hl'
  refine ⟨ct, pk, out0, e, hl', epk, eout, ?_, ?_, hn⟩
  · change nrm (phase 550 out0 (onesThird 550) - phase 550 ct (onesFifth 550)) ≤ hopBound 550 2 7 (weight 550 (onesFifth 550)) 0 at hb
    change phase 550 ct (onesFifth 550) = _ at hph
    rw [hz, add_zero, f64ToTorus_bool] at hph
    rw [weight_onesFifth] at hb
    obtain ⟨p, hp⟩ : ∃ p, p = phase 550 out0 (onesThird 550) := ⟨_, rfl⟩
    rw [← hp, hph] at hb
    rw [← hp]
    have h2 : (p - 536870912#32).toInt = (p.toInt - 536870912).bmod 4294967296 := by
      rw [toInt_sub32]; rfl
    change nrm (p - 536870912#32) ≤ 110 * 2 ^ (31 - 2 * 7) + 550 * (7 * 0) at hb
    unfold nrm at hb
    rw [h2] at hb
    unfold boolPhase
    rw [if_pos rfl, abs_le]
    obtain ⟨k, hk, hlo, hhi⟩ := bmod32_cases (p.toInt - 536870912)
    have := BitVec.toInt_lt (x := p)
    have := BitVec.le_toInt (x := p)
    rw [hk] at hb
    constructor <;> omega
  · have hu : usedDigits 550 2 7 ct = 3850 := by
      unfold usedDigits
      have : ∀ i ∈ range 550, (∑ j ∈ range 7, if ksDigit 2 7 ct i j ≠ 0 then 1 else 0) = 7 := by
        intro i hi
        have hd : ∀ j ∈ range 7, (if ksDigit 2 7 ct i j ≠ 0 then 1 else 0) = 1 := by
          intro j hj
          refine if_pos ?_
          unfold ksDigit
          rw [hmask i (mem_range.1 hi)]
          revert j
          decide
        rw [sum_congr rfl hd]; rfl
      rw [sum_congr rfl this, sum_const, card_range]; rfl
    have he : noiseEnergy (550 * 2) (fun _ => ((185000 : ℤ) : ℚ) / 2 ^ 32) = 1100 * 185000 ^ 2 := by
      unfold noiseEnergy
      simp only [hn]
      rw [sum_const, card_range, smul_eq_mul]
    rw [hu, he]
    norm_num

/-- The claim of one failure in 300 is false at the 80-bit level. -/
theorem C75_false : ¬ ReencReliable 80 (161 * 10 ^ 15) (2 ^ 24) (1 / 300) := by
  intro h
  obtain ⟨ct, pk, out0, -, hl, hpk, hout, hph, hU, hn⟩ := witness80
  have h1 := h (onesFifth 550) (onesThird 550) _ _ _ _ ct pk out0 true (length_onesFifth 550) (length_onesThird 550)
    (isBinary_onesFifth 550) (isBinary_onesThird 550) hl hpk hout (by exact_mod_cast hph)
    (le_of_eq_of_le hU (by norm_num))
  have h2 := C75_level80 (onesFifth 550) (onesThird 550) (length_onesFifth 550) (length_onesThird 550)
    (isBinary_onesFifth 550) _ _ _ _ ct hl pk hpk out0 hout true hph (fun _ => hn.le.trans (by norm_num))
    (le_of_le_of_eq (by norm_num) hU.symm) (le_of_eq_of_le hU (by norm_num))
  unfold CoinProbLe at h1
  unfold CoinProbGe at h2
  have hsub : {a : ReencTape (paramsFor 80) | asymReencBool (paramsFor 80) (onesFifth 550) (onesThird 550) pk a.reencCoins
        (fun _ _ _ => 0) (fun _ _ _ => 0) ct = some !true}
      ⊆ {a | asymReencBool (paramsFor 80) (onesFifth 550) (onesThird 550) pk a.reencCoins
        (fun _ _ _ => 0) (fun _ _ _ => 0) ct ≠ some true} := by
    intro a ha hc
    have := ha.symm.trans hc
    exact absurd this (by decide)
  have h3 := Set.ncard_le_ncard hsub (Set.toFinite _)
  have h3' : (Set.ncard {a : ReencTape (paramsFor 80) | asymReencBool (paramsFor 80) (onesFifth 550) (onesThird 550) pk a.reencCoins
        (fun _ _ _ => 0) (fun _ _ _ => 0) ct = some !true} : ℝ)
      ≤ Set.ncard {a : ReencTape (paramsFor 80) | asymReencBool (paramsFor 80) (onesFifth 550) (onesThird 550) pk a.reencCoins
        (fun _ _ _ => 0) (fun _ _ _ => 0) ct ≠ some true} := by exact_mod_cast h3
  have h4 := (h2.trans h3').trans h1
  have h5 : (0 : ℝ) < 4 ^ Fintype.card (ReencThrow (paramsFor 80).tlweLv0.N (paramsFor 80).trgswLv1.IKS_T
    (2 ^ (paramsFor 80).trgswLv1.BASEBIT) ((paramsFor 80).tlweLv0.N * 2)) := by positivity
  have h6 := le_of_mul_le_mul_right h4 h5
  norm_num at h6

/-- The hypotheses of the upper bounds hold together (the same situation, at the 80-bit level). -/
example : ∃ ct pk out0,
    asymReencrypt (paramsFor 80) (onesFifth 550) pk noCoins (fun _ _ _ => 0) (fun _ _ _ => 0) ct = some out0 ∧
    CoinProbLe (fun a : ReencTape (paramsFor 80) => asymReencBool (paramsFor 80) (onesFifth 550) (onesThird 550) pk
      a.reencCoins (fun _ _ _ => 0) (fun _ _ _ => 0) ct ≠ some true) (1 / (5 : ℕ)) := by
  obtain ⟨ct, pk, out0, -, hl, hpk, hout, hph, hU, -⟩ := witness80
  exact ⟨ct, pk, out0, hout, C75_partial 80 (161 * 10 ^ 15) (2 ^ 24) 5 (by unfold reencTable; exact List.mem_cons_self)
    _ _ _ _ _ _ ct pk out0 true (length_onesFifth 550) (length_onesThird 550) (isBinary_onesFifth 550)
    (isBinary_onesThird 550) hl hpk hout (by exact_mod_cast hph) (le_of_eq_of_le hU (by norm_num))⟩

end GoTfhe
