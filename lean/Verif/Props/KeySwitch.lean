import Verif.Lemmas.KeySwitch
import Verif.Props.Params

/-!
# C31, C33 – C35: modulus switching and key switching
-/

namespace GoTfhe

/-! ### C31 -/

/-- `t` is the nearest integer to `x * 2N / 2^32`, ties upward. -/
def IsNearest2N (N x : ℕ) (t : ℤ) : Prop :=
  t * 2 ^ 32 ≤ x * (2 * N) + 2 ^ 31 ∧ ((x : ℤ) * (2 * N) + 2 ^ 31) < (t + 1) * 2 ^ 32

theorem nearest_core (nBit x : ℕ) (h : nBit ≤ 30) :
    IsNearest2N (2 ^ nBit) x (((x + 2 ^ (30 - nBit)) / 2 ^ (31 - nBit) : ℕ) : ℤ) := by
  unfold IsNearest2N
  have h1 := Nat.div_add_mod (x + 2 ^ (30 - nBit)) (2 ^ (31 - nBit))
  have h2 := Nat.mod_lt (x + 2 ^ (30 - nBit)) (show 0 < 2 ^ (31 - nBit) by positivity)
  have e1 : (2 : ℕ) ^ 32 = 2 ^ (31 - nBit) * (2 * 2 ^ nBit) := by
    rw [← pow_succ', ← pow_add]; congr 1; omega
  have e2 : (2 : ℕ) ^ 31 = 2 ^ (30 - nBit) * (2 * 2 ^ nBit) := by
    rw [← pow_succ', ← pow_add]; congr 1; omega
  generalize (x + 2 ^ (30 - nBit)) / 2 ^ (31 - nBit) = q at *
  generalize (x + 2 ^ (30 - nBit)) % 2 ^ (31 - nBit) = r at *
  have hc : 0 < 2 * 2 ^ nBit := by positivity
  obtain ⟨c, hcdef⟩ : ∃ c, c = 2 * 2 ^ nBit := ⟨_, rfl⟩
  rw [← hcdef] at e1 e2 hc
  generalize 2 ^ (31 - nBit) = A at *
  generalize 2 ^ (30 - nBit) = B at *
  have k1 : q * (A * c) ≤ x * c + B * c := by
    have : q * (A * c) + r * c = x * c + B * c := by nlinarith
    omega
  have k2 : x * c + B * c < (q + 1) * (A * c) := by nlinarith
  rw [← e1, ← e2, hcdef] at k1 k2
  constructor
  · exact_mod_cast k1
  · exact_mod_cast k2

/-- **C31**, for every `NBIT ≤ 30` (beyond it the shift of the code would be by a negative count) and `N = 2^NBIT`. -/
theorem C31_modswitch_all (nb : ℕ) (hn : nb ≤ 30) (x : Torus) :
    ∃ t : ℤ, IsNearest2N (2 ^ nb) x.toNat t ∧
      (0 ≤ aTilda nb x ∧ aTilda nb x < 2 * (2 ^ nb : ℕ) ∧ (2 * (2 ^ nb : ℕ) : ℤ) ∣ aTilda nb x - t) ∧
      (bTilda (2 ^ nb) nb x = 2 * (2 ^ nb : ℕ) - t ∧ 0 ≤ bTilda (2 ^ nb) nb x ∧
        bTilda (2 ^ nb) nb x ≤ 2 * (2 ^ nb : ℕ)) := by
  have e30 : 31 - nb - 1 = 30 - nb := by omega
  have e31 : 32 - nb - 1 = 31 - nb := by omega
  have hA : 2 ^ 32 = 2 ^ (31 - nb) * (2 * 2 ^ nb) := by
    rw [← pow_succ', ← pow_add]; congr 1; omega
  have hx := x.isLt
  have hB : 2 ^ (30 - nb) ≤ 2 ^ (31 - nb) := pow_le_pow_right₀ (by norm_num) (by omega)
  have hBpos : 0 < 2 ^ (31 - nb) := by positivity
  refine ⟨_, nearest_core nb x.toNat hn, ?_, ?_⟩
  · have ha : aTilda nb x = (((x.toNat + 2 ^ (30 - nb)) % 2 ^ 32 / 2 ^ (31 - nb) : ℕ) : ℤ) := by
      unfold aTilda
      rw [e30, e31, shl_one_eq, natCast_eq, BitVec.toNat_ushiftRight, BitVec.toNat_add,
        BitVec.toNat_ofNat, Nat.shiftRight_eq_div_pow, Nat.add_mod_mod]
    rw [ha, hA, Nat.mod_mul_right_div_self]
    refine ⟨by positivity, ?_, ?_⟩
    · have := Nat.mod_lt ((x.toNat + 2 ^ (30 - nb)) / 2 ^ (31 - nb)) (show 0 < 2 * 2 ^ nb by positivity)
      exact_mod_cast this
    · generalize (x.toNat + 2 ^ (30 - nb)) / 2 ^ (31 - nb) = q
      have := Int.emod_add_mul_ediv (q : ℤ) (2 * 2 ^ nb)
      push_cast
      exact ⟨-((q : ℤ) / (2 * 2 ^ nb)), by linarith⟩
  · have hb : bTilda (2 ^ nb) nb x
        = 2 * ((2 ^ nb : ℕ) : ℤ) - (((x.toNat + 2 ^ (30 - nb)) / 2 ^ (31 - nb) : ℕ) : ℤ) := by
      unfold bTilda
      rw [e30, e31, Nat.shiftRight_eq_div_pow, Nat.one_shiftLeft]
    refine ⟨hb, ?_, ?_⟩
    · rw [hb]
      have : (x.toNat + 2 ^ (30 - nb)) / 2 ^ (31 - nb) ≤ 2 * 2 ^ nb := by
        rw [← Nat.lt_add_one_iff, Nat.div_lt_iff_lt_mul hBpos]
        rw [hA] at hx
        nlinarith
      have h' : (((x.toNat + 2 ^ (30 - nb)) / 2 ^ (31 - nb) : ℕ) : ℤ) ≤ ((2 * 2 ^ nb : ℕ) : ℤ) :=
        Int.ofNat_le.2 this
      push_cast at h' ⊢
      linarith
    · rw [hb]
      have : (0 : ℤ) ≤ (((x.toNat + 2 ^ (30 - nb)) / 2 ^ (31 - nb) : ℕ) : ℤ) := by positivity
      linarith

theorem modswitch_core {P : Params} (W : WellFormed P) (x : Torus) :
    ∃ t : ℤ, IsNearest2N P.trgswLv1.N x.toNat t ∧
      (0 ≤ aTilda P.trgswLv1.NBIT x ∧ aTilda P.trgswLv1.NBIT x < 2 * P.trgswLv1.N ∧
        (2 * P.trgswLv1.N : ℤ) ∣ aTilda P.trgswLv1.NBIT x - t) ∧
      (bTilda P.trgswLv1.N P.trgswLv1.NBIT x = 2 * P.trgswLv1.N - t ∧
        0 ≤ bTilda P.trgswLv1.N P.trgswLv1.NBIT x ∧
        bTilda P.trgswLv1.N P.trgswLv1.NBIT x ≤ 2 * P.trgswLv1.N) := by
  rw [W.pow2]
  exact C31_modswitch_all _ W.nbit_le x

/-- **C31.** At every security level, for every 32-bit word: the exponent of the mask coefficient `a`
is in `[0, 2N)` and congruent modulo `2N` to the nearest integer to `a * 2N / 2^32`, and the one of
the body is exactly `2N` minus the nearest integer to `b * 2N / 2^32`, in `[0, 2N]`. -/
theorem C31_modswitch (level : SecurityLevel) (x : Torus) :
    let P := (paramsFor level).trgswLv1
    ∃ t : ℤ, IsNearest2N P.N x.toNat t ∧
      (0 ≤ aTilda P.NBIT x ∧ aTilda P.NBIT x < 2 * P.N ∧ (2 * P.N : ℤ) ∣ aTilda P.NBIT x - t) ∧
      (bTilda P.N P.NBIT x = 2 * P.N - t ∧ 0 ≤ bTilda P.N P.NBIT x ∧ bTilda P.N P.NBIT x ≤ 2 * P.N) := by
  exact modswitch_core (C63_wellFormed level) x

/-- The wrap-around case is real: a mask coefficient just below `2^32` gets exponent `0`, and a body
just below `2^32` exponent `0 = 2N - 2N`. -/
example : aTilda 10 0xffffffff#32 = 0 ∧ bTilda 1024 10 0xffffffff#32 = 0 ∧ bTilda 1024 10 0#32 = 2048 := by
  decide

/-! ### C33 -/

theorem ksOut_bound_all {P : Params} (hfit : P.trgswLv1.BASEBIT * P.trgswLv1.IKS_T ≤ 31) (src : List Torus) (ksk : List (List Torus))
    (s0 s1 : List Torus) (err : ℕ → ℕ → ℕ → Torus) (E : ℕ)
    (hksk : IsKsk P.tlweLv0.N P.trgswLv1.N P.trgswLv1.BASEBIT P.trgswLv1.IKS_T ksk s0 s1 err)
    (hE : ∀ i j k, nrm (err i j k) ≤ E) (hs1 : ∀ i, at' s1 i = 0 ∨ at' s1 i = 1) :
    nrm (phase P.tlweLv0.N (ksOut P.tlweLv0.N P.trgswLv1.N P.trgswLv1.BASEBIT P.trgswLv1.IKS_T src ksk) s0
        - phase P.trgswLv1.N src s1)
      ≤ weight P.trgswLv1.N s1 * 2 ^ (31 - P.trgswLv1.BASEBIT * P.trgswLv1.IKS_T)
        + P.trgswLv1.N * (P.trgswLv1.IKS_T * E) := by
  rw [phase_ksOut _ _ _ _ _ _ _ s1 err hfit hksk]
  set n := P.trgswLv1.N
  set b := P.trgswLv1.BASEBIT
  set T := P.trgswLv1.IKS_T
  have e : ∀ a c d : Torus, a - c - d - a = -(c + d) := by intro a c d; ring
  rw [e, nrm_neg]
  refine (nrm_add _ _).trans (Nat.add_le_add ?_ ?_)
  · refine (nrm_sum _ _).trans ?_
    unfold weight
    rw [Finset.sum_mul]
    apply Finset.sum_le_sum
    intro i _
    rcases hs1 i with h | h
    · rw [h, mul_zero]
      exact (le_of_eq nrm_zero).trans (Nat.zero_le _)
    · rw [h, mul_one]
      have : (1 : Torus).toNat = 1 := rfl
      rw [this, Nat.one_mul]
      exact nrm_ksRound b T _ hfit
  · have h1 : ∀ i ∈ Finset.range n, nrm (∑ j ∈ Finset.range T,
        if ksDigit b T src i j ≠ 0 then err i j (ksDigit b T src i j) else 0) ≤ T * E := by
      intro i _
      refine (nrm_sum_le _ _ E ?_).trans (by simp)
      intro j _
      split_ifs
      · exact hE _ _ _
      · exact (le_of_eq nrm_zero).trans (Nat.zero_le _)
    exact (nrm_sum_le _ _ _ h1).trans (by simp)

theorem ksOut_bound {P : Params} (W : WellFormed P) (src : List Torus) (ksk : List (List Torus))
    (s0 s1 : List Torus) (err : ℕ → ℕ → ℕ → Torus) (E : ℕ)
    (hksk : IsKsk P.tlweLv0.N P.trgswLv1.N P.trgswLv1.BASEBIT P.trgswLv1.IKS_T ksk s0 s1 err)
    (hE : ∀ i j k, nrm (err i j k) ≤ E) (hs1 : ∀ i, at' s1 i = 0 ∨ at' s1 i = 1) :
    nrm (phase P.tlweLv0.N (ksOut P.tlweLv0.N P.trgswLv1.N P.trgswLv1.BASEBIT P.trgswLv1.IKS_T src ksk) s0
        - phase P.trgswLv1.N src s1)
      ≤ weight P.trgswLv1.N s1 * 2 ^ (31 - P.trgswLv1.BASEBIT * P.trgswLv1.IKS_T)
        + P.trgswLv1.N * (P.trgswLv1.IKS_T * E) :=
  ksOut_bound_all W.ks_fits src ksk s0 s1 err E hksk hE hs1

/-- **C33.** For all parameters with `BASEBIT ≥ 1` and `BASEBIT * IKS_T ≤ 31`, and for every ciphertext `src` of dimension `N`: under the
level-0 key `s0` the switched ciphertext has the phase of `src` under `s1`, up to the rounding of the
mask coefficients selected by the key and the errors of the entries used; with a binary `s1` and
entry errors at most `E` the distance is at most `|s1|_1 * 2^(31-BASEBIT*IKS_T) + N*IKS_T*E`. -/
theorem C33_keyswitch_all (P : Params) (hb : 1 ≤ P.trgswLv1.BASEBIT)
    (hfit : P.trgswLv1.BASEBIT * P.trgswLv1.IKS_T ≤ 31) (src : List Torus) (ksk : List (List Torus))
    (s0 s1 : List Torus) (err : ℕ → ℕ → ℕ → Torus) (E : ℕ)
    (hsrc : src.length = P.trgswLv1.N + 1)
    (hk : ksk.length = 2 ^ P.trgswLv1.BASEBIT * P.trgswLv1.IKS_T
      * P.trgswLv1.N)
    (hrow : ∀ e ∈ ksk, e.length = P.tlweLv0.N + 1)
    (hksk : IsKsk P.tlweLv0.N P.trgswLv1.N
      P.trgswLv1.BASEBIT P.trgswLv1.IKS_T ksk s0 s1 err)
    (hE : ∀ i j k, nrm (err i j k) ≤ E) (hs1 : ∀ i, at' s1 i = 0 ∨ at' s1 i = 1) :
    ∃ out, identityKeySwitching P src ksk = some out ∧
      out.length = P.tlweLv0.N + 1 ∧
      nrm (phase P.tlweLv0.N out s0 - phase P.trgswLv1.N src s1)
        ≤ weight P.trgswLv1.N s1
            * 2 ^ (31 - P.trgswLv1.BASEBIT * P.trgswLv1.IKS_T)
          + P.trgswLv1.N * (P.trgswLv1.IKS_T * E) := by
  refine ⟨_, identityKeySwitching_eq P src ksk hb hfit hsrc hk.ge
    (fun e he => (hrow e he).ge), by simp [ksOut], ?_⟩
  exact ksOut_bound_all hfit src ksk s0 s1 err E hksk hE hs1

/-- **C33**, the shipped sets: the previous theorem at every security level. -/
theorem C33_keyswitch (level : SecurityLevel) (src : List Torus) (ksk : List (List Torus))
    (s0 s1 : List Torus) (err : ℕ → ℕ → ℕ → Torus) (E : ℕ)
    (hsrc : src.length = (paramsFor level).trgswLv1.N + 1)
    (hk : ksk.length = 2 ^ (paramsFor level).trgswLv1.BASEBIT * (paramsFor level).trgswLv1.IKS_T
      * (paramsFor level).trgswLv1.N)
    (hrow : ∀ e ∈ ksk, e.length = (paramsFor level).tlweLv0.N + 1)
    (hksk : IsKsk (paramsFor level).tlweLv0.N (paramsFor level).trgswLv1.N
      (paramsFor level).trgswLv1.BASEBIT (paramsFor level).trgswLv1.IKS_T ksk s0 s1 err)
    (hE : ∀ i j k, nrm (err i j k) ≤ E) (hs1 : ∀ i, at' s1 i = 0 ∨ at' s1 i = 1) :
    ∃ out, identityKeySwitching (paramsFor level) src ksk = some out ∧
      out.length = (paramsFor level).tlweLv0.N + 1 ∧
      nrm (phase (paramsFor level).tlweLv0.N out s0 - phase (paramsFor level).trgswLv1.N src s1)
        ≤ weight (paramsFor level).trgswLv1.N s1
            * 2 ^ (31 - (paramsFor level).trgswLv1.BASEBIT * (paramsFor level).trgswLv1.IKS_T)
          + (paramsFor level).trgswLv1.N * ((paramsFor level).trgswLv1.IKS_T * E) :=
  have W := C63_wellFormed level
  C33_keyswitch_all _ W.basebit_pos W.ks_fits src ksk s0 s1 err E hsrc hk hrow hksk hE hs1

/-- **C33**, exact form: the phase error is minus the key-selected rounding errors minus the errors of
exactly the entries that were used; the rounding error of one coefficient is at most half a unit of
the last digit. -/
theorem C33_keyswitch_exact_all (P : Params) (hb : 1 ≤ P.trgswLv1.BASEBIT)
    (hfit : P.trgswLv1.BASEBIT * P.trgswLv1.IKS_T ≤ 31) (src : List Torus) (ksk : List (List Torus))
    (s0 s1 : List Torus) (err : ℕ → ℕ → ℕ → Torus)
    (hsrc : src.length = P.trgswLv1.N + 1)
    (hk : ksk.length = 2 ^ P.trgswLv1.BASEBIT * P.trgswLv1.IKS_T
      * P.trgswLv1.N)
    (hrow : ∀ e ∈ ksk, e.length = P.tlweLv0.N + 1)
    (hksk : IsKsk P.tlweLv0.N P.trgswLv1.N
      P.trgswLv1.BASEBIT P.trgswLv1.IKS_T ksk s0 s1 err) :
    ∃ (out : List Torus) (rnd : ℕ → Torus) (dig : ℕ → ℕ → ℕ),
      identityKeySwitching P src ksk = some out ∧
      (∀ i, nrm (rnd i) ≤ 2 ^ (31 - P.trgswLv1.BASEBIT * P.trgswLv1.IKS_T)) ∧
      (∀ i j, dig i j < 2 ^ P.trgswLv1.BASEBIT) ∧
      phase P.tlweLv0.N out s0 = phase P.trgswLv1.N src s1
        - ∑ i ∈ Finset.range P.trgswLv1.N, rnd i * at' s1 i
        - ∑ i ∈ Finset.range P.trgswLv1.N,
            ∑ j ∈ Finset.range P.trgswLv1.IKS_T,
              if dig i j ≠ 0 then err i j (dig i j) else 0 := by
  exact ⟨_, fun i => ksRound P.trgswLv1.BASEBIT P.trgswLv1.IKS_T (at' src i),
    ksDigit P.trgswLv1.BASEBIT P.trgswLv1.IKS_T src,
    identityKeySwitching_eq P src ksk hb hfit hsrc hk.ge (fun e he => (hrow e he).ge),
    fun i => nrm_ksRound _ _ _ hfit, fun i j => Nat.mod_lt _ (by positivity),
    phase_ksOut _ _ _ _ _ _ _ s1 err hfit hksk⟩

/-- **C33**, the shipped sets: the previous theorem at every security level. -/
theorem C33_keyswitch_exact (level : SecurityLevel) (src : List Torus) (ksk : List (List Torus))
    (s0 s1 : List Torus) (err : ℕ → ℕ → ℕ → Torus)
    (hsrc : src.length = (paramsFor level).trgswLv1.N + 1)
    (hk : ksk.length = 2 ^ (paramsFor level).trgswLv1.BASEBIT * (paramsFor level).trgswLv1.IKS_T
      * (paramsFor level).trgswLv1.N)
    (hrow : ∀ e ∈ ksk, e.length = (paramsFor level).tlweLv0.N + 1)
    (hksk : IsKsk (paramsFor level).tlweLv0.N (paramsFor level).trgswLv1.N
      (paramsFor level).trgswLv1.BASEBIT (paramsFor level).trgswLv1.IKS_T ksk s0 s1 err) :
    ∃ (out : List Torus) (rnd : ℕ → Torus) (dig : ℕ → ℕ → ℕ),
      identityKeySwitching (paramsFor level) src ksk = some out ∧
      (∀ i, nrm (rnd i) ≤ 2 ^ (31 - (paramsFor level).trgswLv1.BASEBIT * (paramsFor level).trgswLv1.IKS_T)) ∧
      (∀ i j, dig i j < 2 ^ (paramsFor level).trgswLv1.BASEBIT) ∧
      phase (paramsFor level).tlweLv0.N out s0 = phase (paramsFor level).trgswLv1.N src s1
        - ∑ i ∈ Finset.range (paramsFor level).trgswLv1.N, rnd i * at' s1 i
        - ∑ i ∈ Finset.range (paramsFor level).trgswLv1.N,
            ∑ j ∈ Finset.range (paramsFor level).trgswLv1.IKS_T,
              if dig i j ≠ 0 then err i j (dig i j) else 0 :=
  have W := C63_wellFormed level
  C33_keyswitch_exact_all _ W.basebit_pos W.ks_fits src ksk s0 s1 err hsrc hk hrow hksk

/-- A key-switching key exists for every pair of keys: the noiseless trivial one. -/
theorem isKsk_trivial (n0 n1 b T : ℕ) (s0 s1 : List Torus) :
    ∃ ksk, ksk.length = 2 ^ b * T * n1 ∧ (∀ e ∈ ksk, e.length = n0 + 1) ∧
      IsKsk n0 n1 b T ksk s0 s1 (fun _ _ _ => 0) := by
  refine ⟨tab (2 ^ b * T * n1) fun idx => tab (n0 + 1) fun x =>
    if x = n0 then ((idx % 2 ^ b * 2 ^ (32 - (idx / 2 ^ b % T + 1) * b) : ℕ) : Torus)
      * at' s1 (idx / (2 ^ b * T)) else 0, by simp, ?_, ?_⟩
  · intro e he
    obtain ⟨i, -, rfl⟩ := List.mem_map.1 he
    simp
  · intro i hi j hj k hk1 hk2
    have hB : 0 < 2 ^ b := by positivity
    have hT : 0 < T := by omega
    have hlt : 2 ^ b * j + k < 2 ^ b * T := by
      calc 2 ^ b * j + k < 2 ^ b * j + 2 ^ b := by omega
        _ = 2 ^ b * (j + 1) := by ring
        _ ≤ 2 ^ b * T := Nat.mul_le_mul_left _ hj
    have hidx : 2 ^ b * T * i + 2 ^ b * j + k < 2 ^ b * T * n1 := by
      calc 2 ^ b * T * i + 2 ^ b * j + k < 2 ^ b * T * i + 2 ^ b * T := by omega
        _ = 2 ^ b * T * (i + 1) := by ring
        _ ≤ 2 ^ b * T * n1 := Nat.mul_le_mul_left _ hi
    unfold entry
    rw [List.getD_eq_getElem?_getD, getElem?_tab, if_pos hidx, Option.getD_some]
    have d1 : (2 ^ b * T * i + 2 ^ b * j + k) % 2 ^ b = k := by
      rw [show 2 ^ b * T * i + 2 ^ b * j + k = k + 2 ^ b * (T * i + j) by ring, Nat.add_mul_mod_self_left,
        Nat.mod_eq_of_lt hk2]
    have d2 : (2 ^ b * T * i + 2 ^ b * j + k) / 2 ^ b % T = j := by
      rw [show 2 ^ b * T * i + 2 ^ b * j + k = k + 2 ^ b * (T * i + j) by ring,
        Nat.add_mul_div_left _ _ hB, Nat.div_eq_of_lt hk2, Nat.zero_add, Nat.mul_add_mod,
        Nat.mod_eq_of_lt hj]
    have d3 : (2 ^ b * T * i + 2 ^ b * j + k) / (2 ^ b * T) = i := by
      rw [show 2 ^ b * T * i + 2 ^ b * j + k = (2 ^ b * j + k) + 2 ^ b * T * i by ring,
        Nat.add_mul_div_left _ _ (by positivity), Nat.div_eq_of_lt hlt, Nat.zero_add]
    unfold phase
    rw [at'_tab _ _ _ (by omega), if_pos rfl, d1, d2, d3, Finset.sum_eq_zero, sub_zero, add_zero]
    intro x hx
    have := Finset.mem_range.1 hx
    rw [at'_tab _ _ _ (by omega), if_neg (by omega), zero_mul]

/-! ### C34 -/

/-- **C34.** Whatever the output buffer held, `IdentityKeySwitchingAssign` writes what
`IdentityKeySwitching` returns. -/
theorem C34_dirty_buffer (P : Params) (src : List Torus) (ksk : List (List Torus)) (dirty : List Torus)
    (h : dirty.length = P.tlweLv0.N + 1) :
    identityKeySwitchingAssign P src ksk dirty = identityKeySwitching P src ksk := by
  unfold identityKeySwitching identityKeySwitchingAssign
  rw [forRange_fill_full _ dirty (fun _ => (0 : Torus)) rfl _ (fun _ _ _ _ => rfl), h]
  have : mkSlice (P.tlweLv0.N + 1) (0 : Torus) = tab (P.tlweLv0.N + 1) fun _ => 0 := by
    apply eq_tab_of _ _ _ (by simp)
    intro i hi
    simp [mkSlice]
  rw [this]
  rfl

/-! ### C35 -/

/-- **C35.** For in-range coefficient, level and digit the index is inside a key of
`BASE*T*N` entries, and different triples have different indices. -/
theorem C35_index (b T n : ℕ) (i j k i' j' k' : ℕ) (hi : i < n) (hj : j < T) (hk : k < 2 ^ b)
    (hj' : j' < T) (hk' : k' < 2 ^ b) :
    2 ^ b * T * i + 2 ^ b * j + k < 2 ^ b * T * n ∧
    (2 ^ b * T * i + 2 ^ b * j + k = 2 ^ b * T * i' + 2 ^ b * j' + k' → i = i' ∧ j = j' ∧ k = k') := by
  have hB : 0 < 2 ^ b := by positivity
  have hlt : ∀ j k, j < T → k < 2 ^ b → 2 ^ b * j + k < 2 ^ b * T := by
    intro j k hj hk
    calc 2 ^ b * j + k < 2 ^ b * j + 2 ^ b := by omega
      _ = 2 ^ b * (j + 1) := by ring
      _ ≤ 2 ^ b * T := Nat.mul_le_mul_left _ hj
  constructor
  · calc 2 ^ b * T * i + 2 ^ b * j + k < 2 ^ b * T * i + 2 ^ b * T := by have := hlt j k hj hk; omega
      _ = 2 ^ b * T * (i + 1) := by ring
      _ ≤ 2 ^ b * T * n := Nat.mul_le_mul_left _ hi
  · intro h
    have d3 : ∀ i j k, j < T → k < 2 ^ b → (2 ^ b * T * i + 2 ^ b * j + k) / (2 ^ b * T) = i := by
      intro i j k hj hk
      have hT : 0 < T := by omega
      rw [show 2 ^ b * T * i + 2 ^ b * j + k = (2 ^ b * j + k) + 2 ^ b * T * i by ring,
        Nat.add_mul_div_left _ _ (by positivity), Nat.div_eq_of_lt (hlt j k hj hk), Nat.zero_add]
    have d1 : ∀ i j k, k < 2 ^ b → (2 ^ b * T * i + 2 ^ b * j + k) % 2 ^ b = k := by
      intro i j k hk
      rw [show 2 ^ b * T * i + 2 ^ b * j + k = k + 2 ^ b * (T * i + j) by ring,
        Nat.add_mul_mod_self_left, Nat.mod_eq_of_lt hk]
    have e1 : i = i' := by rw [← d3 i j k hj hk, h, d3 i' j' k' hj' hk']
    have e2 : k = k' := by rw [← d1 i j k hk, h, d1 i' j' k' hk']
    subst e1 e2
    refine ⟨rfl, ?_, rfl⟩
    have : 2 ^ b * j = 2 ^ b * j' := by omega
    exact Nat.eq_of_mul_eq_mul_left hB this

/-- **C35.** Key switching never panics on a key of `BASE*T*N` entries, and the result does not
depend on the entries with digit `0`. -/
theorem C35_digit0_untouched_all (P : Params) (hb : 1 ≤ P.trgswLv1.BASEBIT)
    (hfit : P.trgswLv1.BASEBIT * P.trgswLv1.IKS_T ≤ 31) (src : List Torus) (ksk ksk' : List (List Torus))
    (hsrc : src.length = P.trgswLv1.N + 1)
    (hk : ksk.length = 2 ^ P.trgswLv1.BASEBIT * P.trgswLv1.IKS_T
      * P.trgswLv1.N) (hk' : ksk'.length = ksk.length)
    (hrow : ∀ e ∈ ksk, e.length = P.tlweLv0.N + 1)
    (hrow' : ∀ e ∈ ksk', e.length = P.tlweLv0.N + 1)
    (h : ∀ idx, idx % 2 ^ P.trgswLv1.BASEBIT ≠ 0 → entry ksk idx = entry ksk' idx) :
    identityKeySwitching P src ksk = identityKeySwitching P src ksk' ∧
    (identityKeySwitching P src ksk).isSome := by
  rw [identityKeySwitching_eq P src ksk hb hfit hsrc hk.ge (fun e he => (hrow e he).ge),
    identityKeySwitching_eq P src ksk' hb hfit hsrc (by omega)
      (fun e he => (hrow' e he).ge)]
  refine ⟨?_, rfl⟩
  congr 1
  apply tab_congr
  intro x _
  congr 1
  apply Finset.sum_congr rfl
  intro i _
  apply Finset.sum_congr rfl
  intro j _
  by_cases h0 : ksDigit P.trgswLv1.BASEBIT P.trgswLv1.IKS_T src i j = 0
  · rw [if_neg (by simpa using h0), if_neg (by simpa using h0)]
  · rw [if_pos h0, if_pos h0, h]
    rw [show ∀ B T i j k : ℕ, B * T * i + B * j + k = k + B * (T * i + j) by intros; ring,
      Nat.add_mul_mod_self_left, Nat.mod_eq_of_lt (show ksDigit _ _ _ _ _ < _ from Nat.mod_lt _ (by positivity))]
    exact h0

/-- **C35**, the shipped sets: the previous theorem at every security level. -/
theorem C35_digit0_untouched (level : SecurityLevel) (src : List Torus) (ksk ksk' : List (List Torus))
    (hsrc : src.length = (paramsFor level).trgswLv1.N + 1)
    (hk : ksk.length = 2 ^ (paramsFor level).trgswLv1.BASEBIT * (paramsFor level).trgswLv1.IKS_T
      * (paramsFor level).trgswLv1.N) (hk' : ksk'.length = ksk.length)
    (hrow : ∀ e ∈ ksk, e.length = (paramsFor level).tlweLv0.N + 1)
    (hrow' : ∀ e ∈ ksk', e.length = (paramsFor level).tlweLv0.N + 1)
    (h : ∀ idx, idx % 2 ^ (paramsFor level).trgswLv1.BASEBIT ≠ 0 → entry ksk idx = entry ksk' idx) :
    identityKeySwitching (paramsFor level) src ksk = identityKeySwitching (paramsFor level) src ksk' ∧
    (identityKeySwitching (paramsFor level) src ksk).isSome :=
  have W := C63_wellFormed level
  C35_digit0_untouched_all _ W.basebit_pos W.ks_fits src ksk ksk' hsrc hk hk' hrow hrow' h

end GoTfhe
