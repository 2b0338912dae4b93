import Verif.Props.ProxyReenc

/-!
# C74: what a re-encryption key tells the delegatee

A re-encryption key from `keyFrom` to `keyTo` is made of encryptions of multiples of the bits of `keyFrom` under `keyTo`.
Whoever holds `keyTo` decrypts them. `delegatorKey` below is that computation; it is not code of `/repo`.
-/

namespace GoTfhe

/-- The delegator's key, computed from the re-encryption key and the delegatee's secret key: bit `i` is decrypted from
the entry of `keyFrom[i]` at digit place `0` and digit `base/2`, which encrypts `keyFrom[i]/2`. -/
def delegatorKey (n : ℕ) (rk : ReencKey) (keyTo : List Torus) : List Torus :=
  tab n fun i =>
    if 2 ^ 30 ≤ nrm (phase n (entry rk.keyEncryptions (rk.base * rk.t * i + rk.base / 2)) keyTo) then 1 else 0

/-- A key used in the examples: every third bit set. -/
def onesThird (n : ℕ) : List Torus := tab n fun i => if i % 3 = 0 then 1 else 0

theorem isBinary_onesThird (n : ℕ) : IsBinary (onesThird n) := by
  intro x hx
  obtain ⟨i, -, rfl⟩ := mem_tab hx
  split_ifs
  · right; rfl
  · left; rfl

theorem half_bit (s e : Torus) (hs : s = 0 ∨ s = 1) (he : nrm e < 2 ^ 30) :
    (if 2 ^ 30 ≤ nrm ((2147483648 : Torus) * s + e) then (1 : Torus) else 0) = s := by
  rcases hs with h | h
  · rw [h, mul_zero, zero_add, if_neg (not_le.2 he)]
  · rw [h, mul_one, if_pos]
    have : ((2147483648 : Torus) + e).toInt = Int.bmod ((2147483648 : Torus).toInt + e.toInt) 4294967296 := toInt_add32 _ _
    have h2 : (2147483648 : Torus).toInt = -2147483648 := by decide
    unfold nrm at he ⊢
    rw [this, h2]
    obtain ⟨k, hk, hl, hh⟩ := bmod32_cases (-2147483648 + e.toInt)
    rw [hk]
    omega

/-- **C74.** For every re-encryption key with entry errors below `1/4`: the delegatee computes the whole secret key of
the delegator from it. -/
theorem C74_delegatee (n b : ℕ) (rk : ReencKey) (keyFrom keyTo : List Torus) (err : ℕ → ℕ → ℕ → Torus)
    (hrk : IsReencKey n b rk keyFrom keyTo err) (hb : 1 ≤ b) (hb2 : b ≤ 31) (ht : 1 ≤ rk.t)
    (hbin : IsBinary keyFrom) (hlen : keyFrom.length = n)
    (herr : ∀ i < n, nrm (err i 0 (2 ^ (b - 1))) < 2 ^ 30) :
    delegatorKey n rk keyTo = keyFrom := by
  refine (eq_tab_of _ _ _ hlen fun i hi => ?_).symm
  rw [hlen] at hi
  rw [← at'_of_lt keyFrom i (by omega)]
  have hk : 2 ^ (b - 1) < 2 ^ b := Nat.pow_lt_pow_right (by norm_num) (by omega)
  have h := hrk.enc i hi 0 (by omega) (2 ^ (b - 1)) Nat.one_le_two_pow hk
  have hhalf : rk.base / 2 = 2 ^ (b - 1) := by
    rw [hrk.base]
    obtain ⟨c, rfl⟩ : ∃ c, b = c + 1 := ⟨b - 1, by omega⟩
    rw [Nat.add_sub_cancel, pow_succ, Nat.mul_div_cancel _ (by norm_num)]
  have hp : 2 ^ (b - 1) * 2 ^ (32 - (0 + 1) * b) = 2147483648 := by
    rw [← pow_add, show b - 1 + (32 - (0 + 1) * b) = 31 by omega]; norm_num
  rw [hp, mul_zero, add_zero] at h
  rw [hhalf, hrk.base, h]
  exact (half_bit _ _ (isBinary_at' hbin i) (herr i hi)).symm

/-- **C74**, symmetric mode with the defaults of any security level: from the key that `NewProxyReencryptionKeySymmetric`
returns, for all draws of less than `1/4`. -/
theorem C74_symmetric (level : SecurityLevel) (keyFrom keyTo : List Torus)
    (h1 : keyFrom.length = (paramsFor level).tlweLv0.N) (h0 : keyTo.length = (paramsFor level).tlweLv0.N)
    (hbin : IsBinary keyFrom) (draw : ℕ → ℕ → ℕ → ℕ → Torus) (sample undef : ℕ → ℕ → ℕ → ℚ)
    (hs : ∀ i j k, nrm (f64ToTorus (sample i j k)) < 2 ^ 30) :
    ∃ rk, newReencKeySymDefault (paramsFor level) keyFrom keyTo draw sample undef = some rk ∧
      delegatorKey (paramsFor level).tlweLv0.N rk keyTo = keyFrom := by
  have W := C63_wellFormed level
  generalize paramsFor level = P at *
  obtain ⟨rk, e, -, hrt, -, hk⟩ := C60_symmetric P keyFrom keyTo P.trgswLv1.BASEBIT P.trgswLv1.IKS_T draw sample
    undef h1.ge h0.ge
  have hb := W.basebit_pos
  have ht := W.iks_pos
  have hf := W.ks_fits
  exact ⟨rk, e, C74_delegatee _ _ rk keyFrom keyTo _ (hk hf hbin) hb (by nlinarith) (by omega) hbin h1
    fun i _ => hs i 0 _⟩

/-- **C74**, the recommended asymmetric mode with the defaults of any security level: the delegatee publishes the key
`pk`, the delegator makes the re-encryption key from it, and the delegatee reads the delegator's secret key off that
re-encryption key. For all coins, and all draws that add up to less than `1/4`. -/
theorem C74_asymmetric (level : SecurityLevel) (keyFrom keyTo : List Torus)
    (h1 : keyFrom.length = (paramsFor level).tlweLv0.N) (h0 : keyTo.length = (paramsFor level).tlweLv0.N)
    (hbin : IsBinary keyFrom) (draw : ℕ → ℕ → Torus) (noise : ℕ → ℚ)
    (coins : ℕ → ℕ → ℕ → Coins) (sample undef : ℕ → ℕ → ℕ → ℚ)
    (hs : ∀ i j k, nrm (f64ToTorus (sample i j k))
      + ∑ e ∈ Finset.range ((paramsFor level).tlweLv0.N * 2), nrm (f64ToTorus (noise e)) < 2 ^ 30) :
    ∃ pk rk, newPublicKeyLv0 (paramsFor level) keyTo draw noise = some pk ∧
      newReencKeyAsymDefault (paramsFor level) keyFrom pk coins sample undef = some rk ∧
      delegatorKey (paramsFor level).tlweLv0.N rk keyTo = keyFrom := by
  have W := C63_wellFormed level
  generalize paramsFor level = P at *
  obtain ⟨pk, epk, hl, hr, hp⟩ := newPublicKey_spec P keyTo (P.tlweLv0.N * 2) draw noise h0.ge
  obtain ⟨rk, e, -, hrt, -, hk⟩ := C60_asymmetric P keyFrom keyTo pk P.trgswLv1.BASEBIT P.trgswLv1.IKS_T coins sample
    undef h1.ge hr
  have hb := W.basebit_pos
  have ht := W.iks_pos
  have hf := W.ks_fits
  refine ⟨pk, rk, epk, e, C74_delegatee _ _ rk keyFrom keyTo _ (hk hf hbin) hb (by nlinarith) (by omega) hbin h1
    fun i _ => ?_⟩
  refine lt_of_le_of_lt ((nrm_add _ _).trans (Nat.add_le_add_left ((nrm_sum _ _).trans ?_) _)) (hs i 0 _)
  rw [hl]
  refine Finset.sum_le_sum fun e he => (nrm_signedNoise _ _ _).trans (le_of_eq ?_)
  rw [(hp e (Finset.mem_range.1 he)).1, f64ToTorus_zero', zero_add]

/-- The hypothesis of `C74_asymmetric` holds at the default level whenever every draw is within 8 standard deviations
(`8 * 2e-5 * 2^32 < 687195`). -/
theorem C74_noise_default (noise : ℕ → ℚ) (sample : ℚ) (hn : ∀ e, nrm (f64ToTorus (noise e)) ≤ 687195)
    (hs : nrm (f64ToTorus sample) ≤ 687195) :
    nrm (f64ToTorus sample) + ∑ e ∈ Finset.range ((paramsFor 128).tlweLv0.N * 2), nrm (f64ToTorus (noise e))
      < 2 ^ 30 := by
  have : ∑ e ∈ Finset.range (700 * 2), nrm (f64ToTorus (noise e)) ≤ (700 * 2) * 687195 := by
    refine (Finset.sum_le_card_nsmul _ _ 687195 fun e _ => hn e).trans (le_of_eq ?_)
    rw [Finset.card_range, smul_eq_mul]
  change _ + ∑ e ∈ Finset.range (700 * 2), nrm (f64ToTorus (noise e)) < 2 ^ 30
  omega

/-- Non-vacuity at the default level: every draw is one standard deviation, all coins used. -/
example : ∃ pk rk, newPublicKeyLv0 (paramsFor 128) (onesThird 700) (fun e i => BitVec.ofNat 32 (e * 977 + i * 2654435761))
      (fun _ => ((85899 : ℤ) : ℚ) / 2 ^ 32) = some pk ∧
    newReencKeyAsymDefault (paramsFor 128) (onesThird 700) pk (fun _ _ _ => ⟨fun _ => true, fun e => e % 3 = 0⟩)
      (fun _ _ _ => ((85899 : ℤ) : ℚ) / 2 ^ 32) (fun _ _ _ => 0) = some rk ∧
    delegatorKey 700 rk (onesThird 700) = onesThird 700 := by
  have h : nrm (f64ToTorus (((85899 : ℤ) : ℚ) / 2 ^ 32)) ≤ 687195 := by
    rw [f64ToTorus_int_div _ (by norm_num) (by norm_num)]
    decide
  exact C74_asymmetric 128 (onesThird 700) (onesThird 700) (length_tab _ _) (length_tab _ _) (isBinary_onesThird 700) _ _ _ _ _
    fun _ _ _ => C74_noise_default _ _ (fun _ => h) h

end GoTfhe
