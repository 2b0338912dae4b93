import Verif.Spec.Rand
import Verif.Lemmas.Birthday
import Verif.Props.ProxyReenc
import Verif.Props.CloudKey
import Verif.Props.Params
import Verif.Props.Hiding
import Verif.Lemmas.BiasTail

/-!
# C92: how much randomness there is

`math/rand` generators have at most 2^31 - 1 different sequences, and every function of the library takes all its
randomness from one of them.
-/

namespace GoTfhe

open Finset

theorem seedClasses_pos : 0 < seedClasses := by decide

/-- Every seed produces the sequence of one of the seeds that the searching programs try. -/
theorem exists_small_seed {G : RandSource} (hG : SeedLaw G) (r : ℤ) (hr : 0 ≤ r) :
    ∃ m < seedClasses, G.newSource r = G.newSource (m : ℤ) := by
  have hq : (0 : ℤ) < seedClasses := by exact_mod_cast seedClasses_pos
  refine ⟨(r % seedClasses).toNat, ?_, ?_⟩
  · have h1 := Int.emod_nonneg r hq.ne'
    have h2 := Int.emod_lt_of_pos r hq
    omega
  · have h1 := Int.emod_nonneg r hq.ne'
    refine hG _ _ hr (by omega) ?_
    rw [Int.toNat_of_nonneg h1, Int.emod_emod_of_dvd _ dvd_rfl]

/-! ### Secret keys -/

theorem newSecretKeyR_congr {G : RandSource} (P : Params) {r r' : ℤ} (h : G.newSource r = G.newSource r') :
    newSecretKeyR G P r = newSecretKeyR G P r' := by
  unfold newSecretKeyR
  rw [h]

/-- **C92** (the claim "a secret key can only be found by trying 2^(n+N) keys" is false): at every level the list of at
most 2^31 - 1 keys that anyone can compute contains every secret key `NewSecretKey` returns. -/
theorem C92_false_keys (G : RandSource) (hG : SeedLaw G) (level : SecurityLevel) :
    (allSecretKeys G (paramsFor level)).length ≤ 2 ^ 31 - 1 ∧
    ∀ r : ℤ, 0 ≤ r → ∃ sk, newSecretKeyR G (paramsFor level) r = some sk ∧ sk ∈ allSecretKeys G (paramsFor level) := by
  refine ⟨?_, fun r hr => ?_⟩
  · refine (List.length_filterMap_le _ _).trans ?_
    rw [List.length_range]
    decide
  · obtain ⟨m, hm, e⟩ := exists_small_seed hG r hr
    have hs : ∃ sk, newSecretKeyR G (paramsFor level) r = some sk := by
      unfold newSecretKeyR newSecretKey
      simp only [keyLoop_eq, Option.bind_eq_bind, Option.bind_some]
      exact ⟨_, rfl⟩
    obtain ⟨sk, hsk⟩ := hs
    refine ⟨sk, hsk, ?_⟩
    unfold allSecretKeys
    rw [List.mem_filterMap]
    exact ⟨m, List.mem_range.2 hm, by rw [← newSecretKeyR_congr _ e]; exact hsk⟩

theorem lv0_ge_31 (level : SecurityLevel) : 31 ≤ (paramsFor level).tlweLv0.N := by
  show 31 ≤ (getTLWELv0 level).N
  unfold getTLWELv0
  split_ifs <;> decide

/-- **C92**: so there are pairs of binary keys that `NewSecretKey` never returns, whatever the generator is. -/
theorem C92_false_keys_missing (G : RandSource) (hG : SeedLaw G) (level : SecurityLevel) :
    ∃ sk : SecretKey, IsBinary sk.keyLv0 ∧ IsBinary sk.keyLv1 ∧
      sk.keyLv0.length = (paramsFor level).tlweLv0.N ∧ sk.keyLv1.length = (paramsFor level).tlweLv1.N ∧
      ∀ r : ℤ, 0 ≤ r → newSecretKeyR G (paramsFor level) r ≠ some sk := by
  classical
  by_contra hcon
  push Not at hcon
  have hn := lv0_ge_31 level
  obtain ⟨hlen, hall⟩ := C92_false_keys G hG level
  generalize paramsFor level = P at *
  let f : (Fin P.tlweLv0.N → Bool) → SecretKey := fun s => ⟨keyOf s, keyOf fun _ : Fin P.tlweLv1.N => false⟩
  have hf : ∀ s, f s ∈ (allSecretKeys G P).toFinset := by
    intro s
    obtain ⟨r, hr, e⟩ := hcon (f s) (isBinary_keyOf _) (isBinary_keyOf _) (by simp [f, keyOf]) (by simp [f, keyOf])
    obtain ⟨sk, e', hm⟩ := hall r hr
    rw [e] at e'
    cases e'
    exact List.mem_toFinset.2 hm
  have hinj : Function.Injective f := by
    intro s s' h
    have h := congrArg SecretKey.keyLv0 h
    funext i
    have := congrArg (fun l => at' l i.1) h
    simp only [f, keyOf] at this
    rw [at'_tab _ _ _ i.2, at'_tab _ _ _ i.2] at this
    unfold keyCoins at this
    rw [dif_pos i.2] at this
    rw [dif_pos i.2] at this
    revert this
    cases s i <;> cases s' i <;> simp
  have hc := card_le_card_of_injOn (s := univ) f (fun s _ => hf s) hinj.injOn
  have h2 : 2 ^ P.tlweLv0.N ≤ 2 ^ 31 - 1 := by
    refine le_trans ?_ ((hc.trans (List.toFinset_card_le _)).trans hlen)
    simp
  have h3 : 2 ^ 31 ≤ 2 ^ P.tlweLv0.N := Nat.pow_le_pow_right (by norm_num) hn
  omega

/-! ### Ciphertexts made with a public key -/

theorem pkEncryptF64R_congr {G : RandSource} (P : Params) (pk : List (List Torus)) (p alpha : ℚ) {r r' : ℤ}
    (h : G.newSource r = G.newSource r') : pkEncryptF64R G P pk p alpha r = pkEncryptF64R G P pk p alpha r' := by
  unfold pkEncryptF64R
  rw [h]

theorem searchSeeds_iff {G : RandSource} (hG : SeedLaw G) (P : Params) (pk : List (List Torus)) (p alpha : ℚ)
    (c : List Torus) :
    searchSeeds (pkEncryptF64R G P pk p alpha) c = true ↔ ∃ r : ℤ, 0 ≤ r ∧ pkEncryptF64R G P pk p alpha r = some c := by
  unfold searchSeeds
  rw [List.any_eq_true]
  constructor
  · rintro ⟨m, -, h⟩
    exact ⟨m, by omega, by simpa using h⟩
  · rintro ⟨r, hr, h⟩
    obtain ⟨m, hm, e⟩ := exists_small_seed hG r hr
    exact ⟨m, List.mem_range.2 hm, by rw [← pkEncryptF64R_congr P pk p alpha e]; simpa using h⟩

/-- **C92** (the claim "a ciphertext made with the public key can only be read with the secret key" is false): if any
reader `D` whatsoever, for instance the holder of the secret key, reads all encryptions of bits under this public key
correctly, then the program `readWithoutKey`, which only has the public key, reads them too. -/
theorem C92_false_reader (G : RandSource) (hG : SeedLaw G) (P : Params) (pk : List (List Torus)) (alpha : ℚ)
    (D : List Torus → Option Bool)
    (hD : ∀ b, ∀ r : ℤ, 0 ≤ r → ∀ c, pkEncryptBoolR G P pk b alpha r = some c → D c = some b)
    (b : Bool) (r : ℤ) (hr : 0 ≤ r) (c : List Torus) (hc : pkEncryptBoolR G P pk b alpha r = some c) :
    readWithoutKey G P pk alpha c = b := by
  have key : readWithoutKey G P pk alpha c = true ↔ ∃ r : ℤ, 0 ≤ r ∧ pkEncryptBoolR G P pk true alpha r = some c :=
    searchSeeds_iff hG P pk _ alpha c
  cases b
  · rw [Bool.eq_false_iff]
    intro h
    obtain ⟨r', hr', h'⟩ := key.1 h
    have h1 := hD true r' hr' c h'
    have h2 := hD false r hr c hc
    rw [h1] at h2
    simp at h2
  · exact key.2 ⟨r, hr, hc⟩

/-- The total noise of a ciphertext made with the public key. -/
theorem pkR_phase (G : RandSource) (P : Params) (pk : List (List Torus)) (hpk : ∀ e ∈ pk, e.length = P.tlweLv0.N + 1)
    (p alpha : ℚ) (s : List Torus) (E E' : ℕ)
    (hE : ∀ e < pk.length, nrm (phase P.tlweLv0.N (entry pk e) s) ≤ E)
    (hE' : ∀ st, nrm (f64ToTorus (G.gauss alpha st).1) ≤ E') (r : ℤ) :
    ∃ c ν, pkEncryptF64R G P pk p alpha r = some c ∧ c.length = P.tlweLv0.N + 1 ∧
      phase P.tlweLv0.N c s = f64ToTorus p + ν ∧ nrm ν ≤ pk.length * E + E' := by
  unfold pkEncryptF64R
  obtain ⟨c, e, hl, hp⟩ := C59_phase P pk hpk p
    ⟨fun e => (callAt (pkCoin G) (G.newSource r) e).1, fun e => (callAt (pkCoin G) (G.newSource r) e).2⟩
    (G.gauss alpha (afterCalls (pkCoin G) pk.length (G.newSource r))).1
  refine ⟨c, _, e, hl, by rw [hp s, add_assoc], ?_⟩
  refine (nrm_add _ _).trans ?_
  rw [add_comm]
  refine add_le_add ((nrm_sum _ _).trans ?_) (hE' _)
  refine (sum_le_card_nsmul _ _ E fun i hi => (nrm_signedNoise _ _ _).trans (hE i (mem_range.1 hi))).trans ?_
  simp

/-- **C92**: in particular whenever the noise is small enough for `DecryptBool` to be right, every ciphertext is read
from the public key alone. -/
theorem C92_false_reader_noise (G : RandSource) (hG : SeedLaw G) (P : Params) (pk : List (List Torus))
    (hpk : ∀ e ∈ pk, e.length = P.tlweLv0.N + 1) (alpha : ℚ) (s : List Torus) (hs : P.tlweLv0.N ≤ s.length) (E E' : ℕ)
    (hE : ∀ e < pk.length, nrm (phase P.tlweLv0.N (entry pk e) s) ≤ E)
    (hE' : ∀ st, nrm (f64ToTorus (G.gauss alpha st).1) ≤ E') (hm : pk.length * E + E' < 2 ^ 29)
    (b : Bool) (r : ℤ) (hr : 0 ≤ r) :
    ∃ c, pkEncryptBoolR G P pk b alpha r = some c ∧ tlwe0DecryptBool P c s = some b ∧
      readWithoutKey G P pk alpha c = b := by
  have dec : ∀ b (r : ℤ), ∃ c, pkEncryptBoolR G P pk b alpha r = some c ∧ tlwe0DecryptBool P c s = some b := by
    intro b r
    obtain ⟨c, ν, e, hl, hp, hn⟩ := pkR_phase G P pk hpk (if b then 0.125 else -0.125) alpha s E E' hE hE' r
    refine ⟨c, e, ?_⟩
    rw [tlwe0DecryptBool_eq P c s hs (by omega), hp, f64ToTorus_bool, Option.some.injEq, sign_margin]
    have : nrm ν < 2 ^ 29 := lt_of_le_of_lt hn hm
    unfold nrm at this
    split_ifs <;> omega
  obtain ⟨c, e, hd⟩ := dec b r
  refine ⟨c, e, hd, C92_false_reader G hG P pk alpha (fun c => tlwe0DecryptBool P c s) ?_ b r hr c e⟩
  intro b r _ c h
  obtain ⟨c', e', hd'⟩ := dec b r
  rw [h] at e'
  cases e'
  exact hd'

/-! ### Asymmetric re-encryption keys -/

theorem newReencKeyAsymR_entry (G : RandSource) (P : Params) (keyFrom : List Torus) (pk : List (List Torus))
    (hpk : ∀ e ∈ pk, e.length = P.tlweLv0.N + 1) (alpha : ℚ) (b T : ℕ) (r : ℕ → ℕ → ℕ → ℤ)
    (undef : ℕ → ℕ → ℕ → ℚ) (h1 : P.tlweLv0.N ≤ keyFrom.length) :
    ∃ rk, newReencKeyAsymR G P keyFrom pk alpha b T r undef = some rk ∧ rk.base = 2 ^ b ∧ rk.t = T ∧
      ∀ i < P.tlweLv0.N, ∀ j < T, ∀ k, k ≠ 0 → k < 2 ^ b →
        pkEncryptF64R G P pk (reencPlain k ((j + 1) * b) (at' keyFrom i) (undef i j k)) alpha (r i j k)
          = some (rk.keyEncryptions.getD (2 ^ b * T * i + 2 ^ b * j + k) []) := by
  set mk : ℕ → ℕ → ℕ → ℚ → Option (List Torus) := fun i j k p => pkEncryptF64R G P pk p alpha (r i j k) with hmk
  set B := 2 ^ b with hB
  set val : ℕ → List Torus := fun x =>
    (mk (x / (B * T)) (x / B % T) (x % B) (reencPlain (x % B) ((x / B % T + 1) * b) (at' keyFrom (x / (B * T)))
      (undef (x / (B * T)) (x / B % T) (x % B)))).getD [] with hval
  have hsome : ∀ i j k p, ∃ c, mk i j k p = some c := by
    intro i j k p
    obtain ⟨c, e, -⟩ := C59_phase P pk hpk p
      ⟨fun e => (callAt (pkCoin G) (G.newSource (r i j k)) e).1, fun e => (callAt (pkCoin G) (G.newSource (r i j k)) e).2⟩
      (G.gauss alpha (afterCalls (pkCoin G) pk.length (G.newSource (r i j k)))).1
    exact ⟨c, e⟩
  have hv : ∀ i < P.tlweLv0.N, ∀ j < T, ∀ k, k ≠ 0 → k < B →
      mk i j k (reencPlain k ((j + 1) * b) (at' keyFrom i) (undef i j k)) = some (val (B * T * i + B * j + k)) := by
    intro i hi j hj k h0 hk
    obtain ⟨d1, d2, d3⟩ := idx_decode B T i j k hj hk
    obtain ⟨c, e⟩ := hsome i j k (reencPlain k ((j + 1) * b) (at' keyFrom i) (undef i j k))
    simp only [hval]
    rw [d1, d2, d3, e]; rfl
  have hfill := reencFill_eq P.tlweLv0.N B b T keyFrom undef mk (newTLWELv0 P) h1 val hv
  rw [← mkSlice_tab] at hfill
  refine ⟨⟨tab (B * T * P.tlweLv0.N) fun x => if x % B ≠ 0 then val x else newTLWELv0 P, B, T⟩, ?_, rfl, rfl, ?_⟩
  · unfold newReencKeyAsymR newReencKeyAsym
    simp only [Nat.one_shiftLeft]
    rw [← hB]
    have : (reencFill P.tlweLv0.N B b T keyFrom undef
      (fun i j k p => pkEncryptF64 P pk p ⟨fun e => (callAt (pkCoin G) (G.newSource (r i j k)) e).1,
        fun e => (callAt (pkCoin G) (G.newSource (r i j k)) e).2⟩
        (G.gauss alpha (afterCalls (pkCoin G) pk.length (G.newSource (r i j k)))).1)
      (mkSlice (B * T * P.tlweLv0.N) (newTLWELv0 P))) = _ := hfill
    rw [this]
    rfl
  · intro i hi j hj k h0 hk
    have hx : B * T * i + B * j + k < B * T * P.tlweLv0.N := by
      have a1 : B * (j + 1) ≤ B * T := Nat.mul_le_mul_left _ hj
      have a2 : B * T * (i + 1) ≤ B * T * P.tlweLv0.N := Nat.mul_le_mul_left _ hi
      rw [Nat.mul_add] at a1 a2
      omega
    have hmod : (B * T * i + B * j + k) % B ≠ 0 := by
      rw [(idx_decode B T i j k hj hk).1]; exact h0
    show mk i j k _ = _
    rw [hv i hi j hj k h0 hk]
    congr 1
    simp only [tab]
    rw [List.getD_eq_getElem?_getD, List.getElem?_map, List.getElem?_range hx]
    simp [hmod]

/-- **C92** (the claim "an asymmetric re-encryption key does not give away the key of the delegator" is false): the
program `stealDelegator`, which has the re-encryption key and the public key of the delegatee, computes the secret key
of the delegator, whenever anyone at all can tell encryptions of 0 from encryptions of `2^-basebit`. -/
theorem C92_false_delegation (G : RandSource) (hG : SeedLaw G) (P : Params) (keyFrom : List Torus)
    (hl : keyFrom.length = P.tlweLv0.N) (hbin : IsBinary keyFrom) (pk : List (List Torus))
    (hpk : ∀ e ∈ pk, e.length = P.tlweLv0.N + 1) (alpha : ℚ) (b T : ℕ) (hb : 0 < b) (hb' : b < 32) (hT : 0 < T)
    (D : List Torus → Bool)
    (hD0 : ∀ r : ℤ, 0 ≤ r → ∀ c, pkEncryptF64R G P pk 0 alpha r = some c → D c = false)
    (hD1 : ∀ r : ℤ, 0 ≤ r → ∀ c, pkEncryptF64R G P pk (1 / 2 ^ b) alpha r = some c → D c = true)
    (r : ℕ → ℕ → ℕ → ℤ) (hr : ∀ i j k, 0 ≤ r i j k) (undef : ℕ → ℕ → ℕ → ℚ) :
    ∃ rk, newReencKeyAsymR G P keyFrom pk alpha b T r undef = some rk ∧
      stealDelegator G P pk alpha b rk = keyFrom := by
  obtain ⟨rk, e, hB, ht, hent⟩ := newReencKeyAsymR_entry G P keyFrom pk hpk alpha b T r undef hl.ge
  refine ⟨rk, e, ?_⟩
  have h1b : 1 < 2 ^ b := Nat.one_lt_two_pow hb.ne'
  have hbit : ∀ i < P.tlweLv0.N, (if searchSeeds (pkEncryptF64R G P pk (1 / 2 ^ b) alpha)
      (rk.keyEncryptions.getD (rk.base * rk.t * i + 1) []) then (1 : Torus) else 0) = at' keyFrom i := by
    intro i hi
    have he := hent i hi 0 hT 1 one_ne_zero h1b
    rw [hB, ht]
    simp only [Nat.zero_add, one_mul, Nat.mul_zero, Nat.add_zero] at he
    unfold reencPlain at he
    rw [if_pos hb'] at he
    have hbi : at' keyFrom i = 0 ∨ at' keyFrom i = 1 := by
      unfold at'
      rw [List.getD_eq_getElem _ _ (by omega)]
      exact hbin _ (List.getElem_mem _)
    rcases hbi with h | h
    · rw [h] at he ⊢
      have hz : ((1 : ℕ) : ℚ) * ((0 : Torus).toNat : ℚ) / 2 ^ b = 0 := by simp
      rw [hz] at he
      rw [if_neg]
      intro hs
      obtain ⟨r', hr', h'⟩ := (searchSeeds_iff hG P pk _ alpha _).1 hs
      have a := hD0 _ (hr _ _ _) _ he
      rw [hD1 r' hr' _ h'] at a
      simp at a
    · rw [h] at he ⊢
      have hz : ((1 : ℕ) : ℚ) * ((1 : Torus).toNat : ℚ) / 2 ^ b = 1 / 2 ^ b := by simp
      rw [hz] at he
      rw [if_pos ((searchSeeds_iff hG P pk _ alpha _).2 ⟨_, hr _ _ _, he⟩)]
  unfold stealDelegator
  rw [List.map_congr_left fun i hi => hbit i (List.mem_range.1 hi)]
  rw [← hl]
  exact tab_at' keyFrom

theorem f64ToTorus_inv_pow (b : ℕ) (hb : 0 < b) (hb' : b ≤ 32) :
    f64ToTorus (1 / 2 ^ b) = BitVec.ofInt 32 (2 ^ (32 - b)) := by
  have h1 : (1 : ℤ) ≤ 2 ^ (32 - b) := one_le_pow₀ (by norm_num)
  have h2 : (2 : ℤ) ^ (32 - b) ≤ 2 ^ 31 := pow_le_pow_right₀ (by norm_num) (by omega)
  rw [← f64ToTorus_int_div _ (by omega) (by omega)]
  congr 1
  push_cast
  rw [div_eq_div_iff (by positivity) (by norm_num), one_mul]
  rw [← pow_add, Nat.sub_add_cancel hb']

theorem nrm_inv_pow (b : ℕ) (hb : 0 < b) (hb' : b ≤ 32) : nrm (f64ToTorus (1 / 2 ^ b)) = 2 ^ (32 - b) := by
  rw [f64ToTorus_inv_pow b hb hb']
  interval_cases b <;> decide

/-- **C92**: in particular for every public key whose noise leaves the margin `2^-(basebit+1)` that re-encryption needs
for one digit. -/
theorem C92_false_delegation_noise (G : RandSource) (hG : SeedLaw G) (P : Params) (keyFrom : List Torus)
    (hl : keyFrom.length = P.tlweLv0.N) (hbin : IsBinary keyFrom) (pk : List (List Torus))
    (hpk : ∀ e ∈ pk, e.length = P.tlweLv0.N + 1) (alpha : ℚ) (b T : ℕ) (hb : 0 < b) (hb' : b < 32) (hT : 0 < T)
    (s : List Torus) (E E' : ℕ)
    (hE : ∀ e < pk.length, nrm (phase P.tlweLv0.N (entry pk e) s) ≤ E)
    (hE' : ∀ st, nrm (f64ToTorus (G.gauss alpha st).1) ≤ E') (hm : pk.length * E + E' < 2 ^ (31 - b))
    (r : ℕ → ℕ → ℕ → ℤ) (hr : ∀ i j k, 0 ≤ r i j k) (undef : ℕ → ℕ → ℕ → ℚ) :
    ∃ rk, newReencKeyAsymR G P keyFrom pk alpha b T r undef = some rk ∧
      stealDelegator G P pk alpha b rk = keyFrom := by
  refine C92_false_delegation G hG P keyFrom hl hbin pk hpk alpha b T hb hb' hT
    (fun c => decide (2 ^ (31 - b) ≤ nrm (phase P.tlweLv0.N c s))) ?_ ?_ r hr undef
  · intro r _ c hc
    obtain ⟨c', ν, e, -, hp, hn⟩ := pkR_phase G P pk hpk 0 alpha s E E' hE hE' r
    rw [hc] at e
    cases e
    rw [hp, f64ToTorus_zero', zero_add]
    simp only [decide_eq_false_iff_not, not_le]
    omega
  · intro r _ c hc
    obtain ⟨c', ν, e, -, hp, hn⟩ := pkR_phase G P pk hpk (1 / 2 ^ b) alpha s E E' hE hE' r
    rw [hc] at e
    cases e
    rw [hp]
    simp only [decide_eq_true_eq]
    have h1 := nrm_inv_pow b hb hb'.le
    have h2 := nrm_add (f64ToTorus (1 / 2 ^ b) + ν) (-ν)
    rw [add_neg_cancel_right, nrm_neg, h1] at h2
    have h3 : 2 ^ (32 - b) = 2 * 2 ^ (31 - b) := by
      rw [← pow_succ']
      congr 1
      omega
    omega

/-! ### A concrete generator -/

/-- A generator that obeys the law: it starts from the remainder of the seed; coins are its binary digits. -/
def bitSource : RandSource where
  State := ℕ × ℕ
  newSource r := ((r % seedClasses).toNat, 0)
  uint32 s := (BitVec.ofNat 32 (s.1 * (s.2 + 1)), (s.1, s.2 + 1))
  intn2 s := (s.1 / 2 ^ s.2 % 2, (s.1, s.2 + 1))
  gauss a s := (if s.1 % 2 = 0 then a else -a, (s.1, s.2 + 1))

theorem bitSource_law : SeedLaw bitSource := by
  intro r r' _ _ h
  show ((r % seedClasses).toNat, 0) = ((r' % seedClasses).toNat, 0)
  rw [h]

theorem bitSource_noise (st : ℕ × ℕ) : nrm (f64ToTorus (bitSource.gauss (1 / 2 ^ 16) st).1) = 2 ^ 16 := by
  have h := nrm_inv_pow 16 (by norm_num) (by norm_num)
  show nrm (f64ToTorus (if st.1 % 2 = 0 then _ else _)) = _
  split_ifs
  · exact h
  · rw [f64ToTorus_neg, nrm_neg]
    exact h

/-- A public key at 128 bits with noise 2^-16 from this generator: its ciphertexts are read without the secret key, and
a re-encryption key to it gives away the delegator's key. -/
example (s keyFrom : List Torus) (hs : s.length = 700) (hk : keyFrom.length = 700) (hbin : IsBinary keyFrom)
    (rp : ℕ → ℤ) (r : ℕ → ℕ → ℕ → ℤ) (hr : ∀ i j k, 0 ≤ r i j k) :
    ∃ pk, newPublicKeyLv0 params128Bit s (fun e => callAt bitSource.uint32 (bitSource.newSource (rp e)))
        (fun e => (bitSource.gauss (1 / 2 ^ 16) (afterCalls bitSource.uint32 700 (bitSource.newSource (rp e)))).1) = some pk ∧
      (∀ b, ∀ r : ℤ, 0 ≤ r → ∃ c, pkEncryptBoolR bitSource params128Bit pk b (1 / 2 ^ 16) r = some c ∧
        readWithoutKey bitSource params128Bit pk (1 / 2 ^ 16) c = b) ∧
      ∃ rk, newReencKeyAsymR bitSource params128Bit keyFrom pk (1 / 2 ^ 16) 2 9 r (fun _ _ _ => 0) = some rk ∧
        stealDelegator bitSource params128Bit pk (1 / 2 ^ 16) 2 rk = keyFrom := by
  obtain ⟨pk, e, hl, hrow, hp⟩ := newPublicKey_spec params128Bit s (700 * 2)
    (fun e => callAt bitSource.uint32 (bitSource.newSource (rp e)))
    (fun e => (bitSource.gauss (1 / 2 ^ 16) (afterCalls bitSource.uint32 700 (bitSource.newSource (rp e)))).1) hs.ge
  have hE : ∀ e < pk.length, nrm (phase params128Bit.tlweLv0.N (entry pk e) s) ≤ 2 ^ 16 := by
    intro i hi
    rw [(hp i (by omega)).1, f64ToTorus_zero', zero_add]
    exact (bitSource_noise _).le
  refine ⟨pk, e, fun b r hr => ?_, ?_⟩
  · obtain ⟨c, h1, -, h2⟩ := C92_false_reader_noise bitSource bitSource_law params128Bit pk hrow (1 / 2 ^ 16) s hs.ge
      (2 ^ 16) (2 ^ 16) hE (fun st => (bitSource_noise st).le) (by rw [hl]; norm_num) b r hr
    exact ⟨c, h1, h2⟩
  · exact C92_false_delegation_noise bitSource bitSource_law params128Bit keyFrom hk hbin pk hrow (1 / 2 ^ 16) 2 9
      (by norm_num) (by norm_num) (by norm_num) s (2 ^ 16) (2 ^ 16) hE (fun st => (bitSource_noise st).le)
      (by rw [hl]; norm_num) r hr _

end GoTfhe
