import Verif.Props.WrongKey

/-!
# Re-encrypting in the wrong direction (C84)

A re-encryption key from `A` to `B` is applied to a fresh ciphertext under a key other than `A` (for example `B`: the
reverse direction). At a position where the two keys differ, the word of the mask enters the phase of the result with
coefficient `±1`, up to one rounding and the noise of `t` entries of the key.
-/

namespace GoTfhe

open Finset

theorem uprob_mono {Ω : Type*} [Fintype Ω] {E F : Ω → Prop} (h : ∀ x, E x → F x) : uprob E ≤ uprob F := by
  unfold uprob
  apply div_le_div_of_nonneg_right _ (by positivity)
  exact_mod_cast Set.ncard_le_ncard (fun x hx => h x hx) (Set.toFinite _)

/-- A bound for every line in one direction bounds the whole. -/
theorem uprob_fiber {X : Type*} [Fintype X] [Nonempty X] {n : ℕ} (i : Fin n) (E : (Fin n → X) → Prop) (δ : ℝ)
    (h : ∀ a, uprob (fun x => E (Function.update a i x)) ≤ δ) : uprob E ≤ δ := by
  classical
  have x0 : X := Classical.arbitrary X
  rw [← uprob_equiv (Equiv.funSplitAt i X).symm E, uprob_prod]
  have cX : (0 : ℝ) < Fintype.card X := by exact_mod_cast Fintype.card_pos
  have cR : (0 : ℝ) < Fintype.card ({j // j ≠ i} → X) := by exact_mod_cast Fintype.card_pos
  rw [div_le_iff₀ (by positivity)]
  have hr : ∀ r : {j // j ≠ i} → X,
      ∑ x, (if E ((Equiv.funSplitAt i X).symm (x, r)) then (1 : ℝ) else 0) ≤ δ * Fintype.card X := by
    intro r
    have e : ∀ x, Function.update ((Equiv.funSplitAt i X).symm (x0, r)) i x = (Equiv.funSplitAt i X).symm (x, r) := by
      intro x
      funext l
      by_cases hl : l = i
      · subst hl; simp [Equiv.funSplitAt, Equiv.piSplitAt]
      · simp [Equiv.funSplitAt, Equiv.piSplitAt, hl]
    have h1 := h ((Equiv.funSplitAt i X).symm (x0, r))
    simp only [e] at h1
    rw [uprob_eq, div_le_iff₀ cX] at h1
    rw [← sum_filter, sum_const, nsmul_eq_mul, mul_one]
    exact h1
  refine (sum_le_sum fun r _ => hr r).trans (le_of_eq ?_)
  rw [sum_const, card_univ, nsmul_eq_mul]
  ring

theorem sum_update {X M : Type*} [AddCommGroup M] {n : ℕ} (H : Fin n → X → M) (a : Fin n → X) (i : Fin n) (x : X) :
    ∑ l, H l (Function.update a i x l) = ∑ l ∈ univ.erase i, H l (a l) + H i x := by
  rw [← sum_erase_add _ _ (mem_univ i), Function.update_self]
  congr 1
  exact sum_congr rfl fun l hl => by rw [Function.update_of_ne (ne_of_mem_erase hl)]

/-- The sign of a uniform word disturbed by at most `E` is a coin flip up to `E/2^31`. -/
theorem uprob_sign_near (δ : Torus → Torus) (E : ℕ) (h : ∀ y, nrm (δ y) ≤ E) (out : Bool) :
    uprob (fun y : Torus => decide (0 ≤ (y - δ y).toInt) = out) ≤ 1 / 2 + E / 2 ^ 31 := by
  rcases (Nat.lt_or_ge E (2 ^ 30)).symm with hE | hE
  · have h1 : uprob (fun y : Torus => decide (0 ≤ (y - δ y).toInt) = out) ≤ 1 := by
      classical
      rw [uprob_eq, div_le_one (by exact_mod_cast Fintype.card_pos)]
      exact_mod_cast Finset.card_le_univ _
    have h2 : (2 ^ 30 : ℝ) ≤ E := by exact_mod_cast hE
    have h3 : (1 : ℝ) / 2 ≤ E / 2 ^ 31 := by
      rw [div_le_div_iff₀ (by norm_num) (by norm_num)]
      linarith
    linarith
  · have key : ∀ y : Torus, decide (0 ≤ (y - δ y).toInt) = out →
        (((E : ℕ) : Torus) + (if out then 0 else 2147483648#32) + y).toNat < 2147483648 + 2 * E := by
      intro y hy
      have hz : ((y - δ y) + (if out then 0 else 2147483648#32)).toNat < 2147483648 := by
        rw [BitVec.toInt_eq_toNat_cond] at hy
        cases out
        · simp only [decide_eq_false_iff_not, Bool.false_eq_true, if_false] at hy ⊢
          rw [BitVec.toNat_add]
          have := (y - δ y).isLt
          have e2 : (2147483648#32).toNat = 2147483648 := rfl
          rw [e2]
          split_ifs at hy <;> omega
        · simp only [decide_eq_true_eq, if_true] at hy ⊢
          rw [add_zero]
          have := (y - δ y).isLt
          split_ifs at hy <;> omega
      have hw : (δ y + ((E : ℕ) : Torus)).toNat ≤ 2 * E := by
        have h1 := h y
        unfold nrm at h1
        have h2 : (δ y + ((E : ℕ) : Torus)).toInt = (δ y).toInt + E := by
          rw [BitVec.toInt_add]
          have : ((E : ℕ) : Torus).toInt = E := by
            show (BitVec.ofNat 32 E).toInt = E
            rw [BitVec.toInt_ofNat', Int.bmod_eq_of_le] <;> omega
          rw [this]
          apply Int.bmod_eq_of_le <;> omega
        rw [BitVec.toInt_eq_toNat_cond] at h2
        have := (δ y + ((E : ℕ) : Torus)).isLt
        split_ifs at h2 <;> omega
      have e : ((E : ℕ) : Torus) + (if out then 0 else 2147483648#32) + y
          = ((y - δ y) + (if out then 0 else 2147483648#32)) + (δ y + ((E : ℕ) : Torus)) := by ring
      rw [e, BitVec.toNat_add]
      refine lt_of_le_of_lt (Nat.mod_le _ _) ?_
      omega
    refine (uprob_mono key).trans ?_
    rw [uprob_add _ fun z => z.toNat < 2147483648 + 2 * E, ← uprob_fin]
    refine le_trans (le_of_eq (uprob_lt (2 ^ 32) (2147483648 + 2 * E) (by omega))) ?_
    push_cast
    rw [add_div]
    linarith

/-- The rounding and the noise which a word of the mask picks up at position `l` of a re-encryption key. -/
def pickUp (b T : ℕ) (key : List Torus) (err : ℕ → ℕ → ℕ → Torus) (l : ℕ) (w : Torus) : Torus :=
  ksRound b T w * at' key l + ∑ j ∈ range T,
    if (w + ((2 ^ (31 - b * T) : ℕ) : Torus)).toNat / 2 ^ (32 - (j + 1) * b) % 2 ^ b ≠ 0
    then err l j ((w + ((2 ^ (31 - b * T) : ℕ) : Torus)).toNat / 2 ^ (32 - (j + 1) * b) % 2 ^ b) else 0

theorem nrm_pickUp (b T : ℕ) (key : List Torus) (err : ℕ → ℕ → ℕ → Torus) (l : ℕ) (w : Torus) (κ : ℕ)
    (hT : b * T ≤ 31) (hk : at' key l = 0 ∨ at' key l = 1)
    (he : ∀ j < T, ∀ k, 1 ≤ k → k < 2 ^ b → nrm (err l j k) ≤ κ) :
    nrm (pickUp b T key err l w) ≤ 2 ^ (31 - b * T) + T * κ := by
  unfold pickUp
  refine (nrm_add _ _).trans (add_le_add ?_ ?_)
  · rcases hk with h | h <;> rw [h]
    · rw [mul_zero]; exact Nat.zero_le _
    · rw [mul_one]; exact nrm_ksRound b T w hT
  · refine (nrm_sum _ _).trans ?_
    refine (sum_le_sum (g := fun _ => κ) fun j hj => ?_).trans (by simp)
    split_ifs with h
    · exact he j (mem_range.1 hj) _ (by omega) (Nat.mod_lt _ (by positivity))
    · exact Nat.zero_le _

/-- The phase of the re-encryption of a ciphertext under a foreign key. -/
theorem phase_foreign (P : Params) (key keyFrom keyTo : List Torus) (rk : ReencKey) (b : ℕ)
    (err : ℕ → ℕ → ℕ → Torus) (hT : b * rk.t ≤ 31) (hrk : IsReencKey P.tlweLv0.N b rk keyFrom keyTo err)
    (c : List Torus) (a : Mask P.tlweLv0.N) (m : Torus) (hm : ∀ i < P.tlweLv0.N, at' c i = a.draw i)
    (hp : phase P.tlweLv0.N c key = m) :
    phase P.tlweLv0.N (ksOut P.tlweLv0.N P.tlweLv0.N b rk.t c rk.keyEncryptions) keyTo
      = m + ∑ l : Fin P.tlweLv0.N, (BitVec.ofFin (a l) * (at' key l - at' keyFrom l)
          - pickUp b rk.t keyFrom err l (BitVec.ofFin (a l))) := by
  rw [phase_ksOut _ _ _ _ _ _ keyTo keyFrom err hT hrk.enc, phase_other _ key keyFrom c a m hm hp,
    sum_sub_distrib]
  have e : ∑ l : Fin P.tlweLv0.N, pickUp b rk.t keyFrom err l (BitVec.ofFin (a l))
      = ∑ i ∈ range P.tlweLv0.N, ksRound b rk.t (at' c i) * at' keyFrom i
        + ∑ i ∈ range P.tlweLv0.N, ∑ j ∈ range rk.t,
          if ksDigit b rk.t c i j ≠ 0 then err i j (ksDigit b rk.t c i j) else 0 := by
    rw [← sum_add_distrib, Finset.sum_range]
    refine sum_congr rfl fun l _ => ?_
    have h1 : at' c l = BitVec.ofFin (a l) := by rw [hm l l.2, Mask.draw, dif_pos l.2]
    unfold pickUp ksDigit
    rw [h1]
  rw [e]
  show m + ∑ i : Fin P.tlweLv0.N, BitVec.ofFin (a i) * (at' key i - at' keyFrom i) - _ - _ = _
  ring

/-- **C84**, the direction of a re-encryption key: applied to a fresh ciphertext under a key different from `keyFrom`,
the re-encryption key gives under `keyTo` a coin flip, up to the rounding and the noise of one position. -/
theorem C84_direction (P : Params) (key keyFrom keyTo : List Torus) (rk : ReencKey) (b : ℕ)
    (err : ℕ → ℕ → ℕ → Torus) (κ : ℕ) (hT : b * rk.t ≤ 31) (hT1 : 1 ≤ b * rk.t)
    (hrk : IsReencKey P.tlweLv0.N b rk keyFrom keyTo err)
    (hκ : ∀ i < P.tlweLv0.N, ∀ j < rk.t, ∀ k, 1 ≤ k → k < 2 ^ b → nrm (err i j k) ≤ κ)
    (hb : IsBinary key) (hb' : IsBinary keyFrom) (hl : key.length = P.tlweLv0.N)
    (hl' : keyFrom.length = P.tlweLv0.N) (hl0 : keyTo.length = P.tlweLv0.N) (hne : key ≠ keyFrom)
    (m out : Bool) (e : ℚ) :
    |uprob (fun a : Mask P.tlweLv0.N =>
      ((tlwe0EncryptBool P (newTLWELv0 P) m key a.draw e).bind fun c => reencrypt P c rk).bind
        (fun c => tlwe0DecryptBool P c keyTo) = some out) - 1 / 2|
      ≤ ((2 ^ (31 - b * rk.t) + rk.t * κ : ℕ) : ℝ) / 2 ^ 31 := by
  obtain ⟨i, hi⟩ := keys_differ P.tlweLv0.N key keyFrom hb hb' hl hl' hne
  have hb31 : b ≤ 31 := by
    have : 1 ≤ rk.t := by
      rcases Nat.eq_zero_or_pos rk.t with h | h
      · rw [h] at hT1; omega
      · exact h
    nlinarith
  set v := f64ToTorus (if m then 0.125 else -0.125) + f64ToTorus e with hv
  let G : Fin P.tlweLv0.N → Fin (2 ^ 32) → Torus := fun l x =>
    BitVec.ofFin x * (at' key l - at' keyFrom l) - pickUp b rk.t keyFrom err l (BitVec.ofFin x)
  have ev : ∀ (o : Bool) (a : Mask P.tlweLv0.N),
      (((tlwe0EncryptBool P (newTLWELv0 P) m key a.draw e).bind fun c => reencrypt P c rk).bind
        (fun c => tlwe0DecryptBool P c keyTo) = some o) ↔ decide (0 ≤ (v + ∑ l, G l (a l)).toInt) = o := by
    intro o a
    obtain ⟨c, h, hlc, hm, hp⟩ := tlwe0EncryptF64_eq P (newTLWELv0 P) key (if m then 0.125 else -0.125) a.draw e hl.ge
      (by simp [newTLWELv0])
    unfold tlwe0EncryptBool
    simp only [h, Option.bind_some]
    rw [reencrypt_eq P c rk b hrk.base hT (by omega) (by rw [hlc]; simp [newTLWELv0]) hrk.len.ge
      (fun e he => (hrk.rows e he).ge), Option.bind_some,
      tlwe0DecryptBool_eq P _ keyTo hl0.ge (by simp [ksOut]), Option.some.injEq,
      phase_foreign P key keyFrom keyTo rk b err hT hrk c a v hm hp]
  have le : ∀ o : Bool, uprob (fun a : Mask P.tlweLv0.N =>
      ((tlwe0EncryptBool P (newTLWELv0 P) m key a.draw e).bind fun c => reencrypt P c rk).bind
        (fun c => tlwe0DecryptBool P c keyTo) = some o)
      ≤ 1 / 2 + ((2 ^ (31 - b * rk.t) + rk.t * κ : ℕ) : ℝ) / 2 ^ 31 := by
    intro o
    rw [uprob_congr (ev o)]
    refine uprob_fiber i _ _ fun a => ?_
    simp only [sum_update]
    set X := v + ∑ l ∈ univ.erase i, G l (a l) with hX
    have hunit : (at' key i - at' keyFrom i) * (at' key i - at' keyFrom i) = 1 := by
      rcases hi with h | h <;> rw [h] <;> ring
    let σ : Fin (2 ^ 32) ≃ Torus :=
      ⟨fun x => X + BitVec.ofFin x * (at' key i - at' keyFrom i),
        fun y => ((y - X) * (at' key i - at' keyFrom i)).toFin, fun x => by
          have : (X + BitVec.ofFin x * (at' key i - at' keyFrom i) - X) * (at' key i - at' keyFrom i)
              = BitVec.ofFin x := by
            rw [add_sub_cancel_left, mul_assoc, hunit, mul_one]
          simp only [this], fun y => by
          show X + (y - X) * (at' key i - at' keyFrom i) * (at' key i - at' keyFrom i) = y
          rw [mul_assoc, hunit]
          ring⟩
    refine le_trans (le_of_eq ?_) (uprob_sign_near (fun y => pickUp b rk.t keyFrom err i (BitVec.ofFin (σ.symm y)))
      (2 ^ (31 - b * rk.t) + rk.t * κ) (fun y => nrm_pickUp b rk.t keyFrom err i _ κ hT (isBinary_at' hb' i)
        (hκ i i.2)) o)
    rw [← uprob_equiv σ]
    apply uprob_congr
    intro x
    rw [Equiv.symm_apply_apply]
    have : v + (∑ l ∈ univ.erase i, G l (a l) + G i x)
        = σ x - pickUp b rk.t keyFrom err i (BitVec.ofFin x) := by
      show _ = X + BitVec.ofFin x * (at' key i - at' keyFrom i) - _
      rw [hX]
      show v + (_ + (BitVec.ofFin x * (at' key i - at' keyFrom i) - pickUp b rk.t keyFrom err i (BitVec.ofFin x))) = _
      ring
    rw [this]
  have hcompl : uprob (fun a : Mask P.tlweLv0.N =>
      ((tlwe0EncryptBool P (newTLWELv0 P) m key a.draw e).bind fun c => reencrypt P c rk).bind
        (fun c => tlwe0DecryptBool P c keyTo) = some out)
      = 1 - uprob (fun a : Mask P.tlweLv0.N =>
      ((tlwe0EncryptBool P (newTLWELv0 P) m key a.draw e).bind fun c => reencrypt P c rk).bind
        (fun c => tlwe0DecryptBool P c keyTo) = some (!out)) := by
    rw [← uprob_not]
    apply uprob_congr
    intro a
    rw [ev, ev]
    cases out <;> simp
  rw [abs_le]
  constructor
  · linarith [hcompl, le (!out)]
  · linarith [le out]

theorem hop_levels (level : SecurityLevel) :
    2 ^ (31 - (paramsFor level).trgswLv1.BASEBIT * (paramsFor level).trgswLv1.IKS_T) ≤ 524288 ∧
      (paramsFor level).trgswLv1.IKS_T ≤ 9 := by
  rcases paramsFor_cases level with h | h | h | h | h | h | h | h | h | h | h <;> rw [h.2] <;> decide

theorem direction_num (r T κ : ℕ) (δ : ℝ) (hr : r ≤ 524288) (hT : T ≤ 9)
    (h : ((524288 + 9 * κ : ℕ) : ℝ) ≤ δ * 2 ^ 31) : ((r + T * κ : ℕ) : ℝ) / 2 ^ 31 ≤ δ := by
  rw [div_le_iff₀ (by positivity)]
  refine le_trans ?_ h
  have : r + T * κ ≤ 524288 + 9 * κ := by nlinarith
  exact_mod_cast this

/-- **C84** at the security levels, symmetric constructor: with entry noises up to `2^21` (about ten standard
deviations or more) the wrong direction is within one percent of a coin flip. -/
theorem C84_symmetric_levels (level : SecurityLevel) (key keyFrom keyTo : List Torus)
    (hb : IsBinary key) (hb' : IsBinary keyFrom) (hl : key.length = (paramsFor level).tlweLv0.N)
    (hl' : keyFrom.length = (paramsFor level).tlweLv0.N) (hl0 : keyTo.length = (paramsFor level).tlweLv0.N)
    (hne : key ≠ keyFrom) (draw : ℕ → ℕ → ℕ → ℕ → Torus) (sample undef : ℕ → ℕ → ℕ → ℚ)
    (hκ : ∀ i j k, nrm (f64ToTorus (sample i j k)) ≤ 2097152) (m out : Bool) (e : ℚ) :
    ∃ rk, newReencKeySymDefault (paramsFor level) keyFrom keyTo draw sample undef = some rk ∧
      |uprob (fun a : Mask (paramsFor level).tlweLv0.N =>
        ((tlwe0EncryptBool (paramsFor level) (newTLWELv0 (paramsFor level)) m key a.draw e).bind
          fun c => reencrypt (paramsFor level) c rk).bind
          (fun c => tlwe0DecryptBool (paramsFor level) c keyTo) = some out) - 1 / 2| ≤ 1 / 100 := by
  have W := C63_wellFormed level
  obtain ⟨hr, ht⟩ := hop_levels level
  generalize paramsFor level = P at *
  obtain ⟨rk, e1, -, hrt, -, hk⟩ := C60_symmetric P keyFrom keyTo P.trgswLv1.BASEBIT P.trgswLv1.IKS_T draw sample
    undef hl'.ge hl0.ge
  refine ⟨rk, e1, (C84_direction P key keyFrom keyTo rk P.trgswLv1.BASEBIT _ 2097152 (by rw [hrt]; exact W.ks_fits)
    (by rw [hrt]; exact Nat.mul_le_mul W.basebit_pos W.iks_pos) (hk W.ks_fits hb')
    (fun i _ j _ k _ _ => hκ i j k) hb hb' hl hl' hl0 hne m out e).trans ?_⟩
  rw [hrt]
  exact direction_num _ _ _ _ hr ht (by norm_num)

/-- **C84** at the security levels, asymmetric constructor: with entry noises up to `2^25` the wrong direction gives
either bit with probability between 35 and 65 percent. -/
theorem C84_asymmetric_levels (level : SecurityLevel) (key keyFrom keyTo : List Torus) (pk : List (List Torus))
    (hb : IsBinary key) (hb' : IsBinary keyFrom) (hl : key.length = (paramsFor level).tlweLv0.N)
    (hl' : keyFrom.length = (paramsFor level).tlweLv0.N) (hl0 : keyTo.length = (paramsFor level).tlweLv0.N)
    (hpk : ∀ e ∈ pk, e.length = (paramsFor level).tlweLv0.N + 1)
    (hne : key ≠ keyFrom) (coins : ℕ → ℕ → ℕ → Coins) (sample undef : ℕ → ℕ → ℕ → ℚ)
    (hκ : ∀ i j k, nrm (f64ToTorus (sample i j k) + ∑ e ∈ Finset.range pk.length,
      signedNoise ((coins i j k).sel e) ((coins i j k).add e)
        (phase (paramsFor level).tlweLv0.N (entry pk e) keyTo)) ≤ 33554432) (m out : Bool) (e : ℚ) :
    ∃ rk, newReencKeyAsymDefault (paramsFor level) keyFrom pk coins sample undef = some rk ∧
      |uprob (fun a : Mask (paramsFor level).tlweLv0.N =>
        ((tlwe0EncryptBool (paramsFor level) (newTLWELv0 (paramsFor level)) m key a.draw e).bind
          fun c => reencrypt (paramsFor level) c rk).bind
          (fun c => tlwe0DecryptBool (paramsFor level) c keyTo) = some out) - 1 / 2| ≤ 3 / 20 := by
  have W := C63_wellFormed level
  obtain ⟨hr, ht⟩ := hop_levels level
  generalize paramsFor level = P at *
  obtain ⟨rk, e1, -, hrt, -, hk⟩ := C60_asymmetric P keyFrom keyTo pk P.trgswLv1.BASEBIT P.trgswLv1.IKS_T coins sample
    undef hl'.ge hpk
  refine ⟨rk, e1, (C84_direction P key keyFrom keyTo rk P.trgswLv1.BASEBIT _ 33554432 (by rw [hrt]; exact W.ks_fits)
    (by rw [hrt]; exact Nat.mul_le_mul W.basebit_pos W.iks_pos) (hk W.ks_fits hb')
    (fun i _ j _ k _ _ => hκ i j k) hb hb' hl hl' hl0 hne m out e).trans ?_⟩
  rw [hrt]
  exact direction_num _ _ _ _ hr ht (by norm_num)

/-- Alice's key: a third of ones. Bob's key: all ones. -/
def aliceKey (n : ℕ) : List Torus := tab n fun i => if i % 3 = 0 then 1 else 0

@[inherit_doc aliceKey] def bobKey (n : ℕ) : List Torus := tab n fun _ => 1

theorem two_keys (n : ℕ) (h : 2 ≤ n) : IsBinary (aliceKey n) ∧ IsBinary (bobKey n) ∧ (aliceKey n).length = n ∧
    (bobKey n).length = n ∧ bobKey n ≠ aliceKey n := by
  refine ⟨?_, ?_, by simp [aliceKey], by simp [bobKey], ?_⟩
  · intro x hx
    obtain ⟨i, -, rfl⟩ := mem_tab hx
    split_ifs
    · exact Or.inr rfl
    · exact Or.inl rfl
  · intro x hx
    obtain ⟨i, -, rfl⟩ := mem_tab hx
    exact Or.inr rfl
  · intro e
    have := congrArg (fun l => at' l 1) e
    simp only [aliceKey, bobKey] at this
    rw [at'_tab _ _ _ (by omega), at'_tab _ _ _ (by omega)] at this
    exact absurd this (by decide)

/-- Instance: at every level Bob's key does not open Alice's ciphertext. -/
example (level : SecurityLevel) (e : ℚ) (m : Bool) :
    uprob (fun a : Mask (paramsFor level).tlweLv0.N =>
      (tlwe0EncryptBool (paramsFor level) (newTLWELv0 (paramsFor level)) m (aliceKey (paramsFor level).tlweLv0.N)
        a.draw e).bind (fun c => tlwe0DecryptBool (paramsFor level) c (bobKey (paramsFor level).tlweLv0.N)) = some m)
      = 1 / 2 := by
  obtain ⟨h1, h2, h3, h4, h5⟩ := two_keys (paramsFor level).tlweLv0.N (by have := lv0_ge level; omega)
  exact C84_bool _ _ _ h1 h2 h3 h4 h5.symm m m e

/-- Instance: at every level the key from Alice to Bob does not serve Bob's own ciphertexts. -/
example (level : SecurityLevel) (e : ℚ) (m : Bool) (draw : ℕ → ℕ → ℕ → ℕ → Torus) (undef : ℕ → ℕ → ℕ → ℚ) :
    ∃ rk, newReencKeySymDefault (paramsFor level) (aliceKey (paramsFor level).tlweLv0.N)
        (bobKey (paramsFor level).tlweLv0.N) draw (fun _ _ _ => 0) undef = some rk ∧
      |uprob (fun a : Mask (paramsFor level).tlweLv0.N =>
        ((tlwe0EncryptBool (paramsFor level) (newTLWELv0 (paramsFor level)) m (bobKey (paramsFor level).tlweLv0.N)
          a.draw e).bind fun c => reencrypt (paramsFor level) c rk).bind
          (fun c => tlwe0DecryptBool (paramsFor level) c (bobKey (paramsFor level).tlweLv0.N)) = some m) - 1 / 2|
        ≤ 1 / 100 := by
  obtain ⟨h1, h2, h3, h4, h5⟩ := two_keys (paramsFor level).tlweLv0.N (by have := lv0_ge level; omega)
  exact C84_symmetric_levels level _ _ _ h2 h1 h4 h3 h4 h5 draw (fun _ _ _ => 0) undef
    (fun _ _ _ => by decide +kernel) m m e

end GoTfhe
