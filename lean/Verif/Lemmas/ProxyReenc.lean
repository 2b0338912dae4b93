import Verif.Model.ProxyReenc
import Verif.Lemmas.KeySwitch
import Verif.Lemmas.Tlwe
import Verif.Lemmas.Trgsw
import Mathlib.Tactic.Ring
import Mathlib.Tactic.LinearCombination

/-! # Public keys and re-encryption: closed forms -/

namespace GoTfhe

/-! ### Public-key encryption -/

/-- The factor of a zero encryption in the result. -/
def Coins.factor (c : Coins) (e : ℕ) : Torus := if c.sel e then (if c.add e then 1 else -1) else 0

/-- What `PublicKeyLv0.EncryptF64` returns. -/
def pkOut (n : ℕ) (pk : List (List Torus)) (m : Torus) (c : Coins) (fresh : Torus) : List Torus :=
  tab (n + 1) fun x => (if x = n then m + fresh else 0)
    + ∑ e ∈ Finset.range pk.length, c.factor e * at' (entry pk e) x

theorem newTLWELv0_eq (P : Params) : newTLWELv0 P = tab (P.tlweLv0.N + 1) fun _ => 0 := by
  apply eq_tab_of _ _ _ (by simp [newTLWELv0])
  intro i hi
  simp [newTLWELv0, mkSlice]

theorem setB_new (P : Params) (b : Torus) :
    tlwe0SetB P (newTLWELv0 P) b = some (tab (P.tlweLv0.N + 1) fun x => if x = P.tlweLv0.N then b else 0) := by
  unfold tlwe0SetB
  rw [newTLWELv0_eq, wr_tab _ _ _ _ (by omega)]
  congr 1
  apply tab_congr
  intro x _
  unfold Function.update
  simp

theorem entry_of_lt (t : List (List Torus)) (i : ℕ) (h : i < t.length) : entry t i = t[i] := by
  unfold entry; rw [List.getD_eq_getElem?_getD, List.getElem?_eq_getElem h]; rfl

/-- One pass `result.P[i] = f(result.P[i], enc.P[i])`. -/
theorem vecLoop_eq (m : ℕ) (f : Torus → Torus → Torus) (r enc : List Torus) (hr : r.length = m)
    (he : m ≤ enc.length) :
    (forRange 0 m r fun i r => (rd r i).bind fun x => (rd enc i).bind fun c => wr r i (f x c))
      = some (tab m fun x => f (at' r x) (at' enc x)) := by
  rw [forRange_fill m r (fun x => f (at' r x) (at' enc x)) (by omega), filled_full' _ _ _ hr]
  intro i hi
  have h2 : rd (filled i (fun x => f (at' r x) (at' enc x)) r) i = some (at' r i) := by
    unfold rd
    rw [filled_getElem? _ _ _ (by omega), if_neg (by omega)]
    exact rd_at' r i (by omega)
  rw [h2, Option.bind_some, rd_at' enc i (by omega), Option.bind_some]

theorem pkEncryptF64_eq (P : Params) (pk : List (List Torus)) (p : ℚ) (c : Coins) (sample : ℚ)
    (hpk : ∀ e ∈ pk, P.tlweLv0.N + 1 ≤ e.length) :
    pkEncryptF64 P pk p c sample = some (pkOut P.tlweLv0.N pk (f64ToTorus p) c (gaussianF64 0 sample)) := by
  unfold pkEncryptF64
  rw [setB_new]
  simp only [Option.bind_eq_bind, Option.bind_some]
  rw [forRange_subVec pk.length (P.tlweLv0.N + 1) _ (by simp) (fun e x => -(c.factor e * at' (entry pk e) x))]
  · rw [Option.bind_some]
    unfold tlwe0B tlwe0SetB
    rw [rd_tab _ _ _ (by omega), Option.bind_some, wr_tab _ _ _ _ (by omega)]
    congr 1
    apply tab_congr
    intro x hx
    unfold Function.update
    by_cases h : x = P.tlweLv0.N
    · subst h
      simp only [dite_true, if_true, Finset.sum_neg_distrib]
      rw [at'_tab _ _ _ (by omega), if_pos rfl]
      ring
    · simp only [h, dite_false, if_false, Finset.sum_neg_distrib]
      rw [at'_tab _ _ _ hx, if_neg h]
      ring
  · intro e he r hr
    have hlen := hpk _ (List.getElem_mem he)
    rw [rd_eq pk e he, Option.bind_some, entry_of_lt pk e he]
    unfold Coins.factor
    by_cases hs : c.sel e
    · by_cases ha : c.add e
      · rw [if_pos hs, if_pos ha, vecLoop_eq _ (fun x c => x + c) r _ hr hlen]
        congr 1
        apply tab_congr
        intro x _
        rw [if_pos hs, if_pos ha]; ring
      · rw [if_pos hs, if_neg ha, vecLoop_eq _ (fun x c => x - c) r _ hr hlen]
        congr 1
        apply tab_congr
        intro x _
        rw [if_pos hs, if_neg ha]; ring
    · rw [if_neg hs]
      show some r = _
      conv_lhs => rw [← tab_at' r, hr]
      congr 1
      apply tab_congr
      intro x _
      rw [if_neg hs]; ring

theorem phase_pkOut (n : ℕ) (pk : List (List Torus)) (m : Torus) (c : Coins) (fresh : Torus) (s : List Torus) :
    phase n (pkOut n pk m c fresh) s
      = m + fresh + ∑ e ∈ Finset.range pk.length, c.factor e * phase n (entry pk e) s := by
  unfold phase pkOut
  rw [at'_tab _ _ _ (by omega), if_pos rfl]
  have h : ∑ i ∈ Finset.range n, at' (tab (n + 1) fun x => (if x = n then m + fresh else 0)
        + ∑ e ∈ Finset.range pk.length, c.factor e * at' (entry pk e) x) i * at' s i
      = ∑ e ∈ Finset.range pk.length, c.factor e * ∑ i ∈ Finset.range n, at' (entry pk e) i * at' s i := by
    simp only [Finset.mul_sum]
    rw [Finset.sum_comm]
    apply Finset.sum_congr rfl
    intro i hi
    have := Finset.mem_range.1 hi
    rw [at'_tab _ _ _ (by omega), if_neg (by omega), zero_add, Finset.sum_mul]
    apply Finset.sum_congr rfl
    intro e _
    ring
  rw [h]
  have h2 : ∑ e ∈ Finset.range pk.length, c.factor e * (at' (entry pk e) n
        - ∑ i ∈ Finset.range n, at' (entry pk e) i * at' s i)
      = ∑ e ∈ Finset.range pk.length, c.factor e * at' (entry pk e) n
        - ∑ e ∈ Finset.range pk.length, c.factor e * ∑ i ∈ Finset.range n, at' (entry pk e) i * at' s i := by
    rw [← Finset.sum_sub_distrib]
    apply Finset.sum_congr rfl
    intro e _; ring
  rw [h2]; ring

theorem newPublicKey_spec (P : Params) (s : List Torus) (size : ℕ) (draw : ℕ → ℕ → Torus) (sample : ℕ → ℚ)
    (hs : P.tlweLv0.N ≤ s.length) :
    ∃ pk, newPublicKeyLv0WithParams P s size draw sample = some pk ∧ pk.length = size ∧
      (∀ e ∈ pk, e.length = P.tlweLv0.N + 1) ∧
      ∀ e < size, phase P.tlweLv0.N (entry pk e) s = f64ToTorus 0 + f64ToTorus (sample e) ∧
        ∀ i < P.tlweLv0.N, at' (entry pk e) i = draw e i := by
  unfold newPublicKeyLv0WithParams
  obtain ⟨pk, e, hl, hr, hp⟩ := forRange_inv 0 size (Nat.zero_le _) ([] : List (List Torus)) (fun i encs => do
      let ct ← tlwe0EncryptF64 P (newTLWELv0 P) 0 s (draw i) (sample i)
      pure (encs ++ [ct]))
    (fun m (pk : List (List Torus)) => pk.length = m ∧ (∀ e ∈ pk, e.length = P.tlweLv0.N + 1) ∧
      ∀ e < m, phase P.tlweLv0.N (entry pk e) s = f64ToTorus 0 + f64ToTorus (sample e) ∧
        ∀ i < P.tlweLv0.N, at' (entry pk e) i = draw e i) ⟨rfl, by simp, by omega⟩ (by
      rintro m encs - - ⟨hl, hr, hp⟩
      obtain ⟨ct, e, hcl, hd, hph⟩ := tlwe0EncryptF64_eq P (newTLWELv0 P) s 0 (draw m) (sample m) hs
        (by simp [newTLWELv0])
      refine ⟨encs ++ [ct], by rw [e]; rfl, by simp [hl], ?_, ?_⟩
      · intro x hx
        rcases List.mem_append.1 hx with hx | hx
        · exact hr x hx
        · rw [List.mem_singleton.1 hx, hcl]; simp [newTLWELv0]
      · intro x hx
        by_cases hxm : x < m
        · have : entry (encs ++ [ct]) x = entry encs x := by
            unfold entry
            rw [List.getD_eq_getElem?_getD, List.getElem?_append_left (by omega), ← List.getD_eq_getElem?_getD]
          rw [this]; exact hp x hxm
        · have hxe : x = m := by omega
          subst hxe
          have : entry (encs ++ [ct]) x = ct := by
            unfold entry
            rw [List.getD_eq_getElem?_getD, ← hl, List.getElem?_append_right (le_refl _)]; simp
          rw [this]; exact ⟨hph, hd⟩)
  exact ⟨pk, e, hl, hr, hp⟩

/-! ### Key generation -/

/-- The table after the loop nest. -/
theorem reencFill_eq (n B b T : ℕ) (keyFrom : List Torus) (undef : ℕ → ℕ → ℕ → ℚ)
    (mk : ℕ → ℕ → ℕ → ℚ → Option (List Torus)) (z : List Torus) (hk : n ≤ keyFrom.length)
    (val : ℕ → List Torus)
    (hmk : ∀ i < n, ∀ j < T, ∀ k, k ≠ 0 → k < B →
      mk i j k (reencPlain k ((j + 1) * b) (at' keyFrom i) (undef i j k)) = some (val (B * T * i + B * j + k))) :
    reencFill n B b T keyFrom undef mk (tab (B * T * n) fun _ => z)
      = some (tab (B * T * n) fun x => if x % B ≠ 0 then val x else z) := by
  set S : ℕ → List (List Torus) := fun m => tab (B * T * n) fun x => if x < m ∧ x % B ≠ 0 then val x else z
    with hS
  have h0 : (tab (B * T * n) fun _ => z) = S (B * T * 0) := by
    apply tab_congr; intro x _; simp
  have h1 : (tab (B * T * n) fun x => if x % B ≠ 0 then val x else z) = S (B * T * n) := by
    apply tab_congr; intro x hx; simp [hx]
  rw [h0, h1]
  unfold reencFill
  apply forRange_eq n _ (fun i => S (B * T * i))
  intro i hi
  have e1 : B * T * i = B * T * i + B * 0 := by ring
  have e2 : B * T * (i + 1) = B * T * i + B * T := by ring
  rw [e2, e1, mul_zero, add_zero]
  have := forRange_eq T (fun j enc =>
      forRange 0 B enc fun k enc =>
        if k = 0 then some enc
        else (rd keyFrom i).bind fun s =>
          (mk i j k (reencPlain k ((j + 1) * b) s (undef i j k))).bind fun c =>
            wr enc ((B * T * i) + (B * j) + k) c) (fun j => S (B * T * i + B * j)) (by
    intro j hj
    have := forRange_eq B (fun k enc =>
        if k = 0 then some enc
        else (rd keyFrom i).bind fun s =>
          (mk i j k (reencPlain k ((j + 1) * b) s (undef i j k))).bind fun c =>
            wr enc ((B * T * i) + (B * j) + k) c) (fun k => S (B * T * i + B * j + k)) (by
      intro k hk
      have hmod : (B * T * i + B * j + k) % B = k := by
        rw [show B * T * i + B * j + k = k + B * (T * i + j) by ring, Nat.add_mul_mod_self_left,
          Nat.mod_eq_of_lt hk]
      have hlt : B * T * i + B * j + k < B * T * n := by
        have a1 : B * (j + 1) ≤ B * T := Nat.mul_le_mul_left _ hj
        have a2 : B * T * (i + 1) ≤ B * T * n := Nat.mul_le_mul_left _ hi
        rw [Nat.mul_add] at a1 a2
        omega
      by_cases hk0 : k = 0
      · subst hk0
        simp only [if_true]
        congr 1
        apply tab_congr
        intro x _
        have : (x < B * T * i + B * j + 0 ∧ x % B ≠ 0) ↔ (x < B * T * i + B * j + (0 + 1) ∧ x % B ≠ 0) := by
          constructor
          · rintro ⟨h, h'⟩; exact ⟨by omega, h'⟩
          · rintro ⟨h, h'⟩
            refine ⟨?_, h'⟩
            rcases Nat.lt_or_ge x (B * T * i + B * j + 0) with h2 | h2
            · exact h2
            · exfalso; apply h'
              rw [show x = B * T * i + B * j + 0 by omega, hmod]
        simp only [this]
      · rw [if_neg hk0, rd_at' keyFrom i (by omega), Option.bind_some, hmk i hi j hj k hk0 hk, Option.bind_some,
          hS]
        rw [wr_tab _ _ _ _ hlt]
        congr 1
        apply tab_congr
        intro x _
        unfold Function.update
        by_cases hx : x = B * T * i + B * j + k
        · subst hx
          simp [hmod, hk0]
        · simp only [hx, dite_false]
          have : (x < B * T * i + B * j + k) ↔ (x < B * T * i + B * j + (k + 1)) := by omega
          simp only [this])
    simp only [add_zero] at this
    rw [this, Nat.mul_add, mul_one, ← add_assoc])
  simpa using this

theorem reencPlain_torus (k b j T : ℕ) (s : Torus) (undef : ℚ) (hs : s = 0 ∨ s = 1) (hj : j < T)
    (hT : b * T ≤ 31) (hk : k < 2 ^ b) :
    f64ToTorus (reencPlain k ((j + 1) * b) s undef) = ((k * 2 ^ (32 - (j + 1) * b) : ℕ) : Torus) * s := by
  have hfit : (j + 1) * b ≤ 31 := by
    have := Nat.mul_le_mul_left b (show j + 1 ≤ T by omega)
    rw [mul_comm]; omega
  unfold reencPlain
  rw [if_pos (by omega)]
  have hbit : s.toNat ≤ 1 := by
    rcases hs with h | h <;> rw [h] <;> decide
  set m := k * 2 ^ (32 - (j + 1) * b) * s.toNat with hm
  have hsplit : (2 : ℕ) ^ 32 = 2 ^ (32 - (j + 1) * b) * 2 ^ ((j + 1) * b) := by
    rw [← pow_add]; congr 1; omega
  have hmlt : m < 2 ^ 32 := by
    have hk' : k < 2 ^ ((j + 1) * b) :=
      lt_of_lt_of_le hk (Nat.pow_le_pow_right (by norm_num) (Nat.le_mul_of_pos_left _ (by omega)))
    calc m ≤ k * 2 ^ (32 - (j + 1) * b) * 1 := Nat.mul_le_mul_left _ hbit
      _ = 2 ^ (32 - (j + 1) * b) * k := by ring
      _ < 2 ^ (32 - (j + 1) * b) * 2 ^ ((j + 1) * b) := Nat.mul_lt_mul_of_pos_left hk' (by positivity)
      _ = 2 ^ 32 := hsplit.symm
  have hq : ((k : ℚ) * (s.toNat : ℚ)) / 2 ^ ((j + 1) * b) = (((m : ℕ) : ℤ) : ℚ) / 2 ^ 32 := by
    have hs' : (2 : ℚ) ^ 32 = 2 ^ (32 - (j + 1) * b) * 2 ^ ((j + 1) * b) := by exact_mod_cast hsplit
    rw [hs', hm]
    push_cast
    have p1 : (2 : ℚ) ^ (32 - (j + 1) * b) ≠ 0 := by positivity
    have p2 : (2 : ℚ) ^ ((j + 1) * b) ≠ 0 := by positivity
    field_simp
  rw [hq, f64ToTorus_int_div _ (by omega) (by
    have : (m : ℤ) < 2 ^ 32 := by exact_mod_cast hmlt
    norm_num at this ⊢; exact this)]
  rw [← cast_int_eq, hm]
  rcases hs with h | h
  · rw [h]; simp
  · rw [h]; simp

/-! ### Re-encryption -/

theorem basebitLoop_pow (b : ℕ) : ∀ fuel c, c ≤ b → b < c + fuel → basebitLoop (2 ^ b) fuel c = some b := by
  intro fuel
  induction fuel with
  | zero => intro c h1 h2; omega
  | succ f ih =>
    intro c h1 h2
    unfold basebitLoop
    rw [Nat.one_shiftLeft]
    by_cases h : c = b
    · subst h; rw [if_neg (lt_irrefl _)]
    · rw [if_pos (Nat.pow_lt_pow_right (by norm_num) (by omega)), ih (c + 1) (by omega) (by omega)]

/-- Closed form of `ReencryptTLWELv0`. -/
theorem reencrypt_eq (P : Params) (ct : List Torus) (rk : ReencKey) (b : ℕ) (hbase : rk.base = 2 ^ b)
    (hT : b * rk.t ≤ 31) (hb : b ≤ 62) (hct : P.tlweLv0.N + 1 ≤ ct.length)
    (hk : 2 ^ b * rk.t * P.tlweLv0.N ≤ rk.keyEncryptions.length)
    (hrow : ∀ e ∈ rk.keyEncryptions, P.tlweLv0.N + 1 ≤ e.length) :
    reencrypt P ct rk = some (ksOut P.tlweLv0.N P.tlweLv0.N b rk.t ct rk.keyEncryptions) := by
  obtain ⟨ksk, base, T⟩ := rk
  simp only at hbase hT hk hrow
  subst hbase
  unfold reencrypt tlwe0B
  rw [basebitLoop_pow b 63 0 (by omega) (by omega), rd_at' ct _ (by omega)]
  simp only [Option.bind_eq_bind, Option.bind_some]
  rw [setB_new, Option.bind_some, if_neg (by omega)]
  set n := P.tlweLv0.N with hn
  unfold ksOut
  have key := forRange_subVec n (n + 1) (tab (n + 1) fun x => if x = n then at' ct n else 0) (by simp)
    (fun i x => ∑ j ∈ Finset.range T,
        if ksDigit b T ct i j ≠ 0 then at' (entry ksk (2 ^ b * T * i + 2 ^ b * j + ksDigit b T ct i j)) x
        else 0) (fun i result => (rd ct i).bind fun a =>
    forRange 0 T result fun j result =>
      if 32 < (j + 1) * b then none else
      if ((a + 1#32 <<< (32 - (1 + b * T))) >>> (32 - (j + 1) * b)) &&& ((1#32 <<< b) - 1) ≠ 0 then
        forRange 0 (n + 1) result fun x result => (rd result x).bind fun r =>
          (rd ksk ((2 ^ b * T * i) + (2 ^ b * j) +
            (((a + 1#32 <<< (32 - (1 + b * T))) >>> (32 - (j + 1) * b)) &&& ((1#32 <<< b) - 1)).toNat)).bind
            fun e => (rd e x).bind fun c => wr result x (r - c)
      else some result) (by
    intro i hi c hc
    rw [rd_at' ct i (by omega), Option.bind_some]
    apply forRange_subVec T (n + 1) c hc (fun j x =>
      if ksDigit b T ct i j ≠ 0 then at' (entry ksk (2 ^ b * T * i + 2 ^ b * j + ksDigit b T ct i j)) x
          else 0)
    intro j hj c hc
    have hjb : (j + 1) * b ≤ b * T := by
      rw [Nat.mul_comm b T]; exact Nat.mul_le_mul_right _ hj
    have hb31 : b ≤ 31 := by nlinarith
    rw [if_neg (by omega)]
    have hdig : ((at' ct i + 1#32 <<< (32 - (1 + b * T))) >>> (32 - (j + 1) * b) &&& (1#32 <<< b - 1))
        = ((ksDigit b T ct i j : ℕ) : Torus) := by
      rw [← natCast_toNat ((at' ct i + 1#32 <<< (32 - (1 + b * T))) >>> (32 - (j + 1) * b) &&& (1#32 <<< b - 1)),
        shr_mask_toNat _ _ _ (by omega), shl_one_eq, show 32 - (1 + b * T) = 31 - b * T by omega]
      rfl
    have hlt : ksDigit b T ct i j < 2 ^ b := Nat.mod_lt _ (by positivity)
    have hpow : (2 : ℕ) ^ b ≤ 2 ^ 31 := pow_le_pow_right₀ (by norm_num) hb31
    have hnat : ((ksDigit b T ct i j : ℕ) : Torus).toNat = ksDigit b T ct i j := by
      rw [natCast_eq, BitVec.toNat_ofNat, Nat.mod_eq_of_lt (by omega)]
    rw [hdig]
    have hz : ((ksDigit b T ct i j : ℕ) : Torus) = 0 ↔ ksDigit b T ct i j = 0 := by
      constructor
      · intro h
        have := congrArg BitVec.toNat h
        rw [hnat] at this
        simpa using this
      · intro h; rw [h]; rfl
    by_cases h0 : ksDigit b T ct i j = 0
    · rw [if_neg (by rw [not_not]; exact hz.2 h0)]
      congr 1
      conv_lhs => rw [← tab_at' c, hc]
      apply tab_congr
      intro x _
      rw [if_neg (by simpa using h0), sub_zero]
    · rw [if_pos (fun h => h0 (hz.1 h)), hnat]
      set idx := 2 ^ b * T * i + 2 ^ b * j + ksDigit b T ct i j with hidx
      have hidl : idx < ksk.length := by
        have h1 : 2 ^ b * (j + 1) ≤ 2 ^ b * T := Nat.mul_le_mul_left _ hj
        have h2 : 2 ^ b * T * (i + 1) ≤ 2 ^ b * T * n := Nat.mul_le_mul_left _ hi
        rw [Nat.mul_add] at h1 h2
        omega
      rw [rd_eq ksk idx hidl]
      simp only [Option.bind_some]
      rw [vecLoop_eq (n + 1) (fun r c => r - c) c _ hc (hrow _ (List.getElem_mem hidl)), entry_of_lt ksk idx hidl]
      congr 1
      apply tab_congr
      intro x _
      rw [if_pos h0])
  refine Eq.trans key ?_
  congr 1
  apply tab_congr
  intro x hx
  rw [at'_tab _ _ _ hx]

/-- Distance between the phases before and after, any dimensions. -/
theorem ksOut_bound' (n0 n b T : ℕ) (src : List Torus) (ksk : List (List Torus))
    (s0 s1 : List Torus) (err : ℕ → ℕ → ℕ → Torus) (E : ℕ) (hT : b * T ≤ 31)
    (hksk : IsKsk n0 n b T ksk s0 s1 err)
    (hE : ∀ i < n, ∀ j < T, ∀ k, 1 ≤ k → k < 2 ^ b → nrm (err i j k) ≤ E)
    (hs1 : ∀ i < n, at' s1 i = 0 ∨ at' s1 i = 1) :
    nrm (phase n0 (ksOut n0 n b T src ksk) s0 - phase n src s1)
      ≤ weight n s1 * 2 ^ (31 - b * T) + n * (T * E) := by
  rw [phase_ksOut _ _ _ _ _ _ _ s1 err hT hksk]
  have e : ∀ a c d : Torus, a - c - d - a = -(c + d) := by intro a c d; ring
  rw [e, nrm_neg]
  refine (nrm_add _ _).trans (Nat.add_le_add ?_ ?_)
  · refine (nrm_sum _ _).trans ?_
    unfold weight
    rw [Finset.sum_mul]
    apply Finset.sum_le_sum
    intro i hi
    rcases hs1 i (Finset.mem_range.1 hi) with h | h
    · rw [h, mul_zero]
      exact (le_of_eq nrm_zero).trans (Nat.zero_le _)
    · rw [h, mul_one]
      have : (1 : Torus).toNat = 1 := rfl
      rw [this, Nat.one_mul]
      exact nrm_ksRound b T _ hT
  · have h1 : ∀ i ∈ Finset.range n, nrm (∑ j ∈ Finset.range T,
        if ksDigit b T src i j ≠ 0 then err i j (ksDigit b T src i j) else 0) ≤ T * E := by
      intro i hi
      refine (nrm_sum_le _ _ E ?_).trans (by simp)
      intro j hj
      split_ifs with h
      · exact hE _ (Finset.mem_range.1 hi) _ (Finset.mem_range.1 hj) _ (by omega) (Nat.mod_lt _ (by positivity))
      · exact (le_of_eq nrm_zero).trans (Nat.zero_le _)
    exact (nrm_sum_le _ _ _ h1).trans (by simp)

end GoTfhe
