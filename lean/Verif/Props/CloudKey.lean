import Verif.Model.CloudKey
import Verif.Lemmas.Sched
import Verif.Props.Evaluator

/-!
# C36, C37: key generation
-/

namespace GoTfhe

variable {O : FourierOps}

/-! ### Entries -/

/-- The ciphertext computed for entry `(i, j, k)`: its phase is `k * s1_i * 2^(32-(j+1)b)` plus the entry's
own noise, exactly. -/
theorem kskEntry_spec {P : Params} (W : WellFormed P) (k0 k1 : List Torus) (R : KeyGenRand)
    (h0 : P.tlweLv0.N ≤ k0.length) (h1 : P.trgswLv1.N ≤ k1.length) (hbin : IsBinary k1) (i j k : ℕ)
    (hi : i < P.trgswLv1.N) (hj : j < P.trgswLv1.IKS_T) (hk : k < 2 ^ P.trgswLv1.BASEBIT) :
    ∃ c, kskEntry P k0 k1 R i j k = some c ∧ c.length = P.tlweLv0.N + 1 ∧
      phase P.tlweLv0.N c k0 = ((k * 2 ^ (32 - (j + 1) * P.trgswLv1.BASEBIT) : ℕ) : Torus) * at' k1 i
        + f64ToTorus (R.kskSample i j k) := by
  unfold kskEntry
  rw [rd_at' k1 i (by omega)]
  simp only [Option.bind_eq_bind, Option.bind_some]
  obtain ⟨c, e, hl, -, hp⟩ := tlwe0EncryptF64_eq P (newTLWELv0 P) k0
    (((k : ℚ) * ((at' k1 i).toNat : ℚ)) / 2 ^ ((j + 1) * P.trgswLv1.BASEBIT)) (R.kskDraw i j k)
    (R.kskSample i j k) h0 (by simp [newTLWELv0])
  refine ⟨c, e, by rw [hl]; simp [newTLWELv0], ?_⟩
  rw [hp]
  congr 1
  have hfit : (j + 1) * P.trgswLv1.BASEBIT ≤ 32 := by
    have := Nat.mul_le_mul_left P.trgswLv1.BASEBIT (show j + 1 ≤ P.trgswLv1.IKS_T by omega)
    have := W.ks_fits
    rw [mul_comm]; omega
  have hbit : (at' k1 i).toNat ≤ 1 := by
    rcases isBinary_at' hbin i with h | h <;> rw [h] <;> decide
  set m := k * 2 ^ (32 - (j + 1) * P.trgswLv1.BASEBIT) * (at' k1 i).toNat with hm
  have hsplit : (2 : ℕ) ^ 32 = 2 ^ (32 - (j + 1) * P.trgswLv1.BASEBIT) * 2 ^ ((j + 1) * P.trgswLv1.BASEBIT) := by
    rw [← pow_add]; congr 1; omega
  have hmlt : m < 2 ^ 32 := by
    have hk' : k < 2 ^ ((j + 1) * P.trgswLv1.BASEBIT) :=
      lt_of_lt_of_le hk (Nat.pow_le_pow_right (by norm_num) (Nat.le_mul_of_pos_left _ (by omega)))
    calc m ≤ k * 2 ^ (32 - (j + 1) * P.trgswLv1.BASEBIT) * 1 := Nat.mul_le_mul_left _ hbit
      _ = 2 ^ (32 - (j + 1) * P.trgswLv1.BASEBIT) * k := by ring
      _ < 2 ^ (32 - (j + 1) * P.trgswLv1.BASEBIT) * 2 ^ ((j + 1) * P.trgswLv1.BASEBIT) :=
          Nat.mul_lt_mul_of_pos_left hk' (by positivity)
      _ = 2 ^ 32 := hsplit.symm
  have hq : ((k : ℚ) * ((at' k1 i).toNat : ℚ)) / 2 ^ ((j + 1) * P.trgswLv1.BASEBIT)
      = (((m : ℕ) : ℤ) : ℚ) / 2 ^ 32 := by
    have hs : (2 : ℚ) ^ 32 = 2 ^ (32 - (j + 1) * P.trgswLv1.BASEBIT) * 2 ^ ((j + 1) * P.trgswLv1.BASEBIT) := by
      exact_mod_cast hsplit
    rw [hs, hm]
    push_cast
    have p1 : (2 : ℚ) ^ (32 - (j + 1) * P.trgswLv1.BASEBIT) ≠ 0 := by positivity
    have p2 : (2 : ℚ) ^ ((j + 1) * P.trgswLv1.BASEBIT) ≠ 0 := by positivity
    field_simp
  rw [hq, f64ToTorus_int_div _ (by omega) (by
    have : (m : ℤ) < 2 ^ 32 := by exact_mod_cast hmlt
    norm_num at this ⊢; exact this)]
  rw [← cast_int_eq, hm]
  rcases isBinary_at' hbin i with h | h
  · rw [h]; simp
  · rw [h]; simp

/-- The transform computed for entry `i` of the bootstrapping key. -/
theorem bskEntry_spec {P : Params} (W : WellFormed P) (L : FourierLaws O) (hd : O.deg = P.trgswLv1.N)
    {D : ℕ} (hacc : L.MulAccurate 1 D) (k0 k1 : List Torus) (R : KeyGenRand)
    (h0 : P.tlweLv0.N ≤ k0.length) (h1 : k1.length = P.trgswLv1.N) (hbin : IsBinary k1) (i : ℕ)
    (hi : i < P.tlweLv0.N) :
    ∃ (g : TrgswF O) (t : Trgsw) (r : ℕ → ℕ → Torus), bskEntry P O k0 k1 R i = some g ∧ IsFft L t g ∧
      IsTrgsw P.trgswLv1.N P.trgswLv1.L P.trgswLv1.BGBIT t (at' k0 i) k1
        (fun j k => f64ToTorus (R.bskSample i j k) + r j k) ∧
      ∀ j k, k < P.trgswLv1.N → nrm (r j k) ≤ D := by
  obtain ⟨t, r, e, ht, hr⟩ := C27_encryptTorus W L hd (at' k0 i) k1 h1 hbin hacc (R.bskDraw i) (R.bskSample i)
  obtain ⟨g, hg, hf⟩ := C27_fft L hd ht
  refine ⟨g, t, r, ?_, hf, ht, hr⟩
  unfold bskEntry
  rw [rd_at' k0 i (by omega)]
  simp only [Option.bind_eq_bind, Option.bind_some, e, hg]

/-! ### The goroutines -/

theorem mem_kskThread {P : Params} {k0 k1 : List Torus} {R : KeyGenRand} {i : ℕ} {w : Write (List Torus)} :
    w ∈ kskThread P k0 k1 R i ↔ ∃ j < P.trgswLv1.IKS_T, ∃ k < 2 ^ P.trgswLv1.BASEBIT, k ≠ 0 ∧
      w = ⟨2 ^ P.trgswLv1.BASEBIT * P.trgswLv1.IKS_T * i + 2 ^ P.trgswLv1.BASEBIT * j + k,
        kskEntry P k0 k1 R i j k⟩ := by
  unfold kskThread
  simp only [List.mem_flatMap, List.mem_range, List.mem_filterMap]
  constructor
  · rintro ⟨j, hj, k, hk, h⟩
    split_ifs at h with h0
    exact ⟨j, hj, k, hk, h0, (Option.some.inj h).symm⟩
  · rintro ⟨j, hj, k, hk, h0, rfl⟩
    exact ⟨j, hj, k, hk, by rw [if_neg h0]⟩

/-- Index arithmetic: `(i, j, k)` can be read back from the index. -/
theorem idx_decode (B T i j k : ℕ) (hj : j < T) (hk : k < B) :
    (B * T * i + B * j + k) % B = k ∧ (B * T * i + B * j + k) / B % T = j ∧
      (B * T * i + B * j + k) / (B * T) = i := by
  have e : B * T * i + B * j + k = k + B * (j + T * i) := by ring
  have hB : 0 < B := by omega
  have h1 : (B * T * i + B * j + k) / B = j + T * i := by
    rw [e, Nat.add_mul_div_left _ _ hB, Nat.div_eq_of_lt hk, zero_add]
  refine ⟨?_, ?_, ?_⟩
  · rw [e, Nat.add_mul_mod_self_left, Nat.mod_eq_of_lt hk]
  · rw [h1, Nat.add_mul_mod_self_left, Nat.mod_eq_of_lt hj]
  · rw [← Nat.div_div_eq_div_mul, h1, Nat.add_mul_div_left _ _ (by omega), Nat.div_eq_of_lt hj, zero_add]

theorem idx_encode (B T N x : ℕ) (hx : x < B * T * N) :
    x / (B * T) < N ∧ x / B % T < T ∧ x % B < B ∧ x = B * T * (x / (B * T)) + B * (x / B % T) + x % B := by
  have hBT : 0 < B * T := by
    rcases Nat.eq_zero_or_pos (B * T) with h | h
    · rw [h, zero_mul] at hx; omega
    · exact h
  have hB : 0 < B := Nat.pos_of_mul_pos_right hBT
  have hT : 0 < T := Nat.pos_of_mul_pos_left hBT
  refine ⟨?_, Nat.mod_lt _ hT, Nat.mod_lt _ hB, ?_⟩
  · exact Nat.div_lt_of_lt_mul hx
  · rw [← Nat.div_div_eq_div_mul]
    have h1 := Nat.div_add_mod x B
    have h2 := Nat.div_add_mod (x / B) T
    calc x = B * (x / B) + x % B := h1.symm
      _ = B * (T * (x / B / T) + x / B % T) + x % B := by rw [h2]
      _ = _ := by ring

/-- The value that belongs at index `x` of the key-switching key. -/
def kskVal (P : Params) (k0 k1 : List Torus) (R : KeyGenRand) (x : ℕ) : List Torus :=
  (kskEntry P k0 k1 R (x / (2 ^ P.trgswLv1.BASEBIT * P.trgswLv1.IKS_T))
    (x / 2 ^ P.trgswLv1.BASEBIT % P.trgswLv1.IKS_T) (x % 2 ^ P.trgswLv1.BASEBIT)).getD []

theorem ksk_agree {P : Params} (W : WellFormed P) (k0 k1 : List Torus) (R : KeyGenRand)
    (h0 : P.tlweLv0.N ≤ k0.length) (h1 : P.trgswLv1.N ≤ k1.length) (hbin : IsBinary k1) :
    Agree (kskVal P k0 k1 R) (2 ^ P.trgswLv1.BASEBIT * P.trgswLv1.IKS_T * P.trgswLv1.N)
      ((List.range P.trgswLv1.N).map (kskThread P k0 k1 R)) := by
  intro th hth w hw
  obtain ⟨i, hi, rfl⟩ := List.mem_map.1 hth
  rw [List.mem_range] at hi
  obtain ⟨j, hj, k, hk, -, rfl⟩ := mem_kskThread.1 hw
  obtain ⟨d1, d2, d3⟩ := idx_decode _ _ i j k hj hk
  obtain ⟨c, e, -⟩ := kskEntry_spec W k0 k1 R h0 h1 hbin i j k hi hj hk
  refine ⟨?_, ?_⟩
  · simp only [kskVal]
    rw [d1, d2, d3, e]; rfl
  · show 2 ^ P.trgswLv1.BASEBIT * P.trgswLv1.IKS_T * i + 2 ^ P.trgswLv1.BASEBIT * j + k < _
    have a1 : 2 ^ P.trgswLv1.BASEBIT * (j + 1) ≤ 2 ^ P.trgswLv1.BASEBIT * P.trgswLv1.IKS_T :=
      Nat.mul_le_mul_left _ hj
    have a2 : 2 ^ P.trgswLv1.BASEBIT * P.trgswLv1.IKS_T * (i + 1)
        ≤ 2 ^ P.trgswLv1.BASEBIT * P.trgswLv1.IKS_T * P.trgswLv1.N := Nat.mul_le_mul_left _ hi
    rw [Nat.mul_add] at a1 a2
    omega

theorem ksk_pending {P : Params} (k0 k1 : List Torus) (R : KeyGenRand) (i j k : ℕ) (hi : i < P.trgswLv1.N)
    (hj : j < P.trgswLv1.IKS_T) (hk : k < 2 ^ P.trgswLv1.BASEBIT) :
    Pending ((List.range P.trgswLv1.N).map (kskThread P k0 k1 R))
      (2 ^ P.trgswLv1.BASEBIT * P.trgswLv1.IKS_T * i + 2 ^ P.trgswLv1.BASEBIT * j + k) ↔ k ≠ 0 := by
  constructor
  · rintro ⟨th, hth, w, hw, he⟩
    obtain ⟨i', hi', rfl⟩ := List.mem_map.1 hth
    obtain ⟨j', hj', k', hk', hne, rfl⟩ := mem_kskThread.1 hw
    have d := (idx_decode _ _ i j k hj hk).1
    have d' := (idx_decode _ _ i' j' k' hj' hk').1
    simp only at he
    rw [he, d] at d'
    rw [d']; exact hne
  · intro hne
    exact ⟨_, List.mem_map.2 ⟨i, List.mem_range.2 hi, rfl⟩, _, mem_kskThread.2 ⟨j, hj, k, hk, hne, rfl⟩, rfl⟩

/-! ### C36 -/

/-- **C36**, key-switching key. Under every schedule no goroutine panics; when all have finished, the entry
for `(i, j, k)` is the ciphertext computed for `(i, j, k)` if `k ≥ 1`, and the initial zero ciphertext if
`k = 0`, whatever the schedule was. Every index of the table is one of these. -/
theorem C36_keySwitchingKey {P : Params} (W : WellFormed P) (k0 k1 : List Torus) (R : KeyGenRand)
    (h0 : P.tlweLv0.N ≤ k0.length) (h1 : P.trgswLv1.N ≤ k1.length) (hbin : IsBinary k1) (sched : List ℕ) :
    ∃ ths res, genKeySwitchingKey P k0 k1 R sched = some (ths, res) ∧
      res.length = 2 ^ P.trgswLv1.BASEBIT * P.trgswLv1.IKS_T * P.trgswLv1.N ∧
      (allDone ths = true → ∀ i < P.trgswLv1.N, ∀ j < P.trgswLv1.IKS_T, ∀ k < 2 ^ P.trgswLv1.BASEBIT,
        if k = 0 then
          res[2 ^ P.trgswLv1.BASEBIT * P.trgswLv1.IKS_T * i + 2 ^ P.trgswLv1.BASEBIT * j + k]?
            = some (newTLWELv0 P)
        else
          res[2 ^ P.trgswLv1.BASEBIT * P.trgswLv1.IKS_T * i + 2 ^ P.trgswLv1.BASEBIT * j + k]?
            = kskEntry P k0 k1 R i j k) := by
  unfold genKeySwitchingKey
  obtain ⟨ths, res, e, hl, h⟩ := runSched_spec (f := kskVal P k0 k1 R)
    (mem := List.replicate (2 ^ P.trgswLv1.BASEBIT * P.trgswLv1.IKS_T * P.trgswLv1.N) (newTLWELv0 P))
    (by rw [List.length_replicate]; exact ksk_agree W k0 k1 R h0 h1 hbin) sched
  refine ⟨ths, res, e, by rw [hl, List.length_replicate], ?_⟩
  intro hd i hi j hj k hk
  obtain ⟨hw, hr⟩ := h hd
  obtain ⟨d1, d2, d3⟩ := idx_decode _ _ i j k hj hk
  obtain ⟨c, ec, -⟩ := kskEntry_spec W k0 k1 R h0 h1 hbin i j k hi hj hk
  split_ifs with hk0
  · rw [hr _ (by rw [ksk_pending k0 k1 R i j k hi hj hk]; simpa using hk0), List.getElem?_replicate, if_pos]
    have a1 : 2 ^ P.trgswLv1.BASEBIT * (j + 1) ≤ 2 ^ P.trgswLv1.BASEBIT * P.trgswLv1.IKS_T :=
      Nat.mul_le_mul_left _ hj
    have a2 : 2 ^ P.trgswLv1.BASEBIT * P.trgswLv1.IKS_T * (i + 1)
        ≤ 2 ^ P.trgswLv1.BASEBIT * P.trgswLv1.IKS_T * P.trgswLv1.N := Nat.mul_le_mul_left _ hi
    rw [Nat.mul_add] at a1 a2
    omega
  · rw [hw _ ((ksk_pending k0 k1 R i j k hi hj hk).2 hk0), kskVal, d1, d2, d3, ec]; rfl

/-- **C36**: any two complete schedules give the same key-switching key. -/
theorem C36_keySwitchingKey_unique {P : Params} (W : WellFormed P) (k0 k1 : List Torus) (R : KeyGenRand)
    (h0 : P.tlweLv0.N ≤ k0.length) (h1 : P.trgswLv1.N ≤ k1.length) (hbin : IsBinary k1)
    (s s' : List ℕ) (ths ths' : List (List (Write (List Torus)))) (res res' : List (List Torus))
    (e : genKeySwitchingKey P k0 k1 R s = some (ths, res)) (hd : allDone ths = true)
    (e' : genKeySwitchingKey P k0 k1 R s' = some (ths', res')) (hd' : allDone ths' = true) : res = res' := by
  obtain ⟨t, r, q, hl, h⟩ := C36_keySwitchingKey W k0 k1 R h0 h1 hbin s
  obtain ⟨rfl, rfl⟩ : t = ths ∧ r = res := by simpa using q.symm.trans e
  obtain ⟨t', r', q', hl', h'⟩ := C36_keySwitchingKey W k0 k1 R h0 h1 hbin s'
  obtain ⟨rfl, rfl⟩ : t' = ths' ∧ r' = res' := by simpa using q'.symm.trans e'
  apply List.ext_getElem?
  intro x
  by_cases hx : x < 2 ^ P.trgswLv1.BASEBIT * P.trgswLv1.IKS_T * P.trgswLv1.N
  · obtain ⟨a, b, c, d⟩ := idx_encode _ _ _ _ hx
    have u := h hd _ a _ b _ c
    have u' := h' hd' _ a _ b _ c
    rw [← d] at u u'
    split_ifs at u u' <;> rw [u, u']
  · rw [List.getElem?_eq_none (by omega), List.getElem?_eq_none (by omega)]

/-- **C36**: after any schedule the remaining goroutines can still finish, so a complete schedule exists
whatever has happened so far. -/
theorem C36_keySwitchingKey_progress {P : Params} (W : WellFormed P) (k0 k1 : List Torus) (R : KeyGenRand)
    (h0 : P.tlweLv0.N ≤ k0.length) (h1 : P.trgswLv1.N ≤ k1.length) (hbin : IsBinary k1) (sched : List ℕ) :
    ∃ more ths res, genKeySwitchingKey P k0 k1 R (sched ++ more) = some (ths, res) ∧ allDone ths = true := by
  unfold genKeySwitchingKey
  obtain ⟨ths, res, e, hi⟩ := runSched_inv (f := kskVal P k0 k1 R) sched
    (schedInv_init (mem := List.replicate (2 ^ P.trgswLv1.BASEBIT * P.trgswLv1.IKS_T * P.trgswLv1.N)
      (newTLWELv0 P)) (by rw [List.length_replicate]; exact ksk_agree W k0 k1 R h0 h1 hbin))
  obtain ⟨more, ths', res', e', hd⟩ := runSched_finish _ ths res rfl hi.len hi.agree
  refine ⟨more, ths', res', ?_, hd⟩
  show runSched _ _ (sched ++ more) = _
  rw [runSched_append, e]
  exact e'

theorem bsk_agree {P : Params} (W : WellFormed P) (L : FourierLaws O) (hd : O.deg = P.trgswLv1.N)
    (k0 k1 : List Torus) (R : KeyGenRand)
    (h0 : P.tlweLv0.N ≤ k0.length) (h1 : k1.length = P.trgswLv1.N) :
    Agree (fun i => (bskEntry P O k0 k1 R i).getD []) P.tlweLv0.N
      ((List.range P.tlweLv0.N).map fun i => [⟨i, bskEntry P O k0 k1 R i⟩]) := by
  intro th hth w hw
  obtain ⟨i, hi, rfl⟩ := List.mem_map.1 hth
  rw [List.mem_range] at hi
  rw [List.mem_singleton] at hw
  subst hw
  refine ⟨?_, hi⟩
  have e := trgswEncryptTorus_eq W L hd (newTRGSWLv1 P) (by simp [newTRGSWLv1]; ring) (at' k0 i) k1 h1
    (R.bskDraw i) (R.bskSample i)
  have ht := isTrgsw_gswRow P L (at' k0 i) k1 (R.bskDraw i) (R.bskSample i)
  obtain ⟨g, hg, -⟩ := C27_fft L hd ht
  have : bskEntry P O k0 k1 R i = some g := by
    unfold bskEntry
    rw [rd_at' k0 i (by omega)]
    simp only [Option.bind_eq_bind, Option.bind_some, e, hg]
  simp only [this]
  rfl

/-- **C36**, bootstrapping key: no schedule panics, and when all goroutines have finished entry `i` is what
goroutine `i` computed, whatever the schedule was. -/
theorem C36_bootstrappingKey {P : Params} (W : WellFormed P) (L : FourierLaws O)
    (hd : O.deg = P.trgswLv1.N) (k0 k1 : List Torus) (R : KeyGenRand)
    (h0 : P.tlweLv0.N ≤ k0.length) (h1 : k1.length = P.trgswLv1.N) (sched : List ℕ) :
    ∃ ths res, genBootstrappingKey P O k0 k1 R sched = some (ths, res) ∧ res.length = P.tlweLv0.N ∧
      (allDone ths = true → ∀ i < P.tlweLv0.N, res[i]? = bskEntry P O k0 k1 R i) := by
  unfold genBootstrappingKey
  obtain ⟨ths, res, e, hl, h⟩ := runSched_spec (f := fun i => (bskEntry P O k0 k1 R i).getD [])
    (mem := List.replicate P.tlweLv0.N [])
    (by rw [List.length_replicate]; exact bsk_agree W L hd k0 k1 R h0 h1) sched
  refine ⟨ths, res, e, by rw [hl, List.length_replicate], ?_⟩
  intro hdone i hi
  have hp : Pending ((List.range P.tlweLv0.N).map fun i => [(⟨i, bskEntry P O k0 k1 R i⟩ : Write (TrgswF O))]) i :=
    ⟨_, List.mem_map.2 ⟨i, List.mem_range.2 hi, rfl⟩, _, List.mem_singleton.2 rfl, rfl⟩
  rw [(h hdone).1 i hp]
  exact ((bsk_agree W L hd k0 k1 R h0 h1) _ (List.mem_map.2 ⟨i, List.mem_range.2 hi, rfl⟩) _
    (List.mem_singleton.2 rfl)).1.symm

/-- **C36**: any two complete schedules give the same bootstrapping key. -/
theorem C36_bootstrappingKey_unique {P : Params} (W : WellFormed P) (L : FourierLaws O)
    (hd : O.deg = P.trgswLv1.N) (k0 k1 : List Torus) (R : KeyGenRand)
    (h0 : P.tlweLv0.N ≤ k0.length) (h1 : k1.length = P.trgswLv1.N)
    (s s' : List ℕ) (ths ths' : List (List (Write (TrgswF O)))) (res res' : List (TrgswF O))
    (e : genBootstrappingKey P O k0 k1 R s = some (ths, res)) (hdn : allDone ths = true)
    (e' : genBootstrappingKey P O k0 k1 R s' = some (ths', res')) (hdn' : allDone ths' = true) :
    res = res' := by
  obtain ⟨t, r, q, hl, h⟩ := C36_bootstrappingKey W L hd k0 k1 R h0 h1 s
  obtain ⟨rfl, rfl⟩ : t = ths ∧ r = res := by simpa using q.symm.trans e
  obtain ⟨t', r', q', hl', h'⟩ := C36_bootstrappingKey W L hd k0 k1 R h0 h1 s'
  obtain ⟨rfl, rfl⟩ : t' = ths' ∧ r' = res' := by simpa using q'.symm.trans e'
  apply List.ext_getElem?
  intro x
  by_cases hx : x < P.tlweLv0.N
  · rw [h hdn x hx, h' hdn' x hx]
  · rw [List.getElem?_eq_none (by omega), List.getElem?_eq_none (by omega)]

/-- **C36**: the bootstrapping-key goroutines can always finish. -/
theorem C36_bootstrappingKey_progress {P : Params} (W : WellFormed P) (L : FourierLaws O)
    (hd : O.deg = P.trgswLv1.N) (k0 k1 : List Torus) (R : KeyGenRand)
    (h0 : P.tlweLv0.N ≤ k0.length) (h1 : k1.length = P.trgswLv1.N) (sched : List ℕ) :
    ∃ more ths res, genBootstrappingKey P O k0 k1 R (sched ++ more) = some (ths, res) ∧
      allDone ths = true := by
  unfold genBootstrappingKey
  obtain ⟨ths, res, e, hi⟩ := runSched_inv (f := fun i => (bskEntry P O k0 k1 R i).getD []) sched
    (schedInv_init (mem := List.replicate P.tlweLv0.N [])
      (by rw [List.length_replicate]; exact bsk_agree W L hd k0 k1 R h0 h1))
  obtain ⟨more, ths', res', e', hdn⟩ := runSched_finish _ ths res rfl hi.len hi.agree
  refine ⟨more, ths', res', ?_, hdn⟩
  show runSched _ _ (sched ++ more) = _
  rw [runSched_append, e]
  exact e'

/-! ### C37 -/

theorem genTestvec_eq {P : Params} (W : WellFormed P) :
    genTestvec P = some ⟨mkSlice P.trgswLv1.N 0, tab P.trgswLv1.N fun _ => 536870912#32⟩ := by
  unfold genTestvec
  have hA : (newTRLWELv1 P).A.length = P.trgswLv1.N := by simp [newTRLWELv1, W.trlwe_eq]
  have hB : (newTRLWELv1 P).B.length = P.trgswLv1.N := by simp [newTRLWELv1, W.trlwe_eq]
  have := forRange_eq P.trgswLv1.N (fun i (t : Trlwe) => do
      let A ← wr t.A i 0
      let B ← wr t.B i (f64ToTorus 0.125)
      pure (⟨A, B⟩ : Trlwe))
    (fun k => ⟨filled k (fun _ => 0) (newTRLWELv1 P).A, filled k (fun _ => f64ToTorus 0.125) (newTRLWELv1 P).B⟩)
    (by
      intro i hi
      simp only
      rw [wr_filled i _ _ (by omega), wr_filled i _ _ (by omega)]
      rfl)
  simp only [filled_full' _ _ _ hA, filled_full' _ _ _ hB] at this
  refine Eq.trans ?_ (this.trans ?_)
  · rfl
  · rw [f64ToTorus_eighth]
    congr 2
    unfold tab mkSlice
    rw [List.map_const', List.length_range]

/-- **C37.** For every secret key, all randomness and all schedules, `NewCloudKey` does not panic, and when
its goroutines have finished the key contains: the decomposition offset; the trivial encryption of the
constant 1/8; a key-switching key whose noise is the realised Gaussian draw of each entry, with every
entry of full length; and a bootstrapping key whose noise is the realised draw plus at most the error `D`
of one polynomial product. -/
theorem C37_newCloudKey {P : Params} (W : WellFormed P) (L : FourierLaws O) (hd : O.deg = P.trgswLv1.N)
    {D : ℕ} (hacc : L.MulAccurate 1 D) (k0 k1 : List Torus) (R : KeyGenRand)
    (h0 : P.tlweLv0.N ≤ k0.length) (h1 : k1.length = P.trgswLv1.N) (hbin : IsBinary k1)
    (schedK schedB : List ℕ) :
    ∃ done ck, newCloudKey P O k0 k1 R schedK schedB = some (done, ck) ∧
      ck.decompositionOffset = ∑ i ∈ Finset.range P.trgswLv1.L,
        ((P.trgswLv1.BG / 2 * 2 ^ (32 - (i + 1) * P.trgswLv1.BGBIT) : ℕ) : Torus) ∧
      ck.blindRotateTestvec = ⟨mkSlice P.trgswLv1.N 0, tab P.trgswLv1.N fun _ => 536870912#32⟩ ∧
      (done = true →
        GoodKsk P ck.keySwitchingKey ∧
        IsKsk P.tlweLv0.N P.trgswLv1.N P.trgswLv1.BASEBIT P.trgswLv1.IKS_T ck.keySwitchingKey k0 k1
          (fun i j k => f64ToTorus (R.kskSample i j k)) ∧
        ∃ r : ℕ → ℕ → ℕ → Torus, (∀ i j k, k < P.trgswLv1.N → nrm (r i j k) ≤ D) ∧
          IsBsk L P.tlweLv0.N P.trgswLv1.N P.trgswLv1.L P.trgswLv1.BGBIT ck.bootstrappingKey k0 k1
            (fun i j k => f64ToTorus (R.bskSample i j k) + r i j k)) := by
  obtain ⟨tk, ksk, ek, hkl, hk⟩ := C36_keySwitchingKey W k0 k1 R h0 h1.ge hbin schedK
  obtain ⟨tb, bsk, eb, hbl, hb⟩ := C36_bootstrappingKey W L hd k0 k1 R h0 h1 schedB
  refine ⟨allDone tk && allDone tb, ⟨gadgetOffset P.trgswLv1.BGBIT P.trgswLv1.L, _, ksk, bsk⟩, ?_, ?_, rfl, ?_⟩
  · unfold newCloudKey
    rw [genDecompositionOffset_eq P W.bg W.bgbit_pos W.gadget_fits, genTestvec_eq W, ek, eb]
    rfl
  · show gadgetOffset _ _ = _
    unfold gadgetOffset
    apply Finset.sum_congr rfl
    intro i _
    have : P.trgswLv1.BG / 2 = 2 ^ (P.trgswLv1.BGBIT - 1) := by
      rw [W.bg]
      have := W.bgbit_pos
      obtain ⟨m, hm⟩ : ∃ m, P.trgswLv1.BGBIT = m + 1 := ⟨P.trgswLv1.BGBIT - 1, by omega⟩
      rw [hm, pow_succ]; simp
    rw [this]
    push_cast
    rfl
  · intro hdone
    rw [Bool.and_eq_true] at hdone
    have hk := hk hdone.1
    have hb := hb hdone.2
    refine ⟨⟨hkl.ge, ?_⟩, ?_, ?_⟩
    · intro c hc
      obtain ⟨x, hx, rfl⟩ := List.getElem_of_mem hc
      obtain ⟨a, b, c, d⟩ := idx_encode _ _ _ x (by rw [← hkl]; exact hx)
      have := hk _ a _ b _ c
      rw [← d, List.getElem?_eq_getElem hx] at this
      split_ifs at this
      · rw [Option.some.inj this]; simp [newTLWELv0]
      · obtain ⟨c', e', hl', -⟩ := kskEntry_spec W k0 k1 R h0 h1.ge hbin _ _ _ a b c
        rw [e'] at this
        rw [Option.some.inj this, hl']
    · intro i hi j hj k hk1 hk2
      have := hk i hi j hj k hk2
      rw [if_neg (by omega)] at this
      obtain ⟨c, e, -, hp⟩ := kskEntry_spec W k0 k1 R h0 h1.ge hbin i j k hi hj hk2
      rw [e] at this
      rw [← hp]
      congr 1
      unfold entry
      rw [List.getD_eq_getElem?_getD, this]; rfl
    · have key := fun i : ℕ => fun hi : i < P.tlweLv0.N =>
        bskEntry_spec W L hd hacc k0 k1 R h0 h1 hbin i hi
      choose g t r hg hf ht hr using key
      refine ⟨fun i j k => if hi : i < P.tlweLv0.N then r i hi j k else 0, ?_, hbl, ?_⟩
      · intro i j k hk
        simp only
        split_ifs with hi
        · exact hr i hi j k hk
        · rw [nrm_zero]; exact Nat.zero_le _
      · intro i hi
        refine ⟨t i hi, ?_, ?_⟩
        · simp only [dif_pos hi]
          exact ht i hi
        · have := hb i hi
          rw [hg i hi] at this
          rw [List.getD_eq_getElem?_getD, this]
          exact hf i hi

/-- A complete schedule for each set of goroutines exists at every level, for every binary key. -/
theorem exists_cloudKey {P : Params} (W : WellFormed P) (L : FourierLaws O) (hd : O.deg = P.trgswLv1.N)
    (k0 k1 : List Torus) (R : KeyGenRand) (h0 : P.tlweLv0.N ≤ k0.length) (h1 : k1.length = P.trgswLv1.N)
    (hbin : IsBinary k1) :
    ∃ schedK schedB ck, newCloudKey P O k0 k1 R schedK schedB = some (true, ck) := by
  obtain ⟨sK, tk, ksk, ek, hk⟩ := C36_keySwitchingKey_progress W k0 k1 R h0 h1.ge hbin []
  obtain ⟨sB, tb, bsk, eb, hb⟩ := C36_bootstrappingKey_progress W L hd k0 k1 R h0 h1 []
  refine ⟨[] ++ sK, [] ++ sB, ⟨gadgetOffset P.trgswLv1.BGBIT P.trgswLv1.L,
    ⟨mkSlice P.trgswLv1.N 0, tab P.trgswLv1.N fun _ => 536870912#32⟩, ksk, bsk⟩, ?_⟩
  unfold newCloudKey
  rw [genDecompositionOffset_eq P W.bg W.bgbit_pos W.gadget_fits, genTestvec_eq W, ek, eb]
  simp only [Option.bind_eq_bind, Option.bind_some, hk, hb, Bool.and_self]
  rfl

example (level : SecurityLevel) (R : KeyGenRand) :
    ∃ schedK schedB ck, newCloudKey (paramsFor level) (exactOps (paramsFor level).trgswLv1.N)
      (tab (paramsFor level).tlweLv0.N fun i => if i % 3 = 0 then 1 else 0)
      (tab (paramsFor level).trgswLv1.N fun i => if i % 2 = 1 then 1 else 0) R schedK schedB
        = some (true, ck) :=
  exists_cloudKey (C63_wellFormed level) (exL (C63_wellFormed level)) rfl _ _ R (by simp) (by simp) (by
    intro x hx
    obtain ⟨i, -, rfl⟩ := List.mem_map.1 hx
    by_cases h : i % 2 = 1 <;> simp [h])

/-- A tiny run: three goroutines, steps out of order, one step wasted. -/
example : runSched [[⟨0, some 'a'⟩, ⟨1, some 'b'⟩], [⟨2, some 'c'⟩], []] ['x', 'y', 'z'] [1, 0, 2, 0]
    = some ([[], [], []], ['a', 'b', 'c']) := rfl

end GoTfhe
