import Verif.Props.Lut
import Verif.Props.Gates
import Verif.Props.LweMessage

/-!
# C56: programmable bootstrapping
-/

namespace GoTfhe

variable {O : FourierOps}

/-! ### Existence of keys with given noise (for the examples) -/

/-- TRGSW samples with any given noise exist. -/
theorem exists_trgsw_noise {P : Params} (W : WellFormed P) (p : Torus) (key : List Torus)
    (hk : key.length = P.trgswLv1.N) (hbin : IsBinary key) (draw : ℕ → ℕ → Torus) (err : ℕ → ℕ → Torus) :
    ∃ t g, newTRGSWLv1FFT (exactOps P.trgswLv1.N) t = some g ∧ IsFft (exL W) t g ∧
      IsTrgsw P.trgswLv1.N P.trgswLv1.L P.trgswLv1.BGBIT t p key err := by
  obtain ⟨t, r, e, ht, hr⟩ := C27_encryptTorus W (exL W) rfl p key hk hbin (exL_mulAccurate W 1) draw
    (fun i k => ((err i k).toInt : ℚ) / 2 ^ 32)
  obtain ⟨g, hg, hf⟩ := C27_fft (exL W) (show (exactOps P.trgswLv1.N).deg = P.trgswLv1.N from rfl) ht
  have hn : ∀ i k, f64ToTorus (((err i k).toInt : ℚ) / 2 ^ 32) = err i k := by
    intro i k
    have h1 := (err i k).toInt_lt
    have h2 := (err i k).le_toInt
    rw [f64ToTorus_int_div _ (by norm_num at h2; omega) (by norm_num at h1; omega), ofInt_toInt32]
  refine ⟨t, g, hg, hf, ht.rows, ht.sizedA, ht.sizedB, ?_, ?_⟩
  all_goals
    intro i hi k hk
    first | rw [ht.phaseA i hi k hk] | rw [ht.phaseB i hi k hk]
    have h0 : ∀ j, r j k = 0 := by
      intro j
      have := hr j k hk
      have h1 : (r j k).toInt = 0 := by
        unfold nrm at this; omega
      exact BitVec.eq_of_toInt_eq (by rw [h1]; rfl)
    simp only [h0, hn, add_zero]

/-- At every level, for all binary keys and every noise, there is a cloud key with that bootstrapping-key
noise. -/
theorem exists_keysOK_noise {P : Params} (W : WellFormed P) (s0 s1 : List Torus) (hk : s1.length = P.trgswLv1.N)
    (hb0 : IsBinary s0) (hb1 : IsBinary s1) (err : ℕ → ℕ → ℕ → Torus) (β : ℕ)
    (hβ : ∀ i j k, nrm (err i j k) ≤ β) :
    ∃ ck : CloudKey (exactOps P.trgswLv1.N), KeysOK P (exL W) 0 β 0 ck s0 s1 := by
  have key := fun i : ℕ => exists_trgsw_noise W (at' s0 i) s1 hk hb1
    (fun a b => BitVec.ofNat 32 (a * 31 + b * 17 + i)) (err i)
  choose t g hg hf ht using key
  obtain ⟨ksk, k1, k2, k3⟩ := isKsk_trivial P.tlweLv0.N P.trgswLv1.N P.trgswLv1.BASEBIT P.trgswLv1.IKS_T s0 s1
  refine ⟨⟨gadgetOffset P.trgswLv1.BGBIT P.trgswLv1.L, gateTestvec P, ksk, tab P.tlweLv0.N g⟩,
    ⟨exL_accurate W _ _, genDecompositionOffset_eq P W.bg W.bgbit_pos W.gadget_fits, hb0, hb1,
      ⟨err, ⟨by simp, fun i hi => ⟨t i, ht i, ?_⟩⟩, hβ⟩, ⟨k1.ge, fun e he => (k2 e he).ge⟩,
      ⟨_, k3, fun _ _ _ => (le_of_eq nrm_zero)⟩⟩⟩
  rw [getD_tab _ _ _ _ hi]
  exact hf i

/-! ### The table selects the value of the slot -/

theorem trPhase_table (N : ℕ) (t : Trlwe) (hA : t.A = tab N fun _ => 0) (s : List Torus) (k : ℕ) (hk : k < N) :
    trPhase N t.A t.B s k = at' t.B k := by
  have : t.A = mkSlice N 0 := by
    rw [hA]
    apply List.ext_getElem
    · simp [mkSlice, length_tab]
    · intro i h1 h2
      simp [mkSlice, getElem_tab]
  rw [this]
  exact trPhase_trivial N _ _ k hk

/-- The phase after bootstrapping with a table, when the rounded phase lies in the slot of `x`. -/
theorem phase_bootOut_slot {P : Params} (W : WellFormed P) (L : FourierLaws O) (ck : CloudKey O)
    (s0 s1 : List Torus) (t : Trlwe) (hA : t.A = tab P.trgswLv1.N fun _ => 0) (m : ℕ) (v : ℕ → Torus)
    (ht : TableFor P.trgswLv1.N m (at' t.B) v) (c : List Torus) (x : ℕ) (hx : x < m) (p : ℤ)
    (hp : (2 * P.trgswLv1.N : ℤ) ∣ msPhase P.trgswLv1.N P.tlweLv0.N c s0 - p)
    (hs : InSlot P.trgswLv1.N m x p) :
    phase P.tlweLv0.N (bootOut P L ck t c) s0 = v x + bootNoise P L ck s0 s1 t c := by
  have hN : 0 < P.trgswLv1.N := by have := W.min_degree; omega
  unfold bootNoise
  rw [ext_mod _ hN _ hp, ext_congr _ hN _ (at' t.B) (fun i hi => trPhase_table _ t hA s1 i hi), ht.1 x hx p hs]
  ring

/-- Rounding of the phase moves it into the slot of `x` when the phase is close enough to `x * 2^31 / m`. -/
theorem slot_of_margin {P : Params} (W : WellFormed P) (c s : List Torus) {d : ℕ} (hnear : Near P c s d) (m : ℕ) (hm : 1 ≤ m) (x : ℕ)
    (h : |2 * (m : ℤ) * (phase P.tlweLv0.N c s).toInt - (x : ℤ) * 2 ^ 32|
      + 2 * (m : ℤ) * ((d : ℤ) + 2 ^ (31 - P.trgswLv1.NBIT)) ≤ 2 ^ 31 ∨
      2 * m ∣ P.trgswLv1.N ∧ |2 * (m : ℤ) * (phase P.tlweLv0.N c s).toInt - (x : ℤ) * 2 ^ 32|
        + 2 * (m : ℤ) * (d : ℤ) < 2 ^ 31) :
    ∃ p : ℤ, (2 * P.trgswLv1.N : ℤ) ∣ msPhase P.trgswLv1.N P.tlweLv0.N c s - p ∧
      InSlot P.trgswLv1.N m x p := by
  obtain ⟨ρ, h1, h2⟩ := hnear
  refine ⟨ρ, h1, ?_⟩
  have hn := W.nbit_le
  set M : ℤ := 2 ^ (31 - P.trgswLv1.NBIT) with hM
  have hMpos : 0 < M := by positivity
  have eN : M * P.trgswLv1.N = 2 ^ 31 := by
    rw [W.pow2, hM]; push_cast; rw [← pow_add, Nat.sub_add_cancel (by omega)]; norm_num
  set φ := (phase P.tlweLv0.N c s).toInt
  have hm' : (0 : ℤ) < 2 * m := by omega
  have key : |2 * m * (ρ * M) - x * 2 ^ 32| ≤ |2 * m * φ - x * 2 ^ 32| + 2 * m * (d : ℤ) := by
    have : 2 * m * (ρ * M) - x * 2 ^ 32 = (2 * m * φ - x * 2 ^ 32) + 2 * m * (ρ * M - φ) := by ring
    rw [this]
    refine (abs_add_le _ _).trans ?_
    rw [abs_mul, abs_of_pos hm']
    have := mul_le_mul_of_nonneg_left h2 hm'.le
    linarith
  have e2 : 2 * m * (ρ * M) - x * 2 ^ 32 = M * (2 * m * ρ - 2 * x * P.trgswLv1.N) := by
    have : (2 : ℤ) ^ 32 = 2 * (M * P.trgswLv1.N) := by rw [eN]; norm_num
    rw [this]; ring
  rw [e2, abs_mul, abs_of_pos hMpos] at key
  rcases h with h | ⟨hdvd, h⟩
  · apply C52_slot_general _ _ hm
    have : M * (|2 * m * ρ - 2 * x * (P.trgswLv1.N : ℤ)| + 2 * m) ≤ M * P.trgswLv1.N := by
      rw [eN]
      have : M * (|2 * m * ρ - 2 * x * (P.trgswLv1.N : ℤ)| + 2 * m)
        = M * |2 * m * ρ - 2 * x * (P.trgswLv1.N : ℤ)| + 2 * m * M := by ring
      rw [this]
      linarith
    exact le_of_mul_le_mul_left this hMpos
  · rw [C52_slot_exact _ _ hm hdvd]
    have : M * |2 * m * ρ - 2 * x * (P.trgswLv1.N : ℤ)| < M * P.trgswLv1.N := by
      rw [eN]; linarith
    have := abs_lt.1 (lt_of_mul_lt_mul_left this hMpos.le)
    constructor <;> linarith [this.1, this.2]

/-- Decryption of an encoding with noise, for every modulus. -/
theorem decrypt_encoded {P : Params} (fl : ℚ → ℚ) (hfl : IsRound fl) (m : ℕ) (hm : 1 ≤ m) (y : ℤ)
    (c s0 : List Torus) (hk : P.tlweLv0.N ≤ s0.length) (hc : P.tlweLv0.N < c.length) (e : Torus)
    (hph : phase P.tlweLv0.N c s0 = (newEncoder fl m).val fl y + e)
    (he : nrm e + m + 1 ≤ 2 ^ 31 / m / 2 ∨
      (∃ k ≤ 30, m = 2 ^ k) ∧ -(2 ^ 31 / m / 2 : ℕ) ≤ e.toInt ∧ e.toInt < (2 ^ 31 / m / 2 : ℕ)) :
    decryptLWEMessage P c m s0 = some (y % m) := by
  obtain ⟨r, hr⟩ := Int.eq_ofNat_of_zero_le (Int.emod_nonneg y (show (m : ℤ) ≠ 0 by omega))
  have hrm : r < m := by
    have := Int.emod_lt_of_pos y (show (0 : ℤ) < m by omega)
    omega
  rcases he with he | ⟨⟨k, hk30, rfl⟩, he1, he2⟩
  · have hm2 : m ≤ 2 ^ 31 := by
      by_contra hc
      rw [Nat.div_eq_of_lt (by omega : 2 ^ 31 < m)] at he
      omega
    rw [decryptLWEMessage_eq P c s0 m hm hm2 hk hc, hph]
    obtain ⟨x, hx, hx1, hx2⟩ := newEncoder_near fl hfl m hm hm2 y r hr
    rw [hx, hr]
    conv_lhs => rw [← ofInt_toInt32 e, ← ofInt_add32,
      show x + e.toInt = (r : ℤ) * (2 ^ 31 / m : ℕ) + (x - (r : ℤ) * (2 ^ 31 / m : ℕ) + e.toInt) by ring]
    unfold nrm at he
    rw [decodeMsg_near m hm hm2 r hrm _ (by omega) (by omega)]
  · have hm2 : 2 ^ k ≤ 2 ^ 31 := Nat.pow_le_pow_right (by norm_num) (by omega)
    rw [decryptLWEMessage_eq P c s0 _ hm hm2 hk hc, hph, newEncoder_pow2 fl hfl k (by omega) y r hr, hr]
    conv_lhs => rw [← ofInt_toInt32 e, ← ofInt_add32]
    rw [decodeMsg_near (2 ^ k) hm hm2 r hrm _ he1 (by omega)]

/-- **C56.** `BootstrapFunc` with `f` on a ciphertext whose rounded phase lies in the slot of `x` returns a
ciphertext whose phase is the encoding of `f x` plus the noise of the bootstrapping, and which decrypts to
`f x` modulo `m` when that noise is below half a message step. `BootstrapFuncAssign` writes the same value
into its output object. -/
theorem C56_bootstrapFunc {P : Params} (W : WellFormed P) (L : FourierLaws O) (hd : O.deg = P.trgswLv1.N)
    (ck : CloudKey O) (hb : GoodBsk P L ck.bootstrappingKey) (hks : GoodKsk P ck.keySwitchingKey)
    (s0 s1 : List Torus) (hs0 : P.tlweLv0.N ≤ s0.length)
    (fl : ℚ → ℚ) (hfl : IsRound fl) (m : ℕ) (hm : 1 ≤ m) (f : ℤ → Option ℤ) (F : ℕ → ℤ)
    (hf : ∀ x < m, f x = some (F x)) (t : Trlwe)
    (ht : (newGenerator fl P m).genLookUpTable fl P f = some t)
    (st : EvState O) (hst : EvGood P L st) (ctIn ctOut : LRef) (hin : (st.lw ctIn).length = P.tlweLv0.N + 1)
    (hoe : ctOut ≠ .extracted) (ho : (st.lw ctOut).length = P.tlweLv0.N + 1)
    (x : ℕ) (hx : x < m) (p : ℤ)
    (hp : (2 * P.trgswLv1.N : ℤ) ∣ msPhase P.trgswLv1.N P.tlweLv0.N (st.lw ctIn) s0 - p)
    (hslot : InSlot P.trgswLv1.N m x p) :
    ∃ (st' st'' : EvState O) (out : List Torus),
      bootstrapFunc fl P st ctIn f m ck.bootstrappingKey ck.keySwitchingKey ck.decompositionOffset
        = some (st', out) ∧ EvGood P L st' ∧
      bootstrapFuncAssign fl P st ctIn f m ck.bootstrappingKey ck.keySwitchingKey ck.decompositionOffset ctOut
        = some st'' ∧ EvGood P L st'' ∧ st''.lw ctOut = out ∧ out.length = P.tlweLv0.N + 1 ∧
      (∃ y, (newEncoder fl m).encode fl (F x) = some y ∧
        phase P.tlweLv0.N out s0 = y + bootNoise P L ck s0 s1 t (st.lw ctIn)) ∧
      (nrm (bootNoise P L ck s0 s1 t (st.lw ctIn)) + m + 1 ≤ 2 ^ 31 / m / 2 →
        decryptLWEMessage P out m s0 = some (F x % m)) ∧
      ((∃ k ≤ 30, m = 2 ^ k) → nrm (bootNoise P L ck s0 s1 t (st.lw ctIn)) < 2 ^ 31 / m / 2 →
        decryptLWEMessage P out m s0 = some (F x % m)) := by
  have hm0 : (0 : ℤ) < m := by omega
  obtain ⟨t', e', hA, hB, htab⟩ := C52_table fl W m hm f F hf (fun x => (newEncoder fl m).val fl (F x))
    (fun x _ => Encoder.encode_eq fl (newEncoder fl m) (F x) hm0)
  rw [ht] at e'
  obtain rfl : t = t' := Option.some.inj e'
  have hsz : ((st.setTr (.user 0) t).tr (.user 0)).Sized P.trgswLv1.N := by
    rw [EvState.setTr_tr]
    exact ⟨by rw [hA]; simp, hB⟩
  have htr : (st.setTr (.user 0) t).tr (.user 0) = t := EvState.setTr_tr _ _ _
  obtain ⟨st', e1, g1, -⟩ := bootstrapLUT_eq W L hd (st.setTr (.user 0) t) (hst.setTr_user 0 t)
    ck.bootstrappingKey hb ck.keySwitchingKey hks ck.decompositionOffset ctIn (.user 0) hin (by simp) hsz
  obtain ⟨st'', e2, g2, v2, -⟩ := bootstrapAssign_eq W L hd (st.setTr (.user 0) t) (hst.setTr_user 0 t)
    ck.bootstrappingKey hb ck.keySwitchingKey hks ck.decompositionOffset ctIn (.user 0) ctOut hin (by simp) hsz
    hoe ho
  rw [htr] at e1 v2
  have hlen : (bootOut P L ck t (st.lw ctIn)).length = P.tlweLv0.N + 1 := length_bootPure P L _ _ _ _ _
  have hph := phase_bootOut_slot W L ck s0 s1 t hA m _ htab (st.lw ctIn) x hx p hp hslot
  refine ⟨st', st'', bootOut P L ck t (st.lw ctIn), ?_, g1, ?_, g2, v2, hlen,
    ⟨_, Encoder.encode_eq fl (newEncoder fl m) (F x) hm0, hph⟩, ?_, ?_⟩
  · unfold bootstrapFunc
    simp only [ht, Option.bind_eq_bind, Option.bind_some]
    exact e1
  · unfold bootstrapFuncAssign
    simp only [ht, Option.bind_eq_bind, Option.bind_some]
    exact e2
  · intro hn
    exact decrypt_encoded fl hfl m hm (F x) _ s0 hs0 (by omega) _ hph (.inl hn)
  · intro hpow hn
    refine decrypt_encoded fl hfl m hm (F x) _ s0 hs0 (by omega) _ hph (.inr ⟨hpow, ?_⟩)
    unfold nrm at hn
    omega

/-- **C56**, table form: `BootstrapLUT`, `BootstrapLUTTemp` and `BootstrapLUTAssign` with one and the same
table (of values `v`) return the value of the slot plus the noise of that bootstrapping. -/
theorem C56_bootstrapLUT {P : Params} (W : WellFormed P) (L : FourierLaws O) (hd : O.deg = P.trgswLv1.N)
    (ck : CloudKey O) (hb : GoodBsk P L ck.bootstrappingKey) (hks : GoodKsk P ck.keySwitchingKey)
    (s0 s1 : List Torus) (m : ℕ) (v : ℕ → Torus)
    (st : EvState O) (hst : EvGood P L st) (lut : ℕ)
    (hA : (st.tr (.user lut)).A = tab P.trgswLv1.N fun _ => 0) (hB : (st.tr (.user lut)).B.length = P.trgswLv1.N)
    (htab : TableFor P.trgswLv1.N m (at' (st.tr (.user lut)).B) v)
    (ctIn ctOut : LRef) (hin : (st.lw ctIn).length = P.tlweLv0.N + 1)
    (hoe : ctOut ≠ .extracted) (ho : (st.lw ctOut).length = P.tlweLv0.N + 1)
    (x : ℕ) (hx : x < m) (p : ℤ)
    (hp : (2 * P.trgswLv1.N : ℤ) ∣ msPhase P.trgswLv1.N P.tlweLv0.N (st.lw ctIn) s0 - p)
    (hslot : InSlot P.trgswLv1.N m x p) :
    ∃ (st' st'' st''' : EvState O) (out : List Torus) (r : LRef),
      bootstrapLUT P st ctIn (.user lut) ck.bootstrappingKey ck.keySwitchingKey ck.decompositionOffset
        = some (st', out) ∧
      bootstrapPooled P st ctIn (.user lut) ck.bootstrappingKey ck.keySwitchingKey ck.decompositionOffset
        = some (st'', r) ∧ st''.lw r = out ∧
      bootstrapAssign P st ctIn (.user lut) ck.bootstrappingKey ck.keySwitchingKey ck.decompositionOffset ctOut
        = some st''' ∧ st'''.lw ctOut = out ∧ out.length = P.tlweLv0.N + 1 ∧
      phase P.tlweLv0.N out s0 = v x + bootNoise P L ck s0 s1 (st.tr (.user lut)) (st.lw ctIn) := by
  have hsz : (st.tr (.user lut)).Sized P.trgswLv1.N := ⟨by rw [hA]; simp, hB⟩
  obtain ⟨st', e1, -⟩ := bootstrapLUT_eq W L hd st hst ck.bootstrappingKey hb ck.keySwitchingKey hks
    ck.decompositionOffset ctIn (.user lut) hin (by simp) hsz
  obtain ⟨st'', e2, -, v2, -⟩ := bootstrapPooled_eq W L hd st hst ck.bootstrappingKey hb ck.keySwitchingKey hks
    ck.decompositionOffset ctIn (.user lut) hin (by simp) hsz
  obtain ⟨st''', e3, -, v3, -⟩ := bootstrapAssign_eq W L hd st hst ck.bootstrappingKey hb ck.keySwitchingKey hks
    ck.decompositionOffset ctIn (.user lut) ctOut hin (by simp) hsz hoe ho
  exact ⟨st', st'', st''', bootOut P L ck (st.tr (.user lut)) (st.lw ctIn), _, e1, e2, v2, e3, v3,
    length_bootPure P L _ _ _ _ _, phase_bootOut_slot W L ck s0 s1 _ hA m v htab (st.lw ctIn) x hx p hp hslot⟩

/-- Programmable bootstrapping of a fresh encryption: the outcome is that of the slot the rounded phase lies in. -/
theorem pbs_slot {P : Params} (W : WellFormed P) (L : FourierLaws O) (hd : O.deg = P.trgswLv1.N)
    {D β κ : ℕ} {ck : CloudKey O} {s0 s1 : List Torus} (K : KeysOK P L D β κ ck s0 s1)
    (hs0 : P.tlweLv0.N ≤ s0.length) (fl : ℚ → ℚ) (hfl : IsRound fl) (k : ℕ) (hk : k ≤ 29)
    (f : ℤ → Option ℤ) (F : ℕ → ℤ) (hf : ∀ x : ℕ, x < 2 ^ k → f x = some (F x))
    (msg : ℤ) (draw : ℕ → Torus) (sample : ℚ) (st : EvState O) (hst : EvGood P L st)
    (hnoise : nrm (f64ToTorus sample) < 2 ^ 30 / 2 ^ k) :
    ∃ c t, encryptLWEMessage fl P (newTLWELv0 P) msg ((2 ^ k : ℕ) : ℤ) s0 draw sample = some c ∧
      (newGenerator fl P ((2 ^ k : ℕ) : ℤ)).genLookUpTable fl P f = some t ∧
      (∀ i < P.tlweLv0.N, at' c i = draw i) ∧
      (phase P.tlweLv0.N c s0).toInt
        = (msg % ((2 ^ k : ℕ) : ℤ)) * (2 * (2 ^ 30 / 2 ^ k : ℕ)) + (f64ToTorus sample).toInt ∧
      ∀ x < 2 ^ k, ∀ p : ℤ, (2 * P.trgswLv1.N : ℤ) ∣ msPhase P.trgswLv1.N P.tlweLv0.N c s0 - p →
        InSlot P.trgswLv1.N (2 ^ k) x p → ∃ st' out,
        bootstrapFunc fl P (st.setLw (.user 0) c) (.user 0) f ((2 ^ k : ℕ) : ℤ) ck.bootstrappingKey
          ck.keySwitchingKey ck.decompositionOffset = some (st', out) ∧ EvGood P L st' ∧
        (nrm (bootNoise P L ck s0 s1 t c) < 2 ^ 30 / 2 ^ k → decryptLWEMessage P out ((2 ^ k : ℕ) : ℤ) s0
          = some (F x % ((2 ^ k : ℕ) : ℤ))) := by
  have hm : 1 ≤ 2 ^ k := Nat.one_le_two_pow
  obtain ⟨r, hr⟩ := Int.eq_ofNat_of_zero_le (Int.emod_nonneg msg (show ((2 ^ k : ℕ) : ℤ) ≠ 0 by positivity))
  have hrm : r < 2 ^ k := by
    have := Int.emod_lt_of_pos msg (show (0 : ℤ) < (2 ^ k : ℕ) by positivity)
    omega
  obtain ⟨c, ec, lc, mc, pc⟩ := encryptLWEMessage_eq fl P (newTLWELv0 P) s0 msg (2 ^ k) hm draw sample hs0
    (by simp [newTLWELv0])
  rw [hr, enc_pow2 fl hfl k (by omega) r (by omega) (by exact_mod_cast hrm)] at pc
  have lc' : c.length = P.tlweLv0.N + 1 := by rw [lc]; simp [newTLWELv0]
  have hS : 2 ^ 31 / 2 ^ k = 2 * (2 ^ 30 / 2 ^ k) := by
    rw [Nat.pow_div (by omega) (by norm_num), Nat.pow_div (by omega) (by norm_num), ← pow_succ']
    congr 1; omega
  have hSm : 2 ^ 30 / 2 ^ k * 2 ^ k = 2 ^ 30 := Nat.div_mul_cancel (pow_dvd_pow 2 (by omega))
  set S := 2 ^ 30 / 2 ^ k with hSdef
  set e := f64ToTorus sample with he
  -- the phase as an integer
  have hrS : (r + 1) * S ≤ 2 ^ 30 := by
    rw [← hSm, mul_comm]; exact Nat.mul_le_mul_left _ hrm
  have hphi : (phase P.tlweLv0.N c s0).toInt = (r : ℤ) * (2 * S) + e.toInt := by
    rw [pc, hS]
    conv_lhs => rw [← ofInt_toInt32 e, ← ofInt_add32]
    rw [toInt_ofInt32]
    have h1 : ((r : ℤ) + 1) * S ≤ 2 ^ 30 := by exact_mod_cast hrS
    have h2 : (0 : ℤ) ≤ (r : ℤ) * S := by positivity
    unfold nrm at hnoise
    push_cast
    rw [Int.bmod_eq_of_le] <;> norm_num at * <;> nlinarith [abs_le.1 (le_refl |e.toInt|)]
  obtain ⟨t, ht, -⟩ := C52_table fl W (2 ^ k) hm f F hf (fun x => (newEncoder fl ((2 ^ k : ℕ) : ℤ)).val fl (F x))
    (fun x _ => Encoder.encode_eq fl (newEncoder fl ((2 ^ k : ℕ) : ℤ)) (F x) (by show (0 : ℤ) < (2 ^ k : ℕ); positivity))
  have hlw : (st.setLw (.user 0) c).lw (.user 0) = c := by simp [EvState.setLw]
  obtain ⟨err, hbsk, -⟩ := K.bsk
  refine ⟨c, t, ec, ht, mc, by rw [hr]; exact hphi, fun x hx p hp hslot => ?_⟩
  obtain ⟨st', -, out, e1, g1, -, -, -, -, -, -, hdec⟩ := C56_bootstrapFunc W L hd ck
    (goodBsk_of_isBsk L hd hbsk) K.ksk_good s0 s1 hs0 fl hfl (2 ^ k) hm f F hf t ht (st.setLw (.user 0) c)
    (hst.setLw_user 0 c) (.user 0) (.user 0) (by rw [hlw]; exact lc') (by simp) (by rw [hlw]; exact lc') x hx p
    (by rw [hlw]; exact hp) hslot
  exact ⟨st', out, e1, g1, fun hnb => hdec ⟨k, by omega, rfl⟩ (by rw [hlw, hS]; omega)⟩

/-- Programmable bootstrapping of a fresh encryption with the realised rounding `d`. -/
theorem pbs_near {P : Params} (W : WellFormed P) (L : FourierLaws O) (hd : O.deg = P.trgswLv1.N)
    {D β κ : ℕ} {ck : CloudKey O} {s0 s1 : List Torus} (K : KeysOK P L D β κ ck s0 s1)
    (hs0 : P.tlweLv0.N ≤ s0.length) (fl : ℚ → ℚ) (hfl : IsRound fl) (k : ℕ) (hk : k ≤ 29)
    (hN : 2 * 2 ^ k ∣ P.trgswLv1.N) (f : ℤ → Option ℤ) (F : ℕ → ℤ) (hf : ∀ x : ℕ, x < 2 ^ k → f x = some (F x))
    (msg : ℤ) (draw : ℕ → Torus) (sample : ℚ) (st : EvState O) (hst : EvGood P L st)
    (d : ℕ) (hnoise : nrm (f64ToTorus sample) + d < 2 ^ 30 / 2 ^ k) :
    ∃ c t, encryptLWEMessage fl P (newTLWELv0 P) msg ((2 ^ k : ℕ) : ℤ) s0 draw sample = some c ∧
      (newGenerator fl P ((2 ^ k : ℕ) : ℤ)).genLookUpTable fl P f = some t ∧
      (Near P c s0 d → ∃ st' out,
        bootstrapFunc fl P (st.setLw (.user 0) c) (.user 0) f ((2 ^ k : ℕ) : ℤ) ck.bootstrappingKey
          ck.keySwitchingKey ck.decompositionOffset = some (st', out) ∧ EvGood P L st' ∧
        (nrm (bootNoise P L ck s0 s1 t c) < 2 ^ 30 / 2 ^ k → decryptLWEMessage P out ((2 ^ k : ℕ) : ℤ) s0
          = some (F (msg % ((2 ^ k : ℕ) : ℤ)).toNat % ((2 ^ k : ℕ) : ℤ)))) := by
  have hm : 1 ≤ 2 ^ k := Nat.one_le_two_pow
  obtain ⟨c, t, ec, ht, -, hphi, hall⟩ := pbs_slot W L hd K hs0 fl hfl k hk f F hf msg draw sample st hst (by omega)
  obtain ⟨r, hr⟩ := Int.eq_ofNat_of_zero_le (Int.emod_nonneg msg (show ((2 ^ k : ℕ) : ℤ) ≠ 0 by positivity))
  have hrm : r < 2 ^ k := by
    have := Int.emod_lt_of_pos msg (show (0 : ℤ) < (2 ^ k : ℕ) by positivity)
    omega
  have hSm : 2 ^ 30 / 2 ^ k * 2 ^ k = 2 ^ 30 := Nat.div_mul_cancel (pow_dvd_pow 2 (by omega))
  set S := 2 ^ 30 / 2 ^ k with hSdef
  set e := f64ToTorus sample with he
  rw [hr] at hphi ⊢
  refine ⟨c, t, ec, ht, fun hnear => ?_⟩
  obtain ⟨p, hp, hslot⟩ := slot_of_margin W c s0 hnear (2 ^ k) hm r (.inr ⟨hN, by
    rw [hphi]
    have e1 : 2 * ((2 ^ k : ℕ) : ℤ) * ((r : ℤ) * (2 * S) + e.toInt) - r * 2 ^ 32 = 2 * (2 ^ k : ℕ) * e.toInt := by
      have : ((2 ^ k : ℕ) : ℤ) * S = 2 ^ 30 := by rw [mul_comm]; exact_mod_cast hSm
      linear_combination 4 * (r : ℤ) * this
    rw [e1, abs_mul, abs_of_pos (by positivity : (0 : ℤ) < 2 * (2 ^ k : ℕ)), ← mul_add]
    have h2 : |e.toInt| + (d : ℤ) < S := by
      have : |e.toInt| = (nrm e : ℤ) := by unfold nrm; exact Int.abs_eq_natAbs _
      rw [this]; exact_mod_cast hnoise
    have h3 : 2 * ((2 ^ k : ℕ) : ℤ) * (|e.toInt| + (d : ℤ)) < 2 * (2 ^ k : ℕ) * S :=
      mul_lt_mul_of_pos_left h2 (by positivity)
    have : ((2 ^ k : ℕ) : ℤ) * S = 2 ^ 30 := by rw [mul_comm]; exact_mod_cast hSm
    linarith⟩)
  exact hall r hrm p hp hslot

/-- **C56**, from encryption to decryption for moduli `2^k`: encrypt `msg`, bootstrap with `f`, decrypt: the result is
`f` of the message, whenever the noise of the encryption plus the rounding drift stays below half a message step and
so does the noise this bootstrapping has. -/
theorem C56_end_to_end_realised {P : Params} (W : WellFormed P) (L : FourierLaws O) (hd : O.deg = P.trgswLv1.N)
    {D β κ : ℕ} {ck : CloudKey O} {s0 s1 : List Torus} (K : KeysOK P L D β κ ck s0 s1)
    (hs0 : P.tlweLv0.N ≤ s0.length) (fl : ℚ → ℚ) (hfl : IsRound fl) (k : ℕ) (hk : k ≤ 29)
    (hN : 2 * 2 ^ k ∣ P.trgswLv1.N) (f : ℤ → Option ℤ) (F : ℕ → ℤ) (hf : ∀ x : ℕ, x < 2 ^ k → f x = some (F x))
    (msg : ℤ) (draw : ℕ → Torus) (sample : ℚ) (st : EvState O) (hst : EvGood P L st)
    (hnoise : nrm (f64ToTorus sample) + drift P (weight P.tlweLv0.N s0) < 2 ^ 30 / 2 ^ k) :
    ∃ c t st' out, encryptLWEMessage fl P (newTLWELv0 P) msg ((2 ^ k : ℕ) : ℤ) s0 draw sample = some c ∧
      (newGenerator fl P ((2 ^ k : ℕ) : ℤ)).genLookUpTable fl P f = some t ∧
      bootstrapFunc fl P (st.setLw (.user 0) c) (.user 0) f ((2 ^ k : ℕ) : ℤ) ck.bootstrappingKey
        ck.keySwitchingKey ck.decompositionOffset = some (st', out) ∧ EvGood P L st' ∧
      (nrm (bootNoise P L ck s0 s1 t c) < 2 ^ 30 / 2 ^ k → decryptLWEMessage P out ((2 ^ k : ℕ) : ℤ) s0
        = some (F (msg % ((2 ^ k : ℕ) : ℤ)).toNat % ((2 ^ k : ℕ) : ℤ))) := by
  obtain ⟨c, t, h1, h2, h⟩ := pbs_near W L hd K hs0 fl hfl k hk hN f F hf msg draw sample st hst _ hnoise
  obtain ⟨st', out, h3, h4, h5⟩ := h (msPhase_near W c s0)
  exact ⟨c, t, st', out, h1, h2, h3, h4, h5⟩

/-- **C56**, from encryption to decryption for moduli `2^k`: encrypt `msg` with noise `e`, bootstrap with `f`,
decrypt: the result is `f` of the message, whenever the noise of the encryption plus the rounding drift
stays below half a message step and so does the worst-case noise of the bootstrapping. -/
theorem C56_end_to_end {P : Params} (W : WellFormed P) (L : FourierLaws O) (hd : O.deg = P.trgswLv1.N)
    {D β κ : ℕ} {ck : CloudKey O} {s0 s1 : List Torus} (K : KeysOK P L D β κ ck s0 s1)
    (hs0 : P.tlweLv0.N ≤ s0.length) (fl : ℚ → ℚ) (hfl : IsRound fl) (k : ℕ) (hk : k ≤ 29)
    (hN : 2 * 2 ^ k ∣ P.trgswLv1.N) (f : ℤ → Option ℤ) (F : ℕ → ℤ) (hf : ∀ x : ℕ, x < 2 ^ k → f x = some (F x))
    (msg : ℤ) (draw : ℕ → Torus) (sample : ℚ) (st : EvState O) (hst : EvGood P L st)
    (hnoise : nrm (f64ToTorus sample) + drift P (weight P.tlweLv0.N s0) < 2 ^ 30 / 2 ^ k)
    (hboot : bootBound P D β κ (weight P.tlweLv0.N s0) (weight P.trgswLv1.N s1) < 2 ^ 30 / 2 ^ k) :
    ∃ c st' out, encryptLWEMessage fl P (newTLWELv0 P) msg ((2 ^ k : ℕ) : ℤ) s0 draw sample = some c ∧
      bootstrapFunc fl P (st.setLw (.user 0) c) (.user 0) f ((2 ^ k : ℕ) : ℤ) ck.bootstrappingKey
        ck.keySwitchingKey ck.decompositionOffset = some (st', out) ∧ EvGood P L st' ∧
      decryptLWEMessage P out ((2 ^ k : ℕ) : ℤ) s0
        = some (F (msg % ((2 ^ k : ℕ) : ℤ)).toNat % ((2 ^ k : ℕ) : ℤ)) := by
  obtain ⟨c, t, st', out, h1, -, h2, h3, h4⟩ := C56_end_to_end_realised W L hd K hs0 fl hfl k hk hN f F hf msg draw sample
    st hst hnoise
  exact ⟨c, st', out, h1, h2, h3, h4 ((nrm_bootNoise W L hd K t c).trans_lt hboot)⟩

/-- Non-vacuity for C56: at 128 bits, cubes modulo 4 on any message with noise up to `2^26`, with noise one
in every coefficient of the bootstrapping key. -/
example (msg : ℤ) (draw : ℕ → Torus) (sample : ℚ) (h : nrm (f64ToTorus sample) ≤ 2 ^ 26) :
    ∃ (ck : CloudKey (exactOps 1024)) (st st' : EvState (exactOps 1024)) (c out : List Torus),
      encryptLWEMessage rne (paramsFor 128) (newTLWELv0 (paramsFor 128)) msg ((2 ^ 2 : ℕ) : ℤ) (unitKey 700) draw
        sample = some c ∧
      bootstrapFunc rne (paramsFor 128) (st.setLw (.user 0) c) (.user 0) (fun x => some (x ^ 3)) ((2 ^ 2 : ℕ) : ℤ)
        ck.bootstrappingKey ck.keySwitchingKey ck.decompositionOffset = some (st', out) ∧
      decryptLWEMessage (paramsFor 128) out ((2 ^ 2 : ℕ) : ℤ) (unitKey 700)
        = some (((msg % ((2 ^ 2 : ℕ) : ℤ)).toNat : ℤ) ^ 3 % ((2 ^ 2 : ℕ) : ℤ)) := by
  have W := C63_wellFormed 128
  obtain ⟨ck, K, -⟩ := exists_keysOK W (unitKey 700) (unitKey 1024) (by simp [unitKey]; rfl)
    (isBinary_unitKey _) (isBinary_unitKey _)
  obtain ⟨st, -, hst, -⟩ := newEvaluator_good W (exL W) rfl (fun _ => ⟨[], []⟩) (fun _ => [])
  have w0 : weight (paramsFor 128).tlweLv0.N (unitKey 700) = 1 := weight_unitKey 700 (by norm_num)
  have w1 : weight (paramsFor 128).trgswLv1.N (unitKey 1024) = 1 := weight_unitKey 1024 (by norm_num)
  obtain ⟨c, st', out, h1, h2, -, h3⟩ := C56_end_to_end W (exL W) rfl K
    (show 700 ≤ (unitKey 700).length by simp [unitKey]) rne isRound_rne 2 (by norm_num)
    (by show 2 * 2 ^ 2 ∣ 1024; norm_num) (fun x => some (x ^ 3)) (fun x => (x : ℤ) ^ 3) (fun x _ => rfl) msg draw
    sample st hst
    (by
      rw [w0]
      have hd : drift (paramsFor 128) 1 = 2 ^ 21 := by
        show (1 + 1) * 2 ^ (30 - 10) = 2 ^ 21
        norm_num
      rw [hd]
      norm_num at h ⊢
      omega)
    (by rw [w0, w1]
        show (1 + 1) * (1 + 1 * (1 + 2 ^ (32 - 3 * 6))) + 700 * (2 * 3 * 1024 * 2 ^ (6 - 1) * 1 + 0 * (1 + 1)) + 1
          + (1 * 2 ^ (31 - 2 * 9) + 1024 * (9 * 0)) < 2 ^ 30 / 2 ^ 2
        norm_num)
  exact ⟨ck, st, st', c, out, h1, h2, h3⟩

end GoTfhe
