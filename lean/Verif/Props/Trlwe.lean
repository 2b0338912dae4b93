import Verif.Lemmas.Trlwe
import Verif.Props.Tlwe
import Verif.Props.Params
import Verif.Spec.ExactBackend

/-!
# C23 – C26: polynomial constructors, TRLWE encryption, sample extraction
-/

namespace GoTfhe

/-! ### C23 -/

theorem goSlice_replicate {α : Type} (z : α) (m lo n : ℕ) (h : lo + n ≤ m) :
    goSlice (mkSlice m z) lo (lo + n) = some (mkSlice n z) := by
  unfold goSlice mkSlice
  rw [if_pos ⟨by omega, by simpa using h⟩]
  congr 1
  rw [List.take_replicate, List.drop_replicate]
  congr 1
  omega

/-- **C23.** Each of the four constructors succeeds exactly on the powers of two from 16 on, over all
ints, and then returns exactly `N` zeros; on every other int it panics. -/
theorem C23_constructors {R : Type} (z : R) (N : ℤ) :
    ((∃ k ≥ 4, N = 2 ^ k) → newPoly N = some (List.replicate N.toNat 0) ∧
      newFourierPoly z N = some (List.replicate N.toNat z) ∧
      newPolyAligned N = some (List.replicate N.toNat 0) ∧
      newFourierPolyAligned z N = some (List.replicate N.toNat z)) ∧
    ((¬ ∃ k ≥ 4, N = 2 ^ k) → newPoly N = none ∧ newFourierPoly z N = none ∧
      newPolyAligned N = none ∧ newFourierPolyAligned z N = none) := by
  have key := newPoly_eq_iff N
  have guard : (∃ k ≥ 4, N = 2 ^ k) ↔ ¬ (isPowerOfTwo N = false) ∧ ¬ N < minDegree := by
    constructor
    · intro h
      have := (key _).2 ⟨h, rfl⟩
      unfold newPoly at this
      split_ifs at this with h1 h2
      exact ⟨h1, h2⟩
    · rintro ⟨h1, h2⟩
      have : newPoly N = some (mkSlice N.toNat 0) := by
        unfold newPoly; rw [if_neg h1, if_neg h2]
      exact ((key _).1 this).1
  constructor
  · intro h
    obtain ⟨h1, h2⟩ := guard.1 h
    unfold newPoly newFourierPoly newPolyAligned newFourierPolyAligned newPolyAlignedAt newFourierPolyAlignedAt newAlignedAt
    simp only [if_neg h1, if_neg h2]
    refine ⟨rfl, rfl, ?_, ?_⟩
    all_goals
      rw [Option.map_map, Option.map_eq_some_iff]
      refine ⟨_, ?_, rfl⟩
      apply goSlice_replicate
      simp only [length_mkSlice]
      split_ifs <;> omega
  · intro h
    have h' : (isPowerOfTwo N = false) ∨ N < minDegree := by
      by_contra hc
      push Not at hc
      exact h (guard.2 ⟨hc.1, by omega⟩)
    unfold newPoly newFourierPoly newPolyAligned newFourierPolyAligned newPolyAlignedAt newFourierPolyAlignedAt newAlignedAt
    rcases h' with h1 | h1
    · simp only [if_pos h1, Option.map_none, and_self]
    · simp only [if_pos h1, ite_self, Option.map_none, and_self]

example : ∃ k ≥ 4, (1024 : ℤ) = 2 ^ k := ⟨10, by norm_num, by norm_num⟩
example : newPoly (-16) = none := ((C23_constructors (0 : ℕ) (-16)).2 (by
  rintro ⟨k, -, h⟩
  have : (0 : ℤ) < 2 ^ k := by positivity
  omega)).1

/-! ### C24 -/

/-- **C24.** TRLWE Boolean encryption: it never panics, and decryption returns bit `i` exactly when
the noise of coefficient `i` is in the margin. This holds for every lawful Fourier backend, however
inaccurate, because both sides compute the same product `A*s`. -/
theorem C24_enc_dec_iff (P : Params) {O : FourierOps} (L : FourierLaws O) (t : Trlwe) (bits : List Bool)
    (key : List Torus) (draw : ℕ → Torus) (samples : ℕ → ℚ) (hd : O.deg = P.trlweLv1.N)
    (hA : t.A.length = P.trlweLv1.N) (hb : bits.length = P.trlweLv1.N)
    (hk : key.length = P.trlweLv1.N) :
    ∃ c out, trlweEncryptBool P O t bits key draw samples = some c ∧
      trlweDecryptBool O c key = some out ∧ out.length = bits.length ∧
      ∀ i (h : i < bits.length), (out[i]? = some bits[i] ↔
        boolMargin bits[i] (f64ToTorus (samples i)).toInt) := by
  unfold trlweEncryptBool
  simp only
  rw [trlweEncryptF64_eq P L t _ key draw samples hd hA (by simpa using hb) hk]
  set N := P.trlweLv1.N
  set Rs := L.R (L.Mul (L.T (tab N draw)) (L.T key)) with hRs
  have hlen : Rs.length = N := by
    rw [hRs, L.length_mulPoly _ _ (by simp [hd]) (by omega), hd]
  refine ⟨_, tab N fun i => decide (0 ≤ (at' (gaussianF64Vec (bits.map fun b =>
    if b then (0.125 : ℚ) else -0.125) samples) i).toInt), rfl, ?_, by simp [hb], ?_⟩
  · unfold trlweDecryptBool
    simp only [length_tab]
    rw [L.mulPoly_eq _ key (by simp [hd]) (by omega), ← hRs]
    simp only [Option.bind_eq_bind, Option.bind_some]
    apply forRange_fill_full _ _ _ (by simp)
    intro i hi r _
    rw [rd_tab _ _ _ hi, rd_at' Rs i (by omega)]
    simp only [Option.bind_some]
    congr 1
    rw [add_sub_cancel_right]
  · intro i h
    rw [getElem?_tab, if_pos (by omega), Option.some.injEq, at'_gaussianF64Vec _ _ _ (by simpa using h)]
    simp only [List.getElem_map]
    rw [f64ToTorus_bool, sign_margin]
    unfold boolMargin
    norm_num

/-- **C24**: with every Gaussian sample below 1/8, decryption returns the bits. -/
theorem C24_enc_dec (P : Params) {O : FourierOps} (L : FourierLaws O) (t : Trlwe) (bits : List Bool)
    (key : List Torus) (draw : ℕ → Torus) (samples : ℕ → ℚ) (hd : O.deg = P.trlweLv1.N)
    (hA : t.A.length = P.trlweLv1.N) (hb : bits.length = P.trlweLv1.N)
    (hk : key.length = P.trlweLv1.N) (hs : ∀ i, |samples i| < 1 / 8) :
    (trlweEncryptBool P O t bits key draw samples).bind (fun c => trlweDecryptBool O c key)
      = some bits := by
  obtain ⟨c, out, h1, h2, h3, h4⟩ := C24_enc_dec_iff P L t bits key draw samples hd hA hb hk
  rw [h1, Option.bind_some, h2]
  congr 1
  apply List.ext_getElem?
  intro i
  by_cases h : i < bits.length
  · rw [(h4 i h).2, List.getElem?_eq_getElem h]
    have := toInt_of_small_sample (samples i) (hs i)
    unfold boolMargin
    split_ifs <;> omega
  · rw [List.getElem?_eq_none (by omega), List.getElem?_eq_none (by omega)]

example : (trlweEncryptBool (paramsFor 128) (exactOps 1024) (newTRLWELv1 (paramsFor 128))
    (tab 1024 fun i => decide (i % 3 = 0)) (tab 1024 fun i => if i % 2 = 0 then 1 else 0)
    (fun i => BitVec.ofNat 32 (i * 2654435761)) (fun _ => 1 / 100)).bind
    (fun c => trlweDecryptBool (exactOps 1024) c (tab 1024 fun i => if i % 2 = 0 then 1 else 0))
    = some (tab 1024 fun i => decide (i % 3 = 0)) :=
  C24_enc_dec _ (exactLaws 1024 (newPoly_pow2 10 (by norm_num)) (by norm_num)) _ _ _ _ _ rfl
    (by simp [newTRLWELv1]) (by simp; rfl) (by simp; rfl) (by intro i; rw [abs_lt]; norm_num)

/-- **C24**: the phase of an encryption is the message plus noise plus the error of the computed
product `A*s`; with a binary key and a multiplier accurate to `D` on binary factors, the coefficient
is within `D` of message plus noise. -/
theorem C24_phase (P : Params) {O : FourierOps} (L : FourierLaws O) (t : Trlwe) (p : List ℚ)
    (key : List Torus) (draw : ℕ → Torus) (samples : ℕ → ℚ) (hd : O.deg = P.trlweLv1.N)
    (hA : t.A.length = P.trlweLv1.N) (hp : p.length = P.trlweLv1.N)
    (hk : key.length = P.trlweLv1.N) (hbin : IsBinary key) (D : ℕ) (hD : L.MulAccurate 1 D) :
    ∃ c, trlweEncryptF64 P O t p key draw samples = some c ∧
      c.A.length = P.trlweLv1.N ∧ c.B.length = P.trlweLv1.N ∧ (∀ i < P.trlweLv1.N, at' c.A i = draw i) ∧
      ∀ k (h : k < p.length), nrm (trPhase P.trlweLv1.N c.A c.B key k
        - (f64ToTorus p[k] + f64ToTorus (samples k))) ≤ D := by
  refine ⟨_, trlweEncryptF64_eq P L t p key draw samples hd hA hp hk, by simp, by simp,
    fun i hi => at'_tab _ _ _ hi, ?_⟩
  intro k h
  unfold trPhase
  rw [at'_tab _ _ _ (by omega), at'_gaussianF64Vec _ _ _ h]
  have := hD (tab P.trlweLv1.N draw) key (by simp [hd]) (by omega) (by
    intro i
    by_cases hi : i < key.length
    · rw [at'_of_lt _ _ hi]
      rcases hbin _ (List.getElem_mem hi) with h | h <;> rw [h]
      · exact Nat.zero_le _
      · exact le_refl _
    · rw [show at' key i = 0 by simp [at', List.getD_eq_getElem?_getD, List.getElem?_eq_none (not_lt.1 hi)]]
      exact Nat.zero_le _) k (by omega)
  rw [hd] at this
  refine le_trans (le_of_eq ?_) this
  congr 1
  ring

/-! ### C25 -/

/-- **C25.** Extraction at index `k` keeps coefficient `k` of the phase, plus exactly
`Σ_{i>k} s_i`; `SampleExtractIndexAssign` writes the same slice whatever its output held. -/
theorem C25_extract (level : SecurityLevel) (t : Trlwe) (k : ℕ) (dirty : List Torus)
    (hA : t.A.length = (paramsFor level).trlweLv1.N) (hB : t.B.length = (paramsFor level).trlweLv1.N)
    (hk : k < (paramsFor level).trlweLv1.N)
    (hd : dirty.length = (paramsFor level).tlweLv1.N + 1) :
    ∃ c, sampleExtractIndex (paramsFor level) t k = some c ∧
      sampleExtractIndexAssign (paramsFor level) t k dirty = some c ∧
      c.length = (paramsFor level).tlweLv1.N + 1 ∧
      ∀ s, phase (paramsFor level).tlweLv1.N c s
        = trPhase (paramsFor level).trlweLv1.N t.A t.B s k
          + ∑ i ∈ Finset.Ico (k + 1) (paramsFor level).trlweLv1.N, at' s i := by
  have W := C63_wellFormed level
  generalize paramsFor level = P at *
  have hP : P.tlweLv1.N = P.trlweLv1.N := by rw [W.lv1_eq, W.trlwe_eq]
  refine ⟨_, sampleExtractIndex_eq P hP t k hk hA (by omega),
    sampleExtractIndexAssign_eq P hP t k dirty hk hA (by omega) (by omega), by simp [extracted, hP], ?_⟩
  intro s
  rw [hP]
  exact phase_extracted _ t k s hk

/-- **C25**: extraction at the last index is exact. -/
theorem C25_last_exact (level : SecurityLevel) (t : Trlwe) (s : List Torus)
    (hA : t.A.length = (paramsFor level).trlweLv1.N) (hB : t.B.length = (paramsFor level).trlweLv1.N) :
    ∃ c, sampleExtractIndex (paramsFor level) t ((paramsFor level).trlweLv1.N - 1) = some c ∧
      phase (paramsFor level).tlweLv1.N c s
        = trPhase (paramsFor level).trlweLv1.N t.A t.B s ((paramsFor level).trlweLv1.N - 1) := by
  have hpos : 0 < (paramsFor level).trlweLv1.N := by
    have W := C63_wellFormed level
    generalize paramsFor level = P at *
    have := W.trlwe_eq
    rw [W.pow2] at this
    rw [this]; positivity
  obtain ⟨c, h1, -, -, h4⟩ := C25_extract level t ((paramsFor level).trlweLv1.N - 1)
    (tab ((paramsFor level).tlweLv1.N + 1) fun _ => 0) hA hB (by omega) (by simp)
  refine ⟨c, h1, ?_⟩
  rw [h4, Finset.Ico_eq_empty (by omega), Finset.sum_empty, add_zero]

/-- **C25**: an index outside the polynomial panics. -/
theorem C25_out_of_range (P : Params) (t : Trlwe) (k : ℕ) (hN : 0 < P.trlweLv1.N)
    (hA : t.A.length ≤ k) : sampleExtractIndex P t k = none := by
  unfold sampleExtractIndex extractLoop
  rw [forRange_succ_left _ _ hN, if_pos (Nat.zero_le k), Nat.sub_zero, rd_none _ _ hA]
  rfl

/-! ### C26 -/

/-- **C26.** At every security level `SampleExtractIndex2` panics on every TRLWE of the current
dimension and every index. -/
theorem C26_panics (level : SecurityLevel) (t : Trlwe) (k : ℕ)
    (hA : t.A.length = (paramsFor level).trlweLv1.N) :
    sampleExtractIndex2 (paramsFor level) t k = none := by
  unfold sampleExtractIndex2
  rw [if_pos]
  rw [hA]
  rcases paramsFor_cases level with h | h | h | h | h | h | h | h | h | h | h <;> rw [h.2] <;> decide

/-- **C26**: were the dimensions equal, it would extract the same sample as `SampleExtractIndex`. -/
theorem C26_if_equal (P : Params) (t : Trlwe) (k : ℕ) (h0 : P.tlweLv0.N = P.trlweLv1.N)
    (h1 : P.tlweLv1.N = P.trlweLv1.N) (hA : t.A.length = P.trlweLv1.N) :
    sampleExtractIndex2 P t k = sampleExtractIndex P t k := by
  unfold sampleExtractIndex2 sampleExtractIndex tlwe0SetB tlwe1SetB newTLWELv0 newTLWELv1
  rw [if_neg (by omega), h0, h1]

end GoTfhe
