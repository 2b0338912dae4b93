import Verif.Props.KeyNoiseLevels
import Verif.Props.KeyRecovery
import Verif.Props.Tlwe
import Verif.Props.LweMessage

/-!
# C79: fresh ciphertexts under random noise; C71 under random noise
-/

namespace GoTfhe

open MeasureTheory ProbabilityTheory

section

variable {ι Ω : Type*} [MeasurableSpace Ω] {μ : Measure Ω} [IsProbabilityMeasure μ]

/-- The tail of one draw. -/
theorem draw_tail {q : ι → Ω → ℚ} {σ : ι → ℝ} (hq : NoiseDraws μ q σ) (i : ι) (hσ : 0 < σ i) {T : ℝ} (hT : 0 ≤ T) :
    μ {ω | T ≤ |((truncQ (q i ω * 2 ^ 32) : ℤ) : ℝ)|}
      ≤ ENNReal.ofReal (2 * Real.exp (-(T ^ 2 / (2 * (2 ^ 32 * σ i) ^ 2)))) := by
  classical
  have h := adaptive_tail (q := q) hq.measurable hq.indep
    (fun _ x => ((truncQ (x * 2 ^ 32) : ℤ) : ℝ)) (fun d => 2 ^ 32 * σ d) (fun d t => hq.trunc d t)
    (fun _ => 0) {i} (fun _ _ => 1) (fun _ _ _ _ _ => rfl) (V := (2 ^ 32 * σ i) ^ 2) (by positivity)
    (fun _ => by simp) hT
  simpa only [Finset.sum_singleton, one_mul] using h

/-- The noise word of one draw exceeds `T` with probability at most `2 exp (-T²/2σ²)`, in units of the torus. -/
theorem C79_draw {q : ι → Ω → ℚ} {σ : ι → ℝ} (hq : NoiseDraws μ q σ) (i : ι) (hσ : 0 < σ i) (T : ℕ) :
    μ {ω | T ≤ nrm (f64ToTorus (q i ω))}
      ≤ ENNReal.ofReal (2 * Real.exp (-((T : ℝ) ^ 2 / (2 * (2 ^ 32 * σ i) ^ 2)))) := by
  refine le_trans (measure_mono ?_) (draw_tail hq i hσ (Nat.cast_nonneg T))
  intro ω hω
  have h1 : T ≤ nrm (f64ToTorus (q i ω)) := hω
  rw [f64ToTorus_eq_trunc] at h1
  have h2 : T ≤ (truncQ (q i ω * 2 ^ 32)).natAbs := h1.trans (nrm_ofInt _)
  show (T : ℝ) ≤ |((_ : ℤ) : ℝ)|
  rw [← Int.cast_abs, Int.abs_eq_natAbs]
  exact_mod_cast h2

end

/-- The standard deviations of the two levels of ciphertexts, against `2^(30-k)` for the messages of the level. -/
theorem alpha_levels (level : SecurityLevel) :
    (0 < kskAlpha (paramsFor level) ∧ 0 < bskAlpha (paramsFor level)) ∧
    1001 * 0.6931471808 * (2 * (2 ^ 32 * kskAlpha (paramsFor level)) ^ 2) ≤ (2 ^ (30 - msgBits level)) ^ 2 ∧
    1001 * 0.6931471808 * (2 * (2 ^ 32 * bskAlpha (paramsFor level)) ^ 2) ≤ (2 ^ 29) ^ 2 := by
  rcases paramsFor_cases level with ⟨rfl, h⟩ | ⟨rfl, h⟩ | ⟨rfl, h⟩ | ⟨rfl, h⟩ | ⟨rfl, h⟩ | ⟨rfl, h⟩ | ⟨rfl, h⟩ |
    ⟨rfl, h⟩ | ⟨rfl, h⟩ | ⟨rfl, h⟩ | ⟨hl, h⟩ <;> rw [h]
  case inr.inr.inr.inr.inr.inr.inr.inr.inr.inr =>
    obtain ⟨-, hb⟩ := msgBits_gate level (other_level level hl)
    rw [hb]
    norm_num [bskAlpha, kskAlpha, params128Bit]
  all_goals
    have e80 : msgBits 80 = 1 := rfl
    have e110 : msgBits 110 = 1 := rfl
    have e1 : msgBits 1 = 1 := rfl
    have e2 : msgBits 2 = 2 := rfl
    have e3 : msgBits 3 = 3 := rfl
    have e4 : msgBits 4 = 4 := rfl
    have e5 : msgBits 5 = 5 := rfl
    have e6 : msgBits 6 = 6 := rfl
    have e7 : msgBits 7 = 7 := rfl
    have e8 : msgBits 8 = 8 := rfl
    norm_num [bskAlpha, kskAlpha, params80Bit, params110Bit, params128Bit, paramsUint1, paramsUint2, paramsUint3,
      paramsUint4, paramsUint5, paramsUint6, paramsUint7, paramsUint8, e80, e110, e1, e2, e3, e4, e5, e6, e7, e8]

theorem two_exp_le_div {T V : ℝ} {m : ℕ} (hV : 0 < V) (h : (m + 1 : ℝ) * 0.6931471808 * (2 * V) ≤ T ^ 2) :
    2 * Real.exp (-(T ^ 2 / (2 * V))) ≤ 1 / 2 ^ m := by
  refine two_exp_le ?_
  rwa [le_div_iff₀ (by linarith)]

section

variable {Ω : Type*} [MeasurableSpace Ω] {μ : Measure Ω} [IsProbabilityMeasure μ]

/-- At every level a level-0 draw reaches half a message step with probability at most `2^-1000`. -/
theorem C79_noise (level : SecurityLevel) {q : Ω → ℚ}
    (hq : NoiseDraws μ (fun _ : Unit => q) (fun _ => ((kskAlpha (paramsFor level) : ℚ) : ℝ))) :
    μ {ω | 2 ^ (30 - msgBits level) ≤ nrm (f64ToTorus (q ω))} ≤ ENNReal.ofReal (1 / 2 ^ 1000) := by
  obtain ⟨⟨hp, -⟩, h, -⟩ := alpha_levels level
  have hp' : (0 : ℝ) < ((kskAlpha (paramsFor level) : ℚ) : ℝ) := by exact_mod_cast hp
  refine (C79_draw hq () hp' (2 ^ (30 - msgBits level))).trans (ENNReal.ofReal_le_ofReal (two_exp_le_div (by positivity) ?_))
  have h' : (((1001 * 0.6931471808 * (2 * (2 ^ 32 * kskAlpha (paramsFor level)) ^ 2) : ℚ)) : ℝ)
      ≤ (((2 ^ (30 - msgBits level)) ^ 2 : ℚ) : ℝ) := by exact_mod_cast h
  push_cast at h' ⊢
  norm_num at h' ⊢
  exact h'

theorem msgBits_pos (z : ℤ) : 1 ≤ msgBits z := by
  unfold msgBits
  split_ifs <;> omega

/-- **C79**, Booleans at level 0: for all keys and masks the bit comes back, except with probability `2^-1000` over the
noise. -/
theorem C79_bool (level : SecurityLevel) {q : Ω → ℚ}
    (hq : NoiseDraws μ (fun _ : Unit => q) (fun _ => ((kskAlpha (paramsFor level) : ℚ) : ℝ)))
    (t key : List Torus) (b : Bool) (draw : ℕ → Torus) (hk : (paramsFor level).tlweLv0.N ≤ key.length)
    (ht : (paramsFor level).tlweLv0.N < t.length) :
    μ {ω | (tlwe0EncryptBool (paramsFor level) t b key draw (q ω)).bind
      (fun c => tlwe0DecryptBool (paramsFor level) c key) ≠ some b} ≤ ENNReal.ofReal (1 / 2 ^ 1000) := by
  refine le_trans (measure_mono ?_) (C79_noise level hq)
  intro ω hω
  by_contra hlt
  apply hω
  have hlt' : nrm (f64ToTorus (q ω)) < 2 ^ (30 - msgBits level) := not_le.1 hlt
  have h29 : 2 ^ (30 - msgBits level) ≤ 2 ^ 29 := Nat.pow_le_pow_right (by norm_num) (by have := msgBits_pos level; omega)
  obtain ⟨c, hc, h⟩ := C05_enc_dec_iff (paramsFor level) t key b draw (q ω) hk ht
  rw [hc]
  refine h.2 ?_
  unfold nrm at hlt'
  unfold boolMargin
  split_ifs <;> omega

/-- **C79**, Booleans at level 1. -/
theorem C79_bool1 (level : SecurityLevel) {q : Ω → ℚ}
    (hq : NoiseDraws μ (fun _ : Unit => q) (fun _ => ((bskAlpha (paramsFor level) : ℚ) : ℝ)))
    (t key : List Torus) (b : Bool) (draw : ℕ → Torus) (hk : key.length = (paramsFor level).tlweLv1.N)
    (ht : (paramsFor level).tlweLv1.N < t.length) :
    μ {ω | (tlwe1EncryptBool (paramsFor level) t b key draw (q ω)).bind
      (fun c => tlwe1DecryptBool (paramsFor level) c key) ≠ some b} ≤ ENNReal.ofReal (1 / 2 ^ 1000) := by
  obtain ⟨⟨-, hp⟩, -, h⟩ := alpha_levels level
  have hp' : (0 : ℝ) < ((bskAlpha (paramsFor level) : ℚ) : ℝ) := by exact_mod_cast hp
  have htail : μ {ω | 2 ^ 29 ≤ nrm (f64ToTorus (q ω))} ≤ ENNReal.ofReal (1 / 2 ^ 1000) := by
    refine (C79_draw hq () hp' (2 ^ 29)).trans (ENNReal.ofReal_le_ofReal (two_exp_le_div (by positivity) ?_))
    have h' : (((1001 * 0.6931471808 * (2 * (2 ^ 32 * bskAlpha (paramsFor level)) ^ 2) : ℚ)) : ℝ)
        ≤ (((2 ^ 29) ^ 2 : ℚ) : ℝ) := by exact_mod_cast h
    push_cast at h' ⊢
    norm_num at h' ⊢
    exact h'
  refine le_trans (measure_mono ?_) htail
  intro ω hω
  by_contra hlt
  apply hω
  have hlt' : nrm (f64ToTorus (q ω)) < 2 ^ 29 := not_le.1 hlt
  obtain ⟨c, hc, h⟩ := C06_enc_dec_iff (paramsFor level) t key b draw (q ω) hk ht
  rw [hc]
  refine h.2 ?_
  unfold nrm at hlt'
  unfold boolMargin
  split_ifs <;> omega

/-- **C79**, messages of the size the level is made for. -/
theorem C79_message (level : SecurityLevel) (fl : ℚ → ℚ) (hfl : IsRound fl) {q : Ω → ℚ}
    (hq : NoiseDraws μ (fun _ : Unit => q) (fun _ => ((kskAlpha (paramsFor level) : ℚ) : ℝ)))
    (t key : List Torus) (msg : ℤ) (k : ℕ) (hk : k ≤ msgBits level) (draw : ℕ → Torus)
    (hkey : (paramsFor level).tlweLv0.N ≤ key.length) (ht : (paramsFor level).tlweLv0.N < t.length) :
    μ {ω | (encryptLWEMessage fl (paramsFor level) t msg (2 ^ k : ℕ) key draw (q ω)).bind
      (fun c => decryptLWEMessage (paramsFor level) c (2 ^ k : ℕ) key) ≠ some (msg % (2 ^ k : ℕ))}
      ≤ ENNReal.ofReal (1 / 2 ^ 1000) := by
  have hb : msgBits level ≤ 8 := by
    have : ∀ z : ℤ, msgBits z ≤ 8 := by
      intro z
      unfold msgBits
      split_ifs <;> omega
    exact this level
  refine le_trans (measure_mono ?_) (C79_noise level hq)
  intro ω hω
  by_contra hlt
  apply hω
  have hlt' : nrm (f64ToTorus (q ω)) < 2 ^ (30 - msgBits level) := not_le.1 hlt
  have h1 : nrm (f64ToTorus (q ω)) < 2 ^ (30 - k) := hlt'.trans_le (Nat.pow_le_pow_right (by norm_num) (by omega))
  have h2 : |(f64ToTorus (q ω)).toInt| < 2 ^ (30 - k) := by
    rw [Int.abs_eq_natAbs]
    exact_mod_cast h1
  obtain ⟨h3, h4⟩ := abs_lt.1 h2
  exact C09_pow2_roundtrip fl hfl (paramsFor level) t key msg k (by omega) draw (q ω) hkey ht h3.le h4

/-- Non-vacuity of C79: a normal variable cut off to 60 binary places, at Uint5 with 32 messages. -/
example (msg : ℤ) : normals (fun _ : Unit => ((kskAlpha (paramsFor 5) : ℚ) : ℝ))
    {ω | (encryptLWEMessage rne (paramsFor 5) (newTLWELv0 (paramsFor 5)) msg (2 ^ 5 : ℕ)
        (tab 1071 fun i => if i % 3 = 0 then 1 else 0) (fun i => BitVec.ofNat 32 (i * 2654435761)) (cutNormal 60 () ω)).bind
      (fun c => decryptLWEMessage (paramsFor 5) c (2 ^ 5 : ℕ) (tab 1071 fun i => if i % 3 = 0 then 1 else 0))
      ≠ some (msg % (2 ^ 5 : ℕ))} ≤ ENNReal.ofReal (1 / 2 ^ 1000) :=
  C79_message 5 rne isRound_rne (noiseDraws_normal _ 60) _ _ msg 5 (le_refl 5) _ (by simp; rfl) (by simp [newTLWELv0])

/-! ### C71 -/

/-- **C71** over the noise: at Uint2 to Uint8 every noise word of the bootstrapping key is zero, except with probability
`2^-1000`. -/
theorem C71_noise_random (level : SecurityLevel) (h2 : 2 ≤ level) (h8 : level ≤ 8) {q : DrawIx → Ω → ℚ}
    (hq : NoiseDraws μ q (drawStd (paramsFor level))) :
    μ {ω | ∃ i < (paramsFor level).tlweLv0.N, ∃ j < 2 * (paramsFor level).trgswLv1.L, ∃ k < (paramsFor level).trgswLv1.N,
      f64ToTorus (q (.inl (i, j, k)) ω) ≠ 0} ≤ ENNReal.ofReal (1 / 2 ^ 1000) := by
  have hα : 0 < bskAlpha (paramsFor level) ∧
      1024 * 0.6931471808 * (2 * (2 ^ 32 * bskAlpha (paramsFor level)) ^ 2) ≤ 1 ∧
      (paramsFor level).tlweLv0.N * (2 * (paramsFor level).trgswLv1.L * (paramsFor level).trgswLv1.N) ≤ 2 ^ 23 := by
    rcases paramsFor_cases level with ⟨e, h⟩ | ⟨e, h⟩ | ⟨e, h⟩ | ⟨e, h⟩ | ⟨e, h⟩ | ⟨e, h⟩ | ⟨e, h⟩ |
      ⟨e, h⟩ | ⟨e, h⟩ | ⟨e, h⟩ | ⟨e, h⟩
    · subst e; revert h2 h8; decide
    · subst e; revert h2 h8; decide
    · subst e; revert h2 h8; decide
    · rw [h]; norm_num [bskAlpha, paramsUint2]
    · rw [h]; norm_num [bskAlpha, paramsUint3]
    · rw [h]; norm_num [bskAlpha, paramsUint4]
    · rw [h]; norm_num [bskAlpha, paramsUint5]
    · rw [h]; norm_num [bskAlpha, paramsUint6]
    · rw [h]; norm_num [bskAlpha, paramsUint7]
    · rw [h]; norm_num [bskAlpha, paramsUint8]
    · refine absurd ?_ e
      have : ∀ x : ℤ, 2 ≤ x → x ≤ 8 → x ∈ ({80, 110, 1, 2, 3, 4, 5, 6, 7, 8} : Set ℤ) := by
        intro x hx hx'
        simp only [Set.mem_insert_iff, Set.mem_singleton_iff]
        omega
      exact this level h2 h8
  obtain ⟨hp, hv, hcard⟩ := hα
  have hp' : (0 : ℝ) < ((bskAlpha (paramsFor level) : ℚ) : ℝ) := by exact_mod_cast hp
  have one : ∀ i j k, μ {ω | f64ToTorus (q (.inl (i, j, k)) ω) ≠ 0} ≤ ENNReal.ofReal (1 / 2 ^ 1023) := by
    intro i j k
    refine le_trans (measure_mono ?_) ((C79_draw hq (.inl (i, j, k)) hp' 1).trans
      (ENNReal.ofReal_le_ofReal (two_exp_le_div (m := 1023) (by simp only [drawStd]; positivity) ?_)))
    · intro ω hω
      show 1 ≤ nrm _
      by_contra h
      apply hω
      have h0 : nrm (f64ToTorus (q (.inl (i, j, k)) ω) - 0) ≤ 0 := by rw [sub_zero]; omega
      exact eq_of_nrm_sub h0
    · simp only [drawStd]
      have h' : (((1024 * 0.6931471808 * (2 * (2 ^ 32 * bskAlpha (paramsFor level)) ^ 2) : ℚ)) : ℝ) ≤ ((1 : ℚ) : ℝ) := by
        exact_mod_cast hv
      push_cast at h' ⊢
      norm_num at h' ⊢
      exact h'
  have hsub : {ω | ∃ i < (paramsFor level).tlweLv0.N, ∃ j < 2 * (paramsFor level).trgswLv1.L,
      ∃ k < (paramsFor level).trgswLv1.N, f64ToTorus (q (.inl (i, j, k)) ω) ≠ 0}
      ⊆ ⋃ x ∈ Finset.range (paramsFor level).tlweLv0.N ×ˢ Finset.range (2 * (paramsFor level).trgswLv1.L) ×ˢ
        Finset.range (paramsFor level).trgswLv1.N, {ω | f64ToTorus (q (.inl x) ω) ≠ 0} := by
    rintro ω ⟨i, hi, j, hj, k, hk, h⟩
    simp only [Set.mem_iUnion]
    exact ⟨(i, j, k), by simp only [Finset.mem_product, Finset.mem_range]; exact ⟨hi, hj, hk⟩, h⟩
  refine (measure_mono hsub).trans ((measure_biUnion_finset_le _ _).trans ?_)
  refine (Finset.sum_le_sum fun x _ => one x.1 x.2.1 x.2.2).trans ?_
  rw [Finset.sum_const, Finset.card_product, Finset.card_product, Finset.card_range, Finset.card_range, Finset.card_range,
    nsmul_eq_mul]
  have hc : ((((paramsFor level).tlweLv0.N * (2 * (paramsFor level).trgswLv1.L * (paramsFor level).trgswLv1.N) : ℕ)) : ENNReal)
      ≤ ENNReal.ofReal (2 ^ 23) := by
    rw [← ENNReal.ofReal_natCast]
    exact ENNReal.ofReal_le_ofReal (by exact_mod_cast hcard)
  refine (mul_le_mul_left hc _).trans ?_
  rw [← ENNReal.ofReal_mul (by positivity)]
  refine ENNReal.ofReal_le_ofReal (le_of_eq ?_)
  rw [show (1023 : ℕ) = 23 + 1000 from rfl, pow_add]
  field_simp

/-- **C71** over the noise: with the library's `float64` transform, fixed keys and masks (one odd coefficient sum), both
secret keys are computed from the cloud key at Uint2 to Uint8, except with probability `2^-1000` over the noise. -/
theorem C71_random (level : SecurityLevel) (h2 : 2 ≤ level) (h8 : level ≤ 8) {fl : ℚ → ℚ} (hfl : IsRound fl)
    {fu : Fusing} {ce : ℚ → ℚ × ℚ} (hce : CexpAccurate ce (1 / 2 ^ 52)) {e : PolyEval ℚ}
    (he : newPolyEval (floatArith fl fu mathPi ce) ((paramsFor level).trgswLv1.N : ℤ) = some e) (k0 k1 : List Torus)
    (R : KeyGenRand) (h0 : (paramsFor level).tlweLv0.N ≤ k0.length) (h1 : k1.length = (paramsFor level).trgswLv1.N)
    (hb0 : IsBinary k0) (hb1 : IsBinary k1) {q : DrawIx → Ω → ℚ} (hq : NoiseDraws μ q (drawStd (paramsFor level)))
    (hodd : ∃ i < (paramsFor level).tlweLv0.N, (∑ k ∈ Finset.range (paramsFor level).trgswLv1.N,
      (R.bskDraw i (paramsFor level).trgswLv1.L k).toNat) % 2 = 1)
    (schedK schedB : Ω → List ℕ) (ck : Ω → CloudKey (fftOps (floatArith fl fu mathPi ce) e))
    (hck : ∀ ω, newCloudKey (paramsFor level) _ k0 k1 (R.withDraws fun d => q d ω) (schedK ω) (schedB ω)
      = some (true, ck ω)) :
    μ {ω | recoverKeys (paramsFor level) _ (ck ω) ≠ some (k0.take (paramsFor level).tlweLv0.N, k1)}
      ≤ ENNReal.ofReal (1 / 2 ^ 1000) := by
  refine le_trans (measure_mono ?_) (C71_noise_random level h2 h8 hq)
  intro ω hω
  by_contra hno
  apply hω
  obtain ⟨⟨L, -⟩, hd, hacc⟩ := C67_errors hfl hce level he
  refine C71_keys_recovered (C63_wellFormed level) ?_ L hd (hacc L).2 k0 k1 (R.withDraws fun d => q d ω) h0 h1 hb0 hb1
    (fun i hi j hj k hk => ?_) hodd (schedK ω) (schedB ω) (ck ω) (hck ω)
  · rcases paramsFor_cases level with ⟨-, h⟩ | ⟨-, h⟩ | ⟨-, h⟩ | ⟨-, h⟩ | ⟨-, h⟩ | ⟨-, h⟩ | ⟨-, h⟩ |
      ⟨-, h⟩ | ⟨-, h⟩ | ⟨-, h⟩ | ⟨-, h⟩ <;> rw [h] <;> decide
  · by_contra hne
    exact hno ⟨i, hi, j, hj, k, hk, hne⟩

end

end GoTfhe
