import Verif.Lemmas.KeyRecovery
import Verif.Props.FloatGates
import Verif.Props.Fft
import Verif.Lemmas.EvenRows

/-!
# C71: the noise of the bootstrapping key

The rows of the bootstrapping key are meant to carry Gaussian noise of deviation `BSKAlpha`. At Uint2 to Uint8 the
deviation is below `2^-32`, so the conversion to a torus word truncates every sample to zero: the rows are exact linear
equations in the secret key, and the secret key can be computed from the cloud key.
-/

namespace GoTfhe

/-- A sample gives noise zero exactly when it is below one unit. -/
theorem f64ToTorus_eq_zero_iff (s : ℚ) (h : |s| < 1 / 2) : f64ToTorus s = 0 ↔ |s| < 1 / 2 ^ 32 := by
  have e := toInt_f64ToTorus_of_lt_half s h
  have e0 : f64ToTorus s = 0 ↔ truncQ (s * 2 ^ 32) = 0 := by
    rw [← e]
    constructor
    · intro h; rw [h]; rfl
    · intro h; exact BitVec.eq_of_toInt_eq h
  rw [e0]
  have hab : |s * 2 ^ 32| = |s| * 2 ^ 32 := by rw [abs_mul, abs_of_pos (by norm_num : (0 : ℚ) < 2 ^ 32)]
  have h1 := truncQ_sub_lt (s * 2 ^ 32)
  have h2 := truncQ_abs_le (s * 2 ^ 32)
  constructor
  · intro h0
    rw [h0, Int.cast_zero, sub_zero, hab] at h1
    rw [lt_div_iff₀ (by norm_num)]
    exact h1
  · intro h0
    rw [lt_div_iff₀ (by norm_num)] at h0
    rw [hab] at h2
    have h3 : |(truncQ (s * 2 ^ 32) : ℚ)| < 1 := lt_of_le_of_lt h2 h0
    have h4 : |truncQ (s * 2 ^ 32)| < 1 := by exact_mod_cast h3
    exact Int.abs_lt_one_iff.1 h4

/-- **C71**: at Uint2 to Uint8 every draw within 100 standard deviations gives noise exactly zero in the bootstrapping
key. -/
theorem C71_noise_zero (level : SecurityLevel) (h2 : 2 ≤ level) (h8 : level ≤ 8) (s : ℚ)
    (hs : |s| ≤ 100 * bskAlpha (paramsFor level)) : f64ToTorus s = 0 := by
  have hα : 100 * bskAlpha (paramsFor level) < 1 / 2 ^ 32 := by
    rcases paramsFor_cases level with ⟨e, h⟩ | ⟨e, h⟩ | ⟨e, h⟩ | ⟨e, h⟩ | ⟨e, h⟩ | ⟨e, h⟩ | ⟨e, h⟩ |
      ⟨e, h⟩ | ⟨e, h⟩ | ⟨e, h⟩ | ⟨e, h⟩
    · subst e; revert h2 h8; decide
    · subst e; revert h2 h8; decide
    · subst e; revert h2 h8; decide
    · rw [h]; norm_num [bskAlpha, paramsUint2]
    · rw [h]; norm_num [bskAlpha, paramsUint3]
    · rw [h]; norm_num [bskAlpha, paramsUint4]
    · rw [h]; norm_num [bskAlpha, paramsUint5]
    · rw [h]; norm_num [bskAlpha, paramsUint6]
    · rw [h]; norm_num [bskAlpha, paramsUint7]
    · rw [h]; norm_num [bskAlpha, paramsUint8]
    · refine absurd ?_ e
      change (2 : ℤ) ≤ level at h2
      change level ≤ (8 : ℤ) at h8
      have : ∀ x : ℤ, 2 ≤ x → x ≤ 8 → x ∈ ({80, 110, 1, 2, 3, 4, 5, 6, 7, 8} : Set ℤ) := by
        intro x hx hx'
        simp only [Set.mem_insert_iff, Set.mem_singleton_iff]
        omega
      exact this level h2 h8
  rw [f64ToTorus_eq_zero_iff s (by refine lt_of_le_of_lt hs (hα.trans ?_); norm_num)]
  exact lt_of_le_of_lt hs hα

/-- **C71**, the positive part. At the other parameter sets (80, 110 and 128 bits, Uint1) only draws below one eightieth
of a standard deviation vanish. What is missing: Uint2 to Uint8, where the claim is false. -/
theorem C71_noise_partial (level : SecurityLevel) (h : ¬ (2 ≤ level ∧ level ≤ 8)) (s : ℚ)
    (h1 : bskAlpha (paramsFor level) / 80 ≤ |s|) (h2 : |s| ≤ 100 * bskAlpha (paramsFor level)) :
    f64ToTorus s ≠ 0 := by
  have hα : 80 / 2 ^ 32 ≤ bskAlpha (paramsFor level) ∧ 100 * bskAlpha (paramsFor level) < 1 / 2 := by
    rcases paramsFor_cases level with ⟨e, h'⟩ | ⟨e, h'⟩ | ⟨e, h'⟩ | ⟨e, h'⟩ | ⟨e, h'⟩ | ⟨e, h'⟩ | ⟨e, h'⟩ |
      ⟨e, h'⟩ | ⟨e, h'⟩ | ⟨e, h'⟩ | ⟨e, h'⟩
    all_goals first
      | (rw [h']; norm_num [bskAlpha, params80Bit, params110Bit, params128Bit, paramsUint1]; done)
      | (subst e; revert h; decide)
  rw [Ne, f64ToTorus_eq_zero_iff s (lt_of_le_of_lt h2 hα.2), not_lt]
  refine le_trans ?_ h1
  have := hα.1
  linarith

/-- **C71**, the claim is false: not every level keeps the noise of the bootstrapping key. -/
theorem C71_false : ¬ ∀ (level : SecurityLevel) (s : ℚ), bskAlpha (paramsFor level) / 80 ≤ |s| →
    |s| ≤ 100 * bskAlpha (paramsFor level) → f64ToTorus s ≠ 0 := by
  intro h
  have hα : (0 : ℚ) < bskAlpha (paramsFor 5) := by
    show (0 : ℚ) < 2.2204460492503131e-17
    norm_num
  refine h 5 (bskAlpha (paramsFor 5)) ?_ ?_ (C71_noise_zero 5 (by norm_num) (by norm_num) _ ?_) <;>
    rw [abs_of_pos hα] <;> linarith

variable {O : FourierOps}

theorem eq_of_nrm_sub {x y : Torus} (h : nrm (x - y) ≤ 0) : x = y := by
  have : (x - y).toInt = 0 := by
    unfold nrm at h; omega
  have h0 : x - y = 0 := BitVec.eq_of_toInt_eq (by rw [this]; rfl)
  exact sub_eq_zero.1 h0

theorem fromFourier_eq (L : FourierLaws O) (hM : L.MulAccurate 1 0) (p : List Torus) (hp : p.length = O.deg) :
    fromFourier O (L.T p) = some p := by
  have h1 : (constPoly O.deg 1).length = O.deg := by simp [constPoly]
  unfold fromFourier
  rw [L.toFourier'_eq _ h1]
  simp only [Option.bind_eq_bind, Option.bind_some]
  rw [L.mulInto_eq _ _ (L.ok_T _ hp) (L.ok_T _ h1), Option.bind_some]
  have hok := L.ok_Mul _ _ (L.ok_T _ hp) (L.ok_T _ h1)
  obtain ⟨f', hf, -⟩ := L.toPoly_eq _ (mkSlice O.deg 0) hok (by simp)
  rw [hf, Option.bind_some]
  refine congrArg some ?_
  apply List.ext_getElem
  · rw [L.length_R _ hok, hp]
  intro i hi1 hi2
  rw [← at'_of_lt _ _ hi1, ← at'_of_lt _ _ hi2]
  have := hM p (constPoly O.deg 1) hp h1 (by
    intro j
    by_cases hj : j < O.deg
    · rw [constPoly, at'_tab _ _ _ hj]
      split_ifs <;> decide
    · rw [show at' (constPoly O.deg 1) j = 0 by
        unfold at'
        rw [List.getD_eq_getElem?_getD, List.getElem?_eq_none (by omega)]; rfl]
      exact Nat.zero_le _) i (by omega)
  rw [eq_of_nrm_sub this, negMul_congr O.deg _ (at' p) _ (fun i => if i = 0 then 1 else 0) (fun _ _ => rfl)
    (fun j hj => at'_tab _ _ _ hj) i (by omega), negMul_const_right _ _ _ _ (by omega), mul_one]

theorem mapM_range {β : Type} (n : ℕ) (f : ℕ → Option β) (g : ℕ → β) (h : ∀ i < n, f i = some (g i)) :
    (List.range n).mapM f = some (tab n g) := by
  induction n with
  | zero => rfl
  | succ n ih =>
    rw [List.range_succ, List.mapM_append, ih fun i hi => h i (by omega)]
    simp only [Option.bind_eq_bind, Option.bind_some, List.mapM_cons, List.mapM_nil, h n (by omega), Option.pure_def]
    rw [tab, tab, List.range_succ, List.map_append]; rfl

/-- **C71**: a bootstrapping key without noise gives away both secret keys. For every lawful backend whose products with
binary polynomials are exact, all keys, all masks and all schedules: if every noise word is zero and some mask has an
odd coefficient sum (all of them even has probability at most `2^-n`, `C71_probability`), the adversary computes the two secret keys. -/
theorem C71_keys_recovered {P : Params} (W : WellFormed P) (hb31 : P.trgswLv1.BGBIT ≤ 31) (L : FourierLaws O)
    (hd : O.deg = P.trgswLv1.N) (hM : L.MulAccurate 1 0) (k0 k1 : List Torus) (R : KeyGenRand)
    (h0 : P.tlweLv0.N ≤ k0.length) (h1 : k1.length = P.trgswLv1.N) (hb0 : IsBinary k0) (hb1 : IsBinary k1)
    (hz : ∀ i < P.tlweLv0.N, ∀ j < 2 * P.trgswLv1.L, ∀ k < P.trgswLv1.N, f64ToTorus (R.bskSample i j k) = 0)
    (hodd : ∃ i < P.tlweLv0.N, (∑ k ∈ Finset.range P.trgswLv1.N, (R.bskDraw i P.trgswLv1.L k).toNat) % 2 = 1)
    (schedK schedB : List ℕ) (ck : CloudKey O)
    (hck : newCloudKey P O k0 k1 R schedK schedB = some (true, ck)) :
    recoverKeys P O ck = some (k0.take P.tlweLv0.N, k1) := by
  set n := P.tlweLv0.N with hn
  set N := P.trgswLv1.N with hN
  set l := P.trgswLv1.L with hl
  set g : Torus := ((2 ^ (32 - P.trgswLv1.BGBIT) : ℕ) : Torus) with hg
  have hlp := W.l_pos
  have hN16 := W.min_degree
  -- the bootstrapping key
  obtain ⟨tk, ksk, ek, -, -⟩ := C36_keySwitchingKey W k0 k1 R h0 h1.ge hb1 schedK
  obtain ⟨tb, bsk, eb, hbl, hb⟩ := C36_bootstrappingKey W L hd k0 k1 R h0 h1 schedB
  have hcb : ck.bootstrappingKey = bsk ∧ allDone tb = true := by
    unfold newCloudKey at hck
    rw [genDecompositionOffset_eq P W.bg W.bgbit_pos W.gadget_fits, genTestvec_eq W, ek, eb] at hck
    simp only [Option.bind_eq_bind, Option.bind_some, Option.pure_def, Option.some.injEq, Prod.mk.injEq,
      Bool.and_eq_true] at hck
    exact ⟨by rw [← hck.2], hck.1.2⟩
  -- the public rows
  let A : ℕ → List Torus := fun i => tab N (R.bskDraw i l)
  let B : ℕ → List Torus := fun i => tab N fun k => negMul N (at' (A i)) (at' k1) k
    + if k = 0 then at' k0 i * g else 0
  have hrow : ∀ i < n, publicRow P O ck i = some (A i, B i) := by
    intro i hi
    unfold publicRow
    have he : ck.bootstrappingKey[i]? = bskEntry P O k0 k1 R i := by rw [hcb.1, hb hcb.2 i hi]
    have e := trgswEncryptTorus_eq W L hd (newTRGSWLv1 P) (by simp [newTRGSWLv1]; ring) (at' k0 i) k1 h1
      (R.bskDraw i) (R.bskSample i)
    have ht := isTrgsw_gswRow P L (at' k0 i) k1 (R.bskDraw i) (R.bskSample i)
    have ef := newTRGSWLv1FFT_eq L _ (fun r h => by rw [ht.sizedA r h, hd]) (fun r h => by rw [ht.sizedB r h, hd])
    have e2 : bskEntry P O k0 k1 R i = some ((tab (2 * P.trgswLv1.L) (gswRow P L (at' k0 i) k1 (R.bskDraw i)
        (R.bskSample i))).map fun r => ⟨L.T r.A, L.T r.B⟩) := by
      unfold bskEntry
      rw [rd_at' k0 i (by omega)]
      simp only [Option.bind_eq_bind, Option.bind_some, e]
      exact ef
    rw [he, e2]
    simp only [Option.bind_eq_bind, Option.bind_some]
    have hget : (tab (2 * l) (gswRow P L (at' k0 i) k1 (R.bskDraw i) (R.bskSample i)))[l]?
        = some (gswRow P L (at' k0 i) k1 (R.bskDraw i) (R.bskSample i) l) := rd_tab _ _ _ (by omega)
    rw [List.getElem?_map, hget, Option.map_some, Option.bind_some]
    have hgA : (gswRow P L (at' k0 i) k1 (R.bskDraw i) (R.bskSample i) l).A = A i := by
      unfold gswRow
      simp only [← hl, lt_irrefl, if_false]
      rfl
    have hgB : (gswRow P L (at' k0 i) k1 (R.bskDraw i) (R.bskSample i) l).B = B i := by
      unfold gswRow
      simp only [← hl, lt_irrefl, if_false]
      apply eq_tab_of _ _ _ (by simp [zeroRow, hN])
      intro k hk
      have hk' : k < N := by simpa [zeroRow, hN] using hk
      have hzk : ∀ k < N, at' (zeroRow P L k1 (R.bskDraw i) (R.bskSample i) l).B k
          = negMul N (at' (A i)) (at' k1) k := by
        intro k hk
        unfold zeroRow
        simp only
        rw [at'_tab _ _ _ hk, hz i hi l (by omega) k hk, zero_add]
        have := hM (A i) k1 (by simp [A, hd, hN]) (by rw [h1, hd])
          (fun j => by rcases isBinary_at' hb1 j with e | e <;> rw [e] <;> decide) k (by rw [hd]; exact hk)
        rw [hd] at this
        exact eq_of_nrm_sub this
      rw [List.getElem_set]
      by_cases hk0 : k = 0
      · subst hk0
        rw [if_pos rfl, if_pos rfl, hzk 0 hk', Nat.sub_self, zero_add, one_mul]
      · rw [if_neg (by omega), if_neg hk0, add_zero, ← hzk k hk']
        exact (at'_of_lt _ _ _).symm
    rw [hgA, hgB, fromFourier_eq L hM _ (by simp [A, hd, hN]), Option.bind_some,
      fromFourier_eq L hM _ (by simp [B, hd, hN]), Option.bind_some]
    rfl
  unfold recoverKeys
  rw [mapM_range n _ (fun i => (A i, B i)) hrow]
  simp only [Option.bind_eq_bind, Option.bind_some]
  have hpw : 2 ^ P.trgswLv1.NBIT = N := W.pow2.symm
  rw [hpw]
  have hsum : ∀ i, ∑ k ∈ Finset.range N, (at' (A i) k).toNat = ∑ k ∈ Finset.range N, (R.bskDraw i l k).toNat :=
    fun i => Finset.sum_congr rfl fun k hk => by rw [at'_tab _ _ _ (Finset.mem_range.1 hk)]
  obtain ⟨i1, hi1, ho1⟩ := hodd
  have hsome : ((tab n fun i => (A i, B i)).find? fun r =>
      decide ((∑ i ∈ Finset.range N, (at' r.1 i).toNat) % 2 = 1)).isSome := by
    rw [List.find?_isSome]
    exact ⟨(A i1, B i1), List.mem_map.2 ⟨i1, List.mem_range.2 hi1, rfl⟩, by
      simp only [decide_eq_true_eq]; rw [hsum]; exact ho1⟩
  obtain ⟨r, hr⟩ := Option.isSome_iff_exists.1 hsome
  rw [hr, Option.bind_some]
  obtain ⟨i, hi, hri⟩ := List.mem_map.1 (List.mem_of_find?_eq_some hr)
  rw [List.mem_range] at hi
  have hro := List.find?_some hr
  simp only [decide_eq_true_eq] at hro
  subst hri
  have hs1 : recoverRing P.trgswLv1.NBIT P.trgswLv1.BGBIT (A i) (B i) = k1 := by
    apply recoverRing_eq _ _ W.bgbit_pos hb31 _ _ _ (by rw [h1, ← hpw]) hb1 (at' k0 i) (isBinary_at' hb0 i)
      (by rw [hpw]; exact hro)
    rw [hpw]
    exact fun k hk => at'_tab _ _ _ hk
  rw [hs1]
  refine congrArg some (Prod.ext ?_ rfl)
  show (tab n fun i => (A i, B i)).map _ = k0.take n
  rw [tab, List.map_map]
  symm
  apply eq_tab_of _ _ _ (by rw [List.length_take]; omega)
  intro j hj
  have hjn : j < n := by rw [List.length_take] at hj; omega
  have hjk : j < k0.length := by omega
  rw [List.getElem_take]
  have hB0 : at' (B j) 0 - negMul N (at' (A j)) (at' k1) 0 = at' k0 j * g := by
    simp only [B]
    rw [at'_tab _ _ _ (by omega), if_pos rfl]; ring
  simp only [Function.comp, hB0]
  have hg0 : g ≠ 0 := two_pow_ne_zero_torus _ (by have := W.bgbit_pos; omega)
  rw [← at'_of_lt _ _ hjk]
  rcases isBinary_at' hb0 j with e | e <;> rw [e]
  · rw [zero_mul, if_pos rfl]
  · rw [one_mul, if_neg hg0]

/-- **C71** at the shipped parameters: at Uint2 to Uint8, if no draw of key generation exceeds 100 standard deviations,
the secret keys can be computed from the cloud key. -/
theorem C71_level (level : SecurityLevel) (h2 : 2 ≤ level) (h8 : level ≤ 8) (L : FourierLaws O)
    (hd : O.deg = (paramsFor level).trgswLv1.N) (hM : L.MulAccurate 1 0) (k0 k1 : List Torus) (R : KeyGenRand)
    (h0 : (paramsFor level).tlweLv0.N ≤ k0.length) (h1 : k1.length = (paramsFor level).trgswLv1.N)
    (hb0 : IsBinary k0) (hb1 : IsBinary k1)
    (hs : ∀ i j k, |R.bskSample i j k| ≤ 100 * bskAlpha (paramsFor level))
    (hodd : ∃ i < (paramsFor level).tlweLv0.N, (∑ k ∈ Finset.range (paramsFor level).trgswLv1.N,
      (R.bskDraw i (paramsFor level).trgswLv1.L k).toNat) % 2 = 1)
    (schedK schedB : List ℕ) (ck : CloudKey O)
    (hck : newCloudKey (paramsFor level) O k0 k1 R schedK schedB = some (true, ck)) :
    recoverKeys (paramsFor level) O ck = some (k0.take (paramsFor level).tlweLv0.N, k1) := by
  refine C71_keys_recovered (C63_wellFormed level) ?_ L hd hM k0 k1 R h0 h1 hb0 hb1
    (fun i _ j _ k _ => C71_noise_zero level h2 h8 _ (hs i j k)) hodd schedK schedB ck hck
  rcases paramsFor_cases level with ⟨-, h⟩ | ⟨-, h⟩ | ⟨-, h⟩ | ⟨-, h⟩ | ⟨-, h⟩ | ⟨-, h⟩ | ⟨-, h⟩ |
    ⟨-, h⟩ | ⟨-, h⟩ | ⟨-, h⟩ | ⟨-, h⟩ <;> rw [h] <;> decide

/-- **C71** for the library's own floating-point transform, whose products with binary keys are exact
(`C21_backend_binary`). -/
theorem C71_float (level : SecurityLevel) (h2 : 2 ≤ level) (h8 : level ≤ 8) {fl : ℚ → ℚ} (hfl : IsRound fl)
    {fu : Fusing} {ce : ℚ → ℚ × ℚ} (hce : CexpAccurate ce (1 / 2 ^ 52)) {e : PolyEval ℚ}
    (he : newPolyEval (floatArith fl fu mathPi ce) ((paramsFor level).trgswLv1.N : ℤ) = some e) (k0 k1 : List Torus)
    (R : KeyGenRand) (h0 : (paramsFor level).tlweLv0.N ≤ k0.length) (h1 : k1.length = (paramsFor level).trgswLv1.N)
    (hb0 : IsBinary k0) (hb1 : IsBinary k1)
    (hs : ∀ i j k, |R.bskSample i j k| ≤ 100 * bskAlpha (paramsFor level))
    (hodd : ∃ i < (paramsFor level).tlweLv0.N, (∑ k ∈ Finset.range (paramsFor level).trgswLv1.N,
      (R.bskDraw i (paramsFor level).trgswLv1.L k).toNat) % 2 = 1)
    (schedK schedB : List ℕ) (ck : CloudKey (fftOps (floatArith fl fu mathPi ce) e))
    (hck : newCloudKey (paramsFor level) _ k0 k1 R schedK schedB = some (true, ck)) :
    recoverKeys (paramsFor level) _ ck = some (k0.take (paramsFor level).tlweLv0.N, k1) := by
  obtain ⟨⟨L, -⟩, hd, hacc⟩ := C67_errors hfl hce level he
  have hM := (hacc L).2
  exact C71_level level h2 h8 L hd hM
    k0 k1 R h0 h1 hb0 hb1 hs hodd schedK schedB ck hck

/-- Non-vacuity of C71: at Uint2 with the nearest-even rounding of `float64`, alternating keys, varied masks and draws of
exactly one deviation, key generation completes and the two keys are recovered from the cloud key. -/
example (fu : Fusing) : ∃ (fl : ℚ → ℚ) (ce : ℚ → ℚ × ℚ) (e : PolyEval ℚ) (R : KeyGenRand) (schedK schedB : List ℕ)
    (ck : CloudKey (fftOps (floatArith fl fu mathPi ce) e)),
    IsRound fl ∧ CexpAccurate ce (1 / 2 ^ 52) ∧ newPolyEval (floatArith fl fu mathPi ce) 512 = some e ∧
    (∀ i j k, R.bskSample i j k = bskAlpha (paramsFor 2)) ∧
    newCloudKey (paramsFor 2) _ (tab 687 fun i => if i % 3 = 0 then 1 else 0)
      (tab 512 fun i => if i % 2 = 1 then 1 else 0) R schedK schedB = some (true, ck) ∧
    recoverKeys (paramsFor 2) _ ck = some (tab 687 fun i => if i % 3 = 0 then 1 else 0,
      tab 512 fun i => if i % 2 = 1 then 1 else 0) := by
  obtain ⟨ce, hce⟩ := exists_cexp (1 / 2 ^ 52) (by norm_num)
  have he : newPolyEval (floatArith rne fu mathPi ce) 512 = some (pev (floatArith rne fu mathPi ce) 8) :=
    (newPolyEval_some _ 512 _).2 ⟨8, by norm_num, by norm_num, rfl⟩
  let R : KeyGenRand := ⟨fun i j k l => BitVec.ofNat 32 (i + 7 * j + 31 * k + 97 * l), fun _ _ _ => 0,
    fun i j k => if k = 0 then BitVec.ofNat 32 (2 * i + 1) else BitVec.ofNat 32 (2 * (i + 5 * j + 1001 * k)),
    fun _ _ _ => bskAlpha (paramsFor 2)⟩
  have hb : ∀ (n m r : ℕ), IsBinary (tab n fun i => if i % m = r then (1 : Torus) else 0) := by
    intro n m r x hx
    obtain ⟨i, -, rfl⟩ := List.mem_map.1 hx
    beta_reduce
    split_ifs
    · exact Or.inr rfl
    · exact Or.inl rfl
  have hk0 : (tab 687 fun i => if i % 3 = 0 then (1 : Torus) else 0).length = 687 := length_tab _ _
  have hk1 : (tab 512 fun i => if i % 2 = 1 then (1 : Torus) else 0).length = 512 := length_tab _ _
  obtain ⟨sK, sB, ck, hck⟩ := exists_float_cloudKey 2 he (tab 687 fun i => if i % 3 = 0 then 1 else 0)
    (tab 512 fun i => if i % 2 = 1 then 1 else 0) R hk0.ge hk1 (hb _ _ _)
  refine ⟨rne, ce, _, R, sK, sB, ck, isRound_rne, hce, he, fun _ _ _ => rfl, hck, ?_⟩
  have hα : (0 : ℚ) ≤ bskAlpha (paramsFor 2) := by
    show (0 : ℚ) ≤ (paramsUint2).tlweLv1.ALPHA
    norm_num [paramsUint2]
  have := C71_float 2 (by norm_num) (by norm_num) isRound_rne hce he _ _ R hk0.ge hk1 (hb _ _ _) (hb _ _ _)
    (fun i j k => by
      show |bskAlpha (paramsFor 2)| ≤ _
      rw [abs_of_nonneg hα]; linarith)
    ⟨0, by show 0 < 687; norm_num, by
      show (∑ k ∈ Finset.range 512, (R.bskDraw 0 1 k).toNat) % 2 = 1
      rw [Finset.sum_range_succ', Nat.add_mod, Finset.sum_nat_mod, Finset.sum_congr rfl (fun k _ => by
        show (if k + 1 = 0 then BitVec.ofNat 32 (2 * 0 + 1) else BitVec.ofNat 32 (2 * (0 + 5 * 1 + 1001 * (k + 1)))).toNat % 2 = 0
        rw [if_neg (by omega), BitVec.toNat_ofNat]
        omega), Finset.sum_const_zero]
      rfl⟩ sK sB ck hck
  have hn : (paramsFor 2).tlweLv0.N = 687 := rfl
  rw [this, hn, List.take_of_length_le hk0.le]

/-- The same random draws with the masks of the rows `L` of all entries of the bootstrapping key replaced by `a`. -/
def KeyGenRand.withMasks (P : Params) (R : KeyGenRand) (a : Mask (P.tlweLv0.N * P.trgswLv1.N)) : KeyGenRand :=
  { R with bskDraw := fun i j k => if j = P.trgswLv1.L then a.draw (i * P.trgswLv1.N + k) else R.bskDraw i j k }

/-- **C71**: over uniform masks of one row per entry of the bootstrapping key, whatever the secret keys and all other
draws (noise within 100 standard deviations), the probability that a cloud key of Uint2 to Uint8 does not give away both
secret keys is at most `2^-n`. -/
theorem C71_probability (level : SecurityLevel) (h2 : 2 ≤ level) (h8 : level ≤ 8) {fl : ℚ → ℚ} (hfl : IsRound fl)
    {fu : Fusing} {ce : ℚ → ℚ × ℚ} (hce : CexpAccurate ce (1 / 2 ^ 52)) {e : PolyEval ℚ}
    (he : newPolyEval (floatArith fl fu mathPi ce) ((paramsFor level).trgswLv1.N : ℤ) = some e) (k0 k1 : List Torus)
    (R : KeyGenRand) (h0 : (paramsFor level).tlweLv0.N ≤ k0.length) (h1 : k1.length = (paramsFor level).trgswLv1.N)
    (hb0 : IsBinary k0) (hb1 : IsBinary k1)
    (hs : ∀ i j k, |R.bskSample i j k| ≤ 100 * bskAlpha (paramsFor level)) (schedK schedB : List ℕ) :
    MaskProbLe (fun a => ∃ ck : CloudKey (fftOps (floatArith fl fu mathPi ce) e),
      newCloudKey (paramsFor level) _ k0 k1 (R.withMasks (paramsFor level) a) schedK schedB = some (true, ck) ∧
      recoverKeys (paramsFor level) _ ck ≠ some (k0.take (paramsFor level).tlweLv0.N, k1))
      (1 / 2 ^ (paramsFor level).tlweLv0.N) := by
  have W := C63_wellFormed level
  have hc := card_evenRows (paramsFor level).tlweLv0.N (paramsFor level).trgswLv1.N (by have := W.min_degree; omega)
  unfold MaskProbLe at hc ⊢
  refine le_trans (Nat.cast_le.2 (Set.ncard_le_ncard ?_ (Set.toFinite _))) hc
  rintro a ⟨ck, hck, hne⟩
  by_contra hev
  apply hne
  refine C71_float level h2 h8 hfl hce he k0 k1 (R.withMasks _ a) h0 h1 hb0 hb1 hs ?_ schedK schedB ck hck
  unfold EvenRows at hev
  simp only [Set.mem_setOf_eq, not_forall] at hev
  obtain ⟨i, hi, h⟩ := hev
  refine ⟨i, hi, ?_⟩
  have e : ∑ k ∈ Finset.range (paramsFor level).trgswLv1.N,
      ((R.withMasks (paramsFor level) a).bskDraw i (paramsFor level).trgswLv1.L k).toNat
      = ∑ k ∈ Finset.range (paramsFor level).trgswLv1.N, (a.draw (i * (paramsFor level).trgswLv1.N + k)).toNat :=
    Finset.sum_congr rfl fun k _ => by
      unfold KeyGenRand.withMasks
      simp only [if_true]
  rw [e]
  omega

/-- Satisfiable: at Uint2 with alternating keys, half-even rounding and noise of one deviation, key generation completes
for every choice of masks, and at most a fraction `2^-687` of them protects the keys. -/
example (fu : Fusing) : ∃ (fl : ℚ → ℚ) (ce : ℚ → ℚ × ℚ) (e : PolyEval ℚ) (k0 k1 : List Torus) (R : KeyGenRand),
    (∀ i j k, R.bskSample i j k = bskAlpha (paramsFor 2)) ∧
    (∀ a, ∃ (sK sB : List ℕ) (ck : CloudKey (fftOps (floatArith fl fu mathPi ce) e)),
      newCloudKey (paramsFor 2) _ k0 k1 (R.withMasks (paramsFor 2) a) sK sB = some (true, ck)) ∧
    ∀ sK sB, MaskProbLe (fun a => ∃ ck : CloudKey (fftOps (floatArith fl fu mathPi ce) e),
      newCloudKey (paramsFor 2) _ k0 k1 (R.withMasks (paramsFor 2) a) sK sB = some (true, ck) ∧
      recoverKeys (paramsFor 2) _ ck ≠ some (k0.take 687, k1)) (1 / 2 ^ 687) := by
  obtain ⟨ce, hce⟩ := exists_cexp (1 / 2 ^ 52) (by norm_num)
  have he : newPolyEval (floatArith rne fu mathPi ce) 512 = some (pev (floatArith rne fu mathPi ce) 8) :=
    (newPolyEval_some _ 512 _).2 ⟨8, by norm_num, by norm_num, rfl⟩
  have hb : ∀ (n m r : ℕ), IsBinary (tab n fun i => if i % m = r then (1 : Torus) else 0) := by
    intro n m r x hx
    obtain ⟨i, -, rfl⟩ := List.mem_map.1 hx
    beta_reduce
    split_ifs
    · exact Or.inr rfl
    · exact Or.inl rfl
  have hα : (0 : ℚ) ≤ bskAlpha (paramsFor 2) := by
    show (0 : ℚ) ≤ (paramsUint2).tlweLv1.ALPHA
    norm_num [paramsUint2]
  have hk0 : (tab 687 fun i => if i % 3 = 0 then (1 : Torus) else 0).length = 687 := length_tab _ _
  have hk1 : (tab 512 fun i => if i % 2 = 1 then (1 : Torus) else 0).length = 512 := length_tab _ _
  refine ⟨rne, ce, _, tab 687 fun i => if i % 3 = 0 then 1 else 0, tab 512 fun i => if i % 2 = 1 then 1 else 0,
    ⟨fun _ _ _ _ => 5, fun _ _ _ => 0, fun _ _ _ => 7, fun _ _ _ => bskAlpha (paramsFor 2)⟩, fun _ _ _ => rfl,
    fun a => exists_float_cloudKey 2 he _ _ _ hk0.ge hk1 (hb _ _ _), fun sK sB => ?_⟩
  exact C71_probability 2 (by norm_num) (by norm_num) isRound_rne hce he _ _ _ hk0.ge hk1 (hb _ _ _) (hb _ _ _)
    (fun i j k => by
      show |bskAlpha (paramsFor 2)| ≤ _
      rw [abs_of_nonneg hα]; linarith) sK sB

end GoTfhe
