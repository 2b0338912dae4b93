import Verif.Props.ReencProb
import Verif.Props.NoiseProb
import Verif.Lemmas.JointTail

/-!
# C82: asymmetric re-encryption over its noise and its coins
-/

namespace GoTfhe

open MeasureTheory ProbabilityTheory Finset

/-! ### What is run -/

/-- The Gaussian draws of one delegation: those of the public key, those of the entries of the re-encryption key, and the
one of the ciphertext. -/
inductive ReencIx
  | pk (e : ℕ)
  | entry (i j k : ℕ)
  | ct
  deriving DecidableEq

/-- The delegatee makes a public key, the delegator encrypts with the masks `cdraw` and makes a re-encryption key with the
level's defaults, the proxy re-encrypts (`/repo/examples/proxy_reencryption/main.go:29-80`). -/
def delegate (P : Params) (keyFrom keyTo : List Torus) (p : ℚ) (pdraw : ℕ → ℕ → Torus) (cdraw : ℕ → Torus)
    (undef : ℕ → ℕ → ℕ → ℚ) (q : ReencIx → ℚ) (a : ReencTape P) : Option (List Torus) := do
  let pk ← newPublicKeyLv0 P keyTo pdraw fun e => q (.pk e)
  let ct ← tlwe0EncryptF64 P (newTLWELv0 P) p keyFrom cdraw (q .ct)
  asymReencrypt P keyFrom pk a.reencCoins (fun i j k => q (.entry i j k)) undef ct

/-- `delegate` with a Boolean, and decryption by the delegatee. -/
def delegateBool (P : Params) (keyFrom keyTo : List Torus) (m : Bool) (pdraw : ℕ → ℕ → Torus) (cdraw : ℕ → Torus)
    (undef : ℕ → ℕ → ℕ → ℚ) (q : ReencIx → ℚ) (a : ReencTape P) : Option Bool := do
  let pk ← newPublicKeyLv0 P keyTo pdraw fun e => q (.pk e)
  let ct ← tlwe0EncryptBool P (newTLWELv0 P) m keyFrom cdraw (q .ct)
  let out ← asymReencrypt P keyFrom pk a.reencCoins (fun i j k => q (.entry i j k)) undef ct
  tlwe0DecryptBool P out keyTo

/-- The number of non-zero digits of a mask. -/
def maskDigits (n b T : ℕ) (cdraw : ℕ → Torus) : ℕ := usedDigits n b T (tab n cdraw)

/-- The rounding error of re-encryption, in units of `2^-32`. -/
def maskRound (n b T : ℕ) (cdraw : ℕ → Torus) (keyFrom : List Torus) : ℤ :=
  ∑ i ∈ range n, (ksRound b T (cdraw i)).toInt * (at' keyFrom i).toNat

/-! ### The phase -/

/-- A draw as a whole number of units of `2^-32`. -/
def drawInt (x : ℚ) : ℤ := truncQ (x * 2 ^ 32)

/-- The entries of the re-encryption key that are used, and the ciphertext. -/
def usedIx (n b T : ℕ) (cdraw : ℕ → Torus) : Finset ReencIx :=
  insert .ct (((range n ×ˢ range T).filter fun x => ksDigit b T (tab n cdraw) x.1 x.2 ≠ 0).image
    fun x => .entry x.1 x.2 (ksDigit b T (tab n cdraw) x.1 x.2))

/-- The sign with which a draw enters the phase. -/
def ixSign : ReencIx → ℤ
  | .ct => 1
  | _ => -1

/-- The error of the re-encrypted phase, apart from rounding. -/
def delegErr (P : Params) (cdraw : ℕ → Torus) (q : ReencIx → ℚ) (a : ReencTape P) : ℤ :=
  -coinSum (reencCoeff P.tlweLv0.N P.trgswLv1.BASEBIT P.trgswLv1.IKS_T (P.tlweLv0.N * 2) (tab P.tlweLv0.N cdraw)
      fun e => f64ToTorus (q (.pk e))) a
    + ∑ x ∈ usedIx P.tlweLv0.N P.trgswLv1.BASEBIT P.trgswLv1.IKS_T cdraw, ixSign x * drawInt (q x)

theorem ksDigit_congr (b T : ℕ) (s s' : List Torus) (i j : ℕ) (h : at' s i = at' s' i) :
    ksDigit b T s i j = ksDigit b T s' i j := by
  unfold ksDigit
  rw [h]

theorem entry_image_inj (n b T : ℕ) (cdraw : ℕ → Torus) :
    Set.InjOn (fun x : ℕ × ℕ => ReencIx.entry x.1 x.2 (ksDigit b T (tab n cdraw) x.1 x.2))
      ((range n ×ˢ range T).filter fun x => ksDigit b T (tab n cdraw) x.1 x.2 ≠ 0) := by
  rintro ⟨i, j⟩ - ⟨i', j'⟩ - h
  simp only [ReencIx.entry.injEq] at h
  exact Prod.ext h.1 h.2.1

theorem ct_notMem (n b T : ℕ) (cdraw : ℕ → Torus) :
    ReencIx.ct ∉ ((range n ×ˢ range T).filter fun x => ksDigit b T (tab n cdraw) x.1 x.2 ≠ 0).image
      fun x => ReencIx.entry x.1 x.2 (ksDigit b T (tab n cdraw) x.1 x.2) := by
  simp

theorem card_usedIx (n b T : ℕ) (cdraw : ℕ → Torus) : (usedIx n b T cdraw).card = maskDigits n b T cdraw + 1 := by
  unfold usedIx
  rw [card_insert_of_notMem (ct_notMem n b T cdraw), card_image_of_injOn (entry_image_inj n b T cdraw), card_filter,
    sum_product]
  rfl

theorem sum_usedIx {M : Type} [AddCommMonoid M] (n b T : ℕ) (cdraw : ℕ → Torus) (f : ReencIx → M) :
    ∑ x ∈ usedIx n b T cdraw, f x = f .ct + ∑ i ∈ range n, ∑ j ∈ range T,
      if ksDigit b T (tab n cdraw) i j ≠ 0 then f (.entry i j (ksDigit b T (tab n cdraw) i j)) else 0 := by
  unfold usedIx
  rw [sum_insert (ct_notMem n b T cdraw), sum_image (entry_image_inj n b T cdraw), sum_filter, sum_product]

theorem reencCoeff_congr (n b T S : ℕ) (ct ct' : List Torus) (x : ℕ → Torus) (h : ∀ i < n, at' ct i = at' ct' i) :
    reencCoeff n b T S ct x = reencCoeff n b T S ct' x := by
  funext q
  unfold reencCoeff
  rw [ksDigit_congr b T ct ct' _ _ (h _ q.1.2)]

/-- The phase after delegation. -/
theorem delegate_phase (P : Params) (W : WellFormed P) (keyFrom keyTo : List Torus)
    (h1 : keyFrom.length = P.tlweLv0.N) (h0 : keyTo.length = P.tlweLv0.N) (hbin : IsBinary keyFrom)
    (p : ℚ) (pdraw : ℕ → ℕ → Torus) (cdraw : ℕ → Torus) (undef : ℕ → ℕ → ℕ → ℚ) (q : ReencIx → ℚ) (a : ReencTape P) :
    ∃ out, delegate P keyFrom keyTo p pdraw cdraw undef q a = some out ∧ out.length = P.tlweLv0.N + 1 ∧
      phase P.tlweLv0.N out keyTo = f64ToTorus p
        - ((maskRound P.tlweLv0.N P.trgswLv1.BASEBIT P.trgswLv1.IKS_T cdraw keyFrom : ℤ) : Torus)
        + ((delegErr P cdraw q a : ℤ) : Torus) := by
  obtain ⟨ct, ect, hl, hmask, hph⟩ := tlwe0EncryptF64_eq P (newTLWELv0 P) keyFrom p cdraw (q .ct) h1.ge
    (by simp [newTLWELv0])
  have hct : ct.length = P.tlweLv0.N + 1 := by rw [hl]; simp [newTLWELv0]
  obtain ⟨pk, epk, hpl, hr, hp⟩ := newPublicKey_spec P keyTo (P.tlweLv0.N * 2) pdraw (fun e => q (.pk e)) h0.ge
  have hb := W.basebit_pos
  have hf := W.ks_fits
  have hbb : P.trgswLv1.BASEBIT ≤ 31 := by have := W.iks_pos; nlinarith
  obtain ⟨rk, e, -, hrt, -, hk⟩ := C60_asymmetric P keyFrom keyTo pk P.trgswLv1.BASEBIT P.trgswLv1.IKS_T a.reencCoins
    (fun i j k => q (.entry i j k)) undef h1.ge hr
  have hrk := hk hf hbin
  set n := P.tlweLv0.N with hn
  set b := P.trgswLv1.BASEBIT with hbdef
  set T := P.trgswLv1.IKS_T with hTdef
  refine ⟨ksOut n n b T ct rk.keyEncryptions, ?_, by simp [ksOut], ?_⟩
  · unfold delegate newPublicKeyLv0
    rw [epk, Option.bind_eq_bind, Option.bind_some, ect, Option.bind_eq_bind, Option.bind_some]
    unfold asymReencrypt newReencKeyAsymDefault
    rw [e, Option.bind_eq_bind, Option.bind_some]
    have hE := reencrypt_eq P ct rk b hrk.base (by rw [hrt]; exact hf) (by omega) hct.ge hrk.len.ge
      fun e he => (hrk.rows e he).ge
    rw [hrt] at hE
    exact hE
  · have henc := hrk.enc
    rw [hrt] at henc
    have hat : ∀ i < n, at' ct i = at' (tab n cdraw) i := by
      intro i hi
      rw [hmask i hi, at'_tab _ _ _ hi]
    have hdig : ∀ i < n, ∀ j, ksDigit b T ct i j = ksDigit b T (tab n cdraw) i j := fun i hi j =>
      ksDigit_congr b T ct _ i j (hat i hi)
    have hround : ∑ i ∈ range n, ksRound b T (at' ct i) * at' keyFrom i
        = ((maskRound n b T cdraw keyFrom : ℤ) : Torus) := by
      unfold maskRound
      rw [Int.cast_sum]
      refine sum_congr rfl fun i hi => ?_
      rw [hmask i (mem_range.1 hi), Int.cast_mul, cast_toInt32, Int.cast_natCast, BitVec.natCast_eq_ofNat,
        BitVec.ofNat_toNat, BitVec.setWidth_eq]
    rw [phase_ksOut n n b T ct _ keyTo keyFrom _ hf henc, hph, hround]
    have hbig : ∑ i ∈ range n, ∑ j ∈ range T, (if ksDigit b T ct i j ≠ 0 then
          f64ToTorus (q (.entry i j (ksDigit b T ct i j))) + ∑ e ∈ range pk.length,
            signedNoise ((a.reencCoins i j (ksDigit b T ct i j)).sel e) ((a.reencCoins i j (ksDigit b T ct i j)).add e)
              (phase n (entry pk e) keyTo) else 0)
        = (∑ i ∈ range n, ∑ j ∈ range T, if ksDigit b T (tab n cdraw) i j ≠ 0 then
            f64ToTorus (q (.entry i j (ksDigit b T (tab n cdraw) i j))) else 0)
          + ((coinSum (reencCoeff n b T (n * 2) (tab n cdraw) fun e => f64ToTorus (q (.pk e))) a : ℤ) : Torus) := by
      rw [coinSum_reenc, ← sum_add_distrib]
      refine sum_congr rfl fun i hi => ?_
      rw [← sum_add_distrib]
      refine sum_congr rfl fun j _ => ?_
      rw [hdig i (mem_range.1 hi) j, hpl]
      split_ifs
      · congr 1
        refine sum_congr rfl fun e he => ?_
        rw [(hp e (mem_range.1 he)).1, f64ToTorus_zero', zero_add]
      · rw [add_zero]
    rw [hbig]
    unfold delegErr
    rw [Int.cast_add, Int.cast_neg, Int.cast_sum, sum_usedIx]
    have hs : ∑ i ∈ range n, ∑ j ∈ range T, (if ksDigit b T (tab n cdraw) i j ≠ 0 then
          ((ixSign (.entry i j (ksDigit b T (tab n cdraw) i j))
            * drawInt (q (.entry i j (ksDigit b T (tab n cdraw) i j))) : ℤ) : Torus) else 0)
        = -∑ i ∈ range n, ∑ j ∈ range T, if ksDigit b T (tab n cdraw) i j ≠ 0 then
            f64ToTorus (q (.entry i j (ksDigit b T (tab n cdraw) i j))) else 0 := by
      rw [← sum_neg_distrib]
      refine sum_congr rfl fun i _ => ?_
      rw [← sum_neg_distrib]
      refine sum_congr rfl fun j _ => ?_
      split_ifs
      · rw [f64ToTorus_eq_trunc, ← Int.cast_neg]
        congr 1
        simp only [ixSign, drawInt]
        ring
      · rw [neg_zero]
    have hc : ((ixSign .ct * drawInt (q .ct) : ℤ) : Torus) = f64ToTorus (q .ct) := by
      rw [f64ToTorus_eq_trunc]
      simp only [ixSign, drawInt, one_mul]
    rw [hs, hc]
    ring

/-! ### The tail -/

section

variable {Ω : Type*} [MeasurableSpace Ω] {μ : Measure Ω} [IsProbabilityMeasure μ]

theorem abs_toInt_le_drawInt (x : ℚ) : (nrm (f64ToTorus x) : ℝ) ^ 2 ≤ ((drawInt x : ℤ) : ℝ) ^ 2 := by
  have h : nrm (f64ToTorus x) ≤ (drawInt x).natAbs := by
    rw [f64ToTorus_eq_trunc, cast_int_eq]
    exact nrm_ofInt _
  rw [← sq_abs ((drawInt x : ℤ) : ℝ), ← Int.cast_abs, Int.abs_eq_natAbs]
  exact pow_le_pow_left₀ (Nat.cast_nonneg _) (by exact_mod_cast h) 2

theorem coinSum_smul {κ : Type} [Fintype κ] (ε : ℤ) (u : κ → ℤ) (a : CoinTape κ) :
    coinSum (fun i => ε * u i) a = ε * coinSum u a := by
  unfold coinSum
  rw [mul_sum]
  exact sum_congr rfl fun i _ => mul_assoc _ _ _

/-- The average over the tapes of the probability that the error, with either sign, reaches `T`. -/
theorem delegErr_tail (P : Params) {q : ReencIx → Ω → ℚ} {σ : ℝ} (hq : NoiseDraws μ q fun _ => σ) (cdraw : ℕ → Torus)
    (K : ℕ) (hK : maskDigits P.tlweLv0.N P.trgswLv1.BASEBIT P.trgswLv1.IKS_T cdraw ≤ K) (t v T : ℝ) (ht : 0 ≤ t)
    (hv : t ^ 2 * (2 ^ 32 * σ) ^ 2 * (K + 1) / 2 ≤ v) (hv1 : v < 1) (ε : ℤ) (hε : ε ^ 2 = 1) :
    ∑ a : ReencTape P, μ {ω | T ≤ ((ε * delegErr P cdraw (fun x => q x ω) a : ℤ) : ℝ)}
      ≤ 4 ^ Fintype.card (ReencThrow P.tlweLv0.N P.trgswLv1.IKS_T (2 ^ P.trgswLv1.BASEBIT) (P.tlweLv0.N * 2))
        * ENNReal.ofReal (Real.exp (-(t * T) + v + P.tlweLv0.N * (v / (1 - v)))) := by
  set n := P.tlweLv0.N with hn
  set b := P.trgswLv1.BASEBIT with hb
  set L := P.trgswLv1.IKS_T with hL
  set A : Finset ReencIx := (range (n * 2)).image .pk with hA
  have hpkinj : Set.InjOn ReencIx.pk (range (n * 2) : Set ℕ) := fun x _ y _ h => ReencIx.pk.inj h
  have hAc : A.card = n * 2 := by rw [hA, card_image_of_injOn hpkinj, card_range]
  set u : Ω → ReencThrow n L (2 ^ b) (n * 2) → ℤ := fun ω k =>
    -ε * reencCoeff n b L (n * 2) (tab n cdraw) (fun e => f64ToTorus (q (.pk e) ω)) k with hu
  have hv0 : 0 ≤ v := le_trans (by positivity) hv
  have hε' : (ε : ℝ) ^ 2 = 1 := by exact_mod_cast hε
  have key := joint_tail (μ := μ) hq.measurable hq.indep (fun x => ((drawInt x : ℤ) : ℝ)) (2 ^ 32 * σ)
    (fun i t => hq.trunc i t) A (usedIx n b L cdraw) (by
      rw [hA, disjoint_left]
      intro x hx
      obtain ⟨e, -, rfl⟩ := mem_image.1 hx
      simp [usedIx])
    (fun x => ((ε * ixSign x : ℤ) : ℝ)) (fun x => by
      have : (ε * ixSign x) ^ 2 = 1 := by
        rw [mul_pow, hε]
        cases x <;> rfl
      exact_mod_cast this.le) u (fun k => by
        rw [hu]
        refine Measurable.comp (g := fun x : ℚ => -ε * (if k.2.2.1.val = ksDigit b L (tab n cdraw) k.1 k.2.1 ∧ k.2.2.1.val ≠ 0
          then (f64ToTorus x).toInt else 0)) .of_discrete (hq.measurable (.pk k.2.2.2)))
    K (Nat.cast_nonneg K) (fun ω => by
      have e1 : ∑ k, (u ω k : ℝ) ^ 2 = ((maskDigits n b L cdraw * noiseEnergy (n * 2) (fun e => q (.pk e) ω) : ℕ) : ℝ) := by
        unfold maskDigits
        rw [← sum_sq_reencCoeff]
        refine sum_congr rfl fun k _ => ?_
        rw [hu]
        push_cast
        rw [mul_pow, neg_sq, hε', one_mul]
      have e2 : ((noiseEnergy (n * 2) (fun e => q (.pk e) ω) : ℕ) : ℝ) ≤ ∑ x ∈ A, ((drawInt (q x ω) : ℤ) : ℝ) ^ 2 := by
        rw [hA, sum_image hpkinj]
        unfold noiseEnergy
        push_cast
        exact sum_le_sum fun e _ => abs_toInt_le_drawInt _
      rw [e1, Nat.cast_mul]
      exact mul_le_mul (by exact_mod_cast hK) e2 (Nat.cast_nonneg _) (Nat.cast_nonneg _))
    t v T ht (le_trans (by
      have : 0 ≤ t ^ 2 * (2 ^ 32 * σ) ^ 2 := by positivity
      linarith) hv) hv1
  refine le_trans (le_of_eq ?_) (key.trans (mul_le_mul_right (ENNReal.ofReal_le_ofReal ?_) _))
  · refine sum_congr rfl fun a _ => ?_
    congr 1
    ext ω
    show T ≤ _ ↔ T ≤ _
    rw [hu, coinSum_smul]
    have e : ∀ (A : ℤ) (s : Finset ReencIx) (f g : ReencIx → ℤ), ((ε * (-A + ∑ x ∈ s, f x * g x) : ℤ) : ℝ)
        = ((-ε * A : ℤ) : ℝ) + ∑ x ∈ s, ((ε * f x : ℤ) : ℝ) * ((g x : ℤ) : ℝ) := by
      intro A s f g
      push_cast
      rw [mul_add, mul_sum]
      simp only [mul_neg, neg_mul, mul_assoc]
    exact iff_of_eq (congrArg _ (e _ _ _ _))
  · rw [hAc, card_usedIx, mul_comm n 2, pow_mul, Real.sq_sqrt (by rw [one_div]; exact inv_nonneg.2 (by linarith)), add_assoc,
      Real.exp_add, Real.exp_add, mul_assoc]
    refine mul_le_mul_of_nonneg_left ?_ (Real.exp_pos _).le
    rw [Real.exp_add]
    refine mul_le_mul ?_ ?_ (by have : 0 ≤ 1 / (1 - v) := by { rw [one_div]; exact inv_nonneg.2 (by linarith) }
                                positivity) (Real.exp_pos _).le
    · refine Real.exp_le_exp.2 (le_trans ?_ hv)
      have h2 : ((maskDigits n b L cdraw + 1 : ℕ) : ℝ) ≤ K + 1 := by exact_mod_cast Nat.succ_le_succ hK
      have := mul_le_mul_of_nonneg_left h2 (show 0 ≤ t ^ 2 * (2 ^ 32 * σ) ^ 2 by positivity)
      linarith
    · rw [Real.exp_nat_mul]
      refine pow_le_pow_left₀ (by rw [one_div]; exact inv_nonneg.2 (by linarith)) ?_ n
      have h3 := Real.add_one_le_exp (v / (1 - v))
      have h4 : v / (1 - v) + 1 = 1 / (1 - v) := by
        have : 1 - v ≠ 0 := by linarith
        field_simp
        ring
      linarith

theorem delegateBool_eq (P : Params) (keyFrom keyTo : List Torus) (m : Bool) (pdraw : ℕ → ℕ → Torus) (cdraw : ℕ → Torus)
    (undef : ℕ → ℕ → ℕ → ℚ) (q : ReencIx → ℚ) (a : ReencTape P) :
    delegateBool P keyFrom keyTo m pdraw cdraw undef q a
      = (delegate P keyFrom keyTo (if m then 0.125 else -0.125) pdraw cdraw undef q a).bind
        fun out => tlwe0DecryptBool P out keyTo := by
  unfold delegateBool delegate tlwe0EncryptBool
  simp only [Option.bind_eq_bind, Option.bind_assoc]

theorem lt_real_cast (y : ℤ) (c R : ℕ) (h : (y : ℝ) < c * 2 ^ 29 - R) : y < c * 2 ^ 29 - R := by
  generalize 29 = k at h ⊢
  have h' : (y : ℝ) < ((c * 2 ^ k - R : ℤ) : ℝ) := by
    push_cast
    exact h
  exact Int.cast_lt.1 h'

theorem boolPhase_word (m : Bool) :
    (if m then 536870912#32 else -536870912#32 : Torus) = BitVec.ofInt 32 (boolPhase m) := by
  cases m <;> decide

theorem boolPhase_decide (m : Bool) (ε Y r R : ℤ) (hε : ε = if m then 1 else -1) (h1 : -R ≤ r) (h2 : r ≤ R)
    (c1 : -ε * Y < 2 ^ 29 - R) (c2 : ε * Y < 3 * 2 ^ 29 - R) :
    decide (0 ≤ (boolPhase m - r + Y).bmod 4294967296) = m := by
  unfold boolPhase
  cases m
  · simp only [Bool.false_eq_true, if_false] at hε ⊢
    subst hε
    rw [bmod32_of_range _ (by omega) (by omega)]
    exact decide_eq_false (by omega)
  · simp only [if_true] at hε ⊢
    subst hε
    rw [bmod32_of_range _ (by omega) (by omega)]
    exact decide_eq_true (by omega)

/-- **C82**, Booleans, for any mask: `K` bounds the non-zero digits and `R` the rounding error. -/
theorem C82_bool (P : Params) (W : WellFormed P) (keyFrom keyTo : List Torus)
    (h1 : keyFrom.length = P.tlweLv0.N) (h0 : keyTo.length = P.tlweLv0.N) (hbin : IsBinary keyFrom)
    (m : Bool) (pdraw : ℕ → ℕ → Torus) (cdraw : ℕ → Torus) (undef : ℕ → ℕ → ℕ → ℚ)
    {q : ReencIx → Ω → ℚ} {σ : ℝ} (hq : NoiseDraws μ q fun _ => σ)
    (K R : ℕ) (hK : maskDigits P.tlweLv0.N P.trgswLv1.BASEBIT P.trgswLv1.IKS_T cdraw ≤ K)
    (hR : |maskRound P.tlweLv0.N P.trgswLv1.BASEBIT P.trgswLv1.IKS_T cdraw keyFrom| ≤ R)
    (t v : ℝ) (ht : 0 ≤ t) (hv : t ^ 2 * (2 ^ 32 * σ) ^ 2 * (K + 1) / 2 ≤ v) (hv1 : v < 1) :
    (μ.prod (uniformOn (Set.univ : Set (ReencTape P))))
      {x | delegateBool P keyFrom keyTo m pdraw cdraw undef (fun i => q i x.1) x.2 ≠ some m}
      ≤ ENNReal.ofReal (Real.exp (-(t * (2 ^ 29 - R)) + v + P.tlweLv0.N * (v / (1 - v)))
          + Real.exp (-(t * (3 * 2 ^ 29 - R)) + v + P.tlweLv0.N * (v / (1 - v)))) := by
  set ε : ℤ := if m then 1 else -1 with hε
  have hε2 : ε ^ 2 = 1 := by rw [hε]; cases m <;> rfl
  have hε3 : (-ε) ^ 2 = 1 := by rw [neg_sq]; exact hε2
  have t1 := delegErr_tail P hq cdraw K hK t v (2 ^ 29 - R) ht hv hv1 (-ε) hε3
  have t2 := delegErr_tail P hq cdraw K hK t v (3 * 2 ^ 29 - R) ht hv hv1 ε hε2
  refine prod_uniform_le (fun ω a => delegateBool P keyFrom keyTo m pdraw cdraw undef (fun i => q i ω) a ≠ some m) _ ?_
  rw [ENNReal.ofReal_add (Real.exp_pos _).le (Real.exp_pos _).le, mul_add]
  refine le_trans ?_ (add_le_add t1 t2)
  rw [← sum_add_distrib]
  refine sum_le_sum fun a _ => le_trans (measure_mono ?_) (measure_union_le _ _)
  intro ω hω
  by_contra hc
  rw [Set.mem_union, not_or, Set.mem_setOf_eq, Set.mem_setOf_eq, not_le, not_le] at hc
  apply hω
  obtain ⟨out, e, hl, hp⟩ := delegate_phase P W keyFrom keyTo h1 h0 hbin (if m then 0.125 else -0.125) pdraw cdraw undef
    (fun i => q i ω) a
  rw [delegateBool_eq, e, Option.bind_some, tlwe0DecryptBool_eq P out keyTo h0.ge (by omega), hp, f64ToTorus_bool]
  set Y := delegErr P cdraw (fun i => q i ω) a
  set r := maskRound P.tlweLv0.N P.trgswLv1.BASEBIT P.trgswLv1.IKS_T cdraw keyFrom
  obtain ⟨c1, c2⟩ := hc
  have c1' : -ε * Y < 2 ^ 29 - R := by
    have := lt_real_cast _ 1 R (by rw [Nat.cast_one, one_mul]; exact c1)
    rwa [Nat.cast_one, one_mul] at this
  have c2' : ε * Y < 3 * 2 ^ 29 - R := lt_real_cast _ 3 R (by rw [Nat.cast_ofNat]; exact c2)
  rw [abs_le] at hR
  rw [boolPhase_word, ← cast_int_eq, ← Int.cast_sub, ← Int.cast_add, cast_int_eq, toInt_ofInt32]
  congr 1
  exact boolPhase_decide m ε Y r R hε hR.1 hR.2 c1' c2'

end

end GoTfhe
