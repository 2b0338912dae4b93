import Verif.Props.ReencJoint
import Mathlib.MeasureTheory.Constructions.Pi

/-!
# C83: chains of re-encryptions over their noise and their coins
-/

namespace GoTfhe

open MeasureTheory ProbabilityTheory Finset

/-! ### What is run -/

/-- The Gaussian draws of one hop: those of the public key (asymmetric mode) and those of the re-encryption key. -/
abbrev HopIx (P : Params) :=
  Fin (P.tlweLv0.N * 2) ⊕ (Fin P.tlweLv0.N × Fin P.trgswLv1.IKS_T × Fin (2 ^ P.trgswLv1.BASEBIT))

/-- The draws and the coins of one hop. -/
abbrev HopRand (P : Params) := (HopIx P → ℚ) × ReencTape P

def pkNoise {P : Params} (q : HopIx P → ℚ) (e : ℕ) : ℚ := if h : e < P.tlweLv0.N * 2 then q (.inl ⟨e, h⟩) else 0

def entryNoise {P : Params} (q : HopIx P → ℚ) (i j k : ℕ) : ℚ :=
  if h : i < P.tlweLv0.N ∧ j < P.trgswLv1.IKS_T ∧ k < 2 ^ P.trgswLv1.BASEBIT then
    q (.inr (⟨i, h.1⟩, ⟨j, h.2.1⟩, ⟨k, h.2.2⟩)) else 0

/-- A hop: the mode, the masks of the public key (asymmetric mode) or of the re-encryption key (symmetric mode), and the
values of `reencPlain` that Go leaves to the implementation. -/
structure Hop where
  asym : Bool
  pdraw : ℕ → ℕ → Torus
  edraw : ℕ → ℕ → ℕ → ℕ → Torus
  undef : ℕ → ℕ → ℕ → ℚ

/-- Make the keys of a hop with the level's defaults and re-encrypt (`/repo/examples/proxy_reencryption/main.go:35`, `62`,
`73` for asymmetric mode; `/repo/proxyreenc/proxyreenc.go:249` makes the key in symmetric mode). -/
def Hop.run (P : Params) (H : Hop) (keyFrom keyTo : List Torus) (r : HopRand P) (ct : List Torus) :
    Option (List Torus) := do
  let rk ← if H.asym then do
      let pk ← newPublicKeyLv0 P keyTo H.pdraw (pkNoise r.1)
      newReencKeyAsymDefault P keyFrom pk r.2.reencCoins (entryNoise r.1) H.undef
    else newReencKeySymDefault P keyFrom keyTo H.edraw (entryNoise r.1) H.undef
  reencrypt P ct rk

/-- `h` hops: hop `i` goes from key `i` to key `i + 1` (two hops in `/repo/examples/proxy_reencryption/main.go:113-141`). -/
def runChain (P : Params) (H : ℕ → Hop) (keys : ℕ → List Torus) (ct : List Torus) :
    (h : ℕ) → (Fin h → HopRand P) → Option (List Torus)
  | 0, _ => some ct
  | h + 1, r => do
    let c ← runChain P H keys ct h fun i => r i.castSucc
    (H h).run P (keys h) (keys (h + 1)) (r (Fin.last h)) c

/-! ### The phase -/

/-- The entries that re-encrypting `ct` subtracts. -/
def usedEntries (P : Params) (ct : List Torus) : Finset (HopIx P) :=
  ((univ : Finset (Fin P.tlweLv0.N × Fin P.trgswLv1.IKS_T)).filter
      fun x => ksDigit P.trgswLv1.BASEBIT P.trgswLv1.IKS_T ct x.1 x.2 ≠ 0).image
    fun x => .inr (x.1, x.2, ⟨ksDigit P.trgswLv1.BASEBIT P.trgswLv1.IKS_T ct x.1 x.2, ksDigit_lt _ _ _ _ _⟩)

theorem usedEntries_inj (P : Params) (ct : List Torus) :
    Set.InjOn (fun x : Fin P.tlweLv0.N × Fin P.trgswLv1.IKS_T => (Sum.inr (x.1, x.2,
        ⟨ksDigit P.trgswLv1.BASEBIT P.trgswLv1.IKS_T ct x.1 x.2, ksDigit_lt _ _ _ _ _⟩) : HopIx P))
      ((univ : Finset (Fin P.tlweLv0.N × Fin P.trgswLv1.IKS_T)).filter
        fun x => ksDigit P.trgswLv1.BASEBIT P.trgswLv1.IKS_T ct x.1 x.2 ≠ 0) := by
  rintro ⟨i, j⟩ - ⟨i', j'⟩ - h
  have h' := Sum.inr.inj h
  exact Prod.ext (Prod.mk.inj h').1 (Prod.mk.inj (Prod.mk.inj h').2).1

theorem card_usedEntries (P : Params) (ct : List Torus) :
    (usedEntries P ct).card ≤ P.tlweLv0.N * P.trgswLv1.IKS_T := by
  unfold usedEntries
  refine card_image_le.trans ((card_filter_le _ _).trans ?_)
  simp

theorem sum_usedEntries {M : Type} [AddCommMonoid M] (P : Params) (ct : List Torus) (q : HopIx P → ℚ) (f : ℚ → M) :
    ∑ x ∈ usedEntries P ct, f (q x) = ∑ i ∈ range P.tlweLv0.N, ∑ j ∈ range P.trgswLv1.IKS_T,
      if ksDigit P.trgswLv1.BASEBIT P.trgswLv1.IKS_T ct i j ≠ 0 then
        f (entryNoise q i j (ksDigit P.trgswLv1.BASEBIT P.trgswLv1.IKS_T ct i j)) else 0 := by
  unfold usedEntries
  rw [sum_image (usedEntries_inj P ct), sum_filter, Fintype.sum_prod_type,
    ← Fin.sum_univ_eq_sum_range (fun i => ∑ j ∈ range P.trgswLv1.IKS_T,
      if ksDigit P.trgswLv1.BASEBIT P.trgswLv1.IKS_T ct i j ≠ 0 then
        f (entryNoise q i j (ksDigit P.trgswLv1.BASEBIT P.trgswLv1.IKS_T ct i j)) else 0)]
  refine sum_congr rfl fun i _ => ?_
  rw [← Fin.sum_univ_eq_sum_range (fun j => if ksDigit P.trgswLv1.BASEBIT P.trgswLv1.IKS_T ct i j ≠ 0 then
        f (entryNoise q i j (ksDigit P.trgswLv1.BASEBIT P.trgswLv1.IKS_T ct i j)) else 0)]
  refine sum_congr rfl fun j _ => ?_
  unfold entryNoise
  rw [dif_pos ⟨i.2, j.2, ksDigit_lt _ _ _ _ _⟩]

/-- The error a hop adds to the phase, apart from rounding. -/
def hopErr (P : Params) (asym : Bool) (ct : List Torus) (r : HopRand P) : ℤ :=
  (if asym then -coinSum (reencCoeff P.tlweLv0.N P.trgswLv1.BASEBIT P.trgswLv1.IKS_T (P.tlweLv0.N * 2) ct
      fun e => f64ToTorus (pkNoise r.1 e)) r.2 else 0)
    - ∑ x ∈ usedEntries P ct, drawInt (r.1 x)

/-- The largest rounding error of a hop. -/
def hopRound (P : Params) : ℕ := P.tlweLv0.N * 2 ^ (31 - P.trgswLv1.BASEBIT * P.trgswLv1.IKS_T)

theorem ksRound_sum (n b T : ℕ) (hT : b * T ≤ 31) (ct key : List Torus) (hbin : IsBinary key) :
    ∃ ρ : ℤ, |ρ| ≤ (n * 2 ^ (31 - b * T) : ℕ) ∧
      ∑ i ∈ range n, ksRound b T (at' ct i) * at' key i = ((ρ : ℤ) : Torus) := by
  refine ⟨∑ i ∈ range n, (ksRound b T (at' ct i)).toInt * (at' key i).toNat, ?_, ?_⟩
  · refine (abs_sum_le_sum_abs _ _).trans ?_
    have : ∀ i ∈ range n, |(ksRound b T (at' ct i)).toInt * ((at' key i).toNat : ℤ)| ≤ ((2 ^ (31 - b * T) : ℕ) : ℤ) := by
      intro i _
      have h := nrm_ksRound b T (at' ct i) hT
      unfold nrm at h
      have h' : |(ksRound b T (at' ct i)).toInt| ≤ ((2 ^ (31 - b * T) : ℕ) : ℤ) := by
        rw [Int.abs_eq_natAbs]
        exact_mod_cast h
      rw [abs_mul]
      rcases isBinary_at' hbin i with e | e <;> rw [e]
      · rw [show ((0 : Torus).toNat : ℤ) = 0 from rfl, abs_zero, mul_zero]
        positivity
      · rw [show ((1 : Torus).toNat : ℤ) = 1 from rfl, abs_one, mul_one]
        exact h'
    refine (sum_le_sum this).trans (le_of_eq ?_)
    rw [sum_const, card_range, nsmul_eq_mul]
    push_cast
    rfl
  · rw [Int.cast_sum]
    refine sum_congr rfl fun i _ => ?_
    rw [Int.cast_mul, cast_toInt32, Int.cast_natCast, BitVec.natCast_eq_ofNat, BitVec.ofNat_toNat, BitVec.setWidth_eq]

/-- The phase after a hop. -/
theorem hop_phase (P : Params) (W : WellFormed P) (H : Hop) (keyFrom keyTo : List Torus)
    (h1 : keyFrom.length = P.tlweLv0.N) (h0 : keyTo.length = P.tlweLv0.N) (hbin : IsBinary keyFrom)
    (r : HopRand P) (ct : List Torus) (hct : ct.length = P.tlweLv0.N + 1) :
    ∃ out, H.run P keyFrom keyTo r ct = some out ∧ out.length = P.tlweLv0.N + 1 ∧
      ∃ ρ : ℤ, |ρ| ≤ hopRound P ∧
        phase P.tlweLv0.N out keyTo = phase P.tlweLv0.N ct keyFrom - ((ρ : ℤ) : Torus)
          + ((hopErr P H.asym ct r : ℤ) : Torus) := by
  have hb := W.basebit_pos
  have hf := W.ks_fits
  have hbb : P.trgswLv1.BASEBIT ≤ 31 := by have := W.iks_pos; nlinarith
  obtain ⟨ρ, hρ, eρ⟩ := ksRound_sum P.tlweLv0.N P.trgswLv1.BASEBIT P.trgswLv1.IKS_T hf ct keyFrom hbin
  have hent : ∑ i ∈ range P.tlweLv0.N, ∑ j ∈ range P.trgswLv1.IKS_T,
      (if ksDigit P.trgswLv1.BASEBIT P.trgswLv1.IKS_T ct i j ≠ 0 then
        f64ToTorus (entryNoise r.1 i j (ksDigit P.trgswLv1.BASEBIT P.trgswLv1.IKS_T ct i j)) else 0)
      = ((∑ x ∈ usedEntries P ct, drawInt (r.1 x) : ℤ) : Torus) := by
    rw [Int.cast_sum, sum_usedEntries P ct r.1 fun x => ((drawInt x : ℤ) : Torus)]
    refine sum_congr rfl fun i _ => sum_congr rfl fun j _ => ?_
    split_ifs
    · rw [f64ToTorus_eq_trunc]
      rfl
    · rfl
  obtain ⟨a, pdraw, edraw, undef⟩ := H
  cases a
  · obtain ⟨rk, e, -, hrt, -, hk⟩ := C60_symmetric P keyFrom keyTo P.trgswLv1.BASEBIT P.trgswLv1.IKS_T edraw
      (entryNoise r.1) undef h1.ge h0.ge
    have hrk := hk hf hbin
    refine ⟨ksOut P.tlweLv0.N P.tlweLv0.N P.trgswLv1.BASEBIT P.trgswLv1.IKS_T ct rk.keyEncryptions, ?_, by simp [ksOut],
      ρ, hρ, ?_⟩
    · unfold Hop.run newReencKeySymDefault
      simp only [Bool.false_eq_true, if_false]
      rw [e, Option.bind_eq_bind, Option.bind_some]
      have hE := reencrypt_eq P ct rk P.trgswLv1.BASEBIT hrk.base (by rw [hrt]; exact hf) (by omega) hct.ge hrk.len.ge
        fun e he => (hrk.rows e he).ge
      rw [hrt] at hE
      exact hE
    · have henc := hrk.enc
      rw [hrt] at henc
      rw [phase_ksOut _ _ _ _ ct _ keyTo keyFrom _ hf henc, eρ, hent]
      unfold hopErr
      rw [if_neg (by simp), zero_sub, Int.cast_neg, ← sub_eq_add_neg]
  · obtain ⟨pk, epk, hpl, hr, hp⟩ := newPublicKey_spec P keyTo (P.tlweLv0.N * 2) pdraw (pkNoise r.1) h0.ge
    obtain ⟨rk, e, -, hrt, -, hk⟩ := C60_asymmetric P keyFrom keyTo pk P.trgswLv1.BASEBIT P.trgswLv1.IKS_T r.2.reencCoins
      (entryNoise r.1) undef h1.ge hr
    have hrk := hk hf hbin
    refine ⟨ksOut P.tlweLv0.N P.tlweLv0.N P.trgswLv1.BASEBIT P.trgswLv1.IKS_T ct rk.keyEncryptions, ?_, by simp [ksOut],
      ρ, hρ, ?_⟩
    · unfold Hop.run newReencKeyAsymDefault newPublicKeyLv0
      simp only [if_true]
      rw [epk, Option.bind_eq_bind, Option.bind_eq_bind, Option.bind_some, e, Option.bind_some]
      have hE := reencrypt_eq P ct rk P.trgswLv1.BASEBIT hrk.base (by rw [hrt]; exact hf) (by omega) hct.ge hrk.len.ge
        fun e he => (hrk.rows e he).ge
      rw [hrt] at hE
      exact hE
    · have henc := hrk.enc
      rw [hrt] at henc
      rw [phase_ksOut _ _ _ _ ct _ keyTo keyFrom _ hf henc, eρ]
      have hbig : ∑ i ∈ range P.tlweLv0.N, ∑ j ∈ range P.trgswLv1.IKS_T,
          (if ksDigit P.trgswLv1.BASEBIT P.trgswLv1.IKS_T ct i j ≠ 0 then
            f64ToTorus (entryNoise r.1 i j (ksDigit P.trgswLv1.BASEBIT P.trgswLv1.IKS_T ct i j)) + ∑ e ∈ range pk.length,
              signedNoise ((r.2.reencCoins i j (ksDigit P.trgswLv1.BASEBIT P.trgswLv1.IKS_T ct i j)).sel e)
                ((r.2.reencCoins i j (ksDigit P.trgswLv1.BASEBIT P.trgswLv1.IKS_T ct i j)).add e)
                (phase P.tlweLv0.N (entry pk e) keyTo) else 0)
          = ((∑ x ∈ usedEntries P ct, drawInt (r.1 x) : ℤ) : Torus)
            + ((coinSum (reencCoeff P.tlweLv0.N P.trgswLv1.BASEBIT P.trgswLv1.IKS_T (P.tlweLv0.N * 2) ct
              fun e => f64ToTorus (pkNoise r.1 e)) r.2 : ℤ) : Torus) := by
        rw [coinSum_reenc, ← hent, ← sum_add_distrib]
        refine sum_congr rfl fun i hi => ?_
        rw [← sum_add_distrib]
        refine sum_congr rfl fun j _ => ?_
        rw [hpl]
        split_ifs
        · congr 1
          refine sum_congr rfl fun e he => ?_
          rw [(hp e (mem_range.1 he)).1, f64ToTorus_zero', zero_add]
        · rw [add_zero]
      rw [hbig]
      unfold hopErr
      rw [if_pos rfl, Int.cast_sub, Int.cast_neg]
      ring

/-- The error of a chain, apart from rounding. -/
def chainErr (P : Params) (H : ℕ → Hop) (keys : ℕ → List Torus) (ct : List Torus) :
    (h : ℕ) → (Fin h → HopRand P) → ℤ
  | 0, _ => 0
  | h + 1, r => chainErr P H keys ct h (fun i => r i.castSucc)
    + hopErr P (H h).asym ((runChain P H keys ct h fun i => r i.castSucc).getD []) (r (Fin.last h))

/-- The phase after `h` hops. -/
theorem chain_phase (P : Params) (W : WellFormed P) (H : ℕ → Hop) (keys : ℕ → List Torus)
    (hlen : ∀ i, (keys i).length = P.tlweLv0.N) (hbin : ∀ i, IsBinary (keys i))
    (ct : List Torus) (hct : ct.length = P.tlweLv0.N + 1) :
    ∀ (h : ℕ) (r : Fin h → HopRand P), ∃ out, runChain P H keys ct h r = some out ∧ out.length = P.tlweLv0.N + 1 ∧
      ∃ ρ : ℤ, |ρ| ≤ h * hopRound P ∧
        phase P.tlweLv0.N out (keys h) = phase P.tlweLv0.N ct (keys 0) - ((ρ : ℤ) : Torus)
          + ((chainErr P H keys ct h r : ℤ) : Torus)
  | 0, _ => ⟨ct, rfl, hct, 0, by simp, by simp [chainErr]⟩
  | h + 1, r => by
    obtain ⟨c, e, hl, ρ, hρ, hp⟩ := chain_phase P W H keys hlen hbin ct hct h fun i => r i.castSucc
    obtain ⟨out, e', hl', ρ', hρ', hp'⟩ := hop_phase P W (H h) (keys h) (keys (h + 1)) (hlen h) (hlen _) (hbin h)
      (r (Fin.last h)) c hl
    refine ⟨out, ?_, hl', ρ + ρ', ?_, ?_⟩
    · unfold runChain
      rw [e, Option.bind_eq_bind, Option.bind_some, e']
    · refine (abs_add_le ρ ρ').trans ?_
      push_cast
      linarith
    · unfold chainErr
      rw [hp', hp, e, Option.getD_some, Int.cast_add, Int.cast_add]
      ring

/-! ### The tail -/

section

variable {Ω : Type*} [MeasurableSpace Ω] {μ : Measure Ω} [IsProbabilityMeasure μ]

/-- The exponent a hop adds. -/
noncomputable def hopGain (n : ℕ) (v : ℝ) (asym : Bool) : ℝ := v + if asym then n * (v / (1 - v)) else 0

theorem lintegral_uniform {α : Type} [Fintype α] [MeasurableSpace α] [MeasurableSingletonClass α] (f : α → ENNReal) :
    ∫⁻ a, f a ∂(uniformOn (Set.univ : Set α)) = (Fintype.card α : ENNReal)⁻¹ * ∑ a, f a := by
  unfold uniformOn ProbabilityTheory.cond
  rw [lintegral_smul_measure, Measure.restrict_univ, lintegral_count, tsum_fintype, Measure.count_univ]
  simp

/-- The exponential moment of the error of one hop. -/
theorem hop_mgf (P : Params) (asym : Bool) (ct : List Torus) {q : HopIx P → Ω → ℚ} {σ : ℝ}
    (hq : NoiseDraws μ q fun _ => σ) (t v : ℝ)
    (hv : t ^ 2 * (2 ^ 32 * σ) ^ 2 * (P.tlweLv0.N * P.trgswLv1.IKS_T : ℕ) / 2 ≤ v) (hv1 : asym = true → v < 1) :
    ∫⁻ y : Ω × ReencTape P, ENNReal.ofReal (Real.exp (t * hopErr P asym ct (fun i => q i y.1, y.2)))
        ∂(μ.prod (uniformOn Set.univ))
      ≤ ENNReal.ofReal (Real.exp (hopGain P.tlweLv0.N v asym)) := by
  set n := P.tlweLv0.N with hn
  set b := P.trgswLv1.BASEBIT with hb
  set L := P.trgswLv1.IKS_T with hL
  have hv0 : 0 ≤ v := le_trans (by positivity) hv
  set A : Finset (HopIx P) := (univ : Finset (Fin (n * 2))).image .inl with hA
  have hAc : A.card = n * 2 := by
    rw [hA, card_image_of_injective _ Sum.inl_injective, card_univ, Fintype.card_fin]
  set u : Ω → ReencThrow n L (2 ^ b) (n * 2) → ℤ := fun ω k => if asym then
    -reencCoeff n b L (n * 2) ct (fun e => f64ToTorus (pkNoise (fun i => q i ω) e)) k else 0 with hu
  set K : ℝ := if asym then ((n * L : ℕ) : ℝ) else 0 with hK
  have hK0 : 0 ≤ K := by rw [hK]; split_ifs <;> positivity
  set v0 : ℝ := if asym then v else 0 with hv0'
  have key := joint_mgf (μ := μ) hq.measurable hq.indep (fun x => ((drawInt x : ℤ) : ℝ)) (2 ^ 32 * σ)
    (fun i t => hq.trunc i t) A (usedEntries P ct) (by
      rw [hA, disjoint_left]
      intro x hx
      obtain ⟨e, -, rfl⟩ := mem_image.1 hx
      simp [usedEntries])
    (fun _ => -1) (fun _ => by norm_num) u K hK0 (fun ω => by
      rw [hK, hu]
      cases asym
      · simp
      · simp only [if_true]
        have e1 : ∑ k, ((-reencCoeff n b L (n * 2) ct (fun e => f64ToTorus (pkNoise (fun i => q i ω) e)) k : ℤ) : ℝ) ^ 2
            = ((usedDigits n b L ct * noiseEnergy (n * 2) (pkNoise fun i => q i ω) : ℕ) : ℝ) := by
          rw [← sum_sq_reencCoeff]
          refine sum_congr rfl fun k _ => ?_
          rw [Int.cast_neg, neg_sq]
        have e2 : ((noiseEnergy (n * 2) (pkNoise fun i => q i ω) : ℕ) : ℝ) ≤ ∑ x ∈ A, ((drawInt (q x ω) : ℤ) : ℝ) ^ 2 := by
          rw [hA, sum_image fun x _ y _ h => Sum.inl_injective h]
          unfold noiseEnergy
          rw [← Fin.sum_univ_eq_sum_range (fun e => nrm (f64ToTorus (pkNoise (fun i => q i ω) e)) ^ 2)]
          push_cast
          refine sum_le_sum fun e _ => ?_
          unfold pkNoise
          rw [dif_pos e.2]
          exact abs_toInt_le_drawInt _
        have e3 : usedDigits n b L ct ≤ n * L := by
          unfold usedDigits
          calc _ ≤ ∑ _i ∈ range n, ∑ _j ∈ range L, 1 :=
                sum_le_sum fun i _ => sum_le_sum fun j _ => by split_ifs <;> omega
            _ = n * L := by simp
        rw [e1, Nat.cast_mul]
        exact mul_le_mul (by exact_mod_cast e3) e2 (Nat.cast_nonneg _) (Nat.cast_nonneg _))
    t v0 (by
      rw [hK, hv0']
      cases asym
      · simp
      · simp only [if_true]
        refine le_trans (le_of_eq ?_) hv
        ring) (by
      rw [hv0']
      split_ifs with hs
      · exact hv1 hs
      · norm_num)
  have hcard : (Fintype.card (ReencTape P) : ENNReal) = 4 ^ Fintype.card (ReencThrow n L (2 ^ b) (n * 2)) := by
    have : Fintype.card (ReencTape P) = 4 ^ Fintype.card (ReencThrow n L (2 ^ b) (n * 2)) := by
      show Fintype.card (ReencThrow n L (2 ^ b) (n * 2) → Bool × Bool) = _
      rw [Fintype.card_fun, Fintype.card_prod, Fintype.card_bool]
    rw [this]
    push_cast
    rfl
  refine (lintegral_prod_le _).trans ?_
  simp only [lintegral_uniform]
  rw [lintegral_const_mul' _ _ (by simp), hcard]
  have e : ∀ ω (a : ReencTape P), ENNReal.ofReal (Real.exp (t * hopErr P asym ct (fun i => q i ω, a)))
      = ENNReal.ofReal (Real.exp (t * ((coinSum (u ω) a : ℝ) + ∑ i ∈ usedEntries P ct, -1 * ((drawInt (q i ω) : ℤ) : ℝ)))) := by
    intro ω a
    congr 3
    unfold hopErr
    rw [hu]
    cases asym
    · simp [coinSum]
    · simp only [if_true]
      have : coinSum (fun k => -reencCoeff n b L (n * 2) ct (fun e => f64ToTorus (pkNoise (fun i => q i ω) e)) k) a
          = -coinSum (reencCoeff n b L (n * 2) ct (fun e => f64ToTorus (pkNoise (fun i => q i ω) e))) a := by
        have := coinSum_smul (-1) (reencCoeff n b L (n * 2) ct (fun e => f64ToTorus (pkNoise (fun i => q i ω) e))) a
        simpa using this
      rw [this]
      simp [sub_eq_add_neg]
      rfl
  simp only [e]
  refine (mul_le_mul_right key _).trans ?_
  rw [← mul_assoc, ENNReal.inv_mul_cancel (by simp) (by finiteness), one_mul]
  refine ENNReal.ofReal_le_ofReal ?_
  unfold hopGain
  rw [add_comm, Real.exp_add]
  refine mul_le_mul ?_ ?_ (by positivity) (Real.exp_pos _).le
  · rw [hv0']
    cases asym
    · simp
    · simp only [if_true]
      have hv1 := hv1 rfl
      rw [hAc, mul_comm n 2, pow_mul, Real.sq_sqrt (by rw [one_div]; exact inv_nonneg.2 (by linarith)), Real.exp_nat_mul]
      refine pow_le_pow_left₀ (by rw [one_div]; exact inv_nonneg.2 (by linarith)) ?_ n
      have h3 := Real.add_one_le_exp (v / (1 - v))
      have h4 : v / (1 - v) + 1 = 1 / (1 - v) := by
        have : 1 - v ≠ 0 := by linarith
        field_simp
        ring
      linarith
  · rw [← Real.exp_nat_mul]
    refine Real.exp_le_exp.2 (le_trans ?_ hv)
    have h2 : ((usedEntries P ct).card : ℝ) ≤ (n * L : ℕ) := by exact_mod_cast card_usedEntries P ct
    have := mul_le_mul_of_nonneg_right h2 (show 0 ≤ t ^ 2 * (2 ^ 32 * σ) ^ 2 / 2 by positivity)
    linarith

/-- The randomness of `h` hops from points of the probability space. -/
def hopRand {P : Params} (q : HopIx P → Ω → ℚ) {h : ℕ} (x : Fin h → Ω × ReencTape P) : Fin h → HopRand P :=
  fun i => (fun j => q j (x i).1, (x i).2)

/-- The exponential moment of the error of a chain: the hops multiply up, although the digits that a hop uses depend on
the earlier ones. -/
theorem chain_mgf (P : Params) (H : ℕ → Hop) (keys : ℕ → List Torus) (ct : List Torus) {q : HopIx P → Ω → ℚ} {σ : ℝ}
    (hq : NoiseDraws μ q fun _ => σ) (t v : ℝ)
    (hv : t ^ 2 * (2 ^ 32 * σ) ^ 2 * (P.tlweLv0.N * P.trgswLv1.IKS_T : ℕ) / 2 ≤ v)
    (h : ℕ) (hv1 : ∀ i < h, (H i).asym = true → v < 1) :
    ∫⁻ x : Fin h → Ω × ReencTape P, ENNReal.ofReal (Real.exp (t * chainErr P H keys ct h (hopRand q x)))
        ∂(Measure.pi fun _ => μ.prod (uniformOn (Set.univ : Set (ReencTape P))))
      ≤ ENNReal.ofReal (Real.exp (∑ i ∈ range h, hopGain P.tlweLv0.N v (H i).asym)) := by
  induction h with
  | zero => simp [chainErr]
  | succ h ih =>
    set ν : Measure (Ω × ReencTape P) := μ.prod (uniformOn (Set.univ : Set (ReencTape P))) with hν
    let G : (Ω × ReencTape P) × (Fin h → Ω × ReencTape P) → ENNReal := fun z =>
      ENNReal.ofReal (Real.exp (t * chainErr P H keys ct h (hopRand q z.2)))
        * ENNReal.ofReal (Real.exp (t * hopErr P (H h).asym ((runChain P H keys ct h (hopRand q z.2)).getD [])
            (fun j => q j z.1.1, z.1.2)))
    have mp := measurePreserving_piFinSuccAbove (fun _ : Fin (h + 1) => ν) (Fin.last h)
    have e : ∀ x : Fin (h + 1) → Ω × ReencTape P,
        ENNReal.ofReal (Real.exp (t * chainErr P H keys ct (h + 1) (hopRand q x)))
          = G (MeasurableEquiv.piFinSuccAbove (fun _ => Ω × ReencTape P) (Fin.last h) x) := by
      intro x
      have e2 : (MeasurableEquiv.piFinSuccAbove (fun _ => Ω × ReencTape P) (Fin.last h) x)
          = (x (Fin.last h), fun j => x j.castSucc) := by
        refine Prod.ext rfl (funext fun j => ?_)
        show x ((Fin.last h).succAbove j) = _
        rw [Fin.succAbove_last]
      rw [e2]
      simp only [G]
      rw [← ENNReal.ofReal_mul (Real.exp_pos _).le, ← Real.exp_add, ← mul_add, ← Int.cast_add]
      rfl
    simp only [e]
    rw [mp.lintegral_comp_emb (MeasurableEquiv.measurableEmbedding _) G, ← lintegral_prod_swap]
    refine (lintegral_prod_le _).trans ?_
    have hin : ∀ y : Fin h → Ω × ReencTape P, ∫⁻ z, G (Prod.swap (y, z)) ∂ν
        ≤ ENNReal.ofReal (Real.exp (t * chainErr P H keys ct h (hopRand q y)))
          * ENNReal.ofReal (Real.exp (hopGain P.tlweLv0.N v (H h).asym)) := by
      intro y
      simp only [G, Prod.swap]
      rw [lintegral_const_mul' _ _ (by finiteness)]
      exact mul_le_mul_right (hop_mgf P _ _ hq t v hv (hv1 h (Nat.lt_succ_self h))) _
    refine (lintegral_mono hin).trans ?_
    rw [lintegral_mul_const' _ _ (by finiteness)]
    refine (mul_le_mul_left (ih fun i hi => hv1 i (hi.trans (Nat.lt_succ_self h))) _).trans (le_of_eq ?_)
    rw [← ENNReal.ofReal_mul (Real.exp_pos _).le, ← Real.exp_add, ← sum_range_succ]

theorem measurable_hopRand {P : Params} {q : HopIx P → Ω → ℚ} (hq : ∀ i, Measurable (q i)) (h : ℕ) :
    Measurable fun x : Fin h → Ω × ReencTape P => hopRand q x := by
  refine measurable_pi_lambda _ fun i => Measurable.prodMk ?_ ?_
  · exact measurable_pi_lambda _ fun j => (hq j).comp (measurable_fst.comp (measurable_pi_apply i))
  · exact measurable_snd.comp (measurable_pi_apply i)

/-- The tail of the error of a chain, with either sign. -/
theorem chain_tail (P : Params) (H : ℕ → Hop) (keys : ℕ → List Torus) (ct : List Torus) {q : HopIx P → Ω → ℚ} {σ : ℝ}
    (hq : NoiseDraws μ q fun _ => σ) (t v T : ℝ) (ht : 0 ≤ t)
    (hv : t ^ 2 * (2 ^ 32 * σ) ^ 2 * (P.tlweLv0.N * P.trgswLv1.IKS_T : ℕ) / 2 ≤ v)
    (h : ℕ) (hv1 : ∀ i < h, (H i).asym = true → v < 1) (ε : ℤ) (hε : ε ^ 2 = 1) :
    (Measure.pi fun _ : Fin h => μ.prod (uniformOn (Set.univ : Set (ReencTape P))))
        {x | T ≤ ((ε * chainErr P H keys ct h (hopRand q x) : ℤ) : ℝ)}
      ≤ ENNReal.ofReal (Real.exp (-(t * T) + ∑ i ∈ range h, hopGain P.tlweLv0.N v (H i).asym)) := by
  have hε' : (ε : ℝ) ^ 2 = 1 := by exact_mod_cast hε
  have key := chain_mgf P H keys ct hq (t * ε) v (by rw [mul_pow, hε', mul_one]; exact hv) h hv1
  set π := (Measure.pi fun _ : Fin h => μ.prod (uniformOn (Set.univ : Set (ReencTape P)))) with hπ
  have hm : Measurable fun x : Fin h → Ω × ReencTape P =>
      ENNReal.ofReal (Real.exp (t * ε * chainErr P H keys ct h (hopRand q x))) :=
    Measurable.comp (g := fun r : Fin h → HopRand P => ENNReal.ofReal (Real.exp (t * ε * chainErr P H keys ct h r)))
      .of_discrete (measurable_hopRand hq.measurable h)
  have hp : ENNReal.ofReal (Real.exp (t * T)) ≠ 0 := by
    rw [Ne, ENNReal.ofReal_eq_zero, not_le]; exact Real.exp_pos _
  have h1 : ENNReal.ofReal (Real.exp (t * T)) * π {x | T ≤ ((ε * chainErr P H keys ct h (hopRand q x) : ℤ) : ℝ)}
      ≤ ENNReal.ofReal (Real.exp (∑ i ∈ range h, hopGain P.tlweLv0.N v (H i).asym)) := by
    refine le_trans ?_ key
    refine le_trans (mul_le_mul_right (measure_mono fun x hx => ?_) _)
      (mul_meas_ge_le_lintegral hm (ENNReal.ofReal (Real.exp (t * T))))
    refine ENNReal.ofReal_le_ofReal (Real.exp_le_exp.2 ?_)
    have := mul_le_mul_of_nonneg_left hx ht
    push_cast at this
    linarith
  have h2 := mul_le_mul_right h1 (ENNReal.ofReal (Real.exp (-(t * T))))
  rw [← mul_assoc, ← ENNReal.ofReal_mul (Real.exp_pos _).le, ← Real.exp_add, neg_add_cancel, Real.exp_zero,
    ENNReal.ofReal_one, one_mul, ← ENNReal.ofReal_mul (Real.exp_pos _).le, ← Real.exp_add] at h2
  exact h2

/-! ### Booleans and messages -/

/-- **C83**, Booleans: `h` hops from a ciphertext of `m` with error at most `B`, whatever its mask, the keys and the masks
of the keys. -/
theorem C83_bool (P : Params) (W : WellFormed P) (H : ℕ → Hop) (keys : ℕ → List Torus)
    (hlen : ∀ i, (keys i).length = P.tlweLv0.N) (hbin : ∀ i, IsBinary (keys i))
    (ct : List Torus) (hct : ct.length = P.tlweLv0.N + 1) (m : Bool) (e : ℤ) (B : ℕ) (he : |e| ≤ B)
    (hph : phase P.tlweLv0.N ct (keys 0) = BitVec.ofInt 32 (boolPhase m + e))
    {q : HopIx P → Ω → ℚ} {σ : ℝ} (hq : NoiseDraws μ q fun _ => σ) (t v : ℝ) (ht : 0 ≤ t)
    (hv : t ^ 2 * (2 ^ 32 * σ) ^ 2 * (P.tlweLv0.N * P.trgswLv1.IKS_T : ℕ) / 2 ≤ v)
    (h : ℕ) (hv1 : ∀ i < h, (H i).asym = true → v < 1) :
    (Measure.pi fun _ : Fin h => μ.prod (uniformOn (Set.univ : Set (ReencTape P))))
        {x | (runChain P H keys ct h (hopRand q x)).bind (fun c => tlwe0DecryptBool P c (keys h)) ≠ some m}
      ≤ ENNReal.ofReal (Real.exp (-(t * (2 ^ 29 - (B + h * hopRound P : ℕ)))
            + ∑ i ∈ range h, hopGain P.tlweLv0.N v (H i).asym)
          + Real.exp (-(t * (3 * 2 ^ 29 - (B + h * hopRound P : ℕ)))
            + ∑ i ∈ range h, hopGain P.tlweLv0.N v (H i).asym)) := by
  set ε : ℤ := if m then 1 else -1 with hε
  have hε2 : ε ^ 2 = 1 := by rw [hε]; cases m <;> rfl
  have hε3 : (-ε) ^ 2 = 1 := by rw [neg_sq]; exact hε2
  set R := B + h * hopRound P with hR
  have t1 := chain_tail P H keys ct hq t v (2 ^ 29 - R) ht hv h hv1 (-ε) hε3
  have t2 := chain_tail P H keys ct hq t v (3 * 2 ^ 29 - R) ht hv h hv1 ε hε2
  rw [ENNReal.ofReal_add (Real.exp_pos _).le (Real.exp_pos _).le]
  refine le_trans (le_trans (measure_mono ?_) (measure_union_le _ _)) (add_le_add t1 t2)
  intro x hx
  by_contra hc
  rw [Set.mem_union, not_or, Set.mem_setOf_eq, Set.mem_setOf_eq, not_le, not_le] at hc
  apply hx
  obtain ⟨out, eo, hl, ρ, hρ, hp⟩ := chain_phase P W H keys hlen hbin ct hct h (hopRand q x)
  rw [eo, Option.bind_some, tlwe0DecryptBool_eq P out (keys h) (hlen h).ge (by omega), hp, hph]
  set Y := chainErr P H keys ct h (hopRand q x)
  obtain ⟨c1, c2⟩ := hc
  have c1' : -ε * Y < 2 ^ 29 - R := by
    have := lt_real_cast _ 1 R (by rw [Nat.cast_one, one_mul]; exact c1)
    rwa [Nat.cast_one, one_mul] at this
  have c2' : ε * Y < 3 * 2 ^ 29 - R := lt_real_cast _ 3 R (by rw [Nat.cast_ofNat]; exact c2)
  rw [abs_le] at he hρ
  have hR' : (R : ℤ) = B + h * hopRound P := by rw [hR]; push_cast; rfl
  rw [← cast_int_eq, ← Int.cast_sub, ← Int.cast_add, cast_int_eq, toInt_ofInt32, show boolPhase m + e - ρ + Y
    = boolPhase m - (ρ - e) + Y by ring]
  congr 1
  exact boolPhase_decide m ε Y (ρ - e) R hε (by linarith [he.1, he.2, hρ.1, hρ.2]) (by linarith [he.1, he.2, hρ.1, hρ.2]) c1' c2'

theorem lt_real_cast'' (y : ℤ) (S R : ℕ) (h : (y : ℝ) < S - R) : y < S - R := by
  have h' : (y : ℝ) < ((S - R : ℤ) : ℝ) := by
    push_cast
    exact h
  exact Int.cast_lt.1 h'

/-- **C83**, messages modulo any `md`. -/
theorem C83_msg (P : Params) (W : WellFormed P) (H : ℕ → Hop) (keys : ℕ → List Torus)
    (hlen : ∀ i, (keys i).length = P.tlweLv0.N) (hbin : ∀ i, IsBinary (keys i))
    (ct : List Torus) (hct : ct.length = P.tlweLv0.N + 1) (md r : ℕ) (hm1 : 1 ≤ md) (hm2 : md ≤ 2 ^ 31) (hr : r < md)
    (e : ℤ) (B : ℕ) (he : |e| ≤ B)
    (hph : phase P.tlweLv0.N ct (keys 0) = BitVec.ofInt 32 ((r : ℤ) * (2 ^ 31 / md : ℕ) + e))
    {q : HopIx P → Ω → ℚ} {σ : ℝ} (hq : NoiseDraws μ q fun _ => σ) (t v : ℝ) (ht : 0 ≤ t)
    (hv : t ^ 2 * (2 ^ 32 * σ) ^ 2 * (P.tlweLv0.N * P.trgswLv1.IKS_T : ℕ) / 2 ≤ v)
    (h : ℕ) (hv1 : ∀ i < h, (H i).asym = true → v < 1) :
    (Measure.pi fun _ : Fin h => μ.prod (uniformOn (Set.univ : Set (ReencTape P))))
        {x | (runChain P H keys ct h (hopRand q x)).bind (fun c => decryptLWEMessage P c md (keys h)) ≠ some (r : ℤ)}
      ≤ ENNReal.ofReal (2 * Real.exp (-(t * ((2 ^ 31 / md / 2 : ℕ) - (B + h * hopRound P : ℕ)))
            + ∑ i ∈ range h, hopGain P.tlweLv0.N v (H i).asym)) := by
  set R := B + h * hopRound P with hR
  set S := 2 ^ 31 / md / 2 with hS
  have t1 := chain_tail P H keys ct hq t v (S - R) ht hv h hv1 (-1) (by norm_num)
  have t2 := chain_tail P H keys ct hq t v (S - R) ht hv h hv1 1 (by norm_num)
  rw [two_mul, ENNReal.ofReal_add (Real.exp_pos _).le (Real.exp_pos _).le]
  refine le_trans (le_trans (measure_mono ?_) (measure_union_le _ _)) (add_le_add t1 t2)
  intro x hx
  by_contra hc
  rw [Set.mem_union, not_or, Set.mem_setOf_eq, Set.mem_setOf_eq, not_le, not_le] at hc
  apply hx
  obtain ⟨out, eo, hl, ρ, hρ, hp⟩ := chain_phase P W H keys hlen hbin ct hct h (hopRand q x)
  rw [eo, Option.bind_some, decryptLWEMessage_eq P out (keys h) md hm1 hm2 (hlen h).ge (by omega), hp, hph]
  set Y := chainErr P H keys ct h (hopRand q x)
  obtain ⟨c1, c2⟩ := hc
  have c1' := lt_real_cast'' _ S R c1
  have c2' := lt_real_cast'' _ S R c2
  rw [abs_le] at he hρ
  have hR' : (R : ℤ) = B + h * hopRound P := by rw [hR]; push_cast; rfl
  have hS2 : (S : ℤ) ≤ (2 ^ 31 / md : ℕ) - (S : ℤ) := by omega
  have near := decodeMsg_near md hm1 hm2 r hr (e - ρ + Y) (by rw [← hS]; linarith [he.1, he.2, hρ.1, hρ.2])
    (by rw [← hS]; linarith [he.1, he.2, hρ.1, hρ.2])
  rw [← cast_int_eq, ← Int.cast_sub, ← Int.cast_add, cast_int_eq, show (r : ℤ) * (2 ^ 31 / md : ℕ) + e - ρ + Y
    = (r : ℤ) * (2 ^ 31 / md : ℕ) + (e - ρ + Y) by ring, near]

end

end GoTfhe
