import Verif.Props.ReencJoint
import Verif.Lemmas.MaskDigits
import Verif.Props.Drift

/-!
# C82 with a uniform mask, and at the levels
-/

namespace GoTfhe

open MeasureTheory ProbabilityTheory Finset

section

variable {Ω : Type*} [MeasurableSpace Ω] {μ : Measure Ω} [IsProbabilityMeasure μ]

/-- From the average over a finite type to the product measure. -/
theorem prod_uniform_le' {α : Type} [Fintype α] [Nonempty α] [MeasurableSpace α] [MeasurableSingletonClass α]
    (E : Ω → α → Prop) (p : ENNReal) (h : ∑ a : α, μ {ω | E ω a} ≤ Fintype.card α * p) :
    (μ.prod (uniformOn (Set.univ : Set α))) {x | E x.1 x.2} ≤ p := by
  have hsub : {x : Ω × α | E x.1 x.2} ⊆ ⋃ a ∈ (Finset.univ : Finset α), {ω | E ω a} ×ˢ {a} := by
    rintro ⟨ω, a⟩ hx
    simp only [Set.mem_iUnion, Set.mem_prod, Set.mem_singleton_iff]
    exact ⟨a, Finset.mem_univ a, hx, rfl⟩
  have hone : ∀ a : α, uniformOn (Set.univ : Set α) {a} = (Fintype.card α : ENNReal)⁻¹ := by
    intro a
    rw [uniformOn_univ, Measure.count_singleton, one_div]
  refine (measure_mono hsub).trans ((measure_biUnion_finset_le _ _).trans ?_)
  simp only [Measure.prod_prod, hone]
  rw [← Finset.sum_mul, ← div_eq_mul_inv]
  exact ENNReal.div_le_of_le_mul' h

/-- A uniform mask: outside an event of probability `δ` the bound `p` holds. -/
theorem prod_mask_le {n : ℕ} (E : Ω → Mask n → Prop) (Bad : Mask n → Prop) (δ : ℝ) (hδ : MaskProbLe Bad δ) (p : ENNReal)
    (h : ∀ a, ¬ Bad a → μ {ω | E ω a} ≤ p) :
    (μ.prod (uniformOn (Set.univ : Set (Mask n)))) {x | E x.1 x.2} ≤ p + ENNReal.ofReal δ := by
  classical
  refine prod_uniform_le' E _ ?_
  have hcard : (Fintype.card (Mask n) : ENNReal) = ENNReal.ofReal ((2 ^ 32) ^ n) := by
    rw [Fintype.card_fun, Fintype.card_fin, Fintype.card_fin]
    generalize 32 = k
    rw [ENNReal.ofReal_pow (by positivity), ENNReal.ofReal_pow (by positivity)]
    push_cast
    norm_num
  have hb : ((univ.filter Bad).card : ENNReal) ≤ Fintype.card (Mask n) * ENNReal.ofReal δ := by
    rw [hcard, ← ENNReal.ofReal_mul (by positivity), ← ENNReal.ofReal_natCast]
    refine ENNReal.ofReal_le_ofReal ?_
    have h2 := hδ
    unfold MaskProbLe at h2
    have e : Set.ncard {a | Bad a} = (univ.filter Bad).card := by
      rw [← Set.ncard_coe_finset]
      congr 1
      ext a
      simp
    rw [e] at h2
    linarith
  calc ∑ a : Mask n, μ {ω | E ω a} ≤ ∑ a : Mask n, (p + if Bad a then 1 else 0) := by
        refine sum_le_sum fun a _ => ?_
        split_ifs with hc
        · exact prob_le_one.trans le_add_self
        · rw [add_zero]; exact h a hc
    _ = Fintype.card (Mask n) * p + ((univ.filter Bad).card : ENNReal) := by
        rw [sum_add_distrib, sum_const, card_univ, nsmul_eq_mul, sum_boole]
    _ ≤ _ := by rw [mul_add]; exact add_le_add le_rfl hb

theorem MaskProbLe.or {n : ℕ} {E F : Mask n → Prop} {δ ε : ℝ} (h : MaskProbLe E δ) (h' : MaskProbLe F ε) :
    MaskProbLe (fun a => E a ∨ F a) (δ + ε) := by
  unfold MaskProbLe at *
  rw [add_mul]
  refine le_trans ?_ (add_le_add h h')
  exact_mod_cast Set.ncard_union_le {a | E a} {a | F a}

/-! ### The two events of a mask -/

theorem maskDigits_eq (n b T : ℕ) (c : ℕ → Torus) : maskDigits n b T c = ∑ i ∈ range n, wordDigits b T (c i) := by
  unfold maskDigits usedDigits
  refine sum_congr rfl fun i hi => ?_
  unfold wordDigits ksDigit
  rw [at'_tab _ _ _ (mem_range.1 hi)]

theorem maskDigits_le (n b T : ℕ) (c : ℕ → Torus) : maskDigits n b T c ≤ n * T := by
  unfold maskDigits usedDigits
  calc _ ≤ ∑ _i ∈ range n, ∑ _j ∈ range T, 1 := sum_le_sum fun i _ => sum_le_sum fun j _ => by split_ifs <;> omega
    _ = n * T := by simp

theorem maskProb_empty {n : ℕ} {E : Mask n → Prop} (h : ∀ a, ¬ E a) : MaskProbLe E 0 := by
  unfold MaskProbLe
  have : {a | E a} = ∅ := Set.eq_empty_of_forall_notMem h
  rw [this, Set.ncard_empty]
  simp

theorem digits_trivial (n b T : ℕ) : MaskProbLe (fun a : Mask n => n * T < maskDigits n b T a.draw) 0 :=
  maskProb_empty fun a => not_lt.2 (maskDigits_le n b T a.draw)

/-- More than `K` non-zero digits, with the parameter `a / d` of Chernoff's bound. -/
theorem digits_rare (n b T K m a d : ℕ) (hT : b * T ≤ 31) (hd : 0 < d) (had : d ≤ a)
    (h : (d + (2 ^ b - 1) * a) ^ (n * T) * d ^ (K + 1) * 2 ^ m ≤ (2 ^ b * d) ^ (n * T) * a ^ (K + 1)) :
    MaskProbLe (fun x : Mask n => K < maskDigits n b T x.draw) (1 / 2 ^ m) := by
  have hd' : (0 : ℝ) < d := by exact_mod_cast hd
  have had' : (d : ℝ) ≤ a := by exact_mod_cast had
  have ha' : (0 : ℝ) < a := hd'.trans_le had'
  have base : MaskProbLe (fun x : Mask n => K < maskDigits n b T x.draw)
      (((1 + (2 ^ b - 1) * ((a : ℝ) / d)) / 2 ^ b) ^ (n * T) / ((a : ℝ) / d) ^ (K + 1)) :=
    maskProb_of_bad _ _ fun bad hb => card_digits n b T hT (K + 1) ((a : ℝ) / d) ((one_le_div hd').2 had') bad
      fun x hx => by rw [← maskDigits_eq]; exact hb x hx
  refine base.mono ?_
  have h' : ((d : ℝ) + (2 ^ b - 1) * a) ^ (n * T) * d ^ (K + 1) * 2 ^ m ≤ (2 ^ b * d) ^ (n * T) * a ^ (K + 1) := by
    have hB : 1 ≤ 2 ^ b := Nat.one_le_two_pow
    have := (Nat.cast_le (α := ℝ)).2 h
    push_cast [Nat.cast_sub hB] at this
    exact this
  have e : ((1 + (2 ^ b - 1) * ((a : ℝ) / d)) / 2 ^ b) = (d + (2 ^ b - 1) * a) / (2 ^ b * d) := by
    field_simp
  rw [e, div_pow, div_pow, div_div_div_eq, div_le_div_iff₀ (by positivity) (by positivity), one_mul]
  exact h'

/-- Rounding moves the phase by more than `R`, for a key of any weight. -/
theorem round_rare (n b T R m h : ℕ) (hT : b * T ≤ 31) (hT1 : 1 ≤ b * T) (hn : 0 < n) (hR : n ≤ R)
    (hh : 2 ^ (31 - b * T) = h)
    (hnum : ((m : ℚ) + 1) * 0.6931471808 * (2 * n * h ^ 2) ≤ 3 * ((R : ℚ) - n / 2) ^ 2)
    (s : List Torus) (hs : IsBinary s) :
    MaskProbLe (fun a : Mask n => (R : ℤ) < |maskRound n b T a.draw s|) (1 / 2 ^ m) := by
  have hpos : 0 < h := by rw [← hh]; positivity
  have base : MaskProbLe (fun a : Mask n => (R : ℤ) < |maskRound n b T a.draw s|) _ :=
    maskProb_of_bad _ _ fun bad hb => card_round n b T hT hT1 s hs n R hn (weight_le n s hs) hR bad hb
  refine base.mono (two_exp_le ?_)
  have hh' : (2 : ℝ) ^ (31 - b * T) = h := by rw [← hh]; push_cast; rfl
  have hn' : (0 : ℝ) < n := by exact_mod_cast hn
  have hp' : (0 : ℝ) < h := by exact_mod_cast hpos
  rw [hh', le_div_iff₀ (by positivity)]
  have := (Rat.cast_le (K := ℝ)).2 hnum
  push_cast at this
  exact this

/-! ### Booleans -/

/-- **C82**, Booleans: over the noise, the coins and the mask of the ciphertext. -/
theorem C82_random (P : Params) (W : WellFormed P) (keyFrom keyTo : List Torus)
    (h1 : keyFrom.length = P.tlweLv0.N) (h0 : keyTo.length = P.tlweLv0.N) (hbin : IsBinary keyFrom)
    (m : Bool) (pdraw : ℕ → ℕ → Torus) (undef : ℕ → ℕ → ℕ → ℚ)
    {q : ReencIx → Ω → ℚ} {σ : ℝ} (hq : NoiseDraws μ q fun _ => σ) (K R : ℕ) (pK pR : ℝ)
    (hK : MaskProbLe (fun a : Mask P.tlweLv0.N =>
      K < maskDigits P.tlweLv0.N P.trgswLv1.BASEBIT P.trgswLv1.IKS_T a.draw) pK)
    (hR : MaskProbLe (fun a : Mask P.tlweLv0.N =>
      (R : ℤ) < |maskRound P.tlweLv0.N P.trgswLv1.BASEBIT P.trgswLv1.IKS_T a.draw keyFrom|) pR)
    (t v : ℝ) (ht : 0 ≤ t) (hv : t ^ 2 * (2 ^ 32 * σ) ^ 2 * (K + 1) / 2 ≤ v) (hv1 : v < 1) :
    ((μ.prod (uniformOn (Set.univ : Set (ReencTape P)))).prod (uniformOn (Set.univ : Set (Mask P.tlweLv0.N))))
      {x | delegateBool P keyFrom keyTo m pdraw x.2.draw undef (fun i => q i x.1.1) x.1.2 ≠ some m}
      ≤ ENNReal.ofReal (Real.exp (-(t * (2 ^ 29 - R)) + v + P.tlweLv0.N * (v / (1 - v)))
          + Real.exp (-(t * (3 * 2 ^ 29 - R)) + v + P.tlweLv0.N * (v / (1 - v)))) + ENNReal.ofReal (pK + pR) := by
  refine prod_mask_le (fun (ω : Ω × ReencTape P) a =>
    delegateBool P keyFrom keyTo m pdraw a.draw undef (fun i => q i ω.1) ω.2 ≠ some m) _ _ (hK.or hR) _ fun a ha => ?_
  rw [not_or, not_lt, not_lt] at ha
  exact C82_bool P W keyFrom keyTo h1 h0 hbin m pdraw a.draw undef hq K R ha.1 ha.2 t v ht hv hv1

/-! ### Messages -/

/-- `delegate` with a message modulo `md`, and decryption by the delegatee. -/
def delegateMessage (fl : ℚ → ℚ) (P : Params) (keyFrom keyTo : List Torus) (msg : ℤ) (md : ℕ) (pdraw : ℕ → ℕ → Torus)
    (cdraw : ℕ → Torus) (undef : ℕ → ℕ → ℕ → ℚ) (q : ReencIx → ℚ) (a : ReencTape P) : Option ℤ := do
  let pk ← newPublicKeyLv0 P keyTo pdraw fun e => q (.pk e)
  let ct ← encryptLWEMessage fl P (newTLWELv0 P) msg md keyFrom cdraw (q .ct)
  let out ← asymReencrypt P keyFrom pk a.reencCoins (fun i j k => q (.entry i j k)) undef ct
  decryptLWEMessage P out md keyTo

theorem encryptLWEMessage_plain (fl : ℚ → ℚ) (P : Params) (t key : List Torus) (msg : ℤ) (m : ℕ) (hm : 1 ≤ m)
    (draw : ℕ → Torus) (sample : ℚ) :
    encryptLWEMessage fl P t msg m key draw sample = tlwe0EncryptF64 P t
      (fl (((msg % m : ℤ) : ℚ) * fl ((2 ^ 31 : ℚ) / ((m : ℤ) : ℚ))) / 2 ^ 32) key draw sample := by
  unfold encryptLWEMessage
  have g := goMod_fix msg m (by omega)
  cases hg : goMod msg m with
  | none => rw [hg] at g; cases g
  | some r =>
    rw [hg] at g
    simp only [Option.map_some, Option.some.injEq] at g
    simp only [hg] at *
    change tlwe0EncryptF64 P t (fl (((if r < 0 then r + (m : ℤ) else r : ℤ) : ℚ) * _) / 2 ^ 32) key draw sample = _
    rw [g]

theorem delegateMessage_eq (fl : ℚ → ℚ) (P : Params) (keyFrom keyTo : List Torus) (msg : ℤ) (md : ℕ) (hm : 1 ≤ md)
    (pdraw : ℕ → ℕ → Torus) (cdraw : ℕ → Torus) (undef : ℕ → ℕ → ℕ → ℚ) (q : ReencIx → ℚ) (a : ReencTape P) :
    delegateMessage fl P keyFrom keyTo msg md pdraw cdraw undef q a
      = (delegate P keyFrom keyTo (fl (((msg % md : ℤ) : ℚ) * fl ((2 ^ 31 : ℚ) / ((md : ℤ) : ℚ))) / 2 ^ 32) pdraw cdraw
          undef q a).bind fun out => decryptLWEMessage P out md keyTo := by
  unfold delegateMessage delegate
  rw [encryptLWEMessage_plain fl P _ _ _ _ hm]
  simp only [Option.bind_eq_bind, Option.bind_assoc]

theorem lt_real_cast' (y : ℤ) (k R : ℕ) (h : (y : ℝ) < 2 ^ k - R) : y < 2 ^ k - R := by
  have h' : (y : ℝ) < ((2 ^ k - R : ℤ) : ℝ) := by
    push_cast
    exact h
  exact Int.cast_lt.1 h'

/-- **C82**, messages modulo `2^k`, for any mask. -/
theorem C82_msg (fl : ℚ → ℚ) (hfl : IsRound fl) (P : Params) (W : WellFormed P) (keyFrom keyTo : List Torus)
    (h1 : keyFrom.length = P.tlweLv0.N) (h0 : keyTo.length = P.tlweLv0.N) (hbin : IsBinary keyFrom)
    (msg : ℤ) (k : ℕ) (hk : k ≤ 30) (pdraw : ℕ → ℕ → Torus) (cdraw : ℕ → Torus) (undef : ℕ → ℕ → ℕ → ℚ)
    {q : ReencIx → Ω → ℚ} {σ : ℝ} (hq : NoiseDraws μ q fun _ => σ)
    (K R : ℕ) (hK : maskDigits P.tlweLv0.N P.trgswLv1.BASEBIT P.trgswLv1.IKS_T cdraw ≤ K)
    (hR : |maskRound P.tlweLv0.N P.trgswLv1.BASEBIT P.trgswLv1.IKS_T cdraw keyFrom| ≤ R)
    (t v : ℝ) (ht : 0 ≤ t) (hv : t ^ 2 * (2 ^ 32 * σ) ^ 2 * (K + 1) / 2 ≤ v) (hv1 : v < 1) :
    (μ.prod (uniformOn (Set.univ : Set (ReencTape P))))
      {x | delegateMessage fl P keyFrom keyTo msg (2 ^ k) pdraw cdraw undef (fun i => q i x.1) x.2
        ≠ some (msg % (2 ^ k : ℕ))}
      ≤ ENNReal.ofReal (2 * Real.exp (-(t * (2 ^ (30 - k) - R)) + v + P.tlweLv0.N * (v / (1 - v)))) := by
  have t1 := delegErr_tail P hq cdraw K hK t v (2 ^ (30 - k) - R) ht hv hv1 (-1) (by norm_num)
  have t2 := delegErr_tail P hq cdraw K hK t v (2 ^ (30 - k) - R) ht hv hv1 1 (by norm_num)
  refine prod_uniform_le (fun ω a => delegateMessage fl P keyFrom keyTo msg (2 ^ k) pdraw cdraw undef (fun i => q i ω) a
    ≠ some (msg % (2 ^ k : ℕ))) _ ?_
  rw [two_mul, ENNReal.ofReal_add (Real.exp_pos _).le (Real.exp_pos _).le, mul_add]
  refine le_trans ?_ (add_le_add t1 t2)
  rw [← sum_add_distrib]
  refine sum_le_sum fun a _ => le_trans (measure_mono ?_) (measure_union_le _ _)
  intro ω hω
  by_contra hc
  rw [Set.mem_union, not_or, Set.mem_setOf_eq, Set.mem_setOf_eq, not_le, not_le] at hc
  apply hω
  have hpos : 0 < 2 ^ k := by positivity
  have hposZ : (0 : ℤ) < (2 ^ k : ℕ) := by exact_mod_cast hpos
  have hle : 2 ^ k ≤ 2 ^ 31 := Nat.pow_le_pow_right (by norm_num) (by omega)
  obtain ⟨out, e, hl, hp⟩ := delegate_phase P W keyFrom keyTo h1 h0 hbin
    (fl (((msg % (2 ^ k : ℕ) : ℤ) : ℚ) * fl ((2 ^ 31 : ℚ) / (((2 ^ k : ℕ) : ℤ) : ℚ))) / 2 ^ 32) pdraw cdraw undef
    (fun i => q i ω) a
  have hr0 := Int.emod_nonneg msg hposZ.ne'
  have hr1 := Int.emod_lt_of_pos msg hposZ
  rw [delegateMessage_eq fl P keyFrom keyTo msg _ hpos, e, Option.bind_some,
    decryptLWEMessage_eq P out keyTo (2 ^ k) hpos hle h0.ge (by omega), hp,
    enc_pow2 fl hfl k (by omega) _ hr0 (by exact_mod_cast hr1)]
  set Y := delegErr P cdraw (fun i => q i ω) a
  set r := maskRound P.tlweLv0.N P.trgswLv1.BASEBIT P.trgswLv1.IKS_T cdraw keyFrom
  obtain ⟨c1, c2⟩ := hc
  have c1' : -1 * Y < 2 ^ (30 - k) - R := lt_real_cast' _ _ R c1
  have c2' : 1 * Y < 2 ^ (30 - k) - R := lt_real_cast' _ _ R c2
  rw [abs_le] at hR
  have hS : 2 ^ 31 / 2 ^ k = 2 ^ (31 - k) := Nat.pow_div (by omega) (by norm_num)
  have hS2 : 2 ^ (31 - k) = 2 * 2 ^ (30 - k) := by
    rw [← pow_succ']
    congr 1
    omega
  generalize hD : 2 ^ (30 - k) = D at *
  have hD' : (2 : ℤ) ^ (30 - k) = D := by rw [← hD]; push_cast; rfl
  rw [hD'] at c1' c2'
  have near := decodeMsg_near (2 ^ k) hpos hle (msg % (2 ^ k : ℕ)).toNat (by omega) (-r + Y)
    (by rw [hS, hS2]; omega) (by rw [hS, hS2]; omega)
  rw [Int.toNat_of_nonneg hr0] at near
  rw [← cast_int_eq, ← Int.cast_sub, ← Int.cast_add, cast_int_eq, sub_add, sub_eq_add_neg, neg_sub, sub_eq_add_neg Y r,
    add_comm Y (-r), near, Int.toNat_of_nonneg hr0]

/-- **C82**, messages modulo `2^k`: over the noise, the coins and the mask of the ciphertext. -/
theorem C82_random_message (fl : ℚ → ℚ) (hfl : IsRound fl) (P : Params) (W : WellFormed P) (keyFrom keyTo : List Torus)
    (h1 : keyFrom.length = P.tlweLv0.N) (h0 : keyTo.length = P.tlweLv0.N) (hbin : IsBinary keyFrom)
    (msg : ℤ) (k : ℕ) (hk : k ≤ 30) (pdraw : ℕ → ℕ → Torus) (undef : ℕ → ℕ → ℕ → ℚ)
    {q : ReencIx → Ω → ℚ} {σ : ℝ} (hq : NoiseDraws μ q fun _ => σ) (K R : ℕ) (pK pR : ℝ)
    (hK : MaskProbLe (fun a : Mask P.tlweLv0.N =>
      K < maskDigits P.tlweLv0.N P.trgswLv1.BASEBIT P.trgswLv1.IKS_T a.draw) pK)
    (hR : MaskProbLe (fun a : Mask P.tlweLv0.N =>
      (R : ℤ) < |maskRound P.tlweLv0.N P.trgswLv1.BASEBIT P.trgswLv1.IKS_T a.draw keyFrom|) pR)
    (t v : ℝ) (ht : 0 ≤ t) (hv : t ^ 2 * (2 ^ 32 * σ) ^ 2 * (K + 1) / 2 ≤ v) (hv1 : v < 1) :
    ((μ.prod (uniformOn (Set.univ : Set (ReencTape P)))).prod (uniformOn (Set.univ : Set (Mask P.tlweLv0.N))))
      {x | delegateMessage fl P keyFrom keyTo msg (2 ^ k) pdraw x.2.draw undef (fun i => q i x.1.1) x.1.2
        ≠ some (msg % (2 ^ k : ℕ))}
      ≤ ENNReal.ofReal (2 * Real.exp (-(t * (2 ^ (30 - k) - R)) + v + P.tlweLv0.N * (v / (1 - v))))
        + ENNReal.ofReal (pK + pR) := by
  refine prod_mask_le (fun (ω : Ω × ReencTape P) a =>
    delegateMessage fl P keyFrom keyTo msg (2 ^ k) pdraw a.draw undef (fun i => q i ω.1) ω.2
      ≠ some (msg % (2 ^ k : ℕ))) _ _ (hK.or hR) _ fun a ha => ?_
  rw [not_or, not_lt, not_lt] at ha
  exact C82_msg fl hfl P W keyFrom keyTo h1 h0 hbin msg k hk pdraw a.draw undef hq K R ha.1 ha.2 t v ht hv hv1

end

end GoTfhe
