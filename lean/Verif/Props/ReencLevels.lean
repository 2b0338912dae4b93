import Verif.Props.ReencRandom

/-!
# C82 at the levels
-/

namespace GoTfhe

open MeasureTheory ProbabilityTheory Finset

section

variable {Ω : Type*} [MeasurableSpace Ω] {μ : Measure Ω} [IsProbabilityMeasure μ]

theorem deleg_var (l α v : ℚ) (K : ℕ) (h : l ^ 2 * 32 * α ^ 2 * (K + 1) ≤ v) :
    ((l : ℝ) / 536870912) ^ 2 * (2 ^ 32 * (α : ℝ)) ^ 2 * (K + 1) / 2 ≤ (v : ℝ) := by
  have h' := (Rat.cast_le (K := ℝ)).2 h
  push_cast at h'
  refine le_trans (le_of_eq ?_) h'
  ring

theorem deleg_exp (l v x : ℚ) (n R S : ℕ) (h : x ≤ l * ((S - R) / 536870912) - v - n * (v / (1 - v))) :
    Real.exp (-((l : ℝ) / 536870912 * (S - R)) + v + n * ((v : ℝ) / (1 - v))) ≤ Real.exp (-(x : ℝ)) := by
  refine Real.exp_le_exp.2 ?_
  have h' := (Rat.cast_le (K := ℝ)).2 h
  push_cast at h'
  have e : (l : ℝ) / 536870912 * (S - R) = l * ((S - R) / 536870912) := by ring
  rw [e]
  linarith

/-- The bound for Booleans from rational data. -/
theorem C82_bool_num (P : Params) (W : WellFormed P) (keyFrom keyTo : List Torus)
    (h1 : keyFrom.length = P.tlweLv0.N) (h0 : keyTo.length = P.tlweLv0.N) (hbin : IsBinary keyFrom)
    (m : Bool) (pdraw : ℕ → ℕ → Torus) (undef : ℕ → ℕ → ℕ → ℚ)
    {q : ReencIx → Ω → ℚ} {α : ℚ} (hq : NoiseDraws μ q fun _ => (α : ℝ)) (K R : ℕ) (pK pR : ℝ)
    (hp : 0 ≤ pK + pR)
    (hK : MaskProbLe (fun a : Mask P.tlweLv0.N =>
      K < maskDigits P.tlweLv0.N P.trgswLv1.BASEBIT P.trgswLv1.IKS_T a.draw) pK)
    (hR : MaskProbLe (fun a : Mask P.tlweLv0.N =>
      (R : ℤ) < |maskRound P.tlweLv0.N P.trgswLv1.BASEBIT P.trgswLv1.IKS_T a.draw keyFrom|) pR)
    (l v x : ℚ) (hl : 0 ≤ l) (hv : l ^ 2 * 32 * α ^ 2 * (K + 1) ≤ v) (hv1 : v < 1)
    (hx : x ≤ l * (((536870912 : ℕ) - R) / 536870912) - v - P.tlweLv0.N * (v / (1 - v)))
    (hx2 : x + 2 * l ≤ l * (((1610612736 : ℕ) - R) / 536870912) - v - P.tlweLv0.N * (v / (1 - v)))
    (D : ℝ) (hD : Real.exp (-(x : ℝ)) + Real.exp (-((x + 2 * l : ℚ) : ℝ)) + (pK + pR) ≤ D) :
    ((μ.prod (uniformOn (Set.univ : Set (ReencTape P)))).prod (uniformOn (Set.univ : Set (Mask P.tlweLv0.N))))
      {x | delegateBool P keyFrom keyTo m pdraw x.2.draw undef (fun i => q i x.1.1) x.1.2 ≠ some m}
      ≤ ENNReal.ofReal D := by
  have hl' : (0 : ℝ) ≤ l := by exact_mod_cast hl
  have hv' : (v : ℝ) < 1 := by exact_mod_cast hv1
  refine (C82_random P W keyFrom keyTo h1 h0 hbin m pdraw undef hq K R pK pR hK hR ((l : ℝ) / 536870912) v
    (by positivity) (deleg_var l α v K hv) hv').trans ?_
  rw [← ENNReal.ofReal_add (by positivity) hp]
  refine ENNReal.ofReal_le_ofReal (le_trans (add_le_add (add_le_add ?_ ?_) le_rfl) hD)
  · refine le_trans (le_of_eq ?_) (deleg_exp l v x P.tlweLv0.N R 536870912 hx)
    norm_num
  · refine le_trans (le_of_eq ?_) (deleg_exp l v (x + 2 * l) P.tlweLv0.N R 1610612736 hx2)
    norm_num

/-- The bound for messages from rational data. -/
theorem C82_message_num (fl : ℚ → ℚ) (hfl : IsRound fl) (P : Params) (W : WellFormed P) (keyFrom keyTo : List Torus)
    (h1 : keyFrom.length = P.tlweLv0.N) (h0 : keyTo.length = P.tlweLv0.N) (hbin : IsBinary keyFrom)
    (msg : ℤ) (k : ℕ) (hk : k ≤ 30) (pdraw : ℕ → ℕ → Torus) (undef : ℕ → ℕ → ℕ → ℚ)
    {q : ReencIx → Ω → ℚ} {α : ℚ} (hq : NoiseDraws μ q fun _ => (α : ℝ)) (K R S : ℕ) (hS : S ≤ 2 ^ (30 - k)) (pK pR : ℝ)
    (hp : 0 ≤ pK + pR)
    (hK : MaskProbLe (fun a : Mask P.tlweLv0.N =>
      K < maskDigits P.tlweLv0.N P.trgswLv1.BASEBIT P.trgswLv1.IKS_T a.draw) pK)
    (hR : MaskProbLe (fun a : Mask P.tlweLv0.N =>
      (R : ℤ) < |maskRound P.tlweLv0.N P.trgswLv1.BASEBIT P.trgswLv1.IKS_T a.draw keyFrom|) pR)
    (l v x : ℚ) (hl : 0 ≤ l) (hv : l ^ 2 * 32 * α ^ 2 * (K + 1) ≤ v) (hv1 : v < 1)
    (hx : x ≤ l * ((S - R) / 536870912) - v - P.tlweLv0.N * (v / (1 - v)))
    (D : ℝ) (hD : 2 * Real.exp (-(x : ℝ)) + (pK + pR) ≤ D) :
    ((μ.prod (uniformOn (Set.univ : Set (ReencTape P)))).prod (uniformOn (Set.univ : Set (Mask P.tlweLv0.N))))
      {x | delegateMessage fl P keyFrom keyTo msg (2 ^ k) pdraw x.2.draw undef (fun i => q i x.1.1) x.1.2
        ≠ some (msg % (2 ^ k : ℕ))} ≤ ENNReal.ofReal D := by
  have hl' : (0 : ℝ) ≤ l := by exact_mod_cast hl
  have hv' : (v : ℝ) < 1 := by exact_mod_cast hv1
  refine (C82_random_message fl hfl P W keyFrom keyTo h1 h0 hbin msg k hk pdraw undef hq K R pK pR hK hR
    ((l : ℝ) / 536870912) v (by positivity) (deleg_var l α v K hv) hv').trans ?_
  rw [← ENNReal.ofReal_add (by positivity) hp]
  have hS' : (S : ℝ) ≤ 2 ^ (30 - k) := by exact_mod_cast hS
  refine ENNReal.ofReal_le_ofReal (le_trans (add_le_add (mul_le_mul_of_nonneg_left ?_ (by norm_num)) le_rfl) hD)
  refine le_trans (Real.exp_le_exp.2 ?_) (deleg_exp l v x P.tlweLv0.N R S hx)
  have := mul_le_mul_of_nonneg_left (sub_le_sub_right hS' (R : ℝ)) (show (0 : ℝ) ≤ (l : ℝ) / 536870912 by positivity)
  linarith

/-- The bounds of C82 for Booleans. -/
noncomputable def delegFail (level : ℤ) : ℝ :=
  if level = 80 then 1 / 6 else if level = 110 then 1 / 27 else if level = 1 then 1 / 500 else if level = 2 then 1 / 25000
  else if 3 ≤ level ∧ level ≤ 8 then 1 / 2 ^ 100 else 1 / 270

theorem deleg_small (x l : ℝ) (hx : 400 ≤ x) (hl : 0 ≤ l) :
    Real.exp (-x) + Real.exp (-(x + 2 * l)) + (0 + 1 / 2 ^ 102) ≤ 1 / 2 ^ 100 := by
  have a := exp_neg_le_two x 102 (by norm_num; linarith)
  have b := exp_neg_le_two (x + 2 * l) 102 (by norm_num; linarith)
  have e : (1 : ℝ) / 2 ^ 100 = 4 * (1 / 2 ^ 102) := by norm_num
  have : (0 : ℝ) < 1 / 2 ^ 102 := by positivity
  linarith

/-- **C82**, Booleans at every level: whatever the two keys and the masks of the public key, over the noise of the public
key, of the re-encryption key and of the ciphertext, the coins of the re-encryption key and the mask of the ciphertext. -/
theorem C82_levels (level : SecurityLevel) (keyFrom keyTo : List Torus)
    (h1 : keyFrom.length = (paramsFor level).tlweLv0.N) (h0 : keyTo.length = (paramsFor level).tlweLv0.N)
    (hbin : IsBinary keyFrom) (m : Bool) (pdraw : ℕ → ℕ → Torus) (undef : ℕ → ℕ → ℕ → ℚ)
    {q : ReencIx → Ω → ℚ} (hq : NoiseDraws μ q fun _ => ((kskAlpha (paramsFor level) : ℚ) : ℝ)) :
    ((μ.prod (uniformOn (Set.univ : Set (ReencTape (paramsFor level))))).prod
      (uniformOn (Set.univ : Set (Mask (paramsFor level).tlweLv0.N))))
      {x | delegateBool (paramsFor level) keyFrom keyTo m pdraw x.2.draw undef (fun i => q i x.1.1) x.1.2 ≠ some m}
      ≤ ENNReal.ofReal (delegFail level) := by
  have W := C63_wellFormed level
  have g : ∀ n b T R mm h : ℕ, b * T ≤ 31 → 1 ≤ b * T → 0 < n → n ≤ R → 2 ^ (31 - b * T) = h →
      ((mm : ℚ) + 1) * 0.6931471808 * (2 * n * h ^ 2) ≤ 3 * ((R : ℚ) - n / 2) ^ 2 →
      MaskProbLe (fun a : Mask n => (R : ℤ) < |maskRound n b T a.draw keyFrom|) (1 / 2 ^ mm) :=
    fun n b T R mm h a1 a2 a3 a4 a5 a6 => round_rare n b T R mm h a1 a2 a3 a4 a5 a6 keyFrom hbin
  have hx : ∀ (x l : ℚ) (y z w D : ℝ), Real.exp (-(x : ℝ)) ≤ y → 0 ≤ l → Real.exp (-((x + 2 * l : ℚ) : ℝ)) ≤ z →
      y + z + w ≤ D → Real.exp (-(x : ℝ)) + Real.exp (-((x + 2 * l : ℚ) : ℝ)) + w ≤ D := by
    intro x l y z w D a _ b c
    linarith
  rcases paramsFor_cases level with ⟨e, h⟩ | ⟨e, h⟩ | ⟨e, h⟩ | ⟨e, h⟩ | ⟨e, h⟩ | ⟨e, h⟩ | ⟨e, h⟩ |
      ⟨e, h⟩ | ⟨e, h⟩ | ⟨e, h⟩ | ⟨e, h⟩
  · have hD : delegFail level = 1 / 6 := by subst e; norm_num [delegFail]
    generalize paramsFor level = P at *
    subst h
    refine C82_bool_num _ W keyFrom keyTo h1 h0 hbin m pdraw undef hq 3033 10021555 (1 / 2 ^ 22) (1 / 2 ^ 22) (by positivity)
      (digits_rare 550 2 7 3033 22 5 4 (by norm_num) (by norm_num) (by norm_num) (by decide +kernel))
      (g 550 2 7 10021555 22 131072 (by norm_num) (by norm_num) (by norm_num) (by norm_num) (by norm_num) (by norm_num))
      (73 / 20) (1617 / 500000) (1794161 / 1000000) (by norm_num) (by norm_num [kskAlpha, params80Bit]) (by norm_num)
      (by norm_num [params80Bit]) (by norm_num [params80Bit]) _ ?_
    have a : Real.exp (-(((1794161 / 1000000 : ℚ)) : ℝ)) ≤ 16628 / 100000 := exp_neg_le' (1794161 / 1000000) _ _ (by norm_num) (by norm_num) (by norm_num)
      (by norm_num [sum_range_succ, Nat.factorial])
    have b : Real.exp (-(((1794161 / 1000000 + 2 * (73 / 20) : ℚ)) : ℝ)) ≤ 1 / 8000 := exp_neg_le' (1794161 / 1000000 + 2 * (73 / 20)) _ _ (by norm_num) (by norm_num)
      (by norm_num) (by norm_num [sum_range_succ, Nat.factorial])
    refine hx _ _ _ _ _ _ a (by norm_num) b (le_of_le_of_eq ?_ hD.symm)
    norm_num
  · have hD : delegFail level = 1 / 27 := by subst e; norm_num [delegFail]
    generalize paramsFor level = P at *
    subst h
    refine C82_bool_num _ W keyFrom keyTo h1 h0 hbin m pdraw undef hq 3947 2681657 (1 / 2 ^ 22) (1 / 2 ^ 22) (by positivity)
      (digits_rare 630 2 8 3947 22 6 5 (by norm_num) (by norm_num) (by norm_num) (by decide +kernel))
      (g 630 2 8 2681657 22 32768 (by norm_num) (by norm_num) (by norm_num) (by norm_num) (by norm_num) (by norm_num))
      (661 / 100) (5141 / 1000000) (33162 / 10000) (by norm_num) (by norm_num [kskAlpha, params110Bit]) (by norm_num)
      (by norm_num [params110Bit]) (by norm_num [params110Bit]) _ ?_
    have a : Real.exp (-(((33162 / 10000 : ℚ)) : ℝ)) ≤ 363 / 10000 := exp_neg_le' (33162 / 10000) _ _ (by norm_num) (by norm_num) (by norm_num)
      (by norm_num [sum_range_succ, Nat.factorial])
    have b : Real.exp (-(((33162 / 10000 + 2 * (661 / 100) : ℚ)) : ℝ)) ≤ 1 / 8000 := exp_neg_le' (33162 / 10000 + 2 * (661 / 100)) _ _ (by norm_num) (by norm_num)
      (by norm_num) (by norm_num [sum_range_succ, Nat.factorial])
    refine hx _ _ _ _ _ _ a (by norm_num) b (le_of_le_of_eq ?_ hD.symm)
    norm_num
  · have hD : delegFail level = 1 / 500 := by subst e; norm_num [delegFail]
    generalize paramsFor level = P at *
    subst h
    refine C82_bool_num _ W keyFrom keyTo h1 h0 hbin m pdraw undef hq 4376 2826732 (1 / 2 ^ 22) (1 / 2 ^ 22) (by positivity)
      (digits_rare 700 2 8 4376 22 6 5 (by norm_num) (by norm_num) (by norm_num) (by decide +kernel))
      (g 700 2 8 2826732 22 32768 (by norm_num) (by norm_num) (by norm_num) (by norm_num) (by norm_num) (by norm_num))
      (62 / 5) (1723 / 200000) (62431 / 10000) (by norm_num) (by norm_num [kskAlpha, paramsUint1]) (by norm_num)
      (by norm_num [paramsUint1]) (by norm_num [paramsUint1]) _ ?_
    have a : Real.exp (-(((62431 / 10000 : ℚ)) : ℝ)) ≤ 195 / 100000 := exp_neg_le' (62431 / 10000) _ _ (by norm_num) (by norm_num) (by norm_num)
      (by norm_num [sum_range_succ, Nat.factorial])
    have b : Real.exp (-(((62431 / 10000 + 2 * (62 / 5) : ℚ)) : ℝ)) ≤ 1 / 80000 := exp_neg_le' (62431 / 10000 + 2 * (62 / 5)) _ _ (by norm_num) (by norm_num)
      (by norm_num) (by norm_num [sum_range_succ, Nat.factorial])
    refine hx _ _ _ _ _ _ a (by norm_num) b (le_of_le_of_eq ?_ hD.symm)
    norm_num
  · have hD : delegFail level = 1 / 25000 := by subst e; norm_num [delegFail]
    generalize paramsFor level = P at *
    subst h
    refine C82_bool_num _ W keyFrom keyTo h1 h0 hbin m pdraw undef hq 1996 52011573 (1 / 2 ^ 22) (1 / 2 ^ 30) (by positivity)
      (digits_rare 687 4 3 1996 22 42 20 (by norm_num) (by norm_num) (by norm_num) (by decide +kernel))
      (g 687 4 3 52011573 30 524288 (by norm_num) (by norm_num) (by norm_num) (by norm_num) (by norm_num) (by norm_num))
      (1109 / 50) (14141 / 1000000) (10162864 / 1000000) (by norm_num) (by norm_num [kskAlpha, paramsUint2]) (by norm_num)
      (by norm_num [paramsUint2]) (by norm_num [paramsUint2]) _ ?_
    have a : Real.exp (-(((10162864 / 1000000 : ℚ)) : ℝ)) ≤ 1 / 25900 := by
      have a2 : Real.exp (-(10162864 / 2000000 : ℝ)) ≤ 1 / 160.98 := exp_neg_le' (10162864 / 2000000) _ _ le_rfl (by norm_num)
        (by norm_num) (by norm_num [sum_range_succ, Nat.factorial])
      have e2 : -(((10162864 / 1000000 : ℚ)) : ℝ) = -(10162864 / 2000000 : ℝ) + -(10162864 / 2000000 : ℝ) := by norm_num
      rw [e2, Real.exp_add]
      refine (mul_le_mul a2 a2 (Real.exp_pos _).le (by norm_num)).trans (by norm_num)
    have b : Real.exp (-(((10162864 / 1000000 + 2 * (1109 / 50) : ℚ)) : ℝ)) ≤ 1 / 2 ^ 40 :=
      exp_neg_le_two _ 40 (by norm_num)
    refine hx _ _ _ _ _ _ a (by norm_num) b (le_of_le_of_eq ?_ hD.symm)
    norm_num
  · have hD : delegFail level = 1 / 2 ^ 100 := by subst e; norm_num [delegFail]
    generalize paramsFor level = P at *
    subst h
    refine C82_bool_num _ W keyFrom keyTo h1 h0 hbin m pdraw undef hq 1640 103577437 0 (1 / 2 ^ 102) (by positivity)
      (digits_trivial 820 6 2)
      (g 820 6 2 103577437 102 524288 (by norm_num) (by norm_num) (by norm_num) (by norm_num) (by norm_num) (by norm_num))
      (42979 / 50) (1 / 4) (410) (by norm_num) (by norm_num [kskAlpha, paramsUint3]) (by norm_num)
      (by norm_num [paramsUint3]) (by norm_num [paramsUint3]) _ ?_
    refine le_of_le_of_eq ?_ hD.symm
    have hs := deleg_small (410 : ℚ) (42979 / 50 : ℚ) (by norm_num) (by norm_num)
    push_cast at hs ⊢
    exact hs
  · have hD : delegFail level = 1 / 2 ^ 100 := by subst e; norm_num [delegFail]
    generalize paramsFor level = P at *
    subst h
    refine C82_bool_num _ W keyFrom keyTo h1 h0 hbin m pdraw undef hq 2460 12947539 0 (1 / 2 ^ 102) (by positivity)
      (digits_trivial 820 5 3)
      (g 820 5 3 12947539 102 65536 (by norm_num) (by norm_num) (by norm_num) (by norm_num) (by norm_num) (by norm_num))
      (6981 / 10) (1 / 4) (405) (by norm_num) (by norm_num [kskAlpha, paramsUint4]) (by norm_num)
      (by norm_num [paramsUint4]) (by norm_num [paramsUint4]) _ ?_
    refine le_of_le_of_eq ?_ hD.symm
    have hs := deleg_small (405 : ℚ) (6981 / 10 : ℚ) (by norm_num) (by norm_num)
    push_cast at hs ⊢
    exact hs
  · have hD : delegFail level = 1 / 2 ^ 100 := by subst e; norm_num [delegFail]
    generalize paramsFor level = P at *
    subst h
    refine C82_bool_num _ W keyFrom keyTo h1 h0 hbin m pdraw undef hq 3213 1850108 0 (1 / 2 ^ 102) (by positivity)
      (digits_trivial 1071 6 3)
      (g 1071 6 3 1850108 102 8192 (by norm_num) (by norm_num) (by norm_num) (by norm_num) (by norm_num) (by norm_num))
      (1956371 / 50) (1583 / 2000) (30000) (by norm_num) (by norm_num [kskAlpha, paramsUint5]) (by norm_num)
      (by norm_num [paramsUint5]) (by norm_num [paramsUint5]) _ ?_
    refine le_of_le_of_eq ?_ hD.symm
    have hs := deleg_small (30000 : ℚ) (1956371 / 50 : ℚ) (by norm_num) (by norm_num)
    push_cast at hs ⊢
    exact hs
  · have hD : delegFail level = 1 / 2 ^ 100 := by subst e; norm_num [delegFail]
    generalize paramsFor level = P at *
    subst h
    refine C82_bool_num _ W keyFrom keyTo h1 h0 hbin m pdraw undef hq 3213 1850108 0 (1 / 2 ^ 102) (by positivity)
      (digits_trivial 1071 6 3)
      (g 1071 6 3 1850108 102 8192 (by norm_num) (by norm_num) (by norm_num) (by norm_num) (by norm_num) (by norm_num))
      (1956371 / 50) (1583 / 2000) (30000) (by norm_num) (by norm_num [kskAlpha, paramsUint6]) (by norm_num)
      (by norm_num [paramsUint6]) (by norm_num [paramsUint6]) _ ?_
    refine le_of_le_of_eq ?_ hD.symm
    have hs := deleg_small (30000 : ℚ) (1956371 / 50 : ℚ) (by norm_num) (by norm_num)
    push_cast at hs ⊢
    exact hs
  · have hD : delegFail level = 1 / 2 ^ 100 := by subst e; norm_num [delegFail]
    generalize paramsFor level = P at *
    subst h
    refine C82_bool_num _ W keyFrom keyTo h1 h0 hbin m pdraw undef hq 3480 241192 0 (1 / 2 ^ 102) (by positivity)
      (digits_trivial 1160 7 3)
      (g 1160 7 3 241192 102 1024 (by norm_num) (by norm_num) (by norm_num) (by norm_num) (by norm_num) (by norm_num))
      (14270547 / 100) (7043 / 8000) (130000) (by norm_num) (by norm_num [kskAlpha, paramsUint7]) (by norm_num)
      (by norm_num [paramsUint7]) (by norm_num [paramsUint7]) _ ?_
    refine le_of_le_of_eq ?_ hD.symm
    have hs := deleg_small (130000 : ℚ) (14270547 / 100 : ℚ) (by norm_num) (by norm_num)
    push_cast at hs ⊢
    exact hs
  · have hD : delegFail level = 1 / 2 ^ 100 := by subst e; norm_num [delegFail]
    generalize paramsFor level = P at *
    subst h
    refine C82_bool_num _ W keyFrom keyTo h1 h0 hbin m pdraw undef hq 3480 241192 0 (1 / 2 ^ 102) (by positivity)
      (digits_trivial 1160 7 3)
      (g 1160 7 3 241192 102 1024 (by norm_num) (by norm_num) (by norm_num) (by norm_num) (by norm_num) (by norm_num))
      (14270547 / 100) (7043 / 8000) (130000) (by norm_num) (by norm_num [kskAlpha, paramsUint8]) (by norm_num)
      (by norm_num [paramsUint8]) (by norm_num [paramsUint8]) _ ?_
    refine le_of_le_of_eq ?_ hD.symm
    have hs := deleg_small (130000 : ℚ) (14270547 / 100 : ℚ) (by norm_num) (by norm_num)
    push_cast at hs ⊢
    exact hs
  · have hD : delegFail level = 1 / 270 := by
      have hz : ∀ z : ℤ, z ∉ ({80, 110, 1, 2, 3, 4, 5, 6, 7, 8} : Set ℤ) → delegFail z = 1 / 270 := by
        intro z hz
        simp only [Set.mem_insert_iff, Set.mem_singleton_iff, not_or] at hz
        unfold delegFail
        rw [if_neg hz.1, if_neg hz.2.1, if_neg (by omega), if_neg (by omega), if_neg (by omega)]
      exact hz level e
    generalize paramsFor level = P at *
    subst h
    refine C82_bool_num _ W keyFrom keyTo h1 h0 hbin m pdraw undef hq 4913 706946 (1 / 2 ^ 22) (1 / 2 ^ 22) (by positivity)
      (digits_rare 700 2 9 4913 22 6 5 (by norm_num) (by norm_num) (by norm_num) (by decide +kernel))
      (g 700 2 9 706946 22 8192 (by norm_num) (by norm_num) (by norm_num) (by norm_num) (by norm_num) (by norm_num))
      (559 / 50) (3931 / 500000) (56104 / 10000) (by norm_num) (by norm_num [kskAlpha, params128Bit]) (by norm_num)
      (by norm_num [params128Bit]) (by norm_num [params128Bit]) _ ?_
    have a : Real.exp (-(((56104 / 10000 : ℚ)) : ℝ)) ≤ 3662 / 1000000 := exp_neg_le' (56104 / 10000) _ _ (by norm_num) (by norm_num) (by norm_num)
      (by norm_num [sum_range_succ, Nat.factorial])
    have b : Real.exp (-(((56104 / 10000 + 2 * (559 / 50) : ℚ)) : ℝ)) ≤ 1 / 80000 := exp_neg_le' (56104 / 10000 + 2 * (559 / 50)) _ _ (by norm_num) (by norm_num)
      (by norm_num) (by norm_num [sum_range_succ, Nat.factorial])
    refine hx _ _ _ _ _ _ a (by norm_num) b (le_of_le_of_eq ?_ hD.symm)
    norm_num

/-- The bounds of C82 for messages. -/
noncomputable def delegMsgFail (level : ℤ) : ℝ :=
  if level = 2 then 1 / 4 else if level = 3 then 1 / 2 ^ 25 else if level = 4 then 1 / 1200 else 1 / 2 ^ 100

theorem deleg_small_msg (x : ℝ) (hx : 200 ≤ x) : 2 * Real.exp (-x) + (0 + 1 / 2 ^ 102) ≤ 1 / 2 ^ 100 := by
  have a := exp_neg_le_two x 102 (by norm_num; linarith)
  have e : (1 : ℝ) / 2 ^ 100 = 4 * (1 / 2 ^ 102) := by norm_num
  have : (0 : ℝ) < 1 / 2 ^ 102 := by positivity
  linarith

/-- **C82**, messages at Uint2 to Uint8, of at most as many bits as the level is made for. -/
theorem C82_messages (level : SecurityLevel) (h2 : 2 ≤ level) (h8 : level ≤ 8) (fl : ℚ → ℚ) (hfl : IsRound fl)
    (keyFrom keyTo : List Torus)
    (h1 : keyFrom.length = (paramsFor level).tlweLv0.N) (h0 : keyTo.length = (paramsFor level).tlweLv0.N)
    (hbin : IsBinary keyFrom) (msg : ℤ) (k : ℕ) (hk : (k : ℤ) ≤ level) (pdraw : ℕ → ℕ → Torus) (undef : ℕ → ℕ → ℕ → ℚ)
    {q : ReencIx → Ω → ℚ} (hq : NoiseDraws μ q fun _ => ((kskAlpha (paramsFor level) : ℚ) : ℝ)) :
    ((μ.prod (uniformOn (Set.univ : Set (ReencTape (paramsFor level))))).prod
      (uniformOn (Set.univ : Set (Mask (paramsFor level).tlweLv0.N))))
      {x | delegateMessage fl (paramsFor level) keyFrom keyTo msg (2 ^ k) pdraw x.2.draw undef (fun i => q i x.1.1) x.1.2
        ≠ some (msg % (2 ^ k : ℕ))} ≤ ENNReal.ofReal (delegMsgFail level) := by
  have W := C63_wellFormed level
  have g : ∀ n b T R mm h : ℕ, b * T ≤ 31 → 1 ≤ b * T → 0 < n → n ≤ R → 2 ^ (31 - b * T) = h →
      ((mm : ℚ) + 1) * 0.6931471808 * (2 * n * h ^ 2) ≤ 3 * ((R : ℚ) - n / 2) ^ 2 →
      MaskProbLe (fun a : Mask n => (R : ℤ) < |maskRound n b T a.draw keyFrom|) (1 / 2 ^ mm) :=
    fun n b T R mm h a1 a2 a3 a4 a5 a6 => round_rare n b T R mm h a1 a2 a3 a4 a5 a6 keyFrom hbin
  have hS : ∀ c : ℕ, k ≤ c → 2 ^ (30 - c) ≤ 2 ^ (30 - k) := fun c hc => Nat.pow_le_pow_right (by norm_num) (by omega)
  have hkc : ∀ (z : ℤ) (c : ℕ), (k : ℤ) ≤ z → z = c → k ≤ c := fun z c a b => by omega
  rcases paramsFor_cases level with ⟨e, h⟩ | ⟨e, h⟩ | ⟨e, h⟩ | ⟨e, h⟩ | ⟨e, h⟩ | ⟨e, h⟩ | ⟨e, h⟩ |
      ⟨e, h⟩ | ⟨e, h⟩ | ⟨e, h⟩ | ⟨e, h⟩
  · subst e; exact absurd (And.intro h2 h8) (by decide)
  · subst e; exact absurd (And.intro h2 h8) (by decide)
  · subst e; exact absurd (And.intro h2 h8) (by decide)
  · have hD : delegMsgFail level = 1 / 4 := by subst e; norm_num [delegMsgFail]
    have hk' : k ≤ 2 := hkc level 2 hk e
    generalize paramsFor level = P at *
    subst h
    refine C82_message_num fl hfl _ W keyFrom keyTo h1 h0 hbin msg k (by omega) pdraw undef hq 1988 44800477 268435456 (hS 2 hk')
      (1 / 2 ^ 22) (1 / 2 ^ 22) (by positivity)
      (digits_rare 687 4 3 1988 22 37 20 (by norm_num) (by norm_num) (by norm_num) (by decide +kernel))
      (g 687 4 3 44800477 22 524288 (by norm_num) (by norm_num) (by norm_num) (by norm_num) (by norm_num) (by norm_num))
      (262 / 25) (629 / 200000) (21948 / 10000) (by norm_num) (by norm_num [kskAlpha, paramsUint2]) (by norm_num)
      (by norm_num [paramsUint2]) _ ?_
    have a : Real.exp (-(((21948 / 10000 : ℚ)) : ℝ)) ≤ 1 / 8.9 := exp_neg_le' (21948 / 10000) _ _ (by norm_num) (by norm_num) (by norm_num)
      (by norm_num [sum_range_succ, Nat.factorial])
    rw [hD]
    linarith
  · have hD : delegMsgFail level = 1 / 2 ^ 25 := by subst e; norm_num [delegMsgFail]
    have hk' : k ≤ 3 := hkc level 3 hk e
    generalize paramsFor level = P at *
    subst h
    refine C82_message_num fl hfl _ W keyFrom keyTo h1 h0 hbin msg k (by omega) pdraw undef hq 1640 56823493 134217728 (hS 3 hk')
      0 (1 / 2 ^ 30) (by positivity)
      (digits_trivial 820 6 2)
      (g 820 6 2 56823493 30 524288 (by norm_num) (by norm_num) (by norm_num) (by norm_num) (by norm_num) (by norm_num))
      (1011 / 4) (21249 / 1000000) (18612 / 1000) (by norm_num) (by norm_num [kskAlpha, paramsUint3]) (by norm_num)
      (by norm_num [paramsUint3]) _ ?_
    have a : Real.exp (-(((18612 / 1000 : ℚ)) : ℝ)) ≤ 1 / 2 ^ 26 - 1 / 2 ^ 31 := by
      have a2 : Real.exp (-(18612 / 4000 : ℝ)) ≤ 1 / 104 := exp_neg_le' (18612 / 4000) _ _ le_rfl (by norm_num)
        (by norm_num) (by norm_num [sum_range_succ, Nat.factorial])
      have e2 : -(((18612 / 1000 : ℚ)) : ℝ) = ((4 : ℕ) : ℝ) * -(18612 / 4000 : ℝ) := by norm_num
      rw [e2, Real.exp_nat_mul]
      exact (pow_le_pow_left₀ (Real.exp_pos _).le a2 4).trans (by norm_num)
    rw [hD]
    norm_num at a ⊢
    linarith
  · have hD : delegMsgFail level = 1 / 1200 := by subst e; norm_num [delegMsgFail]
    have hk' : k ≤ 4 := hkc level 4 hk e
    generalize paramsFor level = P at *
    subst h
    refine C82_message_num fl hfl _ W keyFrom keyTo h1 h0 hbin msg k (by omega) pdraw undef hq 2460 6118529 67108864 (hS 4 hk')
      0 (1 / 2 ^ 22) (by positivity)
      (digits_trivial 820 5 3)
      (g 820 5 3 6118529 22 65536 (by norm_num) (by norm_num) (by norm_num) (by norm_num) (by norm_num) (by norm_num))
      (13617 / 100) (37 / 4000) (7804 / 1000) (by norm_num) (by norm_num [kskAlpha, paramsUint4]) (by norm_num)
      (by norm_num [paramsUint4]) _ ?_
    have a : Real.exp (-(((7804 / 1000 : ℚ)) : ℝ)) ≤ 1 / 2410 := exp_neg_le' (7804 / 1000) _ _ (by norm_num) (by norm_num) (by norm_num)
      (by norm_num [sum_range_succ, Nat.factorial])
    rw [hD]
    linarith
  · have hD : delegMsgFail level = 1 / 2 ^ 100 := by subst e; norm_num [delegMsgFail]
    have hk' : k ≤ 5 := hkc level 5 hk e
    generalize paramsFor level = P at *
    subst h
    refine C82_message_num fl hfl _ W keyFrom keyTo h1 h0 hbin msg k (by omega) pdraw undef hq 3213 1850104 33554432 (hS 5 hk')
      0 (1 / 2 ^ 102) (by positivity)
      (digits_trivial 1071 6 3)
      (g 1071 6 3 1850104 102 8192 (by norm_num) (by norm_num) (by norm_num) (by norm_num) (by norm_num) (by norm_num))
      (2480721 / 100) (159 / 500) (900) (by norm_num) (by norm_num [kskAlpha, paramsUint5]) (by norm_num)
      (by norm_num [paramsUint5]) _ ?_
    refine le_of_le_of_eq ?_ hD.symm
    have hs := deleg_small_msg (900 : ℚ) (by norm_num)
    push_cast at hs ⊢
    exact hs
  · have hD : delegMsgFail level = 1 / 2 ^ 100 := by subst e; norm_num [delegMsgFail]
    have hk' : k ≤ 6 := hkc level 6 hk e
    generalize paramsFor level = P at *
    subst h
    refine C82_message_num fl hfl _ W keyFrom keyTo h1 h0 hbin msg k (by omega) pdraw undef hq 3213 1850104 16777216 (hS 6 hk')
      0 (1 / 2 ^ 102) (by positivity)
      (digits_trivial 1071 6 3)
      (g 1071 6 3 1850104 102 8192 (by norm_num) (by norm_num) (by norm_num) (by norm_num) (by norm_num) (by norm_num))
      (441557 / 25) (403 / 2500) (285) (by norm_num) (by norm_num [kskAlpha, paramsUint6]) (by norm_num)
      (by norm_num [paramsUint6]) _ ?_
    refine le_of_le_of_eq ?_ hD.symm
    have hs := deleg_small_msg (285 : ℚ) (by norm_num)
    push_cast at hs ⊢
    exact hs
  · have hD : delegMsgFail level = 1 / 2 ^ 100 := by subst e; norm_num [delegMsgFail]
    have hk' : k ≤ 7 := hkc level 7 hk e
    generalize paramsFor level = P at *
    subst h
    refine C82_message_num fl hfl _ W keyFrom keyTo h1 h0 hbin msg k (by omega) pdraw undef hq 3480 241191 8388608 (hS 7 hk')
      0 (1 / 2 ^ 102) (by positivity)
      (digits_trivial 1160 7 3)
      (g 1160 7 3 241191 102 1024 (by norm_num) (by norm_num) (by norm_num) (by norm_num) (by norm_num) (by norm_num))
      (1996688 / 25) (2747 / 10000) (700) (by norm_num) (by norm_num [kskAlpha, paramsUint7]) (by norm_num)
      (by norm_num [paramsUint7]) _ ?_
    refine le_of_le_of_eq ?_ hD.symm
    have hs := deleg_small_msg (700 : ℚ) (by norm_num)
    push_cast at hs ⊢
    exact hs
  · have hD : delegMsgFail level = 1 / 2 ^ 100 := by subst e; norm_num [delegMsgFail]
    have hk' : k ≤ 8 := hkc level 8 hk e
    generalize paramsFor level = P at *
    subst h
    refine C82_message_num fl hfl _ W keyFrom keyTo h1 h0 hbin msg k (by omega) pdraw undef hq 3480 241191 4194304 (hS 8 hk')
      0 (1 / 2 ^ 102) (by positivity)
      (digits_trivial 1160 7 3)
      (g 1160 7 3 241191 102 1024 (by norm_num) (by norm_num) (by norm_num) (by norm_num) (by norm_num) (by norm_num))
      (5544787 / 100) (331 / 2500) (231) (by norm_num) (by norm_num [kskAlpha, paramsUint8]) (by norm_num)
      (by norm_num [paramsUint8]) _ ?_
    refine le_of_le_of_eq ?_ hD.symm
    have hs := deleg_small_msg (231 : ℚ) (by norm_num)
    push_cast at hs ⊢
    exact hs
  · have hz : ∀ z : ℤ, z ∉ ({80, 110, 1, 2, 3, 4, 5, 6, 7, 8} : Set ℤ) → 2 ≤ z → z ≤ 8 → False := by
      intro z hz a b
      simp only [Set.mem_insert_iff, Set.mem_singleton_iff, not_or] at hz
      omega
    exact (hz level e h2 h8).elim

end

/-! ### Non-vacuity -/

/-- C82 with normal variables cut off to 60 binary places, at 128 bits with a third of the key bits set. -/
example (m : Bool) : ((normals (fun _ : ReencIx => ((kskAlpha (paramsFor 128) : ℚ) : ℝ))).prod
      (uniformOn (Set.univ : Set (ReencTape (paramsFor 128))))).prod (uniformOn (Set.univ : Set (Mask 700)))
    {x | delegateBool (paramsFor 128) (onesThird 700) (onesThird 700) m (fun e i => BitVec.ofNat 32 (e * 977 + i * 2654435761))
      x.2.draw (fun _ _ _ => 0) (fun i => cutNormal 60 i x.1.1) x.1.2 ≠ some m} ≤ ENNReal.ofReal (1 / 270) := by
  have h := C82_levels 128 (onesThird 700) (onesThird 700) (length_onesThird 700) (length_onesThird 700)
    (isBinary_onesThird 700) m (fun e i => BitVec.ofNat 32 (e * 977 + i * 2654435761)) (fun _ _ _ => 0)
    (noiseDraws_normal (fun _ : ReencIx => ((kskAlpha (paramsFor 128) : ℚ) : ℝ)) 60)
  have e : delegFail 128 = 1 / 270 := by norm_num [delegFail]
  rw [e] at h
  exact h

/-- C82 for messages modulo 32 at Uint5. -/
example (msg : ℤ) : ((normals (fun _ : ReencIx => ((kskAlpha (paramsFor 5) : ℚ) : ℝ))).prod
      (uniformOn (Set.univ : Set (ReencTape (paramsFor 5))))).prod (uniformOn (Set.univ : Set (Mask 1071)))
    {x | delegateMessage rne (paramsFor 5) (onesThird 1071) (onesThird 1071) msg (2 ^ 5)
      (fun e i => BitVec.ofNat 32 (e * 977 + i * 2654435761)) x.2.draw (fun _ _ _ => 0) (fun i => cutNormal 60 i x.1.1) x.1.2
      ≠ some (msg % (2 ^ 5 : ℕ))} ≤ ENNReal.ofReal (1 / 2 ^ 100) := by
  have h := C82_messages 5 (by decide) (by decide) rne isRound_rne (onesThird 1071) (onesThird 1071) (length_onesThird 1071)
    (length_onesThird 1071) (isBinary_onesThird 1071) msg 5 (by decide)
    (fun e i => BitVec.ofNat 32 (e * 977 + i * 2654435761)) (fun _ _ _ => 0)
    (noiseDraws_normal (fun _ : ReencIx => ((kskAlpha (paramsFor 5) : ℚ) : ℝ)) 60)
  have e : delegMsgFail 5 = 1 / 2 ^ 100 := by norm_num [delegMsgFail]
  rw [e] at h
  exact h

end GoTfhe
