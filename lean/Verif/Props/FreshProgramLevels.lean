import Verif.Props.FreshProgram

/-!
# C90: the numbers of the gate levels
-/

namespace GoTfhe

open MeasureTheory ProbabilityTheory

/-- The exponent of the failure probability of a gate on an earlier result and a new ciphertext, by level. -/
def freshBitsOf (level : ℤ) : ℕ := if level = 80 then 11 else if level = 110 then 17 else 19

theorem stepFail_80 : stepFail params80Bit 322 577 22387 43882100 481675000 51000000 0.00079 0.455830 0.1 ≤ 1 / 2 ^ 11 := by
  have t1 : driftTail params80Bit 322 51000000 ≤ 1 / 2 ^ 14 := two_exp_le_neg (by
    norm_num [params80Bit])
  have t2 : 2 * Real.exp (-(0.00079 * (22387 : ℕ)) + 0.00079 * (577 : ℕ) + biasExp 550 1024 0.00079 0.455830 0.1)
      ≤ 1 / 2 ^ 12 := two_exp_le_neg (by
    norm_num [biasExp])
  have t3 : 2 * Real.exp (-(((43882100 : ℕ) : ℝ) ^ 2 / (8 * 8320 ^ 2 * ((322 : ℕ) * (577 : ℕ))))) ≤ 1 / 2 ^ 26 :=
    two_exp_le_neg (by norm_num)
  have t4 : 2 * (((550 : ℕ) : ℝ) * (1 / 2) ^ 2 ^ 9) ≤ 1 / 2 ^ 99 := half_pow_le _ (by norm_num)
  have hv : keyVar params80Bit = _ := keyVar_cast _
  have t5 : 2 * Real.exp (-(((481675000 - roundLimit params80Bit 322 577 22387 43882100 : ℕ) : ℝ) ^ 2 / (2 * keyVar params80Bit)))
      ≤ 1 / 2 ^ 25 := two_exp_le_neg (by
    rw [hv]
    norm_num [kskAlpha, bskAlpha, params80Bit, roundLimit, roundRest, lostRest])
  show driftTail params80Bit 322 51000000 + 2 * Real.exp _ + 2049 * (2 * Real.exp _ + 2 * (((550 : ℕ) : ℝ) * (1 / 2) ^ 2 ^ 9)
    + 2 * Real.exp _) ≤ _
  refine le_trans (add_le_add (add_le_add t1 t2) (mul_le_mul_of_nonneg_left (add_le_add (add_le_add t3 t4) t5)
    (by norm_num))) ?_
  norm_num

theorem startFail_80 : Real.exp (-(2 * ((322 : ℕ) + 1 - (550 : ℕ) / 2 : ℝ) ^ 2 / (550 : ℕ)))
      + Real.exp (-(2 * ((577 : ℕ) + 1 - (1024 : ℕ) / 2 : ℝ) ^ 2 / (1024 : ℕ))) ≤ 1 / 2 ^ 11 ∧
    2 * Real.exp (-(((2 ^ 21 : ℕ) : ℝ) ^ 2 / (2 * (2 ^ 32 * ((kskAlpha params80Bit : ℚ) : ℝ)) ^ 2))) ≤ 1 / 2 ^ 60 := by
  have t0 : Real.exp (-(2 * ((322 : ℕ) + 1 - (550 : ℕ) / 2 : ℝ) ^ 2 / (550 : ℕ))) ≤ 1 / 2 ^ (11 + 1) :=
    exp_le_neg (by norm_num)
  have t1 : Real.exp (-(2 * ((577 : ℕ) + 1 - (1024 : ℕ) / 2 : ℝ) ^ 2 / (1024 : ℕ))) ≤ 1 / 2 ^ (11 + 1) :=
    exp_le_neg (by norm_num)
  exact ⟨(add_le_add t0 t1).trans (by norm_num), two_exp_le_neg (by norm_num [kskAlpha, params80Bit])⟩

theorem stepFail_110 : stepFail params110Bit 377 591 29156 53126300 467670000 65000000 0.00086 0.508260 0.12 ≤ 1 / 2 ^ 17 := by
  have t1 : driftTail params110Bit 377 65000000 ≤ 1 / 2 ^ 20 := two_exp_le_neg (by
    norm_num [params110Bit])
  have t2 : 2 * Real.exp (-(0.00086 * (29156 : ℕ)) + 0.00086 * (591 : ℕ) + biasExp 630 1024 0.00086 0.508260 0.12)
      ≤ 1 / 2 ^ 18 := two_exp_le_neg (by
    norm_num [biasExp])
  have t3 : 2 * Real.exp (-(((53126300 : ℕ) : ℝ) ^ 2 / (8 * 8320 ^ 2 * ((377 : ℕ) * (591 : ℕ))))) ≤ 1 / 2 ^ 32 :=
    two_exp_le_neg (by norm_num)
  have t4 : 2 * (((630 : ℕ) : ℝ) * (1 / 2) ^ 2 ^ 9) ≤ 1 / 2 ^ 99 := half_pow_le _ (by norm_num)
  have hv : keyVar params110Bit = _ := keyVar_cast _
  have t5 : 2 * Real.exp (-(((467670000 - roundLimit params110Bit 377 591 29156 53126300 : ℕ) : ℝ) ^ 2 / (2 * keyVar params110Bit)))
      ≤ 1 / 2 ^ 31 := two_exp_le_neg (by
    rw [hv]
    norm_num [kskAlpha, bskAlpha, params110Bit, roundLimit, roundRest, lostRest])
  show driftTail params110Bit 377 65000000 + 2 * Real.exp _ + 2049 * (2 * Real.exp _ + 2 * (((630 : ℕ) : ℝ) * (1 / 2) ^ 2 ^ 9)
    + 2 * Real.exp _) ≤ _
  refine le_trans (add_le_add (add_le_add t1 t2) (mul_le_mul_of_nonneg_left (add_le_add (add_le_add t3 t4) t5)
    (by norm_num))) ?_
  norm_num

theorem startFail_110 : Real.exp (-(2 * ((377 : ℕ) + 1 - (630 : ℕ) / 2 : ℝ) ^ 2 / (630 : ℕ)))
      + Real.exp (-(2 * ((591 : ℕ) + 1 - (1024 : ℕ) / 2 : ℝ) ^ 2 / (1024 : ℕ))) ≤ 1 / 2 ^ 17 ∧
    2 * Real.exp (-(((2 ^ 21 : ℕ) : ℝ) ^ 2 / (2 * (2 ^ 32 * ((kskAlpha params110Bit : ℚ) : ℝ)) ^ 2))) ≤ 1 / 2 ^ 60 := by
  have t0 : Real.exp (-(2 * ((377 : ℕ) + 1 - (630 : ℕ) / 2 : ℝ) ^ 2 / (630 : ℕ))) ≤ 1 / 2 ^ (17 + 1) :=
    exp_le_neg (by norm_num)
  have t1 : Real.exp (-(2 * ((591 : ℕ) + 1 - (1024 : ℕ) / 2 : ℝ) ^ 2 / (1024 : ℕ))) ≤ 1 / 2 ^ (17 + 1) :=
    exp_le_neg (by norm_num)
  exact ⟨(add_le_add t0 t1).trans (by norm_num), two_exp_le_neg (by norm_num [kskAlpha, params110Bit])⟩

theorem stepFail_128 : stepFail params128Bit 419 596 32365 57923100 461652000 71024000 0.00085 0.506600 0.12 ≤ 1 / 2 ^ 19 := by
  have t1 : driftTail params128Bit 419 71024000 ≤ 1 / 2 ^ 22 := two_exp_le_neg (by
    norm_num [params128Bit])
  have t2 : 2 * Real.exp (-(0.00085 * (32365 : ℕ)) + 0.00085 * (596 : ℕ) + biasExp 700 1024 0.00085 0.506600 0.12)
      ≤ 1 / 2 ^ 20 := two_exp_le_neg (by
    norm_num [biasExp])
  have t3 : 2 * Real.exp (-(((57923100 : ℕ) : ℝ) ^ 2 / (8 * 8320 ^ 2 * ((419 : ℕ) * (596 : ℕ))))) ≤ 1 / 2 ^ 34 :=
    two_exp_le_neg (by norm_num)
  have t4 : 2 * (((700 : ℕ) : ℝ) * (1 / 2) ^ 2 ^ 9) ≤ 1 / 2 ^ 99 := half_pow_le _ (by norm_num)
  have hv : keyVar params128Bit = _ := keyVar_cast _
  have t5 : 2 * Real.exp (-(((461652000 - roundLimit params128Bit 419 596 32365 57923100 : ℕ) : ℝ) ^ 2 / (2 * keyVar params128Bit)))
      ≤ 1 / 2 ^ 33 := two_exp_le_neg (by
    rw [hv]
    norm_num [kskAlpha, bskAlpha, params128Bit, roundLimit, roundRest, lostRest])
  show driftTail params128Bit 419 71024000 + 2 * Real.exp _ + 2049 * (2 * Real.exp _ + 2 * (((700 : ℕ) : ℝ) * (1 / 2) ^ 2 ^ 9)
    + 2 * Real.exp _) ≤ _
  refine le_trans (add_le_add (add_le_add t1 t2) (mul_le_mul_of_nonneg_left (add_le_add (add_le_add t3 t4) t5)
    (by norm_num))) ?_
  norm_num

theorem startFail_128 : Real.exp (-(2 * ((419 : ℕ) + 1 - (700 : ℕ) / 2 : ℝ) ^ 2 / (700 : ℕ)))
      + Real.exp (-(2 * ((596 : ℕ) + 1 - (1024 : ℕ) / 2 : ℝ) ^ 2 / (1024 : ℕ))) ≤ 1 / 2 ^ 19 ∧
    2 * Real.exp (-(((2 ^ 21 : ℕ) : ℝ) ^ 2 / (2 * (2 ^ 32 * ((kskAlpha params128Bit : ℚ) : ℝ)) ^ 2))) ≤ 1 / 2 ^ 60 := by
  have t0 : Real.exp (-(2 * ((419 : ℕ) + 1 - (700 : ℕ) / 2 : ℝ) ^ 2 / (700 : ℕ))) ≤ 1 / 2 ^ (19 + 1) :=
    exp_le_neg (by norm_num)
  have t1 : Real.exp (-(2 * ((596 : ℕ) + 1 - (1024 : ℕ) / 2 : ℝ) ^ 2 / (1024 : ℕ))) ≤ 1 / 2 ^ (19 + 1) :=
    exp_le_neg (by norm_num)
  exact ⟨(add_le_add t0 t1).trans (by norm_num), two_exp_le_neg (by norm_num [kskAlpha, params128Bit])⟩

section

variable {Ω Ωe : Type*} [MeasurableSpace Ω] [MeasurableSpace Ωe] {μ : Measure Ω} [IsProbabilityMeasure μ]
  {μe : Measure Ωe} [IsProbabilityMeasure μe]
variable {fl : ℚ → ℚ} (hfl : IsRound fl) {fu : Fusing} {ce : ℚ → ℚ × ℚ} (hce : CexpAccurate ce (1 / 2 ^ 52))

include hfl hce

/-- **C90**: key generation, `M` encryptions and any program of gates of any depth in which every gate combines an earlier
result, or an encryption, with an encryption on which that result does not depend. All results decrypt correctly, except with
probability `(gates + 1) / 2^19` (128 bits), `(gates + 1) / 2^17` (110 bits) or `(gates + 1) / 2^11` (80 bits), plus
`M / 2^60`. -/
theorem C90_program (level : SecurityLevel) (hlev : level ≤ 0 ∨ 9 ≤ level) {e : PolyEval ℚ}
    (he : newPolyEval (floatArith fl fu mathPi ce) ((paramsFor level).trgswLv1.N : ℤ) = some e) (R : KeyGenRand)
    {q : DrawIx → Ω → ℚ} (hq : NoiseDraws μ q (drawStd (paramsFor level))) {M : ℕ}
    {qe : Fin M → Ωe → ℚ} (hqe : NoiseDraws μe qe fun _ => ((kskAlpha (paramsFor level) : ℚ) : ℝ))
    (schedK schedB : Ω → SessionDice (paramsFor level) M → List ℕ)
    (hsched : ∀ ω z, ∃ sk ck, newSecretKey (paramsFor level) (keyCoins z.coins0) (keyCoins z.coins1) = some sk ∧
      newCloudKey (paramsFor level) (fftOps (floatArith fl fu mathPi ce) e) sk.keyLv0 sk.keyLv1
        ((R.withEntryMasks z.bsk).withDraws fun d => q d ω) (schedK ω z) (schedB ω z) = some (true, ck))
    (x : Fin M → Bool) (jobs : List (Gate2 × ℕ × Fin M)) (hj : Fresh jobs) (tr0 : TRef → Trlwe) (lw0 : LRef → List Torus) :
    ((μ.prod μe).prod (uniformOn (Set.univ : Set (SessionDice (paramsFor level) M))))
      {z | freshRun (paramsFor level) (fftOps (floatArith fl fu mathPi ce) e) R tr0 lw0 (schedK z.1.1 z.2) (schedB z.1.1 z.2)
          x jobs (fun d => q d z.1.1) (fun i => qe i z.1.2) z.2
        ≠ some (freshBits x ((List.finRange M).map x) jobs)}
      ≤ ENNReal.ofReal ((jobs.length + 1) / 2 ^ freshBitsOf level + M / 2 ^ 60) := by
  have main := program_fail hfl hce level hlev he R hq hqe schedK schedB hsched x jobs hj tr0 lw0
  have fin : ∀ (a b s : ℝ) (k : ℕ), a ≤ 1 / 2 ^ k → b ≤ 1 / 2 ^ 60 → s ≤ 1 / 2 ^ k →
      a + M * b + jobs.length * s ≤ (jobs.length + 1) / 2 ^ k + M / 2 ^ 60 := by
    intro a b s k ha hb hs
    have h1 : (M : ℝ) * b ≤ M * (1 / 2 ^ 60) := mul_le_mul_of_nonneg_left hb (Nat.cast_nonneg _)
    have h2 : (jobs.length : ℝ) * s ≤ jobs.length * (1 / 2 ^ k) := mul_le_mul_of_nonneg_left hs (Nat.cast_nonneg _)
    have h3 : ((jobs.length : ℝ) + 1) / 2 ^ k = jobs.length * (1 / 2 ^ k) + 1 / 2 ^ k := by ring
    have h4 : (M : ℝ) / 2 ^ 60 = M * (1 / 2 ^ 60) := by ring
    rw [h3, h4]
    linarith
  rcases paramsFor_cases level with ⟨rfl, h⟩ | ⟨rfl, h⟩ | ⟨rfl, h⟩ | ⟨rfl, h⟩ | ⟨rfl, h⟩ | ⟨rfl, h⟩ | ⟨rfl, h⟩ |
    ⟨rfl, h⟩ | ⟨rfl, h⟩ | ⟨rfl, h⟩ | ⟨hl, h⟩
  case inl =>
    refine (main 322 577 22387 43882100 481675000 (2 ^ 21) 51000000 ?_ ?_ (by norm_num) (by norm_num) (by norm_num) (by norm_num) ?_
      0.00079 0.455830 0.1 (by norm_num) (by norm_num) (by norm_num) (by norm_num) ?_).trans (ENNReal.ofReal_le_ofReal
        (h ▸ fin _ _ _ 11 startFail_80.1 startFail_80.2 stepFail_80)) <;> rw [h] <;>
      norm_num [params80Bit, roundLimit, roundRest, lostRest]
  case inr.inl =>
    refine (main 377 591 29156 53126300 467670000 (2 ^ 21) 65000000 ?_ ?_ (by norm_num) (by norm_num) (by norm_num) (by norm_num) ?_
      0.00086 0.508260 0.12 (by norm_num) (by norm_num) (by norm_num) (by norm_num) ?_).trans (ENNReal.ofReal_le_ofReal
        (h ▸ fin _ _ _ 17 startFail_110.1 startFail_110.2 stepFail_110)) <;> rw [h] <;>
      norm_num [params110Bit, roundLimit, roundRest, lostRest]
  case inr.inr.inr.inr.inr.inr.inr.inr.inr.inr =>
    have hb : freshBitsOf level = 19 := by
      unfold freshBitsOf
      simp only [Set.mem_insert_iff, Set.mem_singleton_iff, not_or] at hl
      rw [if_neg hl.1, if_neg hl.2.1]
    rw [hb]
    refine (main 419 596 32365 57923100 461652000 (2 ^ 21) 71024000 ?_ ?_ (by norm_num) (by norm_num) (by norm_num) (by norm_num) ?_
      0.00085 0.506600 0.12 (by norm_num) (by norm_num) (by norm_num) (by norm_num) ?_).trans (ENNReal.ofReal_le_ofReal
        (h ▸ fin _ _ _ 19 startFail_128.1 startFail_128.2 stepFail_128)) <;> rw [h] <;>
      norm_num [params128Bit, roundLimit, roundRest, lostRest]
  all_goals exact absurd hlev (by norm_num)

omit hfl hce in
theorem fresh_foldJobs (g : Gate2) {M : ℕ} (js : List (Fin M)) : ∀ (i : ℕ) (D : List (Finset (Fin M))) (_ : i < D.length)
    (_ : ∀ j ∈ js, j ∉ D.getD i ∅) (_ : js.Nodup), FreshFrom D (foldJobs g i D.length js) := by
  induction js with
  | nil => exact fun _ _ _ _ _ => trivial
  | cons j js ih =>
    intro i D hi hj hn
    refine ⟨hi, hj j List.mem_cons_self, ?_⟩
    have h := ih D.length (D ++ [insert j (D.getD i ∅)]) (by simp) ?_ (List.nodup_cons.1 hn).2
    · rw [List.length_append] at h
      exact h
    · intro k hk
      rw [List.getD_append_right _ _ _ _ le_rfl, Nat.sub_self]
      show k ∉ insert j (D.getD i ∅)
      rw [Finset.mem_insert, not_or]
      exact ⟨fun h => (List.nodup_cons.1 hn).1 (h ▸ hk), hj k (List.mem_cons_of_mem _ hk)⟩

omit hfl hce in
theorem length_foldJobs (g : Gate2) {M : ℕ} (js : List (Fin M)) : ∀ i r, (foldJobs g i r js).length = js.length := by
  induction js with
  | nil => exact fun _ _ => rfl
  | cons j js ih => intro i r; simp [foldJobs, ih]

omit hfl hce in
theorem last_foldJobs (g : Gate2) {M : ℕ} (x : Fin M → Bool) (js : List (Fin M)) : ∀ (i : ℕ) (regs : List Bool) (j : Fin M),
    (freshBits x regs (foldJobs g i regs.length (j :: js))).getLast?
      = some ((j :: js).foldl (fun b j => g.eval b (x j)) (regs.getD i false)) := by
  induction js with
  | nil => intro i regs j; simp [foldJobs, freshBits]
  | cons k js ih =>
    intro i regs j
    have h := ih regs.length (regs ++ [g.eval (regs.getD i false) (x j)]) k
    rw [List.getD_append_right _ _ _ _ le_rfl, Nat.sub_self, List.length_append] at h
    exact h

/-- **C90**: the AND, OR, XOR or any other gate of `n + 2` encrypted bits, taken from left to right, for every `n`. -/
theorem C90_fold (level : SecurityLevel) (hlev : level ≤ 0 ∨ 9 ≤ level) {e : PolyEval ℚ}
    (he : newPolyEval (floatArith fl fu mathPi ce) ((paramsFor level).trgswLv1.N : ℤ) = some e) (R : KeyGenRand)
    {q : DrawIx → Ω → ℚ} (hq : NoiseDraws μ q (drawStd (paramsFor level))) {n : ℕ}
    {qe : Fin (n + 2) → Ωe → ℚ} (hqe : NoiseDraws μe qe fun _ => ((kskAlpha (paramsFor level) : ℚ) : ℝ))
    (schedK schedB : Ω → SessionDice (paramsFor level) (n + 2) → List ℕ)
    (hsched : ∀ ω z, ∃ sk ck, newSecretKey (paramsFor level) (keyCoins z.coins0) (keyCoins z.coins1) = some sk ∧
      newCloudKey (paramsFor level) (fftOps (floatArith fl fu mathPi ce) e) sk.keyLv0 sk.keyLv1
        ((R.withEntryMasks z.bsk).withDraws fun d => q d ω) (schedK ω z) (schedB ω z) = some (true, ck))
    (g : Gate2) (x : Fin (n + 2) → Bool) (tr0 : TRef → Trlwe) (lw0 : LRef → List Torus) :
    ((μ.prod μe).prod (uniformOn (Set.univ : Set (SessionDice (paramsFor level) (n + 2)))))
      {z | (freshRun (paramsFor level) (fftOps (floatArith fl fu mathPi ce) e) R tr0 lw0 (schedK z.1.1 z.2) (schedB z.1.1 z.2)
          x (foldJobs g 0 (n + 2) ((List.finRange (n + 1)).map Fin.succ)) (fun d => q d z.1.1) (fun i => qe i z.1.2) z.2).bind
            List.getLast?
        ≠ some ((List.ofFn fun i : Fin (n + 1) => x i.succ).foldl g.eval (x 0))}
      ≤ ENNReal.ofReal ((n + 2) / 2 ^ freshBitsOf level + (n + 2) / 2 ^ 60) := by
  have hfr : Fresh (foldJobs g 0 (n + 2) ((List.finRange (n + 1)).map Fin.succ)) := by
    have h := fresh_foldJobs g ((List.finRange (n + 1)).map Fin.succ) 0
      ((List.finRange (n + 2)).map fun i => ({i} : Finset (Fin (n + 2)))) (by simp) (by
        intro j hj
        obtain ⟨k, -, rfl⟩ := List.mem_map.1 hj
        rw [List.getD_eq_getElem _ _ (by simp), List.getElem_map, List.getElem_finRange, Finset.mem_singleton]
        exact Fin.succ_ne_zero k) ((List.nodup_finRange _).map (Fin.succ_injective _))
    rw [List.length_map, List.length_finRange] at h
    exact h
  have main := C90_program hfl hce level hlev he R hq hqe schedK schedB hsched x _ hfr tr0 lw0
  rw [length_foldJobs, List.length_map, List.length_finRange] at main
  have hl : (freshBits x ((List.finRange (n + 2)).map x) (foldJobs g 0 (n + 2) ((List.finRange (n + 1)).map Fin.succ))).getLast?
      = some ((List.ofFn fun i : Fin (n + 1) => x i.succ).foldl g.eval (x 0)) := by
    have h := last_foldJobs g x ((List.finRange n).map fun i => i.succ.succ) 0 ((List.finRange (n + 2)).map x) (Fin.succ 0)
    have e1 : (List.finRange (n + 1)).map Fin.succ = Fin.succ 0 :: (List.finRange n).map fun i => i.succ.succ := by
      rw [List.finRange_succ, List.map_cons, List.map_map]
      rfl
    rw [← e1, List.length_map, List.length_finRange] at h
    rw [h, List.foldl_map, List.ofFn_eq_map, List.foldl_map]
    rw [show ((List.finRange (n + 2)).map x).getD 0 false = x 0 by rw [List.finRange_succ]; rfl]
  refine (measure_mono ?_).trans (main.trans (ENNReal.ofReal_le_ofReal (le_of_eq ?_)))
  · intro z hz hgood
    refine hz ?_
    rw [hgood]
    exact hl
  · push_cast
    ring

end

/-- Non-vacuity of `C90_program` and `C90_fold`: the AND of a thousand encrypted bits, 999 gates deep, normal noise cut off to
60 binary places, 128 bits. -/
example (fu : Fusing) (R : KeyGenRand) (x : Fin 1000 → Bool) : ∃ (fl : ℚ → ℚ) (ce : ℚ → ℚ × ℚ) (e : PolyEval ℚ)
    (sK sB : (DrawIx → ℝ) → SessionDice (paramsFor 128) 1000 → List ℕ),
    (((normals (drawStd (paramsFor 128))).prod (normals fun _ : Fin 1000 => ((kskAlpha (paramsFor 128) : ℚ) : ℝ))).prod
        (uniformOn (Set.univ : Set (SessionDice (paramsFor 128) 1000))))
      {z | (freshRun (paramsFor 128) (fftOps (floatArith fl fu mathPi ce) e) R (fun _ => ⟨[], []⟩) (fun _ => [])
          (sK z.1.1 z.2) (sB z.1.1 z.2) x (foldJobs .and 0 1000 ((List.finRange 999).map Fin.succ))
          (fun d => cutNormal 60 d z.1.1) (fun i => cutNormal 60 i z.1.2) z.2).bind List.getLast?
        ≠ some ((List.ofFn fun i : Fin 999 => x i.succ).foldl and (x 0))}
      ≤ ENNReal.ofReal (1 / 500) := by
  obtain ⟨ce, hce⟩ := exists_cexp (1 / 2 ^ 52) (by norm_num)
  have he : newPolyEval (floatArith rne fu mathPi ce) ((paramsFor 128).trgswLv1.N : ℤ) = some (pev (floatArith rne fu mathPi ce) 9) :=
    (newPolyEval_some _ 1024 _).2 ⟨9, by norm_num, by norm_num, rfl⟩
  obtain ⟨sK, sB, h⟩ := exists_session_schedules 128 1000 he R (cutNormal 60 : DrawIx → (DrawIx → ℝ) → ℚ)
  refine ⟨rne, ce, pev (floatArith rne fu mathPi ce) 9, sK, sB,
    (C90_fold (n := 998) isRound_rne hce 128 (by norm_num) he R (noiseDraws_normal (drawStd (paramsFor 128)) 60)
      (noiseDraws_normal (fun _ : Fin 1000 => ((kskAlpha (paramsFor 128) : ℚ) : ℝ)) 60) sK sB h .and x _ _).trans
      (ENNReal.ofReal_le_ofReal ?_)⟩
  rw [show freshBitsOf 128 = 19 from rfl]
  norm_num

end GoTfhe
