import Verif.Spec.FreshProgram
import Verif.Lemmas.FreshStep
import Verif.Props.Session

/-!
# C90: the probability that a program of gates of any depth fails, one input of every gate being new
-/

namespace GoTfhe

open MeasureTheory ProbabilityTheory Finset

variable {O : FourierOps} {P : Params}

/-- The result of a gate whose input is rounded by at most `d`. -/
theorem enc_bootOut (W : WellFormed P) (L : FourierLaws O) (ck : CloudKey O) (s0 s1 : List Torus) (g : Gate2)
    (a b : List Torus) (x y : Bool) (ea eb : Torus) (d : ℕ) (hx : Enc P.tlweLv0.N a s0 x ea) (hy : Enc P.tlweLv0.N b s0 y eb)
    (hnear : Near P (lin P.tlweLv0.N g.coef.1 g.coef.2.1 g.coef.2.2 a b) s0 d) (hm : nrm ea + g.mult * nrm eb + d < 2 ^ 29) :
    Enc P.tlweLv0.N (bootOut P L ck (gateTestvec P) (lin P.tlweLv0.N g.coef.1 g.coef.2.1 g.coef.2.2 a b)) s0 (g.eval x y)
      (bootNoise P L ck s0 s1 (gateTestvec P) (lin P.tlweLv0.N g.coef.1 g.coef.2.1 g.coef.2.2 a b)) := by
  refine ⟨length_bootPure _ _ _ _ _ _ _, boot_bool W L ck s0 s1 _ _ hnear ?_⟩
  have hph : phase P.tlweLv0.N (lin P.tlweLv0.N g.coef.1 g.coef.2.1 g.coef.2.2 a b) s0
      = (g.coef.1 * bval x + g.coef.2.1 * bval y + g.coef.2.2) + (g.coef.1 * ea + g.coef.2.1 * eb) := by
    rw [phase_lin, hx.2, hy.2]; ring
  rw [hph]
  exact margin_of_table _ _ _ _ (by have := nrm_gate_noise g ea eb; omega) (gate_table g x y)

theorem enc_bitCt (P : Params) (s : Fin P.tlweLv0.N → Bool) (a : Mask P.tlweLv0.N) (b : Bool) (u : ℚ) :
    Enc P.tlweLv0.N (bitCt s a b u) (keyOf s) b (f64ToTorus u) := by
  obtain ⟨c, e, h⟩ := enc_of_encryptBool P (newTLWELv0 P) (keyOf s) b a.draw u (by simp [keyOf]) (by simp [newTLWELv0])
  rw [encryptBool_bitCt] at e
  obtain rfl := Option.some.inj e
  exact h

theorem coef2_cases (g : Gate2) : g.coef.2.1 = 1 ∨ g.coef.2.1 = -1 ∨ g.coef.2.1 = 2 ∨ g.coef.2.1 = -2 := by
  cases g <;> decide

/-- A register encrypts its bit, with noise below `S`. -/
def RegOk (P : Params) {M : ℕ} (S : ℕ) (z : SessionDice P M) (c : List Torus) (b : Bool) : Prop :=
  ∃ e, Enc P.tlweLv0.N c (keyOf z.coins0) b e ∧ nrm e < S

/-- Why a good step gives a good register. -/
theorem step_reg (W : WellFormed P) (hb : P.trgswLv1.NBIT = 10) (L : FourierLaws O) (ck : CloudKey O) {M : ℕ}
    (z : SessionDice P M) (W0 S E d : ℕ) (hsum : S + 2 * E + d + W0 ≤ 2 ^ 29)
    (hw : weight P.tlweLv0.N (keyOf z.coins0) ≤ W0) (g : Gate2) (j : Fin M) (u : ℚ) (hu : nrm (f64ToTorus u) < E)
    (a : List Torus) (x y : Bool) (ha : RegOk P S z a x) (c : ℕ → Torus) (hc : ∀ i, c i = g.coef.1 * at' a i)
    (hgood : StepGood P L ck S d (z.step j g.coef.2.1 c)) :
    RegOk P S z (bootOut P L ck (gateTestvec P) (lin P.tlweLv0.N g.coef.1 g.coef.2.1 g.coef.2.2 a
      (bitCt z.coins0 (z.masks j) y u))) (g.eval x y) := by
  obtain ⟨ea, hx, hea⟩ := ha
  obtain ⟨hdr, hno⟩ := hgood
  set prep := lin P.tlweLv0.N g.coef.1 g.coef.2.1 g.coef.2.2 a (bitCt z.coins0 (z.masks j) y u) with hprep
  set m := (z.step j g.coef.2.1 c).mask with hm
  have hpair : ∀ i < P.tlweLv0.N, SamePair (m.draw i) (at' prep i) := by
    intro i hi
    have h := pairMask_draw g.coef.2.1 (coef2_cases g) c (z.masks j) i hi
    have e : at' prep i = c i + g.coef.2.1 * (z.masks j).draw i := by
      rw [hprep]
      unfold lin
      rw [at'_tab _ _ _ (by omega), if_neg (by omega), at'_bitCt _ _ _ _ _ hi, hc]
      ring
    rw [e]
    exact h
  have hsr := sameRounding_rep W hb prep (tab P.tlweLv0.N m.draw) (by simp) fun i hi => by
    rw [at'_tab _ _ _ hi]; exact hpair i hi
  have hsr : SameRounding P prep (stepCt m (bodyStep (at' prep P.tlweLv0.N))) := hsr
  have hsum' := roundSum_pair W hb (keyOf z.coins0) (stepCt m 0) prep fun i hi => by
    rw [at'_stepCt _ _ _ hi]; exact hpair i hi
  have e0 : ∑ i ∈ range P.tlweLv0.N, ((at' (keyOf z.coins0) i).toNat : ℤ) * roundErr P (at' (stepCt m 0) i).toNat
      = ∑ i ∈ range P.tlweLv0.N, ((at' (keyOf z.coins0) i).toNat : ℤ) * roundErr P (m.draw i).toNat :=
    sum_congr rfl fun i hi => by rw [at'_stepCt _ _ _ (mem_range.1 hi)]
  rw [e0] at hsum'
  have hdr' : 2 ^ (30 - P.trgswLv1.NBIT)
      + |∑ i ∈ range P.tlweLv0.N, ((at' (keyOf z.coins0) i).toNat : ℤ) * roundErr P (m.draw i).toNat| ≤ d := hdr
  have hnear : Near P prep (keyOf z.coins0) (d + W0) := by
    refine near_of_small W prep (keyOf z.coins0) (d + W0) ?_
    have hw' : (weight P.tlweLv0.N (keyOf z.coins0) : ℤ) ≤ W0 := by exact_mod_cast hw
    push_cast
    linarith
  have henc := enc_bootOut W L ck (keyOf z.coins0) (keyOf z.coins1) g a _ x y ea (f64ToTorus u) (d + W0) hx
    (enc_bitCt P z.coins0 (z.masks j) y u) hnear (by
      have h2 : g.mult ≤ 2 := by cases g <;> decide
      have h3 : g.mult * nrm (f64ToTorus u) ≤ 2 * nrm (f64ToTorus u) := Nat.mul_le_mul_right _ h2
      omega)
  refine ⟨_, henc, ?_⟩
  rw [← hprep, hsr.bootNoise L ck (keyOf z.coins0) (keyOf z.coins1) (gateTestvec P)]
  exact hno _ (bodyStep_lt _)

/-! ### The registers as functions of the random numbers -/

section

variable {M : ℕ}

/-- The random numbers a register depends on, as a countable and a finite part. -/
abbrev RegFun (P : Params) (M : ℕ) := (KeyDraws P × (Fin M → ℚ)) → SessionDice P M → List Torus

/-- The result of a gate as a function of the random numbers. -/
noncomputable def gateFun (L : FourierLaws O) (ck : KeyDraws P → SessionDice P M → CloudKey O) (x : Fin M → Bool) (g : Gate2)
    (a : RegFun P M) (j : Fin M) : RegFun P M := fun y z =>
  bootOut P L (ck y.1 z) (gateTestvec P) (lin P.tlweLv0.N g.coef.1 g.coef.2.1 g.coef.2.2 (a y z)
    (bitCt z.coins0 (z.masks j) (x j) (y.2 j)))

/-- The registers at the end. -/
noncomputable def regFuns (L : FourierLaws O) (ck : KeyDraws P → SessionDice P M → CloudKey O) (x : Fin M → Bool) :
    List (RegFun P M) → List (Gate2 × ℕ × Fin M) → List (RegFun P M)
  | F, [] => F
  | F, (g, i, j) :: jobs => regFuns L ck x (F ++ [gateFun L ck x g (F.getD i fun _ _ => []) j]) jobs

/-- All registers encrypt their bits. -/
def AllOk (P : Params) (S : ℕ) (F : List (RegFun P M)) (B : List Bool) (y : KeyDraws P × (Fin M → ℚ)) (z : SessionDice P M) :
    Prop := List.Forall₂ (fun f b => RegOk P S z (f y z) b) F B

theorem AllOk.getD {S : ℕ} {F : List (RegFun P M)} {B : List Bool} {y : KeyDraws P × (Fin M → ℚ)} {z : SessionDice P M}
    (h : AllOk P S F B y z) (i : ℕ) (hi : i < F.length) : RegOk P S z (F.getD i (fun _ _ => []) y z) (B.getD i false) := by
  have hl := h.length_eq
  rw [List.getD_eq_getElem _ _ hi, List.getD_eq_getElem _ _ (hl ▸ hi)]
  exact List.Forall₂.get h hi (hl ▸ hi)

/-- No register depends on the masks of encryptions outside its set. -/
def DependsOn (F : List (RegFun P M)) (D : List (Finset (Fin M))) : Prop :=
  List.Forall₂ (fun f s => ∀ k ∉ s, ∀ y z a, f y (z.set k a) = f y z) F D

theorem DependsOn.getD {F : List (RegFun P M)} {D : List (Finset (Fin M))} (h : DependsOn F D) (i : ℕ) (hi : i < F.length)
    (k : Fin M) (hk : k ∉ D.getD i ∅) (y : KeyDraws P × (Fin M → ℚ)) (z : SessionDice P M) (a : Mask P.tlweLv0.N) :
    F.getD i (fun _ _ => []) y (z.set k a) = F.getD i (fun _ _ => []) y z := by
  have hl := h.length_eq
  rw [List.getD_eq_getElem _ _ (hl ▸ hi)] at hk
  rw [List.getD_eq_getElem _ _ hi]
  exact List.Forall₂.get h hi (hl ▸ hi) k hk y z a

end

section

variable {Ω Ω' : Type*} [MeasurableSpace Ω] [MeasurableSpace Ω'] {μ : Measure Ω} [IsProbabilityMeasure μ]
  {ν : Measure Ω'} [IsProbabilityMeasure ν]

theorem regFuns_fail (W : WellFormed P) (hb : P.trgswLv1.NBIT = 10) (L : FourierLaws O) {M : ℕ}
    (ck : KeyDraws P → SessionDice P M → CloudKey O) (hckset : ∀ y z k a, ck y (z.set k a) = ck y z)
    {φ : Ω' → Ω} (hφ : MeasurePreserving φ ν μ) (f : Ω' → KeyDraws P × (Fin M → ℚ)) (hf : ∀ y, MeasurableSet (f ⁻¹' {y}))
    (ckS : Ω → StepDice P → CloudKey O) (hckS : ∀ ω z j κ c, ckS (φ ω) (z.step j κ c) = ck (f ω).1 z)
    (x : Fin M → Bool) (W0 W1 S E d : ℕ) (hsum : S + 2 * E + d + W0 ≤ 2 ^ 29) (p : ENNReal)
    (hp : (μ.prod (uniformOn (Set.univ : Set (StepDice P)))) {z | weight P.tlweLv0.N (keyOf z.2.coins0) ≤ W0 ∧
        weight P.trgswLv1.N (keyOf z.2.coins1) ≤ W1 ∧ ¬ StepGood P L (ckS z.1 z.2) S d z.2} ≤ p)
    (jobs : List (Gate2 × ℕ × Fin M)) : ∀ (F : List (RegFun P M)) (B : List Bool) (D : List (Finset (Fin M)))
    (_ : DependsOn F D) (_ : FreshFrom D jobs),
    (ν.prod (uniformOn (Set.univ : Set (SessionDice P M)))) {w | weight P.tlweLv0.N (keyOf w.2.coins0) ≤ W0 ∧
        weight P.trgswLv1.N (keyOf w.2.coins1) ≤ W1 ∧ (∀ j, nrm (f64ToTorus ((f w.1).2 j)) < E) ∧
        AllOk P S F B (f w.1) w.2 ∧ ¬ AllOk P S (regFuns L ck x F jobs) (freshBits x B jobs) (f w.1) w.2}
      ≤ jobs.length * p := by
  induction jobs with
  | nil =>
    intro F B D _ _
    refine le_trans (le_of_eq ?_) zero_le
    rw [← measure_empty (μ := ν.prod (uniformOn (Set.univ : Set (SessionDice P M))))]
    congr 1
    exact Set.eq_empty_of_forall_notMem fun w hw => hw.2.2.2.2 hw.2.2.2.1
  | cons t ts ih =>
    intro F B D hD hfr
    obtain ⟨g, i, j⟩ := t
    obtain ⟨hi, hj, hfr⟩ := hfr
    have hiF : i < F.length := hD.length_eq ▸ hi
    set a : RegFun P M := F.getD i fun _ _ => [] with ha
    have haset : ∀ k ∉ D.getD i ∅, ∀ y z m, a y (z.set k m) = a y z := fun k hk y z m => hD.getD i hiF k hk y z m
    let c : (KeyDraws P × (Fin M → ℚ)) → SessionDice P M → ℕ → Torus := fun y z l => g.coef.1 * at' (a y z) l
    have h1 := (step_measure (P := P) j g.coef.2.1 hφ f hf c (fun y z m => by
      funext l
      show g.coef.1 * at' (a y (z.set j m)) l = g.coef.1 * at' (a y z) l
      rw [haset j hj]) _).trans hp
    have hD' : DependsOn (F ++ [gateFun L ck x g a j]) (D ++ [insert j (D.getD i ∅)]) := by
      refine List.rel_append hD (List.Forall₂.cons ?_ .nil)
      intro k hk y z m
      rw [Finset.mem_insert, not_or] at hk
      unfold gateFun
      rw [hckset, haset k hk.2]
      have : (z.set k m).masks j = z.masks j := Function.update_of_ne (Ne.symm hk.1) _ _
      rw [this]
      rfl
    have h2 := ih (F ++ [gateFun L ck x g a j]) (B ++ [g.eval (B.getD i false) (x j)]) _ hD' hfr
    rw [List.length_cons, Nat.cast_succ, add_mul, one_mul, add_comm]
    refine (measure_mono ?_).trans ((measure_union_le _ _).trans (add_le_add h1 h2))
    rintro ⟨ω, z⟩ ⟨hw0, hw1, hE, hok, hbad⟩
    by_cases hg : StepGood P L (ckS (φ ω) (z.step j g.coef.2.1 (c (f ω) z))) S d (z.step j g.coef.2.1 (c (f ω) z))
    · refine .inr ⟨hw0, hw1, hE, ?_, hbad⟩
      refine List.rel_append hok (List.Forall₂.cons ?_ .nil)
      rw [hckS] at hg
      exact step_reg W hb L (ck (f ω).1 z) z W0 S E d hsum hw0 g j _ (hE j) (a (f ω) z) _ (x j) (hok.getD i hiF) _
        (fun l => rfl) hg
    · exact .inl ⟨hw0, hw1, hg⟩

end

/-! ### The program computes these functions -/

theorem freshGates_eq (W : WellFormed P) (L : FourierLaws O) (hd : O.deg = P.trgswLv1.N) {M : ℕ}
    (ck : KeyDraws P → SessionDice P M → CloudKey O) (x : Fin M → Bool) (y : KeyDraws P × (Fin M → ℚ)) (z : SessionDice P M)
    (hck : CkGood P L (ck y.1 z)) (htv : (ck y.1 z).blindRotateTestvec = gateTestvec P)
    (jobs : List (Gate2 × ℕ × Fin M)) : ∀ (F : List (RegFun P M)) (D : List (Finset (Fin M))) (st : EvState O)
    (_ : EvGood P L st) (_ : F.length = D.length) (_ : FreshFrom D jobs) (_ : ∀ f ∈ F, (f y z).length = P.tlweLv0.N + 1),
    freshGates P (ck y.1 z) ((List.finRange M).map fun i => bitCt z.coins0 (z.masks i) (x i) (y.2 i)) st
      (F.map fun f => f y z) jobs = some ((regFuns L ck x F jobs).map fun f => f y z) := by
  induction jobs with
  | nil => exact fun _ _ _ _ _ _ _ => rfl
  | cons t ts ih =>
    intro F D st hst hl hfr hlen
    obtain ⟨g, i, j⟩ := t
    obtain ⟨hi, hj, hfr⟩ := hfr
    have hiF : i < F.length := hl ▸ hi
    have r1 : rd (F.map fun f => f y z) i = some (F.getD i (fun _ _ => []) y z) := by
      unfold rd
      rw [List.getElem?_map, List.getElem?_eq_getElem hiF, List.getD_eq_getElem _ _ hiF]
      rfl
    have r2 : rd ((List.finRange M).map fun i => bitCt z.coins0 (z.masks i) (x i) (y.2 i)) j
        = some (bitCt z.coins0 (z.masks j) (x j) (y.2 j)) := by
      unfold rd
      rw [List.getElem?_map, List.getElem?_eq_getElem (by simp), List.getElem_finRange]
      simp
    have hla : (F.getD i (fun _ _ => []) y z).length = P.tlweLv0.N + 1 := by
      rw [List.getD_eq_getElem _ _ hiF]
      exact hlen _ (List.getElem_mem hiF)
    obtain ⟨st', eg, hst'⟩ := gate2_bootOut W L hd hst hck g _ _ _
      (gatePrepare_eq P g (F.getD i (fun _ _ => []) y z) (bitCt z.coins0 (z.masks j) (x j) (y.2 j)) hla
        (enc_bitCt P _ _ _ _).1) (by simp)
    have htl := ih (F ++ [gateFun L ck x g (F.getD i fun _ _ => []) j]) (D ++ [insert j (D.getD i ∅)]) st' hst' (by simp [hl])
      hfr (fun f hf => by
        rcases List.mem_append.1 hf with hf | hf
        · exact hlen f hf
        · rw [List.mem_singleton] at hf
          subst hf
          exact length_bootPure _ _ _ _ _ _ _)
    rw [htv] at eg
    simp only [freshGates, r1, r2, Option.bind_eq_bind, Option.bind_some]
    rw [eg]
    simp only [Option.bind_some]
    rw [List.map_append] at htl
    exact htl

/-! ### The probability -/

section

theorem program_weight0 (P : Params) (M : ℕ) (h0 : 0 < P.tlweLv0.N) (W0 : ℕ) (h : P.tlweLv0.N ≤ 2 * W0) :
    uprob (fun x : SessionDice P M => W0 < weight P.tlweLv0.N (keyOf x.coins0))
      ≤ Real.exp (-(2 * (W0 + 1 - P.tlweLv0.N / 2 : ℝ) ^ 2 / P.tlweLv0.N)) := by
  refine le_trans (le_of_eq ?_) (weight_tail _ W0 h0 h)
  rw [uprob_avg, uprob_avg, avg_session]
  refine congrArg avg (funext fun b0 => ?_)
  have : Nonempty (Fin M → Mask P.tlweLv0.N) := ⟨fun _ _ => 0⟩
  show (avg fun _ : Fin P.trgswLv1.N → Bool => avg fun _ : KeyMasks P => avg fun _ : Fin M → Mask P.tlweLv0.N =>
    if W0 < weight P.tlweLv0.N (keyOf b0) then (1 : ℝ) else 0) = _
  simp only [avg_const, avg_keyMasks, avg_coins]

theorem program_weight1 (P : Params) (M : ℕ) (h1 : 0 < P.trgswLv1.N) (W1 : ℕ) (h : P.trgswLv1.N ≤ 2 * W1) :
    uprob (fun x : SessionDice P M => W1 < weight P.trgswLv1.N (keyOf x.coins1))
      ≤ Real.exp (-(2 * (W1 + 1 - P.trgswLv1.N / 2 : ℝ) ^ 2 / P.trgswLv1.N)) := by
  refine le_trans (le_of_eq ?_) (weight_tail _ W1 h1 h)
  rw [uprob_avg, uprob_avg, avg_session]
  have : Nonempty (Fin M → Mask P.tlweLv0.N) := ⟨fun _ _ => 0⟩
  show (avg fun _ : Fin P.tlweLv0.N → Bool => avg fun b1 : Fin P.trgswLv1.N → Bool => avg fun _ : KeyMasks P =>
    avg fun _ : Fin M → Mask P.tlweLv0.N => if W1 < weight P.trgswLv1.N (keyOf b1) then (1 : ℝ) else 0) = _
  simp only [avg_const, avg_keyMasks, avg_coins]

variable {Ω Ωe : Type*} [MeasurableSpace Ω] [MeasurableSpace Ωe] {μ : Measure Ω} [IsProbabilityMeasure μ]
  {μe : Measure Ωe} [IsProbabilityMeasure μe]
variable {fl : ℚ → ℚ} (hfl : IsRound fl) {fu : Fusing} {ce : ℚ → ℚ × ℚ} (hce : CexpAccurate ce (1 / 2 ^ 52))

include hfl hce

theorem program_fail (level : SecurityLevel) (hlev : level ≤ 0 ∨ 9 ≤ level) {e : PolyEval ℚ}
    (he : newPolyEval (floatArith fl fu mathPi ce) ((paramsFor level).trgswLv1.N : ℤ) = some e) (R : KeyGenRand)
    {q : DrawIx → Ω → ℚ} (hq : NoiseDraws μ q (drawStd (paramsFor level))) {M : ℕ}
    {qe : Fin M → Ωe → ℚ} (hqe : NoiseDraws μe qe fun _ => ((kskAlpha (paramsFor level) : ℚ) : ℝ))
    (schedK schedB : Ω → SessionDice (paramsFor level) M → List ℕ)
    (hsched : ∀ ω z, ∃ sk ck, newSecretKey (paramsFor level) (keyCoins z.coins0) (keyCoins z.coins1) = some sk ∧
      newCloudKey (paramsFor level) (fftOps (floatArith fl fu mathPi ce) e) sk.keyLv0 sk.keyLv1
        ((R.withEntryMasks z.bsk).withDraws fun d => q d ω) (schedK ω z) (schedB ω z) = some (true, ck))
    (x : Fin M → Bool) (jobs : List (Gate2 × ℕ × Fin M)) (hj : Fresh jobs) (tr0 : TRef → Trlwe) (lw0 : LRef → List Torus)
    (W0 W1 B T S E d : ℕ) (hw0 : (paramsFor level).tlweLv0.N ≤ 2 * W0) (hw1 : (paramsFor level).trgswLv1.N ≤ 2 * W1)
    (hdd : 2 ^ 20 + W0 ≤ d) (hT : T ≤ 16640 * (W0 * W1)) (hsum : S + 2 * E + d + W0 ≤ 2 ^ 29) (hES : E ≤ S)
    (hρ : roundLimit (paramsFor level) W0 W1 B T ≤ S) (lam X η : ℝ) (hl : 0 ≤ lam)
    (hX : lam * W1 ≤ X) (hX1 : X ≤ 1) (hη : 0 < η)
    (hs : 2 * (1 + 1 / η) * (paramsFor level).trgswLv1.N
      * ((paramsFor level).tlweLv0.N * (1 + 5 / 48 * X ^ 2) * lam ^ 2 / 4 / 4) < 1) :
    ((μ.prod μe).prod (uniformOn (Set.univ : Set (SessionDice (paramsFor level) M))))
      {z | freshRun (paramsFor level) (fftOps (floatArith fl fu mathPi ce) e) R tr0 lw0 (schedK z.1.1 z.2) (schedB z.1.1 z.2)
          x jobs (fun d => q d z.1.1) (fun i => qe i z.1.2) z.2
        ≠ some (freshBits x ((List.finRange M).map x) jobs)}
      ≤ ENNReal.ofReal (Real.exp (-(2 * (W0 + 1 - (paramsFor level).tlweLv0.N / 2 : ℝ) ^ 2 / (paramsFor level).tlweLv0.N))
        + Real.exp (-(2 * (W1 + 1 - (paramsFor level).trgswLv1.N / 2 : ℝ) ^ 2 / (paramsFor level).trgswLv1.N))
        + M * (2 * Real.exp (-((E : ℝ) ^ 2 / (2 * (2 ^ 32 * ((kskAlpha (paramsFor level) : ℚ) : ℝ)) ^ 2))))
        + jobs.length * stepFail (paramsFor level) W0 W1 B T S d lam X η) := by
  have hσ : 0 < ((kskAlpha (paramsFor level) : ℚ) : ℝ) := by exact_mod_cast (alpha_levels level).1.1
  obtain ⟨hL, hb6, hb10, hfe⟩ := gate_digits level hlev
  obtain ⟨⟨L, -⟩, hd, hacc⟩ := C67_errors hfl hce level he
  have hacc0 := float_accurate0 hfl hce level he L
  have hA := hacc L
  have W := C63_wellFormed level
  rw [hfe] at hA
  have hV : 0 < keyVar (paramsFor level) := (keyVar_levels level).1
  -- the cloud key as a function of finitely many draws
  obtain ⟨sK, sB, hsD⟩ := exists_schedules level he R fun (d : DrawIx) (y : KeyDraws (paramsFor level)) => y.ext d
  have hckD : ∀ (y : KeyDraws (paramsFor level)) (b0 : Fin (paramsFor level).tlweLv0.N → Bool)
      (b1 : Fin (paramsFor level).trgswLv1.N → Bool) (m : KeyMasks (paramsFor level)), ∃ sK sB ck, newCloudKey (paramsFor level)
      (fftOps (floatArith fl fu mathPi ce) e) (keyOf b0) (keyOf b1) ((R.withEntryMasks m).withDraws y.ext) sK sB
        = some (true, ck) := by
    intro y b0 b1 m
    obtain ⟨sk, ck, e1, e2⟩ := hsD y ⟨b0, b1, m, 0, 0⟩
    rw [newSecretKey_keyOf W] at e1
    obtain rfl := Option.some.inj e1
    exact ⟨_, _, ck, e2⟩
  choose sK' sB' ckD hckD using hckD
  have hgood : ∀ y b0 b1 m, CkGood (paramsFor level) L (ckD y b0 b1 m) ∧
      (ckD y b0 b1 m).blindRotateTestvec = gateTestvec (paramsFor level) := by
    intro y b0 b1 m
    have hK := float_keys hfl hce level he (keyOf b0) (keyOf b1) ((R.withEntryMasks m).withDraws y.ext) (by simp [keyOf])
      (by simp [keyOf]) (isBinary_keyOf _) (isBinary_keyOf _) (fun _ _ _ _ _ _ => nrm_le _) (fun _ _ _ _ _ _ => nrm_le _)
      _ _ _ (hckD y b0 b1 m)
    exact ⟨ckGood L hd (hK.2.2.1 L) hK.2.2.2, hK.2.2.2⟩
  let cut : Ω → KeyDraws (paramsFor level) := fun ω d => q d ω
  have hcut : ∀ (ω : Ω) (b0 : Fin (paramsFor level).tlweLv0.N → Bool) (b1 : Fin (paramsFor level).trgswLv1.N → Bool)
      (m : KeyMasks (paramsFor level)) (sK sB : List ℕ) ck, newCloudKey (paramsFor level) (fftOps (floatArith fl fu mathPi ce) e) (keyOf b0)
      (keyOf b1) ((R.withEntryMasks m).withDraws fun d => q d ω) sK sB = some (true, ck) → ck = ckD (cut ω) b0 b1 m := by
    intro ω b0 b1 m sK sB ck h
    rw [newCloudKey_congr W L hd (keyOf b0) (keyOf b1) (by simp [keyOf]) (R.withEntryMasks m) (fun d => q d ω) (cut ω).ext
      (fun d hd => (KeyDraws.ext_of (fun d => q d ω) d hd).symm)] at h
    exact newCloudKey_unique W L hd (keyOf b0) (keyOf b1) _ (by simp [keyOf]) (by simp [keyOf]) (isBinary_keyOf _)
      _ _ _ _ _ _ h (hckD (cut ω) b0 b1 m)
  have hckS : ∀ (ω : Ω) (z : StepDice (paramsFor level)), newCloudKey (paramsFor level) (fftOps (floatArith fl fu mathPi ce) e)
      (keyOf z.coins0) (keyOf z.coins1) ((R.withEntryMasks z.bsk).withDraws fun d => q d ω)
        (sK' (cut ω) z.coins0 z.coins1 z.bsk) (sB' (cut ω) z.coins0 z.coins1 z.bsk)
          = some (true, ckD (cut ω) z.coins0 z.coins1 z.bsk) := by
    intro ω z
    rw [newCloudKey_congr W L hd (keyOf z.coins0) (keyOf z.coins1) (by simp [keyOf]) (R.withEntryMasks z.bsk)
      (fun d => q d ω) (cut ω).ext (fun d hd => (KeyDraws.ext_of (fun d => q d ω) d hd).symm)]
    exact hckD (cut ω) z.coins0 z.coins1 z.bsk
  have hck : ∀ (ω : Ω) (z : SessionDice (paramsFor level) M), newCloudKey (paramsFor level) (fftOps (floatArith fl fu mathPi ce) e) (keyOf z.coins0)
      (keyOf z.coins1) ((R.withEntryMasks z.bsk).withDraws fun d => q d ω) (schedK ω z) (schedB ω z)
        = some (true, ckD (cut ω) z.coins0 z.coins1 z.bsk) := by
    intro ω z
    obtain ⟨sk, ck, e1, e2⟩ := hsched ω z
    rw [newSecretKey_keyOf W] at e1
    obtain rfl := Option.some.inj e1
    rw [← hcut ω _ _ _ _ _ _ e2]
    exact e2
  generalize paramsFor level = P at *
  have hN : 0 < P.trgswLv1.N := by have := W.min_degree; omega
  have h0 := W.lv0_pos
  have iS : IsProbabilityMeasure (uniformOn (Set.univ : Set (SessionDice P M))) :=
    uniformOn_isProbabilityMeasure Set.finite_univ Set.univ_nonempty
  set U := uniformOn (Set.univ : Set (SessionDice P M)) with hU
  have hp := step_fail W L hd hacc0 hA.1 hA.2 hL hb6 R hq hV (fun ω z => sK' (cut ω) z.coins0 z.coins1 z.bsk)
    (fun ω z => sB' (cut ω) z.coins0 z.coins1 z.bsk) (fun ω z => ckD (cut ω) z.coins0 z.coins1 z.bsk) hckS W0 W1 B T S d
    (by omega) (by omega) (by rw [hb10]; exact hdd) hT hρ lam X η hl hX hX1 hη hs
  let f : Ω × Ωe → KeyDraws P × (Fin M → ℚ) := fun ω => (cut ω.1, fun i => qe i ω.2)
  have hf : ∀ y, MeasurableSet (f ⁻¹' {y}) := fun y => by
    have : Measurable f := Measurable.prodMk
      ((measurable_pi_lambda _ fun d => hq.measurable _).comp measurable_fst)
      ((measurable_pi_lambda _ fun i => hqe.measurable _).comp measurable_snd)
    exact this (measurableSet_singleton y)
  let F : List (RegFun P M) := (List.finRange M).map fun i y z => bitCt z.coins0 (z.masks i) (x i) (y.2 i)
  let ck : KeyDraws P → SessionDice P M → CloudKey (fftOps (floatArith fl fu mathPi ce) e) :=
    fun y z => ckD y z.coins0 z.coins1 z.bsk
  have hD : DependsOn F ((List.finRange M).map fun i => {i}) := by
    unfold DependsOn
    rw [List.forall₂_map_left_iff, List.forall₂_map_right_iff, List.forall₂_same]
    intro i _ k hk y z a
    have : (z.set k a).masks i = z.masks i := Function.update_of_ne (fun h => hk (by rw [h]; exact mem_singleton_self k)) _ _
    show bitCt z.coins0 ((z.set k a).masks i) (x i) (y.2 i) = _
    rw [this]
  have u3 := regFuns_fail W hb10 L ck (fun _ _ _ _ => rfl) (measurePreserving_fst (μ := μ) (ν := μe)) f hf
    (fun ω z => ckD (cut ω) z.coins0 z.coins1 z.bsk) (fun _ _ _ _ _ => rfl) x W0 W1 S E d hsum _ hp jobs F
    ((List.finRange M).map x) _ hD hj
  have u0 : ((μ.prod μe).prod U) {z | W0 < weight P.tlweLv0.N (keyOf z.2.coins0)} ≤ ENNReal.ofReal _ :=
    prod_snd_le (fun x : SessionDice P M => W0 < weight P.tlweLv0.N (keyOf x.coins0)) _
      ((le_of_eq (uniformOn_uprob _)).trans <| ENNReal.ofReal_le_ofReal (program_weight0 P M h0 W0 hw0))
  have u1 : ((μ.prod μe).prod U) {z | W1 < weight P.trgswLv1.N (keyOf z.2.coins1)} ≤ ENNReal.ofReal _ :=
    prod_snd_le (fun x : SessionDice P M => W1 < weight P.trgswLv1.N (keyOf x.coins1)) _
      ((le_of_eq (uniformOn_uprob _)).trans <| ENNReal.ofReal_le_ofReal (program_weight1 P M hN W1 hw1))
  have u2 : ((μ.prod μe).prod U) (⋃ i ∈ (univ : Finset (Fin M)), {z | E ≤ nrm (f64ToTorus (qe i z.1.2))})
      ≤ ENNReal.ofReal (M * (2 * Real.exp (-((E : ℝ) ^ 2 / (2 * (2 ^ 32 * ((kskAlpha P : ℚ) : ℝ)) ^ 2))))) := by
    refine (measure_biUnion_finset_le _ _).trans ?_
    refine (Finset.sum_le_card_nsmul _ _ _ fun i _ =>
      prod_fst_le (fun ω : Ω × Ωe => E ≤ nrm (f64ToTorus (qe i ω.2))) _
        (prod_snd_le (fun ω : Ωe => E ≤ nrm (f64ToTorus (qe i ω))) _ (C79_draw hqe i hσ E))).trans (le_of_eq ?_)
    rw [card_univ, Fintype.card_fin, nsmul_eq_mul, ENNReal.ofReal_mul (Nat.cast_nonneg _), ENNReal.ofReal_natCast]
  have hpos : 0 ≤ stepFail P W0 W1 B T S d lam X η := by
    unfold stepFail driftTail
    positivity
  rw [ENNReal.ofReal_add (by positivity) (by positivity), ENNReal.ofReal_add (by positivity) (by positivity),
    ENNReal.ofReal_add (by positivity) (by positivity), ENNReal.ofReal_mul (p := (jobs.length : ℝ)) (Nat.cast_nonneg _),
    ENNReal.ofReal_natCast]
  refine (measure_mono ?_).trans ((measure_union_le _ _).trans (add_le_add ((measure_union_le _ _).trans
    (add_le_add ((measure_union_le _ _).trans (add_le_add u0 u1)) u2)) u3))
  rintro ⟨⟨ω, ω'⟩, z⟩ hne
  by_contra hcon
  simp only [Set.mem_union, not_or] at hcon
  obtain ⟨⟨⟨c0, c1⟩, c2⟩, c3⟩ := hcon
  have c0 : weight P.tlweLv0.N (keyOf z.coins0) ≤ W0 := not_lt.1 c0
  have c1 : weight P.trgswLv1.N (keyOf z.coins1) ≤ W1 := not_lt.1 c1
  have c2 : ∀ i, nrm (f64ToTorus (qe i ω')) < E := fun i => not_le.1 fun h =>
    c2 (Set.mem_iUnion₂.2 ⟨i, mem_univ i, h⟩)
  have hok0 : AllOk P S F ((List.finRange M).map x) (f (ω, ω')) z := by
    unfold AllOk
    rw [List.forall₂_map_left_iff, List.forall₂_map_right_iff, List.forall₂_same]
    exact fun i _ => ⟨_, enc_bitCt P z.coins0 (z.masks i) (x i) (qe i ω'), (c2 i).trans_le hES⟩
  have hok : AllOk P S (regFuns L ck x F jobs) (freshBits x ((List.finRange M).map x) jobs) (f (ω, ω')) z := by
    by_contra h
    exact c3 ⟨c0, c1, c2, hok0, h⟩
  obtain ⟨st, es, hst, -⟩ := newEvaluator_good W L hd tr0 lw0
  have hg := freshGates_eq W L hd ck x (f (ω, ω')) z (hgood _ _ _ _).1 (hgood _ _ _ _).2 jobs F _ st hst (by simp [F]) hj
    (fun g hg => by
      obtain ⟨i, -, rfl⟩ := List.mem_map.1 hg
      exact (enc_bitCt P _ _ _ _).1)
  refine hne ?_
  show freshRun P _ R tr0 lw0 (schedK ω z) (schedB ω z) x jobs (fun d => q d ω) (fun i => qe i ω') z = _
  unfold freshRun
  rw [es]
  simp only [Option.bind_eq_bind, Option.bind_some]
  rw [newSecretKey_keyOf W]
  simp only [Option.bind_some]
  rw [hck ω z]
  simp only [Option.bind_some]
  rw [mapM_some _ (fun i => bitCt z.coins0 (z.masks i) (x i) (qe i ω')) _ fun i _ => encryptBool_bitCt _ _ _ _ _]
  simp only [Option.bind_some]
  have e1 : F.map (fun f' => f' (f (ω, ω')) z) = (List.finRange M).map fun i => bitCt z.coins0 (z.masks i) (x i) (qe i ω') := by
    show ((List.finRange M).map _).map _ = _
    rw [List.map_map]
    rfl
  rw [e1] at hg
  have hg' : freshGates P (ckD (cut ω) z.coins0 z.coins1 z.bsk)
      ((List.finRange M).map fun i => bitCt z.coins0 (z.masks i) (x i) (qe i ω')) st
      ((List.finRange M).map fun i => bitCt z.coins0 (z.masks i) (x i) (qe i ω')) jobs = _ := hg
  rw [hg']
  simp only [Option.bind_some]
  have hS : S ≤ 2 ^ 29 := by omega
  have key : ∀ (G : List (RegFun P M)) (Bs : List Bool), AllOk P S G Bs (f (ω, ω')) z →
      (G.map fun f' => f' (f (ω, ω')) z).mapM (fun c => tlwe0DecryptBool P c (keyOf z.coins0)) = some Bs := by
    intro G Bs h
    induction h with
    | nil => rfl
    | cons h1 _ ih =>
      obtain ⟨en, h2, h3⟩ := h1
      rw [List.map_cons, List.mapM_cons, h2.decrypts (by simp [keyOf]) (h3.trans_le hS), ih]
      rfl
  exact key _ _ hok

end

end GoTfhe
