import Verif.Lemmas.Coupling
import Verif.Lemmas.SessionProb

/-!
# A gate on a result and a ciphertext that the result does not depend on
-/

namespace GoTfhe

open MeasureTheory ProbabilityTheory Finset

/-! ### What key generation uses of the Gaussian draws -/

theorem mem_drawIxs_inr {P : Params} {i j k : ℕ} :
    (.inr (i, j, k) : DrawIx) ∈ drawIxs P ↔ i < P.trgswLv1.N ∧ j < P.trgswLv1.IKS_T ∧ k < 2 ^ P.trgswLv1.BASEBIT := by
  unfold drawIxs
  rw [Finset.inr_mem_disjSum]
  simp only [Finset.mem_product, Finset.mem_range]

theorem newCloudKey_congr {O : FourierOps} {P : Params} (W : WellFormed P) (L : FourierLaws O) (hd : O.deg = P.trgswLv1.N)
    (k0 k1 : List Torus) (h1 : k1.length = P.trgswLv1.N) (R : KeyGenRand) (y y' : DrawIx → ℚ)
    (h : ∀ d ∈ drawIxs P, y d = y' d) (sK sB : List ℕ) :
    newCloudKey P O k0 k1 (R.withDraws y) sK sB = newCloudKey P O k0 k1 (R.withDraws y') sK sB := by
  have e1 : genKeySwitchingKey P k0 k1 (R.withDraws y) sK = genKeySwitchingKey P k0 k1 (R.withDraws y') sK := by
    unfold genKeySwitchingKey
    have : (List.range P.trgswLv1.N).map (kskThread P k0 k1 (R.withDraws y))
        = (List.range P.trgswLv1.N).map (kskThread P k0 k1 (R.withDraws y')) := by
      refine List.map_congr_left fun i hi => ?_
      have hi := List.mem_range.1 hi
      unfold kskThread
      simp only [List.flatMap]
      refine congrArg List.flatten (List.map_congr_left fun j hj => ?_)
      have hj := List.mem_range.1 hj
      refine List.filterMap_congr fun k hk => ?_
      have hk := List.mem_range.1 hk
      have : kskEntry P k0 k1 (R.withDraws y) i j k = kskEntry P k0 k1 (R.withDraws y') i j k := by
        unfold kskEntry
        rw [show (R.withDraws y).kskSample i j k = (R.withDraws y').kskSample i j k from
          h _ (mem_drawIxs_inr.2 ⟨hi, hj, hk⟩)]
        rfl
      rw [this]
    simp only [this]
  have e2 : genBootstrappingKey P O k0 k1 (R.withDraws y) sB = genBootstrappingKey P O k0 k1 (R.withDraws y') sB := by
    unfold genBootstrappingKey
    have : ((List.range P.tlweLv0.N).map fun i => [(⟨i, bskEntry P O k0 k1 (R.withDraws y) i⟩ : Write (TrgswF O))])
        = (List.range P.tlweLv0.N).map fun i => [(⟨i, bskEntry P O k0 k1 (R.withDraws y') i⟩ : Write (TrgswF O))] := by
      refine List.map_congr_left fun i hi => ?_
      rw [bskEntry_congr W L hd k0 k1 h1 R y y' i fun j hj k hk =>
        h _ (mem_drawIxs_inl.2 ⟨List.mem_range.1 hi, hj, hk⟩)]
    simp only [this]
  unfold newCloudKey
  rw [e1, e2]

/-- The draws of key generation as a finite family. -/
abbrev KeyDraws (P : Params) := {d // d ∈ drawIxs P} → ℚ

/-- The family as draws of key generation. -/
def KeyDraws.ext {P : Params} (y : KeyDraws P) : DrawIx → ℚ := fun d => if h : d ∈ drawIxs P then y ⟨d, h⟩ else 0

theorem KeyDraws.ext_of {P : Params} (q : DrawIx → ℚ) (d : DrawIx) (hd : d ∈ drawIxs P) :
    KeyDraws.ext (P := P) (fun d => q d) d = q d := by
  unfold KeyDraws.ext
  rw [dif_pos hd]

/-! ### The random numbers that one gate sees -/

/-- The random numbers of one gate on an arbitrary and a fresh ciphertext. -/
structure StepDice (P : Params) where
  /-- The coins of `key.NewSecretKey`, level 0. -/
  coins0 : Fin P.tlweLv0.N → Bool
  /-- The coins of `key.NewSecretKey`, level 1. -/
  coins1 : Fin P.trgswLv1.N → Bool
  /-- The masks of the bootstrapping key. -/
  bsk : KeyMasks P
  /-- The mask of the ciphertext that is bootstrapped, up to pairs. -/
  mask : Mask P.tlweLv0.N

/-- A dice throw as a tuple. -/
def StepDice.equiv (P : Params) : StepDice P ≃
    ((Fin P.tlweLv0.N → Bool) × (Fin P.trgswLv1.N → Bool)) × KeyMasks P × Mask P.tlweLv0.N where
  toFun x := ((x.coins0, x.coins1), x.bsk, x.mask)
  invFun t := ⟨t.1.1, t.1.2, t.2.1, t.2.2⟩
  left_inv _ := rfl
  right_inv _ := rfl

noncomputable instance (P : Params) : Fintype (StepDice P) :=
  open Classical in Fintype.ofEquiv _ (StepDice.equiv P).symm

instance (P : Params) : Nonempty (StepDice P) :=
  ⟨⟨fun _ => false, fun _ => false, fun _ _ _ => 0, fun _ => 0⟩⟩

instance (P : Params) : MeasurableSpace (StepDice P) := ⊤

instance (P : Params) : MeasurableSingletonClass (StepDice P) := ⟨fun _ => trivial⟩

theorem avg_step (P : Params) (f : StepDice P → ℝ) :
    avg f = avg fun b0 => avg fun b1 => avg fun m => avg fun a => f ⟨b0, b1, m, a⟩ := by
  rw [← avg_equiv (StepDice.equiv P).symm, avg_prod, avg_prod]
  exact congrArg avg (funext fun b0 => congrArg avg (funext fun b1 => avg_prod _))

/-- The bijection of `exists_pairEquiv`. -/
noncomputable def pairEquiv (κ c : Torus) : Torus ≃ Torus :=
  open Classical in if h : κ = 1 ∨ κ = -1 ∨ κ = 2 ∨ κ = -2 then (exists_pairEquiv κ h c).choose else Equiv.refl _

theorem pairEquiv_spec (κ c m : Torus) (h : κ = 1 ∨ κ = -1 ∨ κ = 2 ∨ κ = -2) : SamePair (pairEquiv κ c m) (c + κ * m) := by
  unfold pairEquiv
  rw [dif_pos h]
  exact (exists_pairEquiv κ h c).choose_spec m

/-- The mask `a`, multiplied by `κ` and shifted by `c`, up to pairs. -/
noncomputable def pairMask {n : ℕ} (κ : Torus) (c : ℕ → Torus) : Mask n ≃ Mask n :=
  Equiv.piCongrRight fun i : Fin n => (toFinEquiv.symm.trans (pairEquiv κ (c i))).trans toFinEquiv

theorem pairMask_draw {n : ℕ} (κ : Torus) (h : κ = 1 ∨ κ = -1 ∨ κ = 2 ∨ κ = -2) (c : ℕ → Torus) (a : Mask n) (i : ℕ)
    (hi : i < n) : SamePair ((pairMask κ c a).draw i) (c i + κ * a.draw i) := by
  have e : (pairMask κ c a).draw i = pairEquiv κ (c i) (a.draw i) := by
    unfold Mask.draw
    rw [dif_pos hi, dif_pos hi]
    rfl
  rw [e]
  exact pairEquiv_spec κ _ _ h

/-- The dice with another mask of the ciphertext `j`. -/
def SessionDice.set {P : Params} {M : ℕ} (z : SessionDice P M) (j : Fin M) (a : Mask P.tlweLv0.N) : SessionDice P M :=
  { z with masks := Function.update z.masks j a }

/-- What the gate sees: the coins, the masks of the bootstrapping key and the mask of what is bootstrapped. -/
noncomputable def SessionDice.step {P : Params} {M : ℕ} (z : SessionDice P M) (j : Fin M) (κ : Torus) (c : ℕ → Torus) :
    StepDice P := ⟨z.coins0, z.coins1, z.bsk, pairMask κ c (z.masks j)⟩

theorem step_uniform {P : Params} {M : ℕ} (j : Fin M) (κ : Torus) (c : SessionDice P M → ℕ → Torus)
    (hc : ∀ z a, c (z.set j a) = c z) (E : StepDice P → Prop) :
    uprob (fun z : SessionDice P M => E (z.step j κ (c z))) = uprob E := by
  classical
  rw [uprob_avg, uprob_avg, avg_session, avg_step]
  refine congrArg avg (funext fun b0 => congrArg avg (funext fun b1 => congrArg avg (funext fun m => ?_)))
  haveI : Nonempty (Mask P.tlweLv0.N) := ⟨fun _ => 0⟩
  rw [avg_update j]
  have : ∀ r : Fin M → Mask P.tlweLv0.N, (avg fun a => if E (SessionDice.step ⟨b0, b1, m, Function.update r j a⟩ j κ
      (c ⟨b0, b1, m, Function.update r j a⟩)) then (1 : ℝ) else 0) = avg fun a => if E ⟨b0, b1, m, a⟩ then (1 : ℝ) else 0 := by
    intro r
    rw [← avg_equiv (pairMask κ (c ⟨b0, b1, m, r⟩)) fun a => if E ⟨b0, b1, m, a⟩ then (1 : ℝ) else 0]
    refine congrArg avg (funext fun a => ?_)
    have e : SessionDice.step ⟨b0, b1, m, Function.update r j a⟩ j κ (c ⟨b0, b1, m, Function.update r j a⟩)
        = ⟨b0, b1, m, pairMask κ (c ⟨b0, b1, m, r⟩) a⟩ := by
      have := hc ⟨b0, b1, m, r⟩ a
      unfold SessionDice.set at this
      simp only at this
      unfold SessionDice.step
      simp only
      rw [this, Function.update_self]
    rw [e]
  simp only [this]
  haveI : Nonempty (Fin M → Mask P.tlweLv0.N) := ⟨fun _ _ => 0⟩
  exact avg_const _

/-- The probability of an event about what one gate sees. The other input of the gate may depend on all random numbers but
the mask of the fresh ciphertext; on the Gaussian ones through countably many values. -/
theorem step_measure {P : Params} {M : ℕ} (j : Fin M) (κ : Torus) {Ω' Ω Z : Type*} [MeasurableSpace Ω'] [MeasurableSpace Ω]
    {ν : Measure Ω'} [IsProbabilityMeasure ν] {μ : Measure Ω} [IsProbabilityMeasure μ] {φ : Ω' → Ω}
    (hφ : MeasurePreserving φ ν μ) [Countable Z] (f : Ω' → Z) (hf : ∀ y, MeasurableSet (f ⁻¹' {y}))
    (c : Z → SessionDice P M → ℕ → Torus) (hc : ∀ y z a, c y (z.set j a) = c y z) (E : Set (Ω × StepDice P)) :
    (ν.prod (uniformOn (Set.univ : Set (SessionDice P M)))) {x | (φ x.1, x.2.step j κ (c (f x.1) x.2)) ∈ E}
      ≤ (μ.prod (uniformOn (Set.univ : Set (StepDice P)))) E := by
  have iU : IsProbabilityMeasure (uniformOn (Set.univ : Set (StepDice P))) :=
    uniformOn_isProbabilityMeasure Set.finite_univ Set.univ_nonempty
  have iS : IsProbabilityMeasure (uniformOn (Set.univ : Set (SessionDice P M))) :=
    uniformOn_isProbabilityMeasure Set.finite_univ Set.univ_nonempty
  letI : MeasurableSpace Z := ⊤
  have hfm : Measurable f := measurable_to_countable' hf
  have mp := MeasurePreserving.skew_product (μa := ν) (μb := μ) (μc := uniformOn (Set.univ : Set (SessionDice P M)))
    (μd := uniformOn (Set.univ : Set (StepDice P))) hφ (g := fun a z => z.step j κ (c (f a) z))
    (measurable_from_prod_countable_left fun z => by
      exact (measurable_from_top (f := fun y : Z => z.step j κ (c y z))).comp hfm)
    (Filter.Eventually.of_forall fun a => Measure.ext fun s hs => by
      rw [Measure.map_apply measurable_from_top hs]
      have h1 := uniformOn_uprob (X := SessionDice P M) fun z => z.step j κ (c (f a) z) ∈ s
      have h2 := uniformOn_uprob (X := StepDice P) fun z => z ∈ s
      rw [step_uniform j κ (c (f a)) (hc (f a)) (fun z => z ∈ s)] at h1
      exact h1.trans h2.symm)
  have h := Measure.le_map_apply mp.aemeasurable E
  rw [mp.map_eq] at h
  exact h

end GoTfhe
