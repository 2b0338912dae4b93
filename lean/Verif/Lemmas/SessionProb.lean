import Verif.Lemmas.GateProb
import Verif.Spec.Session
import Verif.Props.Gates
import Mathlib.MeasureTheory.Measure.Prod

/-!
# The random numbers of several gates under one key
-/

namespace GoTfhe

open MeasureTheory ProbabilityTheory Finset

/-- The image of a uniform element under a surjective homomorphism is uniform. -/
theorem avg_hom {G H : Type*} [Fintype G] [AddGroup G] [Fintype H] [AddGroup H] (φ : G →+ H)
    (hφ : Function.Surjective φ) (f : H → ℝ) : avg (fun g => f (φ g)) = avg f := by
  choose s hs using hφ
  have h1 : ∀ h, avg (fun g => f (φ g)) = avg fun g => f (φ g + h) := by
    intro h
    rw [← avg_equiv (Equiv.addRight (s h))]
    refine congrArg avg (funext fun g => ?_)
    rw [Equiv.coe_addRight, map_add, hs]
  calc avg (fun g => f (φ g)) = avg fun _ : H => avg fun g => f (φ g) := (avg_const _).symm
    _ = avg fun h => avg fun g => f (φ g + h) := congrArg avg (funext h1)
    _ = avg fun g => avg fun h => f (φ g + h) := avg_swap _
    _ = avg fun _ : G => avg f := congrArg avg (funext fun g => avg_equiv (Equiv.addLeft (φ g)) f)
    _ = avg f := avg_const _

theorem avg_session (P : Params) (M : ℕ) (f : SessionDice P M → ℝ) :
    avg f = avg fun b0 => avg fun b1 => avg fun m => avg fun a => f ⟨b0, b1, m, a⟩ := by
  rw [← avg_equiv (SessionDice.equiv P M).symm, avg_prod, avg_prod]
  exact congrArg avg (funext fun b0 => congrArg avg (funext fun b1 => avg_prod _))

/-- The random numbers of one gate among those of a session. -/
def SessionDice.gate {P : Params} {M : ℕ} (i j : Fin M) (z : SessionDice P M) : GateDice P :=
  ⟨z.coins0, z.coins1, z.bsk, z.masks i, z.masks j⟩

theorem session_gate {P : Params} {M : ℕ} (i j : Fin M) (hij : i ≠ j) (E : GateDice P → Prop) :
    uprob (fun z : SessionDice P M => E (z.gate i j)) = uprob E := by
  classical
  rw [uprob_avg, uprob_avg, avg_session, avg_dice]
  refine congrArg avg (funext fun b0 => congrArg avg (funext fun b1 => congrArg avg (funext fun m => ?_)))
  let φ : (Fin M → Mask P.tlweLv0.N) →+ Mask P.tlweLv0.N × Mask P.tlweLv0.N :=
    { toFun := fun a => (a i, a j), map_zero' := rfl, map_add' := fun _ _ => rfl }
  have hφ : Function.Surjective φ := by
    rintro ⟨a, b⟩
    refine ⟨Function.update (fun _ => a) j b, ?_⟩
    show (Function.update (fun _ => a) j b i, Function.update (fun _ => a) j b j) = _
    rw [Function.update_self, Function.update_of_ne hij]
  exact (avg_hom φ hφ fun t => if E ⟨b0, b1, m, t.1, t.2⟩ then (1 : ℝ) else 0).trans (avg_prod _)

theorem measurePreserving_gate {P : Params} {M : ℕ} (i j : Fin M) (hij : i ≠ j) :
    MeasurePreserving (SessionDice.gate i j) (uniformOn (Set.univ : Set (SessionDice P M)))
      (uniformOn (Set.univ : Set (GateDice P))) := by
  have hm : Measurable (SessionDice.gate (P := P) i j) := measurable_from_top
  refine ⟨hm, Measure.ext fun s hs => ?_⟩
  rw [Measure.map_apply hm hs]
  have h1 := uniformOn_uprob (X := SessionDice P M) fun z => z.gate i j ∈ s
  have h2 := uniformOn_uprob (X := GateDice P) fun z => z ∈ s
  rw [session_gate i j hij (fun z => z ∈ s)] at h1
  exact h1.trans h2.symm

/-- The probability of an event about one gate. -/
theorem session_measure {P : Params} {M : ℕ} (i j : Fin M) (hij : i ≠ j) {Ω : Type*} [MeasurableSpace Ω] (ν : Measure Ω)
    [IsProbabilityMeasure ν] (E : Set (Ω × GateDice P)) :
    (ν.prod (uniformOn (Set.univ : Set (SessionDice P M)))) {z | (z.1, z.2.gate i j) ∈ E}
      ≤ (ν.prod (uniformOn (Set.univ : Set (GateDice P)))) E := by
  have iU : IsProbabilityMeasure (uniformOn (Set.univ : Set (GateDice P))) :=
    uniformOn_isProbabilityMeasure Set.finite_univ Set.univ_nonempty
  have iS : IsProbabilityMeasure (uniformOn (Set.univ : Set (SessionDice P M))) :=
    uniformOn_isProbabilityMeasure Set.finite_univ Set.univ_nonempty
  have mp := (MeasurePreserving.id ν).prod (measurePreserving_gate (P := P) i j hij)
  have h := Measure.le_map_apply mp.aemeasurable E
  rw [mp.map_eq] at h
  exact h

/-- A subfamily of independent draws. -/
theorem NoiseDraws.precomp {ι κ Ω : Type*} [MeasurableSpace Ω] {μ : Measure Ω} {q : ι → Ω → ℚ} {σ : ι → ℝ}
    (h : NoiseDraws μ q σ) (f : κ → ι) (hf : Function.Injective f) : NoiseDraws μ (fun k => q (f k)) fun k => σ (f k) :=
  ⟨fun k => h.measurable _, h.indep.precomp hf, fun k => h.symm _, fun k => h.mgf _⟩

/-- Key generation gives the same cloud key under all schedules that finish. -/
theorem newCloudKey_unique {O : FourierOps} {P : Params} (W : WellFormed P) (L : FourierLaws O) (hd : O.deg = P.trgswLv1.N)
    (k0 k1 : List Torus) (R : KeyGenRand) (h0 : P.tlweLv0.N ≤ k0.length) (h1 : k1.length = P.trgswLv1.N)
    (hb1 : IsBinary k1) (sK sB sK' sB' : List ℕ) (ck ck' : CloudKey O)
    (e : newCloudKey P O k0 k1 R sK sB = some (true, ck)) (e' : newCloudKey P O k0 k1 R sK' sB' = some (true, ck')) :
    ck = ck' := by
  unfold newCloudKey at e e'
  simp only [Option.bind_eq_bind, Option.bind_eq_some_iff, Option.pure_def, Option.some.injEq, Prod.mk.injEq,
    Bool.and_eq_true] at e e'
  obtain ⟨off, eo, tv, et, ⟨tk, ksk⟩, ek, ⟨tb, bsk⟩, eb, ⟨d1, d2⟩, rfl⟩ := e
  obtain ⟨off', eo', tv', et', ⟨tk', ksk'⟩, ek', ⟨tb', bsk'⟩, eb', ⟨d1', d2'⟩, rfl⟩ := e'
  obtain rfl := Option.some.inj (eo.symm.trans eo')
  obtain rfl := Option.some.inj (et.symm.trans et')
  obtain rfl := C36_keySwitchingKey_unique W k0 k1 R h0 h1.ge hb1 sK sK' tk tk' ksk ksk' ek d1 ek' d1'
  obtain rfl := C36_bootstrappingKey_unique W L hd k0 k1 R h0 h1 sB sB' tb tb' bsk bsk' eb d2 eb' d2'
  rfl

/-- A gate is a function of the inputs and the cloud key, whatever the evaluator has done before. -/
theorem gate2_bootOut {O : FourierOps} {P : Params} (W : WellFormed P) (L : FourierLaws O) (hd : O.deg = P.trgswLv1.N)
    {st : EvState O} (hst : EvGood P L st) {ck : CloudKey O} (hck : CkGood P L ck) (g : Gate2) (a b prep : List Torus)
    (hp : gatePrepare P g a b = some prep) (hl : prep.length = P.tlweLv0.N + 1) :
    ∃ st', gate2 P g st a b ck = some (st', bootOut P L ck ck.blindRotateTestvec prep) ∧ EvGood P L st' := by
  rw [gate2_eq, hp]
  exact gateBootstrap_eq W L hd hst hck prep hl

end GoTfhe
