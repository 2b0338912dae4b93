import Verif.Spec.Fourier
import Verif.Lemmas.Prelude

/-!
# A backend satisfying the laws exactly

Used to show that the hypotheses of the ciphertext theorems can be met: polynomials represent
themselves and products are computed by the schoolbook formula.
-/

namespace GoTfhe

/-- Schoolbook backend of degree `N`. -/
def exactOps (N : ℕ) : FourierOps where
  deg := N
  F := List Torus
  newF := newPoly N
  clear f := f.map fun _ => 0
  toFourierAssign p f := if p.length = N ∧ f.length = N then some p else none
  mulInto a b := some (tab N (negMul N (at' a) (at' b)))
  mulAddAssign a b c := some (tab N fun k => at' c k + negMul N (at' a) (at' b) k)
  toPolyUnsafe f p := if f.length = N ∧ p.length = N then some (f, f) else none

/-- The laws hold for it at every degree the constructors accept. -/
def exactLaws (N : ℕ) (hN : newPoly N = some (mkSlice N 0)) (h0 : 0 < N) :
    FourierLaws (exactOps N) where
  ok f := f.length = N
  Z := mkSlice N (0 : Torus)
  T p := p
  Mul a b := tab N (negMul N (at' a) (at' b))
  MulAdd a b c := tab N fun k => at' c k + negMul N (at' a) (at' b) k
  R f := f
  deg_pos := h0
  newPoly_eq := hN
  newF_eq := hN
  ok_Z := by simp
  clear_eq := by
    have h : ∀ f : List Torus, f.length = N → f.map (fun _ => (0 : Torus)) = mkSlice N 0 := by
      intro f hf
      rw [List.map_const', hf]; rfl
    exact h
  toFourier_eq := by
    intro p f hp hf
    exact if_pos ⟨hp, hf⟩
  ok_T := fun p hp => hp
  mulInto_eq := fun _ _ _ _ => rfl
  ok_Mul := fun _ _ _ _ => by simp
  mulAdd_eq := fun _ _ _ _ _ _ => rfl
  ok_MulAdd := fun _ _ _ _ _ _ => by simp
  toPoly_eq := by
    intro f p hf hp
    exact ⟨f, if_pos ⟨hf, hp⟩, hf⟩
  length_R := fun f hf => hf

theorem exactLaws_accurate (N : ℕ) (hN : newPoly N = some (mkSlice N 0)) (h0 : 0 < N) (cnt bnd : ℕ) :
    (exactLaws N hN h0).Accurate cnt bnd 0 := by
  intro l _ _ k hk
  have hk' : k < N := hk
  have key : ∀ (l : List (List Torus × List Torus)) (acc : List Torus), acc.length = N →
      at' (l.foldl (fun (acc : List Torus) (q : List Torus × List Torus) =>
        tab N fun k => at' acc k + negMul N (at' q.1) (at' q.2) k) acc) k
      = at' acc k + (l.map fun p => negMul N (at' p.1) (at' p.2) k).sum := by
    intro l
    induction l with
    | nil => intro acc _; simp
    | cons q l ih =>
      intro acc _
      rw [List.foldl_cons, ih _ (by simp), at'_tab _ _ _ hk', List.map_cons, List.sum_cons, add_assoc]
  have := key l (mkSlice N 0) (by simp)
  have hz : at' (mkSlice N (0 : Torus)) k = 0 := by
    rw [at'_of_lt _ _ (by simpa using hk')]; simp [mkSlice]
  rw [hz, zero_add] at this
  refine (le_of_eq ?_)
  have e : at' ((exactLaws N hN h0).R ((exactLaws N hN h0).accum l)) k
      = (l.map fun p => negMul N (at' p.1) (at' p.2) k).sum := this
  rw [e]
  have e2 : (exactOps N).deg = N := rfl
  rw [e2, sub_self]; rfl

theorem exactLaws_mulAccurate (N : ℕ) (hN : newPoly N = some (mkSlice N 0)) (h0 : 0 < N) (bnd : ℕ) :
    (exactLaws N hN h0).MulAccurate bnd 0 := by
  intro a b _ _ _ k hk
  have hk' : k < N := hk
  have e : at' ((exactLaws N hN h0).R ((exactLaws N hN h0).Mul ((exactLaws N hN h0).T a)
      ((exactLaws N hN h0).T b))) k = negMul N (at' a) (at' b) k := at'_tab _ _ _ hk'
  rw [e]
  have e2 : (exactOps N).deg = N := rfl
  rw [e2, sub_self]; rfl

end GoTfhe
