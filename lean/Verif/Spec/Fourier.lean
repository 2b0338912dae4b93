import Verif.Model.Fourier
import Verif.Spec.Negacyclic

/-!
# What is required of a Fourier backend

`FourierLaws` says that the operations do not panic on buffers of the right size and that what they
write is a function of their mathematical inputs, not of the previous buffer contents. `Accurate`
says how far the transform back of a sum of products is from the negacyclic sum of products.
`Verif.Props.Fft` and `Verif.Props.FftFloat` prove both for the transform of `/repo/poly`.
-/

namespace GoTfhe

/-- Functional behaviour of a backend on buffers satisfying `ok`. -/
structure FourierLaws (O : FourierOps) where
  ok : O.F → Prop
  Z : O.F
  T : List Torus → O.F
  Mul : O.F → O.F → O.F
  MulAdd : O.F → O.F → O.F → O.F
  R : O.F → List Torus
  deg_pos : 0 < O.deg
  newPoly_eq : newPoly O.deg = some (mkSlice O.deg 0)
  newF_eq : O.newF = some Z
  ok_Z : ok Z
  clear_eq : ∀ f, ok f → O.clear f = Z
  toFourier_eq : ∀ p f, p.length = O.deg → ok f → O.toFourierAssign p f = some (T p)
  ok_T : ∀ p, p.length = O.deg → ok (T p)
  mulInto_eq : ∀ a b, ok a → ok b → O.mulInto a b = some (Mul a b)
  ok_Mul : ∀ a b, ok a → ok b → ok (Mul a b)
  mulAdd_eq : ∀ a b c, ok a → ok b → ok c → O.mulAddAssign a b c = some (MulAdd a b c)
  ok_MulAdd : ∀ a b c, ok a → ok b → ok c → ok (MulAdd a b c)
  toPoly_eq : ∀ f p, ok f → p.length = O.deg → ∃ f', O.toPolyUnsafe f p = some (f', R f) ∧ ok f'
  length_R : ∀ f, ok f → (R f).length = O.deg

namespace FourierLaws

variable {O : FourierOps} (L : FourierLaws O)

/-- The accumulated product `Σ_i x_i * y_i` in the Fourier domain, from a cleared accumulator. -/
def accum (l : List (List Torus × List Torus)) : O.F :=
  l.foldl (fun acc q => L.MulAdd (L.T q.1) (L.T q.2) acc) L.Z

/-- Accumulating at most `cnt` products whose first factors have coefficients of size at most `bnd`
and transforming back is within `D` of the negacyclic sum of products, in every coefficient. -/
def Accurate (cnt bnd D : ℕ) : Prop :=
  ∀ l : List (List Torus × List Torus), l.length ≤ cnt →
    (∀ p ∈ l, p.1.length = O.deg ∧ p.2.length = O.deg ∧ ∀ i, nrm (at' p.1 i) ≤ bnd) →
    ∀ k < O.deg, nrm (at' (L.R (L.accum l)) k
      - (l.map fun p => negMul O.deg (at' p.1) (at' p.2) k).sum) ≤ D

/-- One product with a second factor of size at most `bnd` is within `D` of the negacyclic
product. -/
def MulAccurate (bnd D : ℕ) : Prop :=
  ∀ a b : List Torus, a.length = O.deg → b.length = O.deg → (∀ i, nrm (at' b i) ≤ bnd) →
    ∀ k < O.deg, nrm (at' (L.R (L.Mul (L.T a) (L.T b))) k - negMul O.deg (at' a) (at' b) k) ≤ D

end FourierLaws

/-- Phase polynomial `B - A*s` of a TRLWE sample, coefficient `k`. -/
def trPhase (N : ℕ) (A B s : List Torus) (k : ℕ) : Torus :=
  at' B k - negMul N (at' A) (at' s) k

end GoTfhe
