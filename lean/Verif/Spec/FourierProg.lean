import Verif.Spec.Negacyclic
import Verif.Spec.Basic
import Verif.Model.FourierProg

/-!
# Meaning of a program over Fourier polynomials

The same program on polynomials over `Z/2^32` modulo `X^N + 1`, given by their coefficients.
-/

namespace GoTfhe

/-- Output register of a call. -/
def FInstr.dest : FInstr → ℕ
  | .load d _ | .add d _ _ | .sub d _ _ | .mul d _ _ | .mulAdd d _ _ | .mulSub d _ _ | .scale d _ _
  | .scaleAdd d _ _ | .copy d _ | .clear d
  | .newLoad d _ | .newAdd d _ _ | .newSub d _ _ | .newMul d _ _ | .dup d _ => d

/-- Polynomial computed by a call. -/
def FInstr.poly (N : ℕ) (v : ℕ → ℕ → Torus) : FInstr → ℕ → Torus
  | .load _ p => at' p
  | .add _ a b => fun i => v a i + v b i
  | .sub _ a b => fun i => v a i - v b i
  | .mul _ a b => negMul N (v a) (v b)
  | .mulAdd d a b => fun i => v d i + negMul N (v a) (v b) i
  | .mulSub d a b => fun i => v d i - negMul N (v a) (v b) i
  | .scale _ a c => fun i => (c : Torus) * v a i
  | .scaleAdd d a c => fun i => v d i + (c : Torus) * v a i
  | .copy _ a => v a
  | .clear _ => fun _ => 0
  | .newLoad _ p => at' p
  | .newAdd _ a b => fun i => v a i + v b i
  | .newSub _ a b => fun i => v a i - v b i
  | .newMul _ a b => negMul N (v a) (v b)
  | .dup _ a => v a

/-- Polynomials in the registers after a program. -/
def polyProgram (N : ℕ) : List FInstr → (ℕ → ℕ → Torus) → ℕ → ℕ → Torus
  | [], v => v
  | c :: cs, v => polyProgram N cs (Function.update v c.dest (c.poly N v))

/-- Every polynomial loaded has `N` coefficients. -/
def FInstr.Sized (N : ℕ) : FInstr → Prop
  | .load _ p | .newLoad _ p => p.length = N
  | _ => True

end GoTfhe
