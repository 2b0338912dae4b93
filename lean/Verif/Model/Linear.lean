import Verif.Model.Tlwe
import Verif.Spec.Linear

/-!
# A client program of linear operations on LWE ciphertexts
-/

namespace GoTfhe

/-- One call of `Add`, `Sub`, `Neg`, `AddMul`, `SubMul` (`/repo/tlwe/tlwe.go:77-134`) on earlier ciphertexts. -/
def LinInstr.run (P : Params) (ws : List (List Torus)) : LinInstr → Option (List Torus)
  | .add i j => do tlwe0Add P (← ws[i]?) (← ws[j]?)
  | .sub i j => do tlwe0Sub P (← ws[i]?) (← ws[j]?)
  | .neg i => do tlwe0Neg P (← ws[i]?)
  | .addMul i j c => do tlwe0AddMul P (← ws[i]?) (← ws[j]?) c
  | .subMul i j c => do tlwe0SubMul P (← ws[i]?) (← ws[j]?) c

end GoTfhe
