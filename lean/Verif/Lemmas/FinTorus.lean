import Verif.Model.Prelude
import Mathlib.Data.Fintype.Card

/-!
# The words of 32 bits as a finite type
-/

namespace GoTfhe

instance instFintypeTorus : Fintype Torus := Fintype.ofEquiv (Fin (2 ^ 32)) ⟨BitVec.ofFin, BitVec.toFin, fun _ => rfl, fun _ => rfl⟩

theorem card_torus : Fintype.card Torus = 2 ^ 32 := by
  rw [Fintype.ofEquiv_card, Fintype.card_fin]

end GoTfhe
