import Verif.Spec.Circuit

/-!
# The requests of one client
-/

namespace GoTfhe

/-- The requests of client `p`, in their order -/
def requestsOf (p : ℕ) (reqs : List (ℕ × Instr)) : List Instr := (reqs.filter fun r => r.1 = p).map Prod.snd

end GoTfhe
