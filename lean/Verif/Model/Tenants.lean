import Verif.Model.Circuit

/-!
# A server that computes for several clients

The gates of `/repo/gates/gates.go` all use the one evaluator `globalEval` (`/repo/gates/gates.go:18-23`) and take the
cloud key as an argument. `runServer` is a program that serves several clients in turn, one gate at a time.
-/

namespace GoTfhe

variable {O : FourierOps}

/-- Requests `(p, c)`: apply the gate `c` to the ciphertexts of client `p` with the cloud key of client `p`. -/
def runServer (P : Params) (ck : ℕ → CloudKey O) (st : EvState O) (ws : ℕ → List (List Torus)) :
    List (ℕ × Instr) → Option (EvState O × (ℕ → List (List Torus)))
  | [] => some (st, ws)
  | (p, c) :: rest => do
    let (st, w) ← c.run P (ck p) st (ws p)
    runServer P ck st (Function.update ws p (ws p ++ [w])) rest

end GoTfhe
