import Verif.Spec.Session

/-!
# Programs of gates that use a new ciphertext at every gate

Key generation, any number of encryptions, then any sequence of gates with one evaluator. A gate combines an earlier result,
or an encryption, with an encryption. Results are not decrypted in between; all are decrypted at the end.
-/

namespace GoTfhe

variable {O : FourierOps}

/-- The gates, one after the other. `(g, i, j)` applies `g` to the register `i` and the encryption `j`, and appends the result
to the registers. -/
def freshGates (P : Params) (ck : CloudKey O) {M : ℕ} (cts : List (List Torus)) :
    EvState O → List (List Torus) → List (Gate2 × ℕ × Fin M) → Option (List (List Torus))
  | _, regs, [] => some regs
  | st, regs, (g, i, j) :: jobs => do
    let a ← rd regs i
    let b ← rd cts j
    let (st, result) ← gate2 P g st a b ck
    freshGates P ck cts st (regs ++ [result]) jobs

/-- Key generation, the encryptions of the bits `x`, the gates `jobs`, starting with the encryptions in the registers, and the
decryption of all registers. `y` are the Gaussian draws of the cloud key, `u` those of the encryptions. -/
def freshRun (P : Params) (O : FourierOps) (R : KeyGenRand) (tr0 : TRef → Trlwe) (lw0 : LRef → List Torus)
    (schedK schedB : List ℕ) {M : ℕ} (x : Fin M → Bool) (jobs : List (Gate2 × ℕ × Fin M)) (y : DrawIx → ℚ) (u : Fin M → ℚ)
    (z : SessionDice P M) : Option (List Bool) := do
  let st ← newEvaluator P O tr0 lw0
  let sk ← newSecretKey P (keyCoins z.coins0) (keyCoins z.coins1)
  let (_, ck) ← newCloudKey P O sk.keyLv0 sk.keyLv1 ((R.withEntryMasks z.bsk).withDraws y) schedK schedB
  let cts ← (List.finRange M).mapM fun i => tlwe0EncryptBool P (newTLWELv0 P) (x i) sk.keyLv0 (z.masks i).draw (u i)
  let regs ← freshGates P ck cts st cts jobs
  regs.mapM fun c => tlwe0DecryptBool P c sk.keyLv0

/-- The same on bits. -/
def freshBits {M : ℕ} (x : Fin M → Bool) : List Bool → List (Gate2 × ℕ × Fin M) → List Bool
  | regs, [] => regs
  | regs, (g, i, j) :: jobs => freshBits x (regs ++ [g.eval (regs.getD i false) (x j)]) jobs

/-- Every gate uses an existing register, and an encryption that the register does not depend on. `D` lists the encryptions
on which each register depends. -/
def FreshFrom {M : ℕ} : List (Finset (Fin M)) → List (Gate2 × ℕ × Fin M) → Prop
  | _, [] => True
  | D, (_, i, j) :: jobs => i < D.length ∧ j ∉ D.getD i ∅ ∧ FreshFrom (D ++ [insert j (D.getD i ∅)]) jobs

/-- The same from the start, when register `i` is encryption `i`. -/
def Fresh {M : ℕ} (jobs : List (Gate2 × ℕ × Fin M)) : Prop := FreshFrom ((List.finRange M).map fun i => {i}) jobs

/-- The gate `g` on register `i` and the first encryption of the list, on the result and the second, and so on. `r` is the
number of registers. -/
def foldJobs (g : Gate2) {M : ℕ} : ℕ → ℕ → List (Fin M) → List (Gate2 × ℕ × Fin M)
  | _, _, [] => []
  | i, r, j :: js => (g, i, j) :: foldJobs g r (r + 1) js

end GoTfhe
