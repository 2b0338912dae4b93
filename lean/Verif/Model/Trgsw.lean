import Verif.Model.Trlwe
import Verif.Model.Decomp

/-!
# TRGSW encryption (`/repo/trgsw/trgsw.go`)
-/

namespace GoTfhe

/-- `TRGSWLv1` (`/repo/trgsw/trgsw.go:15-17`) is its slice of rows. -/
abbrev Trgsw := List Trlwe

/-- `NewTRGSWLv1` (`/repo/trgsw/trgsw.go:20-29`) -/
def newTRGSWLv1 (P : Params) : Trgsw := List.replicate (P.trgswLv1.L * 2) (newTRLWELv1 P)

/-- `utils.F64ToTorusVec(pF64)` with `pF64[i] = 1.0 / math.Pow(bg, float64(i+1))`
(`/repo/trgsw/trgsw.go:38-42`). `bg` is a power of two, so the quotients are exact doubles. -/
def gadgetTorus (P : Params) : List Torus :=
  f64ToTorusVec ((List.range P.trgswLv1.L).map fun i => 1 / (P.trgswLv1.BG : ℚ) ^ (i + 1))

/-- `(*TRGSWLv1).EncryptTorus` (`/repo/trgsw/trgsw.go:32-57`). `draw i` and `samples i` are the
randomness of row `i`. -/
def trgswEncryptTorus (P : Params) (O : FourierOps) (t : Trgsw) (p : Torus) (key : List Torus)
    (draw : ℕ → ℕ → Torus) (samples : ℕ → ℕ → ℚ) : Option Trgsw := do
  let l := P.trgswLv1.L
  let pTorus := gadgetTorus P
  let plainZero : List ℚ := mkSlice P.trgswLv1.N 0
  let t ← forRange 0 t.length t fun i t => do
    let row ← trlweEncryptF64 P O (newTRLWELv1 P) plainZero key (draw i) (samples i)
    wr t i row
  forRange 0 l t fun i t => do
    let g ← rd pTorus i
    let row ← rd t i
    let x ← rd row.A 0
    let A ← wr row.A 0 (x + p * g)
    let t ← wr t i { row with A := A }
    let row ← rd t (i + l)
    let x ← rd row.B 0
    let B ← wr row.B 0 (x + p * g)
    wr t (i + l) { row with B := B }

/-- `TRLWELv1FFT` of package `trgsw` (`/repo/trgsw/trgsw.go:65-68`) -/
structure TrlweF (O : FourierOps) where
  A : O.F
  B : O.F

/-- `TRGSWLv1FFT` (`/repo/trgsw/trgsw.go:60-62`) -/
abbrev TrgswF (O : FourierOps) := List (TrlweF O)

/-- `NewTRGSWLv1FFT` (`/repo/trgsw/trgsw.go:71-82`) -/
def newTRGSWLv1FFT (O : FourierOps) (t : Trgsw) : Option (TrgswF O) :=
  t.mapM fun row => do
    let a ← O.toFourier row.A
    let b ← O.toFourier row.B
    pure ⟨a, b⟩

/-- `NewTRGSWLv1FFTDummy` (`/repo/trgsw/trgsw.go:85-97`) -/
def newTRGSWLv1FFTDummy (P : Params) (O : FourierOps) : Option (TrgswF O) :=
  (List.range (P.trgswLv1.L * 2)).mapM fun _ => do
    let a ← O.newF
    let b ← O.newF
    pure ⟨a, b⟩

end GoTfhe
