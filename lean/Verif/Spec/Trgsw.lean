import Verif.Model.Trgsw
import Verif.Spec.Fourier
import Verif.Spec.Keys

/-!
# What a TRGSW sample and a bootstrapping key should contain
-/

namespace GoTfhe

/-- Row `i` of a TRGSW sample. -/
def Trgsw.row (t : Trgsw) (i : ℕ) : Trlwe := t.getD i ⟨[], []⟩

/-- `t` is a TRGSW sample of the integer `p` under the key `s`, with `l` levels of `b` bits and
errors `err`: row `i < l` has phase `err i - p * 2^(32-(i+1)b) * s`, row `i + l` has phase
`err (i+l) + p * 2^(32-(i+1)b)`. -/
structure IsTrgsw (N l b : ℕ) (t : Trgsw) (p : Torus) (s : List Torus) (err : ℕ → ℕ → Torus) :
    Prop where
  rows : t.length = 2 * l
  sizedA : ∀ row ∈ t, row.A.length = N
  sizedB : ∀ row ∈ t, row.B.length = N
  phaseA : ∀ i < l, ∀ k < N, trPhase N (t.row i).A (t.row i).B s k
    = err i k - p * ((2 ^ (32 - (i + 1) * b) : ℕ) : Torus) * at' s k
  phaseB : ∀ i < l, ∀ k < N, trPhase N (t.row (i + l)).A (t.row (i + l)).B s k
    = err (i + l) k + if k = 0 then p * ((2 ^ (32 - (i + 1) * b) : ℕ) : Torus) else 0

/-- `g` is the Fourier transform of `t`. -/
def IsFft {O : FourierOps} (L : FourierLaws O) (t : Trgsw) (g : TrgswF O) : Prop :=
  g = t.map fun r => ⟨L.T r.A, L.T r.B⟩

/-- `bsk` is a bootstrapping key for the LWE key `s0` (dimension `n0`) under the ring key `s1`: entry
`i` is the transform of a TRGSW sample of `s0_i` with errors `err i`. -/
def IsBsk {O : FourierOps} (L : FourierLaws O) (n0 N l b : ℕ) (bsk : List (TrgswF O)) (s0 s1 : List Torus)
    (err : ℕ → ℕ → ℕ → Torus) : Prop :=
  bsk.length = n0 ∧ ∀ i < n0, ∃ t, IsTrgsw N l b t (at' s0 i) s1 (err i) ∧ IsFft L t (bsk.getD i [])

end GoTfhe
