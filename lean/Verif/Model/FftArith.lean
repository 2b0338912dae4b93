import Verif.Model.Fft
import Verif.Model.Float
import Mathlib.Analysis.SpecialFunctions.Trigonometric.Basic

/-!
# Two readings of the transform

`realArith` evaluates it in exact real arithmetic, `floatArith` in rounded arithmetic on rational numbers (every
`float64` is one).
-/

namespace GoTfhe

/-- `math.Round`: to the nearest integer, halves away from zero. -/
def roundAway {K : Type} [Field K] [LinearOrder K] [FloorRing K] (x : K) : ℤ :=
  if 0 ≤ x then ⌊x + 1 / 2⌋ else ⌈x - 1 / 2⌉

/-- `int64(x)`: towards zero. Used on values far inside the range of `int64`. -/
def truncZ {K : Type} [Field K] [LinearOrder K] [FloorRing K] (x : K) : ℤ :=
  if 0 ≤ x then ⌊x⌋ else ⌈x⌉

/-- Exact arithmetic. -/
noncomputable def realArith : Arith ℝ where
  zero := 0
  add := (· + ·)
  sub := (· - ·)
  mul := (· * ·)
  div := (· / ·)
  neg := (- ·)
  mulSub _ a b c d := a * b - c * d
  mulAdd _ a b c d := a * b + c * d
  addMul _ z a b := z + a * b
  subMul _ z a b := z - a * b
  ofInt i := i
  pi := Real.pi
  cexp x := (Real.cos x, Real.sin x)
  round x := (roundAway x : ℤ)
  toInt := truncZ

/-- Whether one of the products is fused into a sum or difference of two products: then its rounding is left
out. -/
inductive Fuse
  | neither | left | right
deriving DecidableEq

/-- The compiler's choices ("An implementation may combine multiple floating-point operations into a single fused
operation, possibly across statements, and produce a result that differs from the value obtained by executing and
rounding the instructions individually", Go specification, Floating-point operators). -/
structure Fusing where
  sub : Site → Fuse
  add : Site → Fuse
  addMul : Site → Bool
  subMul : Site → Bool

/-- No fused operations, as on amd64 without `GOAMD64=v3`. -/
def noFusing : Fusing := ⟨fun _ => .neither, fun _ => .neither, fun _ => false, fun _ => false⟩

/-- `a*b + sgn*(c*d)` with rounding `fl`. -/
def fusedDot (fl : ℚ → ℚ) (f : Fuse) (sgn a b c d : ℚ) : ℚ :=
  match f with
  | .neither => fl (fl (a * b) + sgn * fl (c * d))
  | .left => fl (a * b + sgn * fl (c * d))
  | .right => fl (fl (a * b) + sgn * (c * d))

/-- Rounded arithmetic: every operation is the exact one followed by `fl`, except where `fu` fuses two; `pi` and
`cexp` are the constant and the function of the Go library. `math.Round` and the conversion of an integer
coefficient are exact. -/
def floatArith (fl : ℚ → ℚ) (fu : Fusing) (pi : ℚ) (cexp : ℚ → ℚ × ℚ) : Arith ℚ where
  zero := 0
  add x y := fl (x + y)
  sub x y := fl (x - y)
  mul x y := fl (x * y)
  div x y := fl (x / y)
  neg x := -x
  mulSub s a b c d := fusedDot fl (fu.sub s) (-1) a b c d
  mulAdd s a b c d := fusedDot fl (fu.add s) 1 a b c d
  addMul s z a b := fl (z + if fu.addMul s then a * b else fl (a * b))
  subMul s z a b := fl (z - if fu.subMul s then a * b else fl (a * b))
  ofInt i := i
  pi := pi
  cexp := cexp
  round x := (roundAway x : ℤ)
  toInt := truncZ

end GoTfhe
