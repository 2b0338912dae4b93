import Verif.Model.Params
import Mathlib.Data.Rat.Floor

/-!
# `/repo/utils/utils.go`

Finite `float64` values are exact rationals here. Every operation of this file is exact in IEEE-754
double arithmetic: `math.Mod` is exact, multiplying a value of magnitude below one by `2^32` only
changes the exponent, a `uint32` fits the mantissa, and dividing it by `2^32` changes the exponent.
-/

namespace GoTfhe

/-- Go's conversion of a float to an integer type: truncation toward zero. -/
def truncQ (x : ℚ) : ℤ := if 0 ≤ x then ⌊x⌋ else ⌈x⌉

/-- `math.Mod(d, 1.0)`: the exact remainder, with the sign of `d`. -/
def fmod1 (d : ℚ) : ℚ := d - truncQ d

/-- `F64ToTorus` (`/repo/utils/utils.go:11-14`) -/
def f64ToTorus (d : ℚ) : Torus := BitVec.ofInt 32 (truncQ (fmod1 d * 2 ^ 32))

/-- `TorusToF64` (`/repo/utils/utils.go:17-19`) -/
def torusToF64 (t : Torus) : ℚ := (t.toNat : ℚ) / 2 ^ 32

/-- `GaussianTorus` (`/repo/utils/utils.go:31-34`); `sample` is the value of
`rng.NormFloat64() * stddev`. -/
def gaussianTorus (mu : Torus) (sample : ℚ) : Torus := mu + f64ToTorus sample

/-- `GaussianF64` (`/repo/utils/utils.go:37-40`) -/
def gaussianF64 (mu : ℚ) (sample : ℚ) : Torus := gaussianTorus (f64ToTorus mu) sample

/-- `F64ToTorusVec` (`/repo/utils/utils.go:22-28`) -/
def f64ToTorusVec (d : List ℚ) : List Torus := d.map f64ToTorus

/-- `GaussianF64Vec` (`/repo/utils/utils.go:43-49`); `samples i` is the `i`-th Gaussian draw. -/
def gaussianF64Vec (mu : List ℚ) (samples : ℕ → ℚ) : List Torus :=
  mu.mapIdx fun i m => gaussianTorus (f64ToTorus m) (samples i)

end GoTfhe
