import Verif.Spec.Basic

/-!
# Polynomials modulo `X^N + 1`

A polynomial of degree below `N` is its coefficient function on `{0, …, N-1}`. Its antiperiodic
extension satisfies `ext (i + N) = - ext i`, because `X^N = -1`.
-/

namespace GoTfhe

/-- Extension of coefficients to all integer exponents, `neg` being applied once per wrap-around. -/
def extG (neg : Torus → Torus) (N : ℕ) (f : ℕ → Torus) (z : ℤ) : Torus :=
  if (z / N) % 2 = 0 then f (z % N).toNat else neg (f (z % N).toNat)

/-- Coefficient of `X^z` in the antiperiodic extension: `X^N = -1`. -/
def ext (N : ℕ) (f : ℕ → Torus) (z : ℤ) : Torus := extG (fun x => -x) N f z

/-- Coefficient `i` of `X^k * f` in `(Z/2^32)[X]/(X^N+1)`. -/
def mulXk (N : ℕ) (f : ℕ → Torus) (k : ℤ) (i : ℕ) : Torus := ext N f (i - k)

/-- Coefficient `k` of the product `a * b` in `(Z/2^32)[X]/(X^N+1)`, by the schoolbook formula. -/
def negMul (N : ℕ) (a b : ℕ → Torus) (k : ℕ) : Torus :=
  ∑ i ∈ Finset.range N, if i ≤ k then a i * b (k - i) else -(a i * b (k + N - i))

end GoTfhe
