import Verif.Model.CloudKey
import Verif.Spec.Keys
import Verif.Spec.Negacyclic

/-!
# An adversary against the cloud key

Everything here is computed from the public `CloudKey` with public operations. `recoverKeys` solves the linear
system that a bootstrapping key without noise is. None of this is code of `/repo`.
-/

namespace GoTfhe

/-- Product in `(Z/2^32)[X]/(X^N+1)`. -/
def ringMul (N : ℕ) (a b : List Torus) : List Torus := tab N (negMul N (at' a) (at' b))

/-- The polynomial `c` of degree 0. -/
def constPoly (N : ℕ) (c : Torus) : List Torus := tab N fun i => if i = 0 then c else 0

/-- `a^(2^m - 1)`, by `m` squarings. -/
def powPoly (N : ℕ) (a : List Torus) : ℕ → List Torus
  | 0 => constPoly N 1
  | m + 1 => ringMul N (ringMul N (powPoly N a m) (powPoly N a m)) a

/-- The ring key `s` from a row `(A, B)` with `B = A * s + p * 2^(32-b)`, `p` an unknown bit: `A^(N 2^31 - 1)` is the
inverse of `A`, and of the two candidates the right one is binary. -/
def recoverRing (n b : ℕ) (A B : List Torus) : List Torus :=
  let N := 2 ^ n
  let inv := powPoly N A (n + 31)
  let c0 := ringMul N inv B
  let c1 := ringMul N inv (tab N fun k => at' B k - if k = 0 then ((2 ^ (32 - b) : ℕ) : Torus) else 0)
  if ∀ x ∈ c0, x = 0 ∨ x = 1 then c0 else c1

/-- A polynomial from its Fourier transform: multiply by the transform of 1 and transform back. -/
def fromFourier (O : FourierOps) (f : O.F) : Option (List Torus) := do
  let one ← O.toFourier (constPoly O.deg 1)
  let g ← O.mulInto f one
  let r ← O.toPolyUnsafe g (mkSlice O.deg 0)
  pure r.2

/-- The row of entry `i` of the bootstrapping key that has the message in its `B` part, first level. -/
def publicRow (P : Params) (O : FourierOps) (ck : CloudKey O) (i : ℕ) : Option (List Torus × List Torus) := do
  let e ← ck.bootstrappingKey[i]?
  let r ← e[P.trgswLv1.L]?
  let A ← fromFourier O r.A
  let B ← fromFourier O r.B
  pure (A, B)

/-- Both secret keys from a cloud key: find a row with an odd coefficient sum, recover the ring key from it, and read
the bits of the other key off the rows with it. -/
def recoverKeys (P : Params) (O : FourierOps) (ck : CloudKey O) : Option (List Torus × List Torus) := do
  let rows ← (List.range P.tlweLv0.N).mapM (publicRow P O ck)
  let r ← rows.find? fun r => (∑ i ∈ Finset.range (2 ^ P.trgswLv1.NBIT), (at' r.1 i).toNat) % 2 = 1
  let s1 := recoverRing P.trgswLv1.NBIT P.trgswLv1.BGBIT r.1 r.2
  let s0 := rows.map fun r =>
    if at' r.2 0 - negMul (2 ^ P.trgswLv1.NBIT) (at' r.1) (at' s1) 0 = 0 then (0 : Torus) else 1
  pure (s0, s1)

end GoTfhe
