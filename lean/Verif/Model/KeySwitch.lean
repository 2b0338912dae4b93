import Verif.Model.Params

/-!
# Identity key switching (`/repo/trgsw/trgsw.go`, `/repo/trgsw/keyswitch.go`) and the
modulus switch of blind rotation
-/

namespace GoTfhe

/-- The double loop shared by `IdentityKeySwitching` (`/repo/trgsw/trgsw.go:295-308`) and
`IdentityKeySwitchingAssign` (`/repo/trgsw/keyswitch.go:23-36`), on the output slice `out`.
Negative shift counts panic. Key-switching-key entries are never nil: the generators fill all
entries (`/repo/cloudkey/cloudkey.go:94-97`). -/
def keySwitchLoop (n basebit iksT : ℕ) (src : List Torus) (ksk : List (List Torus))
    (out : List Torus) : Option (List Torus) :=
  let base := 1 <<< basebit
  if 32 < 1 + basebit * iksT then none else
  let precOffset : Torus := 1#32 <<< (32 - (1 + basebit * iksT))
  forRange 0 n out fun i out => do
    let a ← rd src i
    let aBar := a + precOffset
    forRange 0 iksT out fun j out =>
      if 32 < (j + 1) * basebit then none else
      let k := (aBar >>> (32 - (j + 1) * basebit)) &&& ((1#32 <<< basebit) - 1)
      if k ≠ 0 then
        let idx := base * iksT * i + base * j + k.toNat
        forRange 0 out.length out fun x out => do
          let e ← rd ksk idx
          let c ← rd e x
          let o ← rd out x
          wr out x (o - c)
      else some out

/-- `src.P[len(src.P)-1]`; an empty slice panics. -/
def rdLast (l : List Torus) : Option Torus := if l.length = 0 then none else rd l (l.length - 1)

/-- `IdentityKeySwitching` (`/repo/trgsw/trgsw.go:285-311`). -/
def identityKeySwitching (P : Params) (src : List Torus) (ksk : List (List Torus)) :
    Option (List Torus) := do
  let out := mkSlice (P.tlweLv0.N + 1) (0 : Torus)
  let b ← rdLast src
  let out ← wr out P.tlweLv0.N b
  keySwitchLoop P.trgswLv1.N P.trgswLv1.BASEBIT P.trgswLv1.IKS_T src ksk out

/-- `IdentityKeySwitchingAssign` (`/repo/trgsw/keyswitch.go:10-37`) for an output that does not share
memory with the inputs (evaluator buffers never do). -/
def identityKeySwitchingAssign (P : Params) (src : List Torus) (ksk : List (List Torus))
    (out : List Torus) : Option (List Torus) := do
  let out ← forRange 0 out.length out fun i out => wr out i 0
  let b ← rdLast src
  let out ← wr out P.tlweLv0.N b
  keySwitchLoop P.trgswLv1.N P.trgswLv1.BASEBIT P.trgswLv1.IKS_T src ksk out

/-- `bTilda := 2*n - ((int(src.B()) + (1 << (31 - nBit - 1))) >> (32 - nBit - 1))`, in 64-bit `int`
(`/repo/trgsw/trgsw.go:204`, `/repo/evaluator/evaluator.go:116`). Natural subtraction in the shift
counts: `nBit ≤ 30` for every parameter set. -/
def bTilda (n nBit : ℕ) (b : Torus) : ℤ :=
  (2 : ℤ) * (n : ℤ) - (((b.toNat + (1 <<< (31 - nBit - 1))) >>> (32 - nBit - 1) : ℕ) : ℤ)

/-- `aTilda := int((src.P[i] + (1 << (31 - nBit - 1))) >> (32 - nBit - 1))`, the addition in `uint32`
(`/repo/trgsw/trgsw.go:213`, `/repo/evaluator/evaluator.go:122`). -/
def aTilda (nBit : ℕ) (a : Torus) : ℤ :=
  ((a + (1#32 <<< (31 - nBit - 1))) >>> (32 - nBit - 1)).toNat

end GoTfhe
