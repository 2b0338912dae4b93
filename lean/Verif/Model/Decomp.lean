import Verif.Model.Params

/-!
# Gadget decomposition (`/repo/poly/decomposer.go`, `/repo/trgsw/trgsw.go`, `/repo/cloudkey/cloudkey.go`)
-/

namespace GoTfhe

/-- `((tmp >> (32 - (uint32(i)+1)*bgbit)) & mask) - halfBG`
(`/repo/poly/decomposer.go:63`, `/repo/trgsw/trgsw.go:158,161`), with
`mask = params.Torus((1 << bgbit) - 1)` and `halfBG = params.Torus(1 << (bgbit - 1))`
(`/repo/poly/decomposer.go:57-58`, `/repo/trgsw/trgsw.go:143-144`). The shift amount is computed in
`uint32` and wraps; a shift by 32 or more gives `0`. -/
def digit (tmp : Torus) (bgbit i : ℕ) : Torus :=
  ((tmp >>> (32#32 - (BitVec.ofNat 32 i + 1) * BitVec.ofNat 32 bgbit).toNat)
    &&& ((1#32 <<< bgbit) - 1)) - (1#32 <<< (bgbit - 1))

/-- `DecomposePolyAssign` (`/repo/poly/decomposer.go:55-66`). `bgbit` is an `int` there, so
`bgbit = 0` panics (negative shift). The rows of `out` are different slices. -/
def decomposePolyAssign (p : List Torus) (bgbit level : ℕ) (offset : Torus)
    (out : List (List Torus)) : Option (List (List Torus)) :=
  if bgbit = 0 then none else
  forRange 0 p.length out fun j out => do
    let pj ← rd p j
    let tmp := pj + offset
    forRange 0 level out fun i out => do
      let row ← rd out i
      let row ← wr row j (digit tmp bgbit i)
      wr out i row

/-- The coefficient part of `decompositionInPlace` (`/repo/trgsw/trgsw.go:137-163`) on the
decomposition buffers `bufs`; the final Fourier transforms (lines 165-168) are in
`Verif.Model.Trgsw`. `GetDecompBuffer` panics on an index beyond the buffers
(`/repo/poly/buffer_methods.go:75-80`). -/
def decompositionCoeffs (l n bgbit : ℕ) (A B : List Torus) (offset : Torus)
    (bufs : List (List Torus)) : Option (List (List Torus)) := do
  let bufs ← forRange 0 (l * 2) bufs fun i bufs => do
    let buf ← rd bufs i
    let buf ← forRange 0 n buf fun j buf => wr buf j 0
    wr bufs i buf
  forRange 0 n bufs fun j bufs => do
    let aj ← rd A j
    let bj ← rd B j
    let tmp0 := aj + offset
    let tmp1 := bj + offset
    let bufs ← forRange 0 l bufs fun i bufs => do
      let buf ← rd bufs i
      let buf ← wr buf j (digit tmp0 bgbit i)
      wr bufs i buf
    forRange 0 l bufs fun i bufs => do
      let buf ← rd bufs (i + l)
      let buf ← wr buf j (digit tmp1 bgbit i)
      wr bufs (i + l) buf

/-- `genDecompositionOffset` (`/repo/cloudkey/cloudkey.go:60-71`). A negative shift count panics. -/
def genDecompositionOffset (P : Params) : Option Torus :=
  let l := P.trgswLv1.L
  let bg := P.trgswLv1.BG
  let bgbit := P.trgswLv1.BGBIT
  forRange 0 l 0 fun i offset =>
    if (i + 1) * bgbit ≤ 32 then
      some (offset + BitVec.ofNat 32 (bg / 2) * (1#32 <<< (32 - (i + 1) * bgbit)))
    else none

end GoTfhe
