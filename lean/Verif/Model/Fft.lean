import Verif.Model.Fourier
import Verif.Model.Rotate

/-!
# The Fourier transform of `/repo/poly`

Everything is written over an arbitrary arithmetic `Arith R` on the type `R` of `float64` values, so that the
same functions can be read in exact real arithmetic and in rounded arithmetic. A `complex128` is a pair.

The code accesses blocks of four or eight elements through unchecked pointers
(`(*[8]float64)(unsafe.Pointer(&coeffs[j]))`). In the model every element access is an ordinary checked
access: `none` means that the program would have panicked or touched memory outside the slice. The unrolled
lines of a block are a loop over the lane `o`.
-/

namespace GoTfhe

/-- A place in the code where a product is an operand of a sum, and the round of the loops around it: a number for
the statement, the number of blocks of the stage, and the position. -/
abbrev Site := ℕ × ℕ × ℕ

/-- The `float64` operations used by `/repo/poly`. Go allows a compiler to fuse a product with the sum it is an
operand of, so those combinations are operations of their own, which may behave differently at every site. -/
structure Arith (R : Type) where
  zero : R
  add : R → R → R
  sub : R → R → R
  mul : R → R → R
  div : R → R → R
  neg : R → R
  /-- `a*b - c*d` -/
  mulSub : Site → R → R → R → R → R
  /-- `a*b + c*d` -/
  mulAdd : Site → R → R → R → R → R
  /-- `z + a*b` -/
  addMul : Site → R → R → R → R
  /-- `z - a*b` -/
  subMul : Site → R → R → R → R
  /-- `float64(i)` of an integer -/
  ofInt : ℤ → R
  /-- `math.Pi` -/
  pi : R
  /-- `cmplx.Exp(complex(0, x))` -/
  cexp : R → R × R
  /-- `math.Round` -/
  round : R → R
  /-- `int64(x)` -/
  toInt : R → ℤ

/-- `for i := lo; i < hi; i += step { body }` for `step > 0` -/
def forStep {σ : Type*} (lo hi step : ℕ) (s : σ) (body : ℕ → σ → Option σ) : Option σ :=
  forRange 0 ((hi - lo + (step - 1)) / step) s fun i s => body (lo + step * i) s

/-- `for m := m0; m <= bound; m <<= 1 { body }` for `m0 > 0`; `bound + 1` rounds are always enough. -/
def forDbl {σ : Type*} (bound : ℕ) (body : ℕ → σ → Option σ) : ℕ → ℕ → σ → Option σ
  | 0, _, _ => none
  | fuel + 1, m, s => if m ≤ bound then (body m s).bind (forDbl bound body fuel (m <<< 1)) else some s

/-- `for m := m0; m >= lo; m >>= 1 { body }` for `lo > 0`; `m0 + 1` rounds are always enough. -/
def forHalf {σ : Type*} (lo : ℕ) (body : ℕ → σ → Option σ) : ℕ → ℕ → σ → Option σ
  | 0, _, _ => none
  | fuel + 1, m, s => if m ≥ lo then (body m s).bind (forHalf lo body fuel (m >>> 1)) else some s

/-! ### Bit reversal -/

/-- `m := n >> 1; for m > 0 && j >= m { j -= m; m >>= 1 }; j += m`
(`/repo/poly/poly_evaluator.go:158-163`): the new `j`; started with fuel `n`, which bounds the rounds. -/
def bitRevStep : ℕ → ℕ → ℕ → ℕ
  | 0, m, j => j + m
  | fuel + 1, m, j => if m > 0 ∧ j ≥ m then bitRevStep fuel (m >>> 1) (j - m) else j + m

/-- `bitReverseInPlace` (`/repo/poly/poly_evaluator.go:146-165`); the state is `(j, data)`. -/
def bitReverseInPlace {α : Type} (data : List α) : Option (List α) :=
  let n := data.length
  if n ≤ 1 then some data
  else do
    let r ← forRange 0 n (0, data) fun i st => do
      let j := st.1
      let data ←
        if i < j then do
          let x ← rd st.2 i
          let y ← rd st.2 j
          let d ← wr st.2 i y
          wr d j x
        else some st.2
      pure (bitRevStep n (n >>> 1) j, data)
    pure r.2

section

variable {R : Type} (A : Arith R)

/-- Product of `complex128` values. -/
def cmul (s : Site) (x y : R × R) : R × R :=
  (A.mulSub s x.1 y.1 x.2 y.2, A.mulAdd s x.1 y.2 x.2 y.1)

/-! ### Twiddle factors -/

/-- The angle `-2 * math.Pi * float64(i) / float64(N)` (`/repo/poly/poly_evaluator.go:118`) -/
def twAngle (N i : ℕ) : R := A.div (A.mul (A.mul (A.ofInt (-2)) A.pi) (A.ofInt i)) (A.ofInt N)

/-- `2 * math.Pi * float64(t) / float64(4*N)` (`/repo/poly/poly_evaluator.go:129`); with `s = -2` the angle of
line 136. -/
def foldAngle (s : ℤ) (N t : ℕ) : R := A.div (A.mul (A.mul (A.ofInt s) A.pi) (A.ofInt t)) (A.ofInt (4 * N : ℕ))

/-- `genTwiddleFactors` (`/repo/poly/poly_evaluator.go:114-143`). The slices `twFFT`, `twInvFFT` are filled by
index in the code. -/
def genTwiddleFactors (N : ℕ) : Option (List (R × R) × List (R × R)) := do
  let twFFT := (List.range (N / 2)).map fun i => A.cexp (twAngle A N i)
  let twInvFFT := (List.range (N / 2)).map fun i => A.cexp (A.neg (twAngle A N i))
  let twFFT ← bitReverseInPlace twFFT
  let twInvFFT ← bitReverseInPlace twInvFFT
  let r ← forDbl (N / 2) (fun m (st : ℕ × List (R × R)) => do
      let t := st.1
      let twFold := A.cexp (foldAngle A 2 N t)
      let tw ← forRange 0 m st.2 fun i tw => do
        let x ← rd twFFT i
        pure (tw ++ [cmul A (0, m, i) x twFold])
      pure (t >>> 1, tw)) (N / 2 + 1) 1 (N / 2, [])
  let rInv ← forHalf 1 (fun m (st : ℕ × List (R × R)) => do
      let t := st.1
      let twInvFold := A.cexp (foldAngle A (-2) N t)
      let tw ← forRange 0 m st.2 fun i tw => do
        let x ← rd twInvFFT i
        pure (tw ++ [cmul A (1, m, i) x twInvFold])
      pure (t <<< 1, tw)) (N / 2 + 1) (N / 2) (1, [])
  pure (r.2, rInv.2)

/-! ### Transforms -/

/-- `butterfly` (`/repo/poly/fourier_transform.go:170-174`). It is called at several places and may be inlined
there: `m` is the number of blocks of the stage, `p` the position of the first complex operand. -/
def butterfly (m p : ℕ) (uR uI vR vI wR wI : R) : R × R × R × R :=
  let vwR := A.mulSub (2, m, p) vR wR vI wI
  let vwI := A.mulAdd (2, m, p) vR wI vI wR
  (A.add uR vwR, A.add uI vwI, A.sub uR vwR, A.sub uI vwI)

/-- `invButterfly` (`/repo/poly/fourier_transform.go:250-255`) -/
def invButterfly (m p : ℕ) (uR uI vR vI wR wI : R) : R × R × R × R :=
  let uR' := A.add uR vR
  let uI' := A.add uI vI
  let vR' := A.sub uR vR
  let vI' := A.sub uI vI
  let vwR := A.mulSub (3, m, p) vR' wR vI' wI
  let vwI := A.mulAdd (3, m, p) vR' wI vI' wR
  (uR', uI', vwR, vwI)

/-- `c[a], c[b], c[x], c[y] = f(c[a], c[b], c[x], c[y], wReal, wImag)` -/
def bfAt (f : R → R → R → R → R → R → R × R × R × R) (w : R × R) (a b x y : ℕ) (c : List R) :
    Option (List R) := do
  let uR ← rd c a
  let uI ← rd c b
  let vR ← rd c x
  let vI ← rd c y
  let r := f uR uI vR vI w.1 w.2
  let c ← wr c a r.1
  let c ← wr c b r.2.1
  let c ← wr c x r.2.2.1
  wr c y r.2.2.2

/-- The four butterflies on the blocks at `j` and `j2`
(`/repo/poly/fourier_transform.go:190-193`, `212-215`, `305-308`, `322-325`) -/
def bfBlocks (f : ℕ → R → R → R → R → R → R → R × R × R × R) (w : R × R) (j j2 : ℕ) (c : List R) :
    Option (List R) :=
  forRange 0 4 c fun o c => bfAt (f (j / 2 + o)) w (j + o) (j + o + 4) (j2 + o) (j2 + o + 4) c

/-- One middle stage with `m` blocks, `t` the distance of the two halves in `coeffs`
(`/repo/poly/fourier_transform.go:200-217`, `293-310`); the state is `(wIdx, coeffs)`. -/
def middleStage (f : ℕ → R → R → R → R → R → R → R × R × R × R) (tw : List (R × R)) (m t : ℕ)
    (st : ℕ × List R) : Option (ℕ × List R) :=
  forRange 0 m st fun i st => do
    let j1 := 2 * i * t
    let j2 := j1 + t
    let w ← rd tw st.1
    let c ← forStep j1 j2 8 st.2 fun j c => bfBlocks f w j (j + t) c
    pure (st.1 + 1, c)

/-- The stage of `/repo/poly/fourier_transform.go:221-231` and `278-288`: butterflies inside the blocks of
eight, between lanes `0, 2` and `1, 3`. -/
def pairStage2 (f : ℕ → R → R → R → R → R → R → R × R × R × R) (tw : List (R × R)) (N : ℕ) (st : ℕ × List R) :
    Option (ℕ × List R) :=
  forStep 0 N 8 st fun j st => do
    let w ← rd tw st.1
    let c ← bfAt (f (j / 2)) w j (j + 4) (j + 2) (j + 4 + 2) st.2
    let c ← bfAt (f (j / 2 + 1)) w (j + 1) (j + 4 + 1) (j + 3) (j + 4 + 3) c
    pure (st.1 + 1, c)

/-- The stage of `/repo/poly/fourier_transform.go:234-246` and `263-275`: lanes `0, 1` and `2, 3`, each pair
with its own factor. -/
def pairStage1 (f : ℕ → R → R → R → R → R → R → R × R × R × R) (tw : List (R × R)) (N : ℕ) (st : ℕ × List R) :
    Option (ℕ × List R) :=
  forStep 0 N 8 st fun j st => do
    let w0 ← rd tw st.1
    let w1 ← rd tw (st.1 + 1)
    let c ← bfAt (f (j / 2)) w0 j (j + 4) (j + 1) (j + 4 + 1) st.2
    let c ← bfAt (f (j / 2 + 2)) w1 (j + 2) (j + 4 + 2) (j + 3) (j + 4 + 3) c
    pure (st.1 + 2, c)

/-- `fftInPlace` (`/repo/poly/fourier_transform.go:178-247`) -/
def fftInPlace (coeffs : List R) (tw : List (R × R)) : Option (List R) := do
  let N := coeffs.length
  let w ← rd tw 0
  let c ← forStep 0 (N / 2) 8 coeffs fun j c => bfBlocks (butterfly A 1) w j (j + N / 2) c
  let r ← forDbl (N / 16) (fun m (st : ℕ × ℕ × List R) => do
      let t := st.1 >>> 1
      let s ← middleStage (butterfly A m) tw m t st.2
      pure (t, s)) (N / 16 + 1) 2 (N / 2, 1, c)
  let s ← pairStage2 (butterfly A (N / 8)) tw N r.2
  let s ← pairStage1 (butterfly A (N / 4)) tw N s
  pure s.2

/-- `c[j+o] /= scale` for the eight elements of a block (`/repo/poly/fourier_transform.go:327-345`) -/
def scaleBlock (scale : R) (j : ℕ) (c : List R) : Option (List R) :=
  forRange 0 8 c fun o c => do
    let x ← rd c (j + o)
    wr c (j + o) (A.div x scale)

/-- `ifftInPlace` (`/repo/poly/fourier_transform.go:258-347`) -/
def ifftInPlace (coeffs : List R) (twInv : List (R × R)) : Option (List R) := do
  let N := coeffs.length
  let s ← pairStage1 (invButterfly A (N / 4)) twInv N (0, coeffs)
  let s ← pairStage2 (invButterfly A (N / 8)) twInv N s
  let r ← forHalf 2 (fun m (st : ℕ × ℕ × List R) => do
      let t := st.1
      let s ← middleStage (invButterfly A m) twInv m t st.2
      pure (t <<< 1, s)) (N / 16 + 1) (N / 16) (8, s)
  let scale := A.ofInt ((N / 2 : ℕ) : ℤ)
  let w ← rd twInv r.2.1
  forStep 0 (N / 2) 8 r.2.2 fun j c => do
    let c ← bfBlocks (invButterfly A 1) w j (j + N / 2) c
    let c ← scaleBlock A scale j c
    scaleBlock A scale (j + N / 2) c

/-! ### Conversions -/

/-- `convertPolyToFourierPolyAssign` (`/repo/poly/fourier_transform.go:64-85`); `float64(int32(x))` is exact. -/
def convertPolyToFourier (p : List Torus) (fpOut : List R) : Option (List R) :=
  let N := p.length
  forRange 0 ((N + 7) / 8) fpOut fun b f => do
    let i := 8 * b
    let ii := 4 * b
    let f ← forRange 0 4 f fun o f => do
      let x ← rd p (ii + o)
      wr f (i + o) (A.ofInt x.toInt)
    forRange 0 4 f fun o f => do
      let x ← rd p (ii + N / 2 + o)
      wr f (i + 4 + o) (A.ofInt x.toInt)

/-- `math.Round(c - Q*math.Round(c/Q))` (`/repo/poly/fourier_transform.go:94-102`) -/
def modQ (s : Site) (Q c : R) : R := A.round (A.subMul s c Q (A.round (A.div c Q)))

/-- `floatModQInPlace` (`/repo/poly/fourier_transform.go:88-104`) -/
def floatModQInPlace (coeffs : List R) (Q : R) : Option (List R) :=
  forStep 0 coeffs.length 8 coeffs fun i c =>
    forRange 0 8 c fun o c => do
      let x ← rd c (i + o)
      wr c (i + o) (modQ A (4, 0, i + o) Q x)

/-- `convertFourierPolyToPolyAssign`, `…AddAssign`, `…SubAssign` (`/repo/poly/fourier_transform.go:107-167`):
`g old new` is `new`, `old + new`, `old - new`. `params.Torus(int64(x))` keeps the low 32 bits. -/
def convertFourierToPoly (g : Torus → Torus → Torus) (fp : List R) (pOut : List Torus) : Option (List Torus) :=
  let N := fp.length
  forRange 0 ((N + 7) / 8) pOut fun b p => do
    let i := 8 * b
    let ii := 4 * b
    let p ← forRange 0 4 p fun o p => do
      let x ← rd fp (i + o)
      let y ← rd p (ii + o)
      wr p (ii + o) (g y (BitVec.ofInt 32 (A.toInt x)))
    forRange 0 4 p fun o p => do
      let x ← rd fp (i + 4 + o)
      let y ← rd p (ii + N / 2 + o)
      wr p (ii + N / 2 + o) (g y (BitVec.ofInt 32 (A.toInt x)))

/-! ### Pointwise operations -/

/-- The loops over blocks of eight that treat every lane alike: `addCmplxAssign`, `subCmplxAssign`
(`/repo/poly/fourier_ops.go:63-98`); `f` gets the position and the operands, an operand `none` is the output slice itself. -/
def laneLoop (f : ℕ → R → R → R) (v0 v1 : Option (List R)) (vOut : List R) : Option (List R) :=
  forStep 0 vOut.length 8 vOut fun i out =>
    forRange 0 8 out fun o out => do
      let x ← rd (v0.getD out) (i + o)
      let y ← rd (v1.getD out) (i + o)
      wr out (i + o) (f (i + o) x y)

/-- The loops over blocks of eight that treat lanes `o` and `o+4` as a complex number:
`elementWiseMulCmplxAssign` and its add and sub forms (`/repo/poly/fourier_ops.go:138-218`); `f` gets the
position, the two operands and the old output. An operand `none` is the output slice itself. -/
def cmplxLoop (f : ℕ → R × R → R × R → R × R → R × R) (v0 v1 : Option (List R)) (vOut : List R) :
    Option (List R) :=
  forStep 0 vOut.length 8 vOut fun i out =>
    forRange 0 4 out fun o out => do
      let a ← rd (v0.getD out) (i + o)
      let b ← rd (v0.getD out) (i + o + 4)
      let c ← rd (v1.getD out) (i + o)
      let d ← rd (v1.getD out) (i + o + 4)
      let x ← rd out (i + o)
      let y ← rd out (i + o + 4)
      let r := f (i / 2 + o) (a, b) (c, d) (x, y)
      let out ← wr out (i + o) r.1
      wr out (i + o + 4) r.2

/-- `AddFourierPolyAssign` (`/repo/poly/fourier_ops.go:13-15`, `63-79`) -/
def addFourierAssign (v0 v1 : Option (List R)) (vOut : List R) : Option (List R) := laneLoop (fun _ => A.add) v0 v1 vOut

/-- `SubFourierPolyAssign` (`/repo/poly/fourier_ops.go:25-27`, `82-98`) -/
def subFourierAssign (v0 v1 : Option (List R)) (vOut : List R) : Option (List R) := laneLoop (fun _ => A.sub) v0 v1 vOut

/-- `FloatMulFourierPolyAssign` (`/repo/poly/fourier_ops.go:53-55`, `101-116`) -/
def floatMulFourierAssign (v0 : Option (List R)) (c : R) (vOut : List R) : Option (List R) :=
  laneLoop (fun _ x _ => A.mul c x) v0 none vOut

/-- `FloatMulAddFourierPolyAssign` (`/repo/poly/fourier_ops.go:58-60`, `119-134`) -/
def floatMulAddFourierAssign (v0 : Option (List R)) (c : R) (vOut : List R) : Option (List R) :=
  laneLoop (fun p x old => A.addMul (5, 0, p) old c x) v0 none vOut

/-- `MulFourierPolyAssign` (`/repo/poly/fourier_ops.go:38-40`, `138-164`). The old output is not read by the
code; the model's read of it changes nothing. -/
def mulFourierAssign (v0 v1 : Option (List R)) (vOut : List R) : Option (List R) :=
  cmplxLoop (fun p x y _ => cmul A (6, 0, p) x y) v0 v1 vOut

/-- `MulAddFourierPolyAssign` (`/repo/poly/fourier_ops.go:43-45`, `167-191`) -/
def mulAddFourierAssign (v0 v1 : Option (List R)) (vOut : List R) : Option (List R) :=
  cmplxLoop (fun p x y z => (A.add z.1 (cmul A (7, 0, p) x y).1, A.add z.2 (cmul A (7, 0, p) x y).2)) v0 v1 vOut

/-- `MulSubFourierPolyAssign` (`/repo/poly/fourier_ops.go:48-50`, `194-218`) -/
def mulSubFourierAssign (v0 v1 : Option (List R)) (vOut : List R) : Option (List R) :=
  cmplxLoop (fun p x y z => (A.sub z.1 (cmul A (8, 0, p) x y).1, A.sub z.2 (cmul A (8, 0, p) x y).2)) v0 v1 vOut

/-! ### The evaluator -/

/-- The parts of `poly.Evaluator` used by the transform (`/repo/poly/poly_evaluator.go:12-28`): degree, modulus,
twiddle factors and the buffer `fpInv`. The monomial tables `twMono`, `twMonoIdx` are never read; they are in
`Verif.Model.Mono`. -/
structure PolyEval (R : Type) where
  degree : ℕ
  q : R
  tw : List (R × R)
  twInv : List (R × R)
  fpInv : List R

/-- `NewEvaluator` (`/repo/poly/poly_evaluator.go:76-111`), without the buffers of the ciphertext code (which
are in `Verif.Model.Evaluator`) and the unused monomial tables. `math.Exp2(32)` is exact. -/
def newPolyEval (N : ℤ) : Option (PolyEval R) :=
  if isPowerOfTwo N = false then none
  else if N < minDegree then none
  else do
    let tw ← genTwiddleFactors A (N.toNat / 2)
    let fpInv ← newFourierPoly A.zero N
    pure ⟨N.toNat, A.ofInt 4294967296, tw.1, tw.2, fpInv⟩

/-- `ToFourierPolyAssign` (`/repo/poly/fourier_transform.go:18-21`) -/
def toFourierPolyAssign (e : PolyEval R) (p : List Torus) (fpOut : List R) : Option (List R) := do
  let f ← convertPolyToFourier A p fpOut
  fftInPlace A f e.tw

/-- `ToPolyAssignUnsafe`, `ToPolyAddAssignUnsafe`, `ToPolySubAssignUnsafe`
(`/repo/poly/fourier_transform.go:40-60`): the new contents of `fp` and `pOut`. -/
def toPolyUnsafe (g : Torus → Torus → Torus) (e : PolyEval R) (fp : List R) (pOut : List Torus) :
    Option (List R × List Torus) := do
  let f ← ifftInPlace A fp e.twInv
  let f ← floatModQInPlace A f e.q
  let p ← convertFourierToPoly A g f pOut
  pure (f, p)

/-- `ToPolyAssign` (`/repo/poly/fourier_transform.go:31-36`): the evaluator's buffer is used instead of `fp`. -/
def toPolyAssign (e : PolyEval R) (fp : List R) (pOut : List Torus) : Option (PolyEval R × List Torus) := do
  let buf := copySlice e.fpInv fp
  let r ← toPolyUnsafe A (fun _ x => x) e buf pOut
  pure ({ e with fpInv := r.1 }, r.2)

/-- `ToFourierPoly` (`/repo/poly/fourier_transform.go:11-15`) -/
def toFourierPoly (e : PolyEval R) (p : List Torus) : Option (List R) := do
  let f ← newFourierPoly A.zero e.degree
  toFourierPolyAssign A e p f

/-- `ToPoly` (`/repo/poly/fourier_transform.go:24-28`) -/
def toPoly (e : PolyEval R) (fp : List R) : Option (PolyEval R × List Torus) := do
  let p ← newPoly e.degree
  toPolyAssign A e fp p

/-- `MulPolyAssign`, `MulAddPolyAssign`, `MulSubPolyAssign` (`/repo/poly/poly_mul.go:12-38`), `g` as in
`convertFourierToPoly`. -/
def mulPolyAssign (g : Torus → Torus → Torus) (e : PolyEval R) (p0 p1 pOut : List Torus) :
    Option (List Torus) := do
  let fp0 ← toFourierPoly A e p0
  let fp1 ← toFourierPoly A e p1
  let fp0 ← mulFourierAssign A none (some fp1) fp0
  let r ← toPolyUnsafe A g e fp0 pOut
  pure r.2

/-- `MulPoly` (`/repo/poly/poly_mul.go:4-8`) -/
def polyMul (e : PolyEval R) (p0 p1 : List Torus) : Option (List Torus) := do
  let pOut ← newPoly e.degree
  mulPolyAssign A (fun _ x => x) e p0 p1 pOut

/-- The interface used by the ciphertext code, implemented by an evaluator of `/repo/poly`. -/
def fftOps (e : PolyEval R) : FourierOps where
  deg := e.degree
  F := List R
  newF := newFourierPoly A.zero e.degree
  clear f := f.map fun _ => A.zero
  toFourierAssign p f := toFourierPolyAssign A e p f
  mulInto a b := mulFourierAssign A none (some b) a
  mulAddAssign a b c := mulAddFourierAssign A (some a) (some b) c
  toPolyUnsafe f p := toPolyUnsafe A (fun _ x => x) e f p

end

end GoTfhe
