import Verif.Model.Evaluator
import Verif.Model.Float

/-!
# `/repo/lut/encoder.go`, `/repo/lut/generator.go`, `/repo/lut/lut.go` and
`/repo/evaluator/programmable_bootstrap.go`

`fl` rounds the results of inexact floating-point operations. Go ints are integers without overflow: the
largest products are `(x+1) * LookUpTableSize` and `2 * messageModulus`. The function given to a generator
is a value `ℤ → Option ℤ` that may panic; it has no effects of its own.
-/

namespace GoTfhe

/-- `Encoder` (`/repo/lut/encoder.go:9-12`) -/
structure Encoder where
  messageModulus : ℤ
  scale : ℚ
deriving DecidableEq

/-- `NewEncoder` (`/repo/lut/encoder.go:17-29`). With `messageModulus = 0` Go's scale is an infinity; every
method then panics in `%`, as in the model. -/
def newEncoder (fl : ℚ → ℚ) (messageModulus : ℤ) : Encoder :=
  ⟨messageModulus, fl (1 / ((2 * messageModulus : ℤ) : ℚ))⟩

/-- `NewEncoderWithScale` (`/repo/lut/encoder.go:32-37`) -/
def newEncoderWithScale (messageModulus : ℤ) (scale : ℚ) : Encoder := ⟨messageModulus, scale⟩

/-- `(*Encoder).EncodeWithCustomScale` (`/repo/lut/encoder.go:78-85`) -/
def Encoder.encodeWithCustomScale (fl : ℚ → ℚ) (e : Encoder) (message : ℤ) (scale : ℚ) : Option Torus := do
  let message ← goMod message e.messageModulus
  let message := if message < 0 then message + e.messageModulus else message
  let value := fl ((message : ℚ) * scale)
  pure (f64ToTorus value)

/-- `(*Encoder).Encode` (`/repo/lut/encoder.go:47-75`) -/
def Encoder.encode (fl : ℚ → ℚ) (e : Encoder) (message : ℤ) : Option Torus := do
  let message ← goMod message e.messageModulus
  let message := if message < 0 then message + e.messageModulus else message
  let value := fl ((message : ℚ) * e.scale)
  pure (f64ToTorus value)

/-- `(*Encoder).Decode` (`/repo/lut/encoder.go:88-102`) -/
def Encoder.decode (fl : ℚ → ℚ) (e : Encoder) (value : Torus) : Option ℤ := do
  let f := torusToF64 value
  let message := truncQ (fl (fl (f / e.scale) + 0.5))
  let message ← goMod message e.messageModulus
  pure (if message < 0 then message + e.messageModulus else message)

/-- `(*Encoder).DecodeBool` (`/repo/lut/encoder.go:105-107`) -/
def Encoder.decodeBool (fl : ℚ → ℚ) (e : Encoder) (value : Torus) : Option Bool := do
  let m ← e.decode fl value
  pure (m != 0)

/-- `Generator` (`/repo/lut/generator.go:10-14`) -/
structure Generator where
  encoder : Encoder
  polyDegree : ℕ
  lookUpTableSize : ℕ
deriving DecidableEq

/-- `NewGenerator` (`/repo/lut/generator.go:17-28`) -/
def newGenerator (fl : ℚ → ℚ) (P : Params) (messageModulus : ℤ) : Generator :=
  let polyDegree := P.trgswLv1.N
  let lookUpTableSize := polyDegree
  ⟨newEncoder fl messageModulus, polyDegree, lookUpTableSize⟩

/-- `NewGeneratorWithScale` (`/repo/lut/generator.go:31-38`) -/
def newGeneratorWithScale (P : Params) (messageModulus : ℤ) (scale : ℚ) : Generator :=
  let polyDegree := P.trgswLv1.N
  ⟨newEncoderWithScale messageModulus scale, polyDegree, polyDegree⟩

/-- `divRound` (`/repo/lut/generator.go:171-173`) -/
def divRound (a b : ℤ) : Option ℤ := do
  let h ← goDiv b 2
  goDiv (a + h) b

/-- Slice read at an int index; negative panics. -/
def rdZ {α : Type*} (l : List α) (i : ℤ) : Option α := if i < 0 then none else rd l i.toNat

/-- Slice write at an int index; negative panics. -/
def wrZ {α : Type*} (l : List α) (i : ℤ) (v : α) : Option (List α) := if i < 0 then none else wr l i.toNat v

/-- `for i := lo; i < hi; i++ { body }` over ints. -/
def forRangeZ {σ : Type*} (lo hi : ℤ) (s : σ) (body : ℤ → σ → Option σ) : Option σ :=
  forRange 0 (hi - lo).toNat s fun k s => body (lo + k) s

/-- `(*Generator).GenLookUpTableAssign` (`/repo/lut/generator.go:56-100`) on the output table `lutOut` -/
def Generator.genLookUpTableAssign (fl : ℚ → ℚ) (g : Generator) (f : ℤ → Option ℤ) (lutOut : Trlwe) :
    Option Trlwe := do
  let messageModulus := g.encoder.messageModulus
  let size : ℤ := g.lookUpTableSize
  let lutRaw := mkSlice g.lookUpTableSize (0 : Torus)
  let lutRaw ← forRangeZ 0 messageModulus lutRaw fun x lutRaw => do
    let start ← divRound (x * size) messageModulus
    let stop ← divRound ((x + 1) * size) messageModulus
    let y ← f x
    let encodedY ← g.encoder.encode fl y
    forRangeZ start stop lutRaw fun xx lutRaw => wrZ lutRaw xx encodedY
  let offset ← divRound size (2 * messageModulus)
  let rotated := mkSlice g.lookUpTableSize (0 : Torus)
  let rotated ← forRangeZ 0 size rotated fun i rotated => do
    let srcIdx ← goMod (i + offset) size
    let v ← rdZ lutRaw srcIdx
    wrZ rotated i v
  let rotated ← forRangeZ (size - offset) size rotated fun i rotated => do
    let v ← rdZ rotated i
    wrZ rotated i (-v)
  forRangeZ 0 size lutOut fun i lutOut => do
    let v ← rdZ rotated i
    let b ← wrZ lutOut.B i v
    let a ← wrZ lutOut.A i 0
    pure ⟨a, b⟩

/-- `NewLookUpTable` (`/repo/lut/lut.go:20-24`) -/
def newLookUpTable (P : Params) : Trlwe := newTRLWELv1 P

/-- `(*Generator).GenLookUpTable` (`/repo/lut/generator.go:41-45`) -/
def Generator.genLookUpTable (fl : ℚ → ℚ) (P : Params) (g : Generator) (f : ℤ → Option ℤ) : Option Trlwe :=
  g.genLookUpTableAssign fl f (newLookUpTable P)

/-- `(*Generator).GenLookUpTableFullAssign` (`/repo/lut/generator.go:110-141`) -/
def Generator.genLookUpTableFullAssign (g : Generator) (f : ℤ → Option Torus) (lutOut : Trlwe) :
    Option Trlwe := do
  let messageModulus := g.encoder.messageModulus
  let size : ℤ := g.lookUpTableSize
  let lutRaw := mkSlice g.lookUpTableSize (0 : Torus)
  let lutRaw ← forRangeZ 0 messageModulus lutRaw fun x lutRaw => do
    let start ← divRound (x * size) messageModulus
    let stop ← divRound ((x + 1) * size) messageModulus
    let y ← f x
    forRangeZ start stop lutRaw fun i lutRaw => wrZ lutRaw i y
  let offset ← divRound size (2 * messageModulus)
  let rotated := mkSlice g.lookUpTableSize (0 : Torus)
  let rotated ← forRangeZ 0 size rotated fun i rotated => do
    let srcIdx ← goMod (i + offset) size
    let v ← rdZ lutRaw srcIdx
    wrZ rotated i v
  let rotated ← forRangeZ (size - offset) size rotated fun i rotated => do
    let v ← rdZ rotated i
    wrZ rotated i (-v)
  forRangeZ 0 size lutOut fun i lutOut => do
    let v ← rdZ rotated i
    let b ← wrZ lutOut.B i v
    let a ← wrZ lutOut.A i 0
    pure ⟨a, b⟩

/-- `(*Generator).GenLookUpTableFull` (`/repo/lut/generator.go:103-107`) -/
def Generator.genLookUpTableFull (P : Params) (g : Generator) (f : ℤ → Option Torus) : Option Trlwe :=
  g.genLookUpTableFullAssign f (newLookUpTable P)

/-- `(*Generator).GenLookUpTableCustom` (`/repo/lut/generator.go:144-155`): the generator afterwards, and the
table unless the call panics. A panic leaves the function before the encoder is restored. -/
def Generator.genLookUpTableCustom (fl : ℚ → ℚ) (P : Params) (g : Generator) (f : ℤ → Option ℤ)
    (messageModulus : ℤ) (scale : ℚ) : Generator × Option Trlwe :=
  let lut := newLookUpTable P
  let oldEncoder := g.encoder
  let g := { g with encoder := newEncoderWithScale messageModulus scale }
  match g.genLookUpTableAssign fl f lut with
  | none => (g, none)
  | some lut =>
    let g := { g with encoder := oldEncoder }
    (g, some lut)

/-- Go's `math.Round`: to the nearest integer, halves away from zero. -/
def goRound (x : ℚ) : ℤ := if 0 ≤ x then ⌊x + 1 / 2⌋ else ⌈x - 1 / 2⌉

/-- `(*Generator).ModSwitch` (`/repo/lut/generator.go:159-168`) -/
def Generator.modSwitch (fl : ℚ → ℚ) (g : Generator) (x : Torus) : Option ℤ := do
  let scaled := fl (fl ((x.toNat : ℚ) / 2 ^ 32) * (g.lookUpTableSize : ℚ))
  let result ← goMod (goRound scaled) g.lookUpTableSize
  pure (if result < 0 then result + g.lookUpTableSize else result)

/-! ### Look-up tables as heap objects (`/repo/lut/lut.go`) -/

/-- Slices in memory; addresses at or above `next` are not allocated yet. -/
structure LutHeap where
  mem : ℕ → List Torus
  next : ℕ

/-- `*LookUpTable` (`/repo/lut/lut.go:14-17`): the addresses of the two slices of `Poly`. -/
structure LutRef where
  A : ℕ
  B : ℕ
deriving DecidableEq

namespace LutHeap

/-- Store a slice. -/
def set (h : LutHeap) (r : ℕ) (v : List Torus) : LutHeap := { h with mem := Function.update h.mem r v }

/-- The contents of a table. -/
def read (h : LutHeap) (r : LutRef) : Trlwe := ⟨h.mem r.A, h.mem r.B⟩

/-- `NewLookUpTable` (`/repo/lut/lut.go:20-24`): two new slices. -/
def newLut (P : Params) (h : LutHeap) : LutHeap × LutRef :=
  let t := newTRLWELv1 P
  ({ mem := Function.update (Function.update h.mem h.next t.A) (h.next + 1) t.B, next := h.next + 2 },
    ⟨h.next, h.next + 1⟩)

/-- `(*LookUpTable).Copy` (`/repo/lut/lut.go:27-32`) -/
def copy (P : Params) (h : LutHeap) (lut : LutRef) : LutHeap × LutRef :=
  let (h, result) := newLut P h
  let h := h.set result.A (copySlice (h.mem result.A) (h.mem lut.A))
  let h := h.set result.B (copySlice (h.mem result.B) (h.mem lut.B))
  (h, result)

/-- `(*LookUpTable).CopyFrom` (`/repo/lut/lut.go:35-38`) -/
def copyFrom (h : LutHeap) (lut other : LutRef) : LutHeap :=
  let h := h.set lut.A (copySlice (h.mem lut.A) (h.mem other.A))
  h.set lut.B (copySlice (h.mem lut.B) (h.mem other.B))

/-- `(*LookUpTable).Clear` (`/repo/lut/lut.go:41-47`) -/
def clear (P : Params) (h : LutHeap) (lut : LutRef) : Option LutHeap :=
  forRange 0 P.trgswLv1.N h fun i h => do
    let a ← wr (h.mem lut.A) i 0
    let h := h.set lut.A a
    let b ← wr (h.mem lut.B) i 0
    pure (h.set lut.B b)

end LutHeap

/-- What a program may do with tables after a copy. -/
inductive LutOp
  | newLut
  | copy (src : LutRef)
  | copyFrom (dst src : LutRef)
  | clear (r : LutRef)
  | writeA (r : LutRef) (i : ℕ) (v : Torus)
  | writeB (r : LutRef) (i : ℕ) (v : Torus)

/-- One operation; a panic ends the program. -/
def LutOp.run (P : Params) (h : LutHeap) : LutOp → Option LutHeap
  | .newLut => some (h.newLut P).1
  | .copy src => some (h.copy P src).1
  | .copyFrom dst src => some (h.copyFrom dst src)
  | .clear r => h.clear P r
  | .writeA r i v => (wr (h.mem r.A) i v).map (h.set r.A)
  | .writeB r i v => (wr (h.mem r.B) i v).map (h.set r.B)

/-! ### Programmable bootstrapping with a function -/

variable {O : FourierOps}

/-- `(*Evaluator).BootstrapFunc` (`/repo/evaluator/programmable_bootstrap.go:16-30`). The table is a new
object; the model stores it as the caller's object `0`. -/
def bootstrapFunc (fl : ℚ → ℚ) (P : Params) (st : EvState O) (ctIn : LRef) (f : ℤ → Option ℤ)
    (messageModulus : ℤ) (bsk : List (TrgswF O)) (ksk : List (List Torus)) (offset : Torus) :
    Option (EvState O × List Torus) := do
  let generator := newGenerator fl P messageModulus
  let lookupTable ← generator.genLookUpTable fl P f
  bootstrapLUT P (st.setTr (.user 0) lookupTable) ctIn (.user 0) bsk ksk offset

/-- `(*Evaluator).BootstrapFuncAssign` (`/repo/evaluator/programmable_bootstrap.go:33-48`);
`BootstrapLUTAssign` is `bootstrapAssign`. -/
def bootstrapFuncAssign (fl : ℚ → ℚ) (P : Params) (st : EvState O) (ctIn : LRef) (f : ℤ → Option ℤ)
    (messageModulus : ℤ) (bsk : List (TrgswF O)) (ksk : List (List Torus)) (offset : Torus) (ctOut : LRef) :
    Option (EvState O) := do
  let generator := newGenerator fl P messageModulus
  let lookupTable ← generator.genLookUpTable fl P f
  bootstrapAssign P (st.setTr (.user 0) lookupTable) ctIn (.user 0) bsk ksk offset ctOut

end GoTfhe
