import Verif.Model.Utils

/-!
# `/repo/tlwe/tlwe.go`

A `*TLWELv0` / `*TLWELv1` is its slice `P`. Aliasing of receivers and outputs is treated in
`Verif.Model.Alias`; here arguments are values.
-/

namespace GoTfhe

/-- `NewTLWELv0` (`/repo/tlwe/tlwe.go:16-21`) -/
def newTLWELv0 (P : Params) : List Torus := mkSlice (P.tlweLv0.N + 1) 0

/-- `(*TLWELv0).B` (`/repo/tlwe/tlwe.go:24-27`) -/
def tlwe0B (P : Params) (t : List Torus) : Option Torus := rd t P.tlweLv0.N

/-- `(*TLWELv0).SetB` (`/repo/tlwe/tlwe.go:30-33`) -/
def tlwe0SetB (P : Params) (t : List Torus) (val : Torus) : Option (List Torus) :=
  wr t P.tlweLv0.N val

/-- The mask loop shared by both `EncryptF64` functions (`/repo/tlwe/tlwe.go:40-45`, `160-165`):
`draw i` is the `i`-th `rng.Uint32()`. The state is `(innerProduct, t.P)`. -/
def encMaskLoop (n : ℕ) (key : List Torus) (draw : ℕ → Torus) (t : List Torus) :
    Option (Torus × List Torus) :=
  forRange 0 n ((0 : Torus), t) fun i s => do
    let randU32 := draw i
    let k ← rd key i
    let p ← wr s.2 i randU32
    pure (s.1 + k * randU32, p)

/-- `(*TLWELv0).EncryptF64` (`/repo/tlwe/tlwe.go:36-50`). `draw` are the mask words and `sample`
the Gaussian sample `rng.NormFloat64()*alpha`. -/
def tlwe0EncryptF64 (P : Params) (t : List Torus) (p : ℚ) (key : List Torus)
    (draw : ℕ → Torus) (sample : ℚ) : Option (List Torus) := do
  let n := P.tlweLv0.N
  let s ← encMaskLoop n key draw t
  let b := gaussianF64 p sample
  tlwe0SetB P s.2 (s.1 + b)

/-- `(*TLWELv0).EncryptBool` (`/repo/tlwe/tlwe.go:53-61`) -/
def tlwe0EncryptBool (P : Params) (t : List Torus) (pBool : Bool) (key : List Torus)
    (draw : ℕ → Torus) (sample : ℚ) : Option (List Torus) :=
  let p : ℚ := if pBool then 0.125 else -0.125
  tlwe0EncryptF64 P t p key draw sample

/-- The inner-product loop of the decryption functions (`/repo/tlwe/tlwe.go:66-69`, `186-189`,
`/repo/tlwe/programmable_encrypt.go:38-41`). -/
def decInner (n : ℕ) (t key : List Torus) : Option Torus :=
  forRange 0 n (0 : Torus) fun i acc => do
    let x ← rd t i
    let k ← rd key i
    pure (acc + x * k)

/-- `(*TLWELv0).DecryptBool` (`/repo/tlwe/tlwe.go:64-73`); `int32(x) >= 0` is the signed view. -/
def tlwe0DecryptBool (P : Params) (t key : List Torus) : Option Bool := do
  let n := P.tlweLv0.N
  let innerProduct ← decInner n t key
  let b ← rd t n
  let resTorus := (b - innerProduct).toInt
  pure (decide (resTorus ≥ 0))

/-- The common loop shape of `Add`, `Sub`, `Mul`, `AddMul`, `SubMul`:
`for i := range result.P { result.P[i] = f(t.P[i], other.P[i]) }`. -/
def zipLoop (f : Torus → Torus → Torus) (t other result : List Torus) : Option (List Torus) :=
  forRange 0 result.length result fun i r => do
    let x ← rd t i
    let y ← rd other i
    wr r i (f x y)

/-- `(*TLWELv0).Add` (`/repo/tlwe/tlwe.go:76-82`) -/
def tlwe0Add (P : Params) (t other : List Torus) : Option (List Torus) :=
  zipLoop (fun x y => x + y) t other (newTLWELv0 P)

/-- `(*TLWELv0).AddAssign` (`/repo/tlwe/tlwe.go:85-89`), `output` distinct from the operands. The
loop ranges over `output.P`. -/
def tlwe0AddAssign (t other output : List Torus) : Option (List Torus) :=
  zipLoop (fun x y => x + y) t other output

/-- `(*TLWELv0).Sub` (`/repo/tlwe/tlwe.go:92-98`) -/
def tlwe0Sub (P : Params) (t other : List Torus) : Option (List Torus) :=
  zipLoop (fun x y => x - y) t other (newTLWELv0 P)

/-- `(*TLWELv0).Neg` (`/repo/tlwe/tlwe.go:101-107`) -/
def tlwe0Neg (P : Params) (t : List Torus) : Option (List Torus) :=
  let result := newTLWELv0 P
  forRange 0 result.length result fun i r => do
    let x ← rd t i
    wr r i (0 - x)

/-- `(*TLWELv0).Mul` (`/repo/tlwe/tlwe.go:110-116`) -/
def tlwe0Mul (P : Params) (t other : List Torus) : Option (List Torus) :=
  zipLoop (fun x y => x * y) t other (newTLWELv0 P)

/-- `(*TLWELv0).AddMul` (`/repo/tlwe/tlwe.go:119-125`) -/
def tlwe0AddMul (P : Params) (t other : List Torus) (multiplier : Torus) : Option (List Torus) :=
  zipLoop (fun x y => x + y * multiplier) t other (newTLWELv0 P)

/-- `(*TLWELv0).SubMul` (`/repo/tlwe/tlwe.go:128-134`) -/
def tlwe0SubMul (P : Params) (t other : List Torus) (multiplier : Torus) : Option (List Torus) :=
  zipLoop (fun x y => x - y * multiplier) t other (newTLWELv0 P)

/-- `NewTLWELv1` (`/repo/tlwe/tlwe.go:142-147`) -/
def newTLWELv1 (P : Params) : List Torus := mkSlice (P.tlweLv1.N + 1) 0

/-- `(*TLWELv1).SetB` (`/repo/tlwe/tlwe.go:150-153`) -/
def tlwe1SetB (P : Params) (t : List Torus) (val : Torus) : Option (List Torus) :=
  wr t P.tlweLv1.N val

/-- `(*TLWELv1).EncryptF64` (`/repo/tlwe/tlwe.go:156-170`) -/
def tlwe1EncryptF64 (P : Params) (t : List Torus) (p : ℚ) (key : List Torus)
    (draw : ℕ → Torus) (sample : ℚ) : Option (List Torus) := do
  let n := P.tlweLv1.N
  let s ← encMaskLoop n key draw t
  let b := gaussianF64 p sample
  tlwe1SetB P s.2 (s.1 + b)

/-- `(*TLWELv1).EncryptBool` (`/repo/tlwe/tlwe.go:173-181`) -/
def tlwe1EncryptBool (P : Params) (t : List Torus) (pBool : Bool) (key : List Torus)
    (draw : ℕ → Torus) (sample : ℚ) : Option (List Torus) :=
  let p : ℚ := if pBool then 0.125 else -0.125
  tlwe1EncryptF64 P t p key draw sample

/-- `(*TLWELv1).DecryptBool` (`/repo/tlwe/tlwe.go:184-193`); note `t.P[len(key)]`. -/
def tlwe1DecryptBool (P : Params) (t key : List Torus) : Option Bool := do
  let n := P.tlweLv1.N
  let innerProduct ← decInner n t key
  let b ← rd t key.length
  let resTorus := (b - innerProduct).toInt
  pure (decide (resTorus ≥ 0))

end GoTfhe
