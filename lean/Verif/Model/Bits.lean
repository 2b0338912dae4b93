import Verif.Model.Tlwe

/-!
# `/repo/bitutils/bitutils.go`
-/

namespace GoTfhe

/-- `ConvertU8`, `ConvertU16`, `ConvertU32`, `ConvertU64` (`/repo/bitutils/bitutils.go:10-52`):
the same text at width `w = 8, 16, 32, 64`. -/
def convertU (w : ℕ) (bits : List Bool) : Option (BitVec w) :=
  forDown bits.length (0 : BitVec w) fun i result => do
    let result := result <<< 1
    let b ← rd bits i
    pure (if b then result ||| 1#w else result)

/-- `ToBits` (`/repo/bitutils/bitutils.go:56-62`); a negative `size` panics in `make`. -/
def toBits (val : BitVec 64) (size : ℤ) : Option (List Bool) :=
  if size < 0 then none
  else
    forRange 0 size.toNat (mkSlice size.toNat false) fun i vec =>
      wr vec i (decide ((val >>> i) &&& 1#64 ≠ 0))

/-- `U8ToBits` (`/repo/bitutils/bitutils.go:65-67`) -/
def u8ToBits (v : BitVec 8) : Option (List Bool) := toBits (v.zeroExtend 64) 8

/-- `U16ToBits` (`/repo/bitutils/bitutils.go:70-72`) -/
def u16ToBits (v : BitVec 16) : Option (List Bool) := toBits (v.zeroExtend 64) 16

/-- `U32ToBits` (`/repo/bitutils/bitutils.go:75-77`) -/
def u32ToBits (v : BitVec 32) : Option (List Bool) := toBits (v.zeroExtend 64) 32

/-- `U64ToBits` (`/repo/bitutils/bitutils.go:80-82`) -/
def u64ToBits (v : BitVec 64) : Option (List Bool) := toBits v 64

/-- `EncryptBits` (`/repo/bitutils/bitutils.go:85-91`); `draws i`, `samples i` are the random tape of
the `i`-th encryption. -/
def encryptBits (P : Params) (bits : List Bool) (key : List Torus)
    (draws : ℕ → ℕ → Torus) (samples : ℕ → ℚ) : Option (List (List Torus)) :=
  forRange 0 bits.length (mkSlice bits.length ([] : List Torus)) fun i result => do
    let bit ← rd bits i
    let c ← tlwe0EncryptBool P (newTLWELv0 P) bit key (draws i) (samples i)
    wr result i c

/-- `DecryptBits` (`/repo/bitutils/bitutils.go:94-100`) -/
def decryptBits (P : Params) (ctxts : List (List Torus)) (key : List Torus) :
    Option (List Bool) :=
  forRange 0 ctxts.length (mkSlice ctxts.length false) fun i result => do
    let c ← rd ctxts i
    let b ← tlwe0DecryptBool P c key
    wr result i b

end GoTfhe
