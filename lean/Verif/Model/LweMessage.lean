import Verif.Model.Tlwe
import Verif.Model.Float

/-!
# `/repo/tlwe/programmable_encrypt.go`
-/

namespace GoTfhe

/-- Unsigned 32-bit division; a zero divisor panics. -/
def udiv32 (a b : Torus) : Option Torus := if b = 0 then none else some (a / b)

/-- `(*TLWELv0).EncryptLWEMessage` (`/repo/tlwe/programmable_encrypt.go:12-26`). `fl` rounds the
division and the product; the final division by `2^32` is exact. With `messageModulus = 0` the float
division gives an infinity, but the following `%` panics. -/
def encryptLWEMessage (fl : ℚ → ℚ) (P : Params) (t : List Torus) (message messageModulus : ℤ)
    (key : List Torus) (draw : ℕ → Torus) (sample : ℚ) : Option (List Torus) := do
  let scale := fl ((2 ^ 31 : ℚ) / (messageModulus : ℚ))
  let message ← goMod message messageModulus
  let message := if message < 0 then message + messageModulus else message
  let encodedMessage := fl ((message : ℚ) * scale) / 2 ^ 32
  tlwe0EncryptF64 P t encodedMessage key draw sample

/-- `(*TLWELv0).DecryptLWEMessage` (`/repo/tlwe/programmable_encrypt.go:32-54`) -/
def decryptLWEMessage (P : Params) (t : List Torus) (messageModulus : ℤ) (key : List Torus) :
    Option ℤ := do
  let scale ← udiv32 (BitVec.ofNat 32 (2 ^ 31)) (BitVec.ofInt 32 messageModulus)
  let n := P.tlweLv0.N
  let innerProduct ← decInner n t key
  let b ← rd t n
  let phase := b - innerProduct
  let half ← udiv32 scale 2
  let q ← udiv32 (phase + half) scale
  let decoded : ℤ := q.toNat
  let message ← goMod decoded messageModulus
  pure (if message < 0 then message + messageModulus else message)

end GoTfhe
