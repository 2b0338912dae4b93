import Verif.Model.Lut
import Verif.Model.LweMessage
import Verif.Model.CloudKey

/-!
# `/repo/examples/add_two_numbers/main.go`: 8-bit addition with three programmable bootstraps
-/

namespace GoTfhe

variable {O : FourierOps}

/-- The ciphertexts and the result of one run. -/
structure AddTwoRun where
  lutSumLow : Trlwe
  lutCarryLow : Trlwe
  lutSumHigh : Trlwe
  tempLow : List Torus
  sumLow : List Torus
  carry : List Torus
  tempHigh : List Torus
  sumHigh : List Torus
  result : BitVec 8

/-- The two nibbles as ints (`/repo/examples/add_two_numbers/main.go:43-46`) -/
def lowNibble (a : BitVec 8) : ℤ := (a &&& 0x0F#8).toNat
def highNibble (a : BitVec 8) : ℤ := ((a >>> 4) &&& 0x0F#8).toNat

/-- `main` from line 43 to line 152 of `/repo/examples/add_two_numbers/main.go`, for any inputs `a`, `b`, any
parameter set and any keys. `draw i`, `sample i` are the randomness of the `i`-th encryption. Tables are the
caller's TRLWE objects 0, 1, 2; the summed ciphertexts its LWE objects 0 and 1. Printing is left out. -/
def addTwoNumbers (fl : ℚ → ℚ) (P : Params) (st : EvState O) (ck : CloudKey O) (keyLv0 : List Torus)
    (a b : BitVec 8) (draw : ℕ → ℕ → Torus) (sample : ℕ → ℚ) : Option (EvState O × AddTwoRun) := do
  let aLow := lowNibble a
  let aHigh := highNibble a
  let bLow := lowNibble b
  let bHigh := highNibble b
  let gen := newGenerator fl P 32
  let lutSumLow ← gen.genLookUpTable fl P fun x => goMod x 16
  let lutCarryLow ← gen.genLookUpTable fl P fun x => some (if x ≥ 16 then 1 else 0)
  let lutSumHigh ← gen.genLookUpTable fl P fun x => goMod x 16
  let ctALow ← encryptLWEMessage fl P (newTLWELv0 P) aLow 32 keyLv0 (draw 0) (sample 0)
  let ctAHigh ← encryptLWEMessage fl P (newTLWELv0 P) aHigh 32 keyLv0 (draw 1) (sample 1)
  let ctBLow ← encryptLWEMessage fl P (newTLWELv0 P) bLow 32 keyLv0 (draw 2) (sample 2)
  let ctBHigh ← encryptLWEMessage fl P (newTLWELv0 P) bHigh 32 keyLv0 (draw 3) (sample 3)
  let n := P.tlweLv0.N
  let ctTempLow ← forRange 0 (n + 1) (newTLWELv0 P) fun j r => do
    let x ← rd ctALow j
    let y ← rd ctBLow j
    wr r j (x + y)
  let st := ((st.setTr (.user 0) lutSumLow).setTr (.user 1) lutCarryLow).setTr (.user 2) lutSumHigh
  let st := st.setLw (.user 0) ctTempLow
  let (st, ctSumLow) ← bootstrapLUT P st (.user 0) (.user 0) ck.bootstrappingKey ck.keySwitchingKey
    ck.decompositionOffset
  let (st, ctCarry) ← bootstrapLUT P st (.user 0) (.user 1) ck.bootstrappingKey ck.keySwitchingKey
    ck.decompositionOffset
  let ctTempHigh ← forRange 0 (n + 1) (newTLWELv0 P) fun j r => do
    let x ← rd ctAHigh j
    let y ← rd ctBHigh j
    let z ← rd ctCarry j
    wr r j (x + y + z)
  let st := st.setLw (.user 1) ctTempHigh
  let (st, ctSumHigh) ← bootstrapLUT P st (.user 1) (.user 2) ck.bootstrappingKey ck.keySwitchingKey
    ck.decompositionOffset
  let sumLow ← decryptLWEMessage P ctSumLow 32 keyLv0
  let sumHigh ← decryptLWEMessage P ctSumHigh 32 keyLv0
  let result := (BitVec.ofInt 64 sumLow ||| (BitVec.ofInt 64 sumHigh <<< 4)).setWidth 8
  pure (st, ⟨lutSumLow, lutCarryLow, lutSumHigh, ctTempLow, ctSumLow, ctCarry, ctTempHigh, ctSumHigh, result⟩)

end GoTfhe
