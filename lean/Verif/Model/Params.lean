import Verif.Model.Prelude
import Mathlib.Data.Rat.Init
import Mathlib.Algebra.Field.Rat

/-!
# `/repo/params/params.go`
-/

namespace GoTfhe

/-- `TLWELv0Params`, `TLWELv1Params`, `TRLWELv1Params` (`/repo/params/params.go:50-65`).
`ALPHA` (a float64 constant) is the decimal literal as a rational. -/
structure LweParams where
  N : ℕ
  ALPHA : ℚ
deriving DecidableEq

/-- `TRGSWLv1Params` (`/repo/params/params.go:68-78`). -/
structure TrgswParams where
  N : ℕ
  NBIT : ℕ
  BGBIT : ℕ
  BG : ℕ
  L : ℕ
  BASEBIT : ℕ
  IKS_T : ℕ
  ALPHA : ℚ
  BlockSize : ℕ
deriving DecidableEq

/-- The anonymous struct type of the tables (`/repo/params/params.go:83-88` and the like). -/
structure Params where
  tlweLv0 : LweParams
  tlweLv1 : LweParams
  trlweLv1 : LweParams
  trgswLv1 : TrgswParams
deriving DecidableEq

/-- `/repo/params/params.go:83-112` -/
def params80Bit : Params where
  tlweLv0 := ⟨550, 5.0e-5⟩
  tlweLv1 := ⟨1024, 3.73e-8⟩
  trlweLv1 := ⟨1024, 3.73e-8⟩
  trgswLv1 := ⟨1024, 10, 6, 1 <<< 6, 3, 2, 7, 3.73e-8, 3⟩

/-- `/repo/params/params.go:117-146` -/
def params110Bit : Params where
  tlweLv0 := ⟨630, 3.0517578125e-05⟩
  tlweLv1 := ⟨1024, 2.980232238769531e-8⟩
  trlweLv1 := ⟨1024, 2.980232238769531e-8⟩
  trgswLv1 := ⟨1024, 10, 6, 1 <<< 6, 3, 2, 8, 2.980232238769531e-8, 3⟩

/-- `/repo/params/params.go:151-180` -/
def params128Bit : Params where
  tlweLv0 := ⟨700, 2.0e-5⟩
  tlweLv1 := ⟨1024, 2.0e-8⟩
  trlweLv1 := ⟨1024, 2.0e-8⟩
  trgswLv1 := ⟨1024, 10, 6, 1 <<< 6, 3, 2, 9, 2.0e-8, 3⟩

/-- `/repo/params/params.go:194-223` -/
def paramsUint1 : Params where
  tlweLv0 := ⟨700, 2.0e-05⟩
  tlweLv1 := ⟨1024, 2.0e-08⟩
  trlweLv1 := ⟨1024, 2.0e-08⟩
  trgswLv1 := ⟨1024, 10, 10, 1 <<< 10, 2, 2, 8, 2.0e-08, 3⟩

/-- `/repo/params/params.go:236-265` -/
def paramsUint2 : Params where
  tlweLv0 := ⟨687, 0.00002120846893069971872305794214⟩
  tlweLv1 := ⟨512, 0.00000000000231841227527049948463⟩
  trlweLv1 := ⟨512, 0.00000000000231841227527049948463⟩
  trgswLv1 := ⟨512, 9, 18, 1 <<< 18, 1, 4, 3, 0.00000000000231841227527049948463, 3⟩

/-- `/repo/params/params.go:277-306` -/
def paramsUint3 : Params where
  tlweLv0 := ⟨820, 0.00000251676160959795544987084234⟩
  tlweLv1 := ⟨1024, 0.00000000000000022204460492503131⟩
  trlweLv1 := ⟨1024, 0.00000000000000022204460492503131⟩
  trgswLv1 := ⟨1024, 10, 23, 1 <<< 23, 1, 6, 2, 0.00000000000000022204460492503131, 4⟩

/-- `/repo/params/params.go:318-347` -/
def paramsUint4 : Params where
  tlweLv0 := ⟨820, 0.00000251676160959795544987084234⟩
  tlweLv1 := ⟨2048, 0.00000000000000022204460492503131⟩
  trlweLv1 := ⟨2048, 0.00000000000000022204460492503131⟩
  trgswLv1 := ⟨2048, 11, 22, 1 <<< 22, 1, 5, 3, 0.00000000000000022204460492503131, 4⟩

/-- `/repo/params/params.go:362-391` -/
def paramsUint5 : Params where
  tlweLv0 := ⟨1071, 7.088226765410429399593757e-08⟩
  tlweLv1 := ⟨2048, 2.2204460492503131e-17⟩
  trlweLv1 := ⟨2048, 2.2204460492503131e-17⟩
  trgswLv1 := ⟨2048, 11, 22, 1 <<< 22, 1, 6, 3, 2.2204460492503131e-17, 7⟩

/-- `/repo/params/params.go:403-432` -/
def paramsUint6 : Params where
  tlweLv0 := ⟨1071, 7.088226765410429399593757e-08⟩
  tlweLv1 := ⟨2048, 2.2204460492503131e-17⟩
  trlweLv1 := ⟨2048, 2.2204460492503131e-17⟩
  trgswLv1 := ⟨2048, 11, 22, 1 <<< 22, 1, 6, 3, 2.2204460492503131e-17, 7⟩

/-- `/repo/params/params.go:444-473` -/
def paramsUint7 : Params where
  tlweLv0 := ⟨1160, 1.966220007498402695211596e-08⟩
  tlweLv1 := ⟨2048, 2.2204460492503131e-17⟩
  trlweLv1 := ⟨2048, 2.2204460492503131e-17⟩
  trgswLv1 := ⟨2048, 11, 22, 1 <<< 22, 1, 7, 3, 2.2204460492503131e-17, 8⟩

/-- `/repo/params/params.go:485-514` -/
def paramsUint8 : Params where
  tlweLv0 := ⟨1160, 1.966220007498402695211596e-08⟩
  tlweLv1 := ⟨2048, 2.2204460492503131e-17⟩
  trlweLv1 := ⟨2048, 2.2204460492503131e-17⟩
  trgswLv1 := ⟨2048, 11, 22, 1 <<< 22, 1, 7, 3, 2.2204460492503131e-17, 8⟩

/-- `SecurityLevel` is a Go int; the named constants are at `/repo/params/params.go:32-44`. -/
abbrev SecurityLevel := ℤ

/-- Initial value of `CurrentSecurityLevel` (`/repo/params/params.go:47`). -/
def initialLevel : SecurityLevel := 128

/-- `GetTLWELv0` (`/repo/params/params.go:517-542`) -/
def getTLWELv0 (level : SecurityLevel) : LweParams :=
  if level = 80 then params80Bit.tlweLv0
  else if level = 110 then params110Bit.tlweLv0
  else if level = 1 then paramsUint1.tlweLv0
  else if level = 2 then paramsUint2.tlweLv0
  else if level = 3 then paramsUint3.tlweLv0
  else if level = 4 then paramsUint4.tlweLv0
  else if level = 5 then paramsUint5.tlweLv0
  else if level = 6 then paramsUint6.tlweLv0
  else if level = 7 then paramsUint7.tlweLv0
  else if level = 8 then paramsUint8.tlweLv0
  else params128Bit.tlweLv0

/-- `GetTLWELv1` (`/repo/params/params.go:545-570`) -/
def getTLWELv1 (level : SecurityLevel) : LweParams :=
  if level = 80 then params80Bit.tlweLv1
  else if level = 110 then params110Bit.tlweLv1
  else if level = 1 then paramsUint1.tlweLv1
  else if level = 2 then paramsUint2.tlweLv1
  else if level = 3 then paramsUint3.tlweLv1
  else if level = 4 then paramsUint4.tlweLv1
  else if level = 5 then paramsUint5.tlweLv1
  else if level = 6 then paramsUint6.tlweLv1
  else if level = 7 then paramsUint7.tlweLv1
  else if level = 8 then paramsUint8.tlweLv1
  else params128Bit.tlweLv1

/-- `GetTRLWELv1` (`/repo/params/params.go:573-598`) -/
def getTRLWELv1 (level : SecurityLevel) : LweParams :=
  if level = 80 then params80Bit.trlweLv1
  else if level = 110 then params110Bit.trlweLv1
  else if level = 1 then paramsUint1.trlweLv1
  else if level = 2 then paramsUint2.trlweLv1
  else if level = 3 then paramsUint3.trlweLv1
  else if level = 4 then paramsUint4.trlweLv1
  else if level = 5 then paramsUint5.trlweLv1
  else if level = 6 then paramsUint6.trlweLv1
  else if level = 7 then paramsUint7.trlweLv1
  else if level = 8 then paramsUint8.trlweLv1
  else params128Bit.trlweLv1

/-- `GetTRGSWLv1` (`/repo/params/params.go:601-626`) -/
def getTRGSWLv1 (level : SecurityLevel) : TrgswParams :=
  if level = 80 then params80Bit.trgswLv1
  else if level = 110 then params110Bit.trgswLv1
  else if level = 1 then paramsUint1.trgswLv1
  else if level = 2 then paramsUint2.trgswLv1
  else if level = 3 then paramsUint3.trgswLv1
  else if level = 4 then paramsUint4.trgswLv1
  else if level = 5 then paramsUint5.trgswLv1
  else if level = 6 then paramsUint6.trgswLv1
  else if level = 7 then paramsUint7.trgswLv1
  else if level = 8 then paramsUint8.trgswLv1
  else params128Bit.trgswLv1

/-- The parameters every function sees when `CurrentSecurityLevel = level`. The functions of
the library call the four getters; the model passes this record to them explicitly. -/
def paramsFor (level : SecurityLevel) : Params where
  tlweLv0 := getTLWELv0 level
  tlweLv1 := getTLWELv1 level
  trlweLv1 := getTRLWELv1 level
  trgswLv1 := getTRGSWLv1 level

/-- `KSKAlpha` (`/repo/params/params.go:629-631`) -/
def kskAlpha (P : Params) : ℚ := P.tlweLv0.ALPHA

/-- `BSKAlpha` (`/repo/params/params.go:634-636`) -/
def bskAlpha (P : Params) : ℚ := P.tlweLv1.ALPHA

/-- `GetBlockCount` (`/repo/params/params.go:669-676`). Here `blockSize ≥ 2` in the division. -/
def getBlockCount (P : Params) : ℕ :=
  let lweDim := P.tlweLv0.N
  let blockSize := P.trgswLv1.BlockSize
  if blockSize ≤ 1 then lweDim else (lweDim + blockSize - 1) / blockSize

/-- `UseBlockBlindRotation` (`/repo/params/params.go:679-681`) -/
def useBlockBlindRotation (P : Params) : Bool := P.trgswLv1.BlockSize > 1

end GoTfhe
