import Verif.Model.Ar
import Verif.Model.Cpio
import Verif.Model.Tar
import Verif.Model.Decompress
import Verif.Model.TextUtils

/-!
# The header checks of the formats that have no model of their own (yet)
-/

namespace Strigi

/-- zipinputstream.cpp:33-39 -/
def Zip.checkHeader (data : List UInt8) (datasize : Int) : Res Bool :=
  if datasize < 4 then .ok false
  else do
    let ok ← memEq data [0x50, 0x4b, 0x03, 0x04]
    .ok (ok && decide (datasize > 8))

/-- rpminputstream.cpp:41-48 -/
def Rpm.checkHeader (data : List UInt8) (datasize : Int) : Res Bool :=
  if datasize < 6 then .ok false else memEq data [0xed, 0xab, 0xee, 0xdb, 0x03, 0x00]

/-- oleinputstream.cpp:404-409 -/
def Ole.checkHeader (data : List UInt8) (datasize : Int) : Res Bool :=
  if datasize > 8 then memEq data [0xd0, 0xcf, 0x11, 0xe0, 0xa1, 0xb1, 0x1a, 0xe1] else .ok false

/-- lzma/LzmaDec.c:906-930 `LzmaProps_Decode` with `size = LZMA_PROPS_SIZE`: the size of the dictionary, or
`none` for `SZ_ERROR_UNSUPPORTED`.  (`lc`, `pb` and `lp` are not modelled.) -/
def Lzma.dicSize (data : List UInt8) : Res (Option Nat) := do
  let d1 ← aget data 1
  let d2 ← aget data 2
  let d3 ← aget data 3
  let d4 ← aget data 4
  let size : BitVec 32 := d1.toBitVec.setWidth 32 ||| (d2.toBitVec.setWidth 32 <<< 8) |||
    (d3.toBitVec.setWidth 32 <<< 16) ||| (d4.toBitVec.setWidth 32 <<< 24)
  let size := if size.toNat < 2 ^ 12 then 2 ^ 12 else size.toNat
  let d ← aget data 0
  if d.toNat ≥ 9 * 5 * 5 then .ok none else .ok (some size)

/-- lzmainputstream.cpp:46-64 -/
def Lzma.checkHeader (data : List UInt8) (datasize : Int) : Res Bool :=
  if datasize < 5 + 8 then .ok false
  else do
    let d0 ← aget data 0
    if d0 ≠ 0x5d then .ok false else
    let d1 ← aget data 1
    if d1 ≠ 0x00 then .ok false else
    let dic ← Lzma.dicSize data
    let size ← TextUtils.readLittleEndianInt64 (data.drop 5)
    match dic with
    | none => .ok false
    | some dic => .ok (decide (dic ≤ 0x2000000 ∧ (size = -1 ∨ ((dic : Int) < size ∧ size < 1099511627776))))

end Strigi
