import Verif.Base

/-!
# Model of lib/textutils.cpp, include/strigi/textutils.h and lib/dostime.cpp
-/

namespace Strigi.TextUtils

/-! ## UTF-8 -/

/-- The body of the loops of textutils.cpp:38-66 and 92-125 (they are the same but for the recording of
positions): the state is `nb` and `val`; `none` is an early return.  `val` is below 2^21 (it is set to a
part of a byte at every lead byte and receives 6 bits at most three times), so the 64-bit type does not
overflow. -/
def utf8Step (nb val : Nat) (c : UInt8) : Option (Nat × Nat) :=
  if nb ≠ 0 then
    if 0xC0 &&& c ≠ 0x80 then none
    else
      let val := val * 64 + (c &&& 0x3F).toNat
      let nb := nb - 1
      if nb = 0 ∧ (val = 0xFFFE ∨ val = 0xFFFF ∨ (val ≥ 0xD800 ∧ val ≤ 0xDFFF)) then none
      else some (nb, val)
  else if c ≥ 0xC2 ∧ c ≤ 0xDF then some (1, (c &&& 0x1F).toNat)
  else if 0xF0 &&& c = 0xE0 then some (2, (c &&& 0x0F).toNat)
  else if c ≥ 0xF0 ∧ c ≤ 0xF4 then some (3, (c &&& 0x07).toNat)
  else if c > 0x7F ∨ (c < 0x20 ∧ ¬ (c = 0x9 ∨ c = 0xA ∨ c = 0xD)) then none
  else some (nb, val)

/-- textutils.cpp:38-68. -/
def checkUtf8Loop : Nat → Nat → List UInt8 → Bool
  | nb, _, [] => nb == 0
  | nb, val, c :: l =>
    match utf8Step nb val c with
    | none => false
    | some (nb, val) => checkUtf8Loop nb val l

/-- textutils.cpp:31-69 `bool checkUtf8(const char*, int32_t)`; `l` are the `length` bytes. -/
def checkUtf8 (l : List UInt8) : Bool := checkUtf8Loop 0 0 l

/-- textutils.cpp:92-128: `p` is the offset of the current byte, `cs` that of the current character.  The
result is the returned pointer (as an offset) and the final value of `nb`, which is set to 0 on an error. -/
def checkUtf8PosLoop : (p cs nb val : Nat) → List UInt8 → Option Nat × Nat
  | _, cs, nb, _, [] => (if nb ≠ 0 then some cs else none, nb)
  | p, cs, nb, val, c :: l =>
    match utf8Step nb val c with
    | none => (some p, 0)
    | some (nb', val) =>
      -- a lead byte sets `cs`
      let cs := if nb = 0 ∧ nb' ≠ 0 then p else cs
      checkUtf8PosLoop (p + 1) cs nb' val l

/-- textutils.cpp:84-129 `const char* checkUtf8(const char*, int32_t, char& nb)`. -/
def checkUtf8Pos (l : List UInt8) : Option Nat × Nat := checkUtf8PosLoop 0 0 0 0 l

/-- The loop of textutils.cpp:144-163. -/
def convertLoop : Nat → List UInt8 → List UInt8
  | _, [] => []
  | nb, c :: l =>
    if nb ≠ 0 then
      if 0xC0 &&& c ≠ 0x80 then c :: l
      else c :: convertLoop (nb - 1) l
    else if c ≥ 0xC2 ∧ c ≤ 0xDF then c :: convertLoop 1 l
    else if 0xF0 &&& c = 0xE0 then c :: convertLoop 2 l
    else if c ≥ 0xF0 ∧ c ≤ 0xF4 then c :: convertLoop 3 l
    else if c = 10 ∨ c = 13 then 32 :: convertLoop nb l
    else c :: convertLoop nb l

/-- textutils.cpp:138-164 `convertNewLines`: `l` are the bytes before the terminating zero.  The message
written to stderr is not modelled. -/
def convertNewLines (l : List UInt8) : List UInt8 := convertLoop 0 l

/-! ## Byte order

The model is of a little-endian machine (textutils.h:70-95, textutils.cpp:207-232).  `load` is the access
`*reinterpret_cast<const T*>(c)` there; the list are the accessible bytes from `c` on. -/

def load16 : List UInt8 → Res (BitVec 16)
  | b0 :: b1 :: _ => .ok (b1.toBitVec ++ b0.toBitVec)
  | _ => .fault .outOfBounds

def load32 : List UInt8 → Res (BitVec 32)
  | b0 :: b1 :: b2 :: b3 :: _ => .ok (b3.toBitVec ++ b2.toBitVec ++ b1.toBitVec ++ b0.toBitVec)
  | _ => .fault .outOfBounds

def load64 : List UInt8 → Res (BitVec 64)
  | b0 :: b1 :: b2 :: b3 :: b4 :: b5 :: b6 :: b7 :: _ =>
    .ok (b7.toBitVec ++ b6.toBitVec ++ b5.toBitVec ++ b4.toBitVec ++ b3.toBitVec ++ b2.toBitVec ++
      b1.toBitVec ++ b0.toBitVec)
  | _ => .fault .outOfBounds

/-- textutils.cpp:166-167; the argument has been promoted to `int`. -/
def swap16 (x : BitVec 32) : BitVec 32 := (x.sshiftRight 8 &&& 0xff#32) ||| ((x &&& 0xff#32) <<< 8)

/-- textutils.cpp:169-171; the constants have type `unsigned int`. -/
def swap32 (x : BitVec 32) : BitVec 32 :=
  ((x &&& 0xff000000#32) >>> 24) ||| ((x &&& 0x00ff0000#32) >>> 8) |||
    ((x &&& 0x0000ff00#32) <<< 8) ||| ((x &&& 0x000000ff#32) <<< 24)

/-- textutils.cpp:172-180. -/
def swap64 (x : BitVec 64) : BitVec 64 :=
  ((x &&& 0xff00000000000000#64) >>> 56) ||| ((x &&& 0x00ff000000000000#64) >>> 40) |||
    ((x &&& 0x0000ff0000000000#64) >>> 24) ||| ((x &&& 0x000000ff00000000#64) >>> 8) |||
    ((x &&& 0x00000000ff000000#64) <<< 8) ||| ((x &&& 0x0000000000ff0000#64) <<< 24) |||
    ((x &&& 0x000000000000ff00#64) <<< 40) ||| ((x &&& 0x00000000000000ff#64) <<< 56)

/-- textutils.h:71-73. -/
def readLittleEndianInt16 (c : List UInt8) : Res Int := do let x ← load16 c; .ok x.toInt
/-- textutils.h:74-76. -/
def readLittleEndianUInt16 (c : List UInt8) : Res Nat := do let x ← load16 c; .ok x.toNat
/-- textutils.h:77-79. -/
def readLittleEndianInt32 (c : List UInt8) : Res Int := do let x ← load32 c; .ok x.toInt
/-- textutils.h:80-82. -/
def readLittleEndianUInt32 (c : List UInt8) : Res Nat := do let x ← load32 c; .ok x.toNat
/-- textutils.h:83-85. -/
def readLittleEndianInt64 (c : List UInt8) : Res Int := do let x ← load64 c; .ok x.toInt
/-- textutils.h:86-88. -/
def readLittleEndianUInt64 (c : List UInt8) : Res Nat := do let x ← load64 c; .ok x.toNat
/-- textutils.cpp:208-211. -/
def readBigEndianInt16 (c : List UInt8) : Res Int := do
  let x ← load16 c; .ok ((swap16 (x.signExtend 32)).setWidth 16).toInt
/-- textutils.cpp:212-215. -/
def readBigEndianUInt16 (c : List UInt8) : Res Nat := do
  let x ← load16 c; .ok ((swap16 (x.setWidth 32)).setWidth 16).toNat
/-- textutils.cpp:216-219. -/
def readBigEndianInt32 (c : List UInt8) : Res Int := do let x ← load32 c; .ok (swap32 x).toInt
/-- textutils.cpp:220-223. -/
def readBigEndianUInt32 (c : List UInt8) : Res Nat := do let x ← load32 c; .ok (swap32 x).toNat
/-- textutils.cpp:224-227. -/
def readBigEndianInt64 (c : List UInt8) : Res Int := do let x ← load64 c; .ok (swap64 x).toInt
/-- textutils.cpp:228-231. -/
def readBigEndianUInt64 (c : List UInt8) : Res Nat := do let x ← load64 c; .ok (swap64 x).toNat

/-! The overloads for `const unsigned char*`. -/
namespace UnsignedChar
/-- textutils.h:97-99. -/
def readLittleEndianInt16 := TextUtils.readLittleEndianInt16
/-- textutils.h:100-102. -/
def readLittleEndianUInt16 := TextUtils.readLittleEndianUInt16
/-- textutils.h:103-105. -/
def readLittleEndianInt32 := TextUtils.readLittleEndianInt32
/-- textutils.h:106-108. -/
def readLittleEndianUInt32 := TextUtils.readLittleEndianUInt32
/-- textutils.h:109-111: it calls the 16-bit function. -/
def readLittleEndianInt64 := TextUtils.readLittleEndianInt16
/-- textutils.h:112-114. -/
def readLittleEndianUInt64 := TextUtils.readLittleEndianUInt64
/-- textutils.h:115-117. -/
def readBigEndianInt16 := TextUtils.readBigEndianInt16
/-- textutils.h:118-120. -/
def readBigEndianUInt16 := TextUtils.readBigEndianUInt16
/-- textutils.h:121-123. -/
def readBigEndianInt32 := TextUtils.readBigEndianInt32
/-- textutils.h:124-126. -/
def readBigEndianUInt32 := TextUtils.readBigEndianUInt32
/-- textutils.h:127-129: it calls the 16-bit function. -/
def readBigEndianInt64 := TextUtils.readBigEndianInt16
/-- textutils.h:130-132. -/
def readBigEndianUInt64 := TextUtils.readBigEndianUInt64
end UnsignedChar

/-! ## DOS time -/

/-- The fields of `struct tm` that `dos2unixtime` sets before it calls `mktime`. -/
structure Tm where
  tm_year : Int
  tm_mon : Int
  tm_mday : Int
  tm_hour : Int
  tm_min : Int
  tm_sec : Int
deriving DecidableEq, Repr

/-- dostime.cpp:50-55, for a 32-bit argument.  `mktime` is not modelled. -/
def dosFields (d : Nat) : Tm where
  tm_year := ((d >>> 25 : Nat) : Int) + 80
  tm_mon := ((d >>> 21 &&& 0x0f : Nat) : Int) - 1
  tm_mday := ((d >>> 16 &&& 0x1f : Nat) : Int)
  tm_hour := ((d >>> 11 &&& 0x0f : Nat) : Int)
  tm_min := ((d >>> 5 &&& 0x3f : Nat) : Int)
  tm_sec := (((d &&& 0x1f) <<< 1 : Nat) : Int)

end Strigi.TextUtils
