import Verif.ArchiveSpec

/-!
# The "new ASCII" cpio format (magic 070701)

Independent of the reader: what the bytes of a member of an archive are.
-/

namespace Strigi.CpioSpec

/-- The value of a hexadecimal digit, upper or lower case. -/
def hexDigit (b : UInt8) : Option Nat :=
  if 48 ≤ b.toNat ∧ b.toNat ≤ 57 then some (b.toNat - 48)
  else if 65 ≤ b.toNat ∧ b.toNat ≤ 70 then some (b.toNat - 55)
  else if 97 ≤ b.toNat ∧ b.toNat ≤ 102 then some (b.toNat - 87)
  else none

/-- The number that a string of hexadecimal digits denotes, most significant digit first. -/
def hexNumber : List UInt8 → Option Nat
  | [] => some 0
  | b :: l => do
    let d ← hexDigit b
    let v ← hexNumber l
    pure (d * 16 ^ l.length + v)

/-- A field: eight hexadecimal digits. -/
def Field (f : List UInt8) (n : Nat) : Prop := f.length = 8 ∧ hexNumber f = some n

/-- One member of an archive.  The header has 13 fields of 8 digits after the magic: ino, mode, uid, gid,
nlink, mtime, filesize, devmajor, devminor, rdevmajor, rdevminor, namesize, check. -/
structure Member where
  name : List UInt8
  content : List UInt8
  mtime : Nat
  /-- ino, mode, uid, gid, nlink: any bytes -/
  before : List UInt8
  mtimeField : List UInt8
  sizeField : List UInt8
  /-- devmajor, devminor, rdevmajor, rdevminor: any bytes -/
  between : List UInt8
  nameField : List UInt8
  /-- check: any bytes -/
  check : List UInt8
  /-- padding after the name and after the content: any bytes -/
  namePad : List UInt8
  pad : List UInt8

/-- `n` bytes of padding bring `len` bytes up to the next multiple of four. -/
def Pads (len n : Nat) : Prop := n < 4 ∧ (len + n) % 4 = 0

/-- The member is correctly encoded; times and sizes are below `2^31`. -/
structure Member.WellFormed (m : Member) : Prop where
  before : m.before.length = 40
  mtime : Field m.mtimeField m.mtime ∧ m.mtime < 2 ^ 31
  size : Field m.sizeField m.content.length ∧ m.content.length < 2 ^ 31
  between : m.between.length = 32
  nameSize : Field m.nameField (m.name.length + 1) ∧ m.name.length + 4 < 2 ^ 31
  check : m.check.length = 8
  namePad : Pads (110 + m.name.length + 1) m.namePad.length
  pad : Pads m.content.length m.pad.length
  noNul : 0 ∉ m.name

/-- The header, the name with its terminating NUL, the content, each padded to a multiple of four. -/
def Member.bytes (m : Member) : List UInt8 :=
  [48, 55, 48, 55, 48, 49] ++ m.before ++ m.mtimeField ++ m.sizeField ++ m.between ++ m.nameField ++
    m.check ++ (m.name ++ [0]) ++ m.namePad ++ m.content ++ m.pad

/-- The name under which a member is shown: without an initial `./` (unless that is all of it). -/
def shownName (name : List UInt8) : List UInt8 :=
  match name with
  | 46 :: 47 :: b :: l => b :: l
  | l => l

/-- `"TRAILER!!!"` -/
def trailerName : List UInt8 := [84, 82, 65, 73, 76, 69, 82, 33, 33, 33]

/-- A header whose size, time and name length fields hold the given numbers, all other fields being
arbitrary. -/
structure Header (head : List UInt8) (size mtime nameSize : Nat) : Prop where
  fields : ∃ before mtimeField sizeField between nameField check : List UInt8,
    head = [48, 55, 48, 55, 48, 49] ++ before ++ mtimeField ++ sizeField ++ between ++ nameField ++ check ∧
    before.length = 40 ∧ Field mtimeField mtime ∧ Field sizeField size ∧ between.length = 32 ∧
    Field nameField nameSize ∧ check.length = 8
  range : mtime < 2 ^ 31 ∧ size < 2 ^ 31 ∧ nameSize < 2 ^ 31

/-- Wherever the bytes look like a complete header, the size of the content and the length of the name are
hexadecimal numbers below 2 GB, and a name that starts with `./` is terminated by a NUL.  Nothing else is said about
the bytes. -/
def Sane (c : List UInt8) : Prop :=
  ∀ p, (c.drop p).take 6 = [48, 55, 48, 55, 48, 49] → p + 110 ≤ c.length → ∃ size nameSize,
    Field ((c.drop (p + 54)).take 8) size ∧ size < 2 ^ 31 ∧
    Field ((c.drop (p + 94)).take 8) nameSize ∧ nameSize + 3 < 2 ^ 31 ∧
    ((c.drop (p + 110)).take 2 = [46, 47] → 0 ∈ ((c.drop (p + 110)).take nameSize).drop 2)

/-- What the user is to see of a member. -/
def Member.entry (m : Member) : ArchiveEntry :=
  ⟨⟨shownName m.name, m.content.length, m.mtime, .file⟩, m.content⟩

end Strigi.CpioSpec
