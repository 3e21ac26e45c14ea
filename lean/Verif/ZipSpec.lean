import Verif.ArchiveSpec
import Verif.TextSpec

/-!
# The zip format

Independent of the reader: what the bytes of the members of a zip file are (APPNOTE.TXT, sections 4.3.7 to
4.3.9).  What "deflated" means is a parameter (`inflates x y`: the compressed data `x` stands for `y`).
-/

namespace Strigi.ZipSpec

open Text

/-- A number in a field of `k` bytes, least significant byte first. -/
def Field (k : Nat) (f : List UInt8) (n : Nat) : Prop := f.length = k ∧ leValue f = n

/-- How a member lies in the file. -/
inductive Kind
  /-- as it is -/
  | stored
  /-- deflated, with the sizes in the header -/
  | deflated
  /-- deflated, with the sizes behind the data -/
  | streamed
deriving DecidableEq, Repr

/-- A local file header, the data and what belongs to it. -/
structure Member where
  kind : Kind
  name : List UInt8
  content : List UInt8
  time : DosTime
  /-- the data as it lies in the file -/
  data : List UInt8
  extra : List UInt8
  /-- version needed to extract: any two bytes -/
  version : List UInt8
  flags : Nat
  flagsField : List UInt8
  methodField : List UInt8
  timeField : List UInt8
  /-- crc: any four bytes -/
  crc : List UInt8
  compressedField : List UInt8
  sizeField : List UInt8
  nameField : List UInt8
  extraField : List UInt8
  /-- the data descriptor, if there is one -/
  descriptor : List UInt8

/-- The optional signature of a data descriptor. -/
def signature : List UInt8 := [0x50, 0x4b, 0x07, 0x08]

/-- Three numbers of four bytes with or without a signature before them. -/
def Descriptor (l : List UInt8) : Prop :=
  (∃ v, l = signature ++ v ∧ v.length = 12) ∨ (¬ signature <+: l ∧ l.length = 12)

/-- The bytes of a member. -/
def Member.bytes (m : Member) : List UInt8 :=
  [0x50, 0x4b, 0x03, 0x04] ++ m.version ++ m.flagsField ++ m.methodField ++ m.timeField ++ m.crc ++
    m.compressedField ++ m.sizeField ++ m.nameField ++ m.extraField ++ m.name ++ m.extra ++ m.data ++ m.descriptor

/-- What is to be in the fields for each kind of members.  Bit 3 of the flags tells that the sizes are not in
the header.  A data descriptor with a signature is accepted behind deflated data even if the flags do not
announce it. -/
def Member.Encoded (inflates : List UInt8 → List UInt8 → Prop) (m : Member) : Prop :=
  match m.kind with
  | .stored => m.flags.testBit 3 = false ∧ Field 2 m.methodField 0 ∧ Field 4 m.compressedField m.content.length ∧
      Field 4 m.sizeField m.content.length ∧ m.data = m.content ∧ m.descriptor = []
  | .deflated => m.flags.testBit 3 = false ∧ Field 2 m.methodField 8 ∧ Field 4 m.compressedField m.data.length ∧
      Field 4 m.sizeField m.content.length ∧ inflates m.data m.content ∧ m.data ≠ [] ∧
      (m.descriptor = [] ∨ ∃ v, m.descriptor = signature ++ v ∧ v.length = 12)
  | .streamed => m.flags.testBit 3 = true ∧ Field 2 m.methodField 8 ∧
      (∃ n, Field 4 m.compressedField n ∧ n < 2 ^ 31) ∧ m.sizeField.length = 4 ∧ inflates m.data m.content ∧
      m.data ≠ [] ∧ Descriptor m.descriptor

structure Member.WellFormed (inflates : List UInt8 → List UInt8 → Prop) (m : Member) : Prop where
  version : m.version.length = 2
  flags : Field 2 m.flagsField m.flags
  time : m.time.Valid ∧ Field 4 m.timeField m.time.encode
  crc : m.crc.length = 4
  name : Field 2 m.nameField m.name.length ∧ m.name ≠ [] ∧ m.name ≠ [47]
  extra : Field 2 m.extraField m.extra.length
  encoded : m.Encoded inflates
  range : m.content.length < 2 ^ 31 ∧ m.data.length < 2 ^ 31

/-- The name under which a member is shown, and its type: a final slash tells a directory. -/
def shown (name : List UInt8) : List UInt8 × EntryType :=
  if name.getLast? = some 47 then (name.dropLast, .dir) else (name, .file)

/-- What the user is to see of a member; `clock` turns year, month, day, hour, minute and second into the time
of the entry.  (The hours from 16 on are not represented, see C42.) -/
def Member.entry (clock : Int → Int → Int → Int → Int → Int → Int) (m : Member) : ArchiveEntry :=
  ⟨⟨(shown m.name).1, if m.kind = .streamed then -1 else m.content.length,
    clock m.time.year m.time.month m.time.day ((m.time.hour % 16 : Nat) : Int) m.time.min
      ((m.time.sec / 2 * 2 : Nat) : Int), (shown m.name).2⟩, m.content⟩

/-- What follows the members: the central directory.  (Its first header has 46 bytes and more.) -/
def Directory (l : List UInt8) : Prop := [0x50, 0x4b, 0x01, 0x02] <+: l ∧ 46 ≤ l.length

/-- Wherever the bytes look like a complete local file header, the name is not empty and the size is below 2 GB.
Nothing else is said about the bytes. -/
def Sane (c : List UInt8) : Prop :=
  ∀ p, (c.drop p).take 4 = [0x50, 0x4b, 0x03, 0x04] → p + 30 ≤ c.length →
    leValue ((c.drop (p + 26)).take 2) ≠ 0 ∧ leValue ((c.drop (p + 22)).take 4) < 2 ^ 31

end Strigi.ZipSpec
