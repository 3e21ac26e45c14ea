import Verif.ArchiveSpec

/-!
# The `ar` archive format (with the GNU extensions)

Independent of the reader: what the bytes of an archive with given entries are.
-/

namespace Strigi.ArSpec

/-- `"!<arch>\n"` -/
def magic : List UInt8 := [0x21, 0x3c, 0x61, 0x72, 0x63, 0x68, 0x3e, 0x0a]

/-- The number that a string of decimal digits denotes, most significant digit first. -/
def decimal : List UInt8 → Option Nat
  | [] => some 0
  | b :: l => do
    let v ← decimal l
    if 48 ≤ b.toNat ∧ b.toNat ≤ 57 then some ((b.toNat - 48) * 10 ^ l.length + v) else none

/-- A number in a field of `width` bytes: at least one digit, padded with blanks. -/
def Field (f : List UInt8) (width n : Nat) : Prop :=
  ∃ digits k, f = digits ++ List.replicate k 32 ∧ digits ≠ [] ∧ decimal digits = some n ∧ f.length = width

/-- The 60 bytes of a header: name, mtime, owner, group and mode (any bytes), size, and two bytes that end
the header.  The time leaves at least one byte of its field blank. -/
def Header (head nameField : List UInt8) (mtime size : Nat) : Prop :=
  ∃ mtimeField other sizeField,
    head = nameField ++ (mtimeField ++ [32]) ++ other ++ sizeField ++ [96, 10] ∧
    nameField.length = 16 ∧ Field mtimeField 11 mtime ∧ other.length = 20 ∧ Field sizeField 10 size ∧
    mtime < 2 ^ 31 ∧ size < 2 ^ 31

/-- A name of up to 16 bytes without blank, slash and NUL, filling the field or ended by one of these. -/
def ShortName (field name : List UInt8) : Prop :=
  name ≠ [] ∧ field.length = 16 ∧ (∀ b ∈ name, b ≠ 32 ∧ b ≠ 47 ∧ b ≠ 0) ∧
  (field = name ∨ ∃ b rest, field = name ++ b :: rest ∧ (b = 32 ∨ b = 47 ∨ b = 0))

/-- GNU: `/offset` refers to the name at `offset` of the name table, ended by a slash. -/
def LongName (table field name : List UInt8) : Prop :=
  ∃ digits k offset before after, field = 47 :: digits ++ List.replicate (k + 1) 32 ∧ digits ≠ [] ∧
    decimal digits = some offset ∧ offset < 2 ^ 31 ∧ field.length = 16 ∧
    table = before ++ name ++ 47 :: after ∧ before.length = offset ∧ (∀ b ∈ name, b ≠ 47 ∧ b ≠ 0)

/-- `Archive table entries bytes`: `bytes` is what follows the magic of an archive with the given entries,
when `table` is the current GNU name table.  Contents of odd size are followed by one byte of padding,
which may be missing at the end; the archive may end with one additional byte. -/
inductive Archive : List UInt8 → List ArchiveEntry → List UInt8 → Prop
  | done {table} : Archive table [] []
  | closing {table b} : Archive table [] [b]
  | entry {table field name content pad head rest l mtime} :
      ShortName field name ∨ LongName table field name →
      Header head field mtime content.length →
      pad.length = content.length % 2 ∨ (pad = [] ∧ rest = []) →
      Archive table l rest →
      Archive table (⟨⟨name, content.length, mtime, .file⟩, content⟩ :: l) (head ++ content ++ pad ++ rest)
  | symbols {table field content pad head rest l mtime} :
      field = 47 :: List.replicate 15 32 →
      Header head field mtime content.length →
      pad.length = content.length % 2 ∨ (pad = [] ∧ rest = []) →
      Archive table l rest →
      Archive table l (head ++ content ++ pad ++ rest)
  | names {table field content pad head rest l mtime} :
      field = 47 :: 47 :: List.replicate 14 32 →
      Header head field mtime content.length → content ≠ [] →
      pad.length = content.length % 2 ∨ (pad = [] ∧ rest = []) →
      Archive content l rest →
      Archive table l (head ++ content ++ pad ++ rest)

/-- `Members tail last table entries bytes`: `bytes` are complete members of an archive with the given entries, followed by
`tail`; the GNU name table is `table` before them and `last` behind them. -/
inductive Members (tail last : List UInt8) : List UInt8 → List ArchiveEntry → List UInt8 → Prop
  | done : Members tail last last [] tail
  | entry {table field name content pad head rest l mtime} :
      ShortName field name ∨ LongName table field name →
      Header head field mtime content.length →
      pad.length = content.length % 2 →
      Members tail last table l rest →
      Members tail last table (⟨⟨name, content.length, mtime, .file⟩, content⟩ :: l) (head ++ content ++ pad ++ rest)
  | symbols {table field content pad head rest l mtime} :
      field = 47 :: List.replicate 15 32 →
      Header head field mtime content.length →
      pad.length = content.length % 2 →
      Members tail last table l rest →
      Members tail last table l (head ++ content ++ pad ++ rest)
  | names {table field content pad head rest l mtime} :
      field = 47 :: 47 :: List.replicate 14 32 →
      Header head field mtime content.length → content ≠ [] →
      pad.length = content.length % 2 →
      Members tail last content l rest →
      Members tail last table l (head ++ content ++ pad ++ rest)

end Strigi.ArSpec
