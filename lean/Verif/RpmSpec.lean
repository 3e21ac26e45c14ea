import Verif.TextSpec

/-!
# The layout of RPM files

http://www.rpm.org/max-rpm-snapshot/s1-rpm-file-format-rpm-file-format.html: a lead of 96 bytes, the signature and the header
(both are header blocks; the signature is padded to a multiple of eight), and the payload.
-/

namespace Strigi.RpmSpec

/-- A header block: magic and version, four reserved bytes, the number of index entries, the size of the store, the
index entries (tag, type, offset in the store, count; four bytes each), the store. -/
structure Block where
  reserved : List UInt8
  countField : List UInt8
  sizeField : List UInt8
  index : List (List UInt8)
  store : List UInt8

/-- The fields have their sizes, the numbers are right and are less than `2^31`; the block is not empty. -/
structure Block.WellFormed (b : Block) : Prop where
  reserved : b.reserved.length = 4
  count : b.countField.length = 4 ∧ Text.beValue b.countField = b.index.length
  size : b.sizeField.length = 4 ∧ Text.beValue b.sizeField = b.store.length
  index : ∀ e ∈ b.index, e.length = 16
  small : 16 * b.index.length + b.store.length + 8 ≤ 2 ^ 31
  notEmpty : 0 < 16 * b.index.length + b.store.length

/-- The offset that an index entry holds. -/
def offset (e : List UInt8) : Nat := Text.beValue ((e.drop 8).take 4)

/-- The first 16 bytes. -/
def Block.intro (b : Block) : List UInt8 := [0x8e, 0xad, 0xe8, 0x01] ++ b.reserved ++ b.countField ++ b.sizeField

/-- The rest. -/
def Block.body (b : Block) : List UInt8 := b.index.flatten ++ b.store

def Block.bytes (b : Block) : List UInt8 := b.intro ++ b.body

/-- An RPM file. -/
structure File where
  lead : List UInt8
  signature : Block
  pad : List UInt8
  header : Block
  payload : List UInt8

structure File.WellFormed (f : File) : Prop where
  lead : f.lead.length = 96
  signature : f.signature.WellFormed
  pad : f.pad.length < 8 ∧ (f.signature.body.length + f.pad.length) % 8 = 0
  header : f.header.WellFormed
  offsets : ∀ e ∈ f.header.index, offset e < f.header.store.length
  payload : 16 ≤ f.payload.length

def File.bytes (f : File) : List UInt8 := f.lead ++ f.signature.bytes ++ f.pad ++ f.header.bytes ++ f.payload

end Strigi.RpmSpec
