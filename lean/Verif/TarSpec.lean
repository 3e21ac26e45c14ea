import Verif.ArchiveSpec

/-!
# The `tar` archive format (ustar layout, with GNU long names)

Independent of the reader: what the bytes of an archive with given entries are.
-/

namespace Strigi.TarSpec

/-- The number that a string of octal digits denotes, most significant digit first. -/
def octal : List UInt8 → Option Nat
  | [] => some 0
  | b :: l => do
    let v ← octal l
    if 48 ≤ b.toNat ∧ b.toNat ≤ 55 then some ((b.toNat - 48) * 8 ^ l.length + v) else none

/-- A number in a field of 12 bytes: octal digits after optional blanks, ended by NULs or blanks. -/
def Field (f : List UInt8) (n : Nat) : Prop :=
  ∃ k digits j t, f = List.replicate k 32 ++ digits ++ List.replicate (j + 1) t ∧ (t = 0 ∨ t = 32) ∧
    digits ≠ [] ∧ octal digits = some n ∧ f.length = 12

/-- The type flag. -/
def flagType (t : UInt8) : EntryType :=
  if t = 0 ∨ t = 48 then .file else if t = 53 then .dir else .unknown

/-- The fields of a 512 byte header that matter: name, mode, owner and group (124 bytes), size, mtime,
checksum (8 bytes), type flag, link name and the rest (355 bytes). -/
def Fields (head front back : List UInt8) (size mtime : Nat) (type : EntryType) : Prop :=
  ∃ sizeField mtimeField checksum t,
    head = front ++ sizeField ++ mtimeField ++ checksum ++ [t] ++ back ∧
    front.length = 124 ∧ Field sizeField size ∧ size < 2 ^ 31 ∧ Field mtimeField mtime ∧ mtime < 2 ^ 31 ∧
    checksum.length = 8 ∧ flagType t = type ∧ back.length = 355

/-- A header: the name (at most 100 bytes) padded with NULs; mode, owner, group and link name are any bytes
ended by a NUL. -/
def Header (head name : List UInt8) (size mtime : Nat) (type : EntryType) : Prop :=
  ∃ mode owner group link rest k,
    Fields head (name ++ List.replicate k 0 ++ (mode ++ [0]) ++ (owner ++ [0]) ++ (group ++ [0]))
      (link ++ [0] ++ rest) size mtime type ∧
    name.length + k = 100 ∧ name ≠ [] ∧ 0 ∉ name ∧ mode.length = 7 ∧ owner.length = 7 ∧ group.length = 7 ∧
    link.length = 99

/-- Without one slash at the end. -/
def stripSlash (name : List UInt8) : List UInt8 :=
  if name.getLast? = some 47 then name.dropLast else name

/-- The name under which an entry is shown: without `./` at the start and without one slash at the end. -/
def shownName : List UInt8 → List UInt8
  | 46 :: 47 :: l => stripSlash l
  | l => stripSlash l

/-- `"././@LongLink"` -/
def longLink : List UInt8 := [46, 47, 46, 47, 64, 76, 111, 110, 103, 76, 105, 110, 107]

/-- `n` bytes of padding bring `len` bytes up to the next multiple of 512. -/
def Pads (len n : Nat) : Prop := n < 512 ∧ (len + n) % 512 = 0

/-- `Archive tail entries bytes`: `bytes` is an archive with the given entries, followed by `tail`. -/
inductive Archive (tail : List UInt8) : List ArchiveEntry → List UInt8 → Prop
  | done : Archive tail [] tail
  | entry {head name content pad rest l mtime type} :
      Header head name content.length mtime type → name ≠ longLink → name ≠ [46, 47] →
      Pads content.length pad.length →
      Archive tail l rest →
      Archive tail (⟨⟨shownName name, content.length, mtime, type⟩, content⟩ :: l)
        (head ++ content ++ pad ++ rest)
  /-- the current directory itself is not shown -/
  | dot {head rest l size mtime type} :
      Header head [46, 47] size mtime type → Archive tail l rest → Archive tail l (head ++ rest)
  /-- GNU: a pseudo entry with the name, followed by a header in which the name does not matter -/
  | long {head1 head2 front back longName pad1 content pad rest l size mtime1 type1 mtime type} :
      Header head1 longLink size mtime1 type1 → size = longName.length → longName ≠ [] →
      Pads longName.length pad1.length →
      Fields head2 front back content.length mtime type →
      Pads content.length pad.length →
      Archive tail l rest →
      Archive tail (⟨⟨stripSlash longName, content.length, mtime, type⟩, content⟩ :: l)
        (head1 ++ longName ++ pad1 ++ head2 ++ content ++ pad ++ rest)

/-- `Intro pre info`: `pre` is what precedes the content of an entry with the information `info` that is shown: a header,
or a long name and a header. -/
inductive Intro : List UInt8 → EntryInfo → Prop
  | plain {head name size mtime type} : Header head name size mtime type → name ≠ longLink → name ≠ [46, 47] →
      Intro head ⟨shownName name, size, mtime, type⟩
  | long {head1 head2 front back longName pad1 size1 size mtime1 type1 mtime type} :
      Header head1 longLink size1 mtime1 type1 → size1 = longName.length → longName ≠ [] →
      Pads longName.length pad1.length → Fields head2 front back size mtime type →
      Intro (head1 ++ longName ++ pad1 ++ head2) ⟨stripSlash longName, size, mtime, type⟩

/-- Data that may be the header of a tar entry, as far as the reader looks: the name (100 bytes) is filled up with NULs,
the fields that follow are not all NUL, those for the mode, the owner and the group end with NUL, those for the size and
the time with NUL or a blank, and the link name ends with NUL. -/
structure Plausible (h : List UInt8) : Prop where
  length : 257 ≤ h.length
  name : ∀ i j, i < j → j < 100 → h[i]? = some 0 → h[j]? = some 0
  fields : ∃ i, 100 ≤ i ∧ i < 256 ∧ h[i]? ≠ some 0
  mode : h[107]? = some 0
  owner : h[115]? = some 0
  group : h[123]? = some 0
  size : h[135]? = some 0 ∨ h[135]? = some 32
  time : h[147]? = some 0 ∨ h[147]? = some 32
  link : h[256]? = some 0

end Strigi.TarSpec
