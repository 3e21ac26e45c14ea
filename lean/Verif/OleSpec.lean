import Verif.TextSpec
import Verif.ArchiveSpec

/-!
# Specification of OLE compound documents

What a well-formed file looks like, independently of the code that reads it.  The file is a header of 512 bytes and
blocks of 512 bytes.  The block allocation table (BAT) gives for every block the next one of its chain.  The
directory is a chain of blocks with four records each.  Streams of less than 4096 bytes are made of pieces of 64
bytes of one long stream, the ministream; a second table, whose blocks form a chain, gives the next piece.
-/

namespace Strigi

/-- The size of the input is known, whatever is done with it. -/
def KnownSize {σ : Type} (P : StreamOps σ UInt8) (f : List UInt8) (soft : Prop) (s : σ) : Prop :=
  ∀ s' lo hi, Uses P f soft s s' lo hi → P.size s' = f.length

namespace OleFile

open Text

/-- The signed 32-bit number at byte `o`. -/
def word (f : List UInt8) (o : Nat) : Int := signed 32 (leValue ((f.drop o).take 4))

/-- The place of block `b`. -/
def blockAt (b : Nat) : Nat := 512 * (b + 1)

/-- The contents of block `b`. -/
def block (f : List UInt8) (b : Nat) : List UInt8 := (f.drop (blockAt b)).take 512

/-- The entry `i` of a table that is stored in the given blocks. -/
def lookup (f : List UInt8) (table : List Nat) (i : Nat) : Int :=
  word f (blockAt (table.getD (i / 128) 0) + 4 * (i % 128))

/-- The list is a complete chain: the table leads from each element to the next one, and says `-2` for the last. -/
inductive Chain (f : List UInt8) (table : List Nat) : List Nat → Prop
  | last {b : Nat} : b / 128 < table.length → lookup f table b = -2 → Chain f table [b]
  | cons {b c : Nat} {l : List Nat} : b / 128 < table.length → lookup f table b = c → Chain f table (c :: l) →
      Chain f table (b :: c :: l)

/-- The number is the start of a chain; a negative one if the chain is empty. -/
def Starts (w : Int) : List Nat → Prop
  | [] => w < 0
  | b :: _ => w = b

/-- Where the parts of the file are: the blocks of the extension of the BAT, of the BAT, of the directory, of the
table for the ministream, and of the ministream. -/
structure Layout where
  xbat : List Nat := []
  bat : List Nat
  dir : List Nat
  minifat : List Nat := []
  mini : List Nat := []

/-- Where the number of block `i` of the BAT is: 109 numbers are in the header, 127 in every block of the
extension. -/
def batPlace (L : Layout) (i : Nat) : Nat :=
  if i < 109 then 76 + 4 * i else blockAt (L.xbat.getD ((i - 109) / 127) 0) + 4 * ((i - 109) % 127)

/-- A well-formed file, except for the streams. -/
structure WellFormed (f : List UInt8) (L : Layout) : Prop where
  length : f.length < 2 ^ 31
  magic : f.take 8 = [0xd0, 0xcf, 0x11, 0xe0, 0xa1, 0xb1, 0x1a, 0xe1]
  /-- the block allocation table -/
  nBat : word f 0x2c = L.bat.length
  bat : ∀ i, (h : i < L.bat.length) → word f (batPlace L i) = L.bat[i]
  nXBat : word f 0x48 = L.xbat.length
  enough : L.bat.length ≤ 109 + 127 * L.xbat.length
  xStart : Starts (word f 0x44) L.xbat
  xRange : -(2 ^ 22) ≤ word f 0x44
  xNext : ∀ j, (h : j + 1 < L.xbat.length) → word f (blockAt L.xbat[j] + 508) = L.xbat[j + 1]
  xNodup : L.xbat.Nodup
  xLast : ∀ b, L.xbat.getLast? = some b → -(2 ^ 22) ≤ word f (blockAt b + 508) ∧ word f (blockAt b + 508) < 0
  /-- all blocks of the BAT but the last are needed -/
  full : (128 * (L.bat.length - 1) + 2) * 512 ≤ f.length
  /-- the directory -/
  dirStart : Starts (word f 0x30) L.dir
  dirChain : Chain f L.bat L.dir
  /-- the table for the ministream -/
  minifatStart : Starts (word f 0x3c) L.minifat
  minifatChain : L.minifat ≠ [] → Chain f L.bat L.minifat
  /-- the ministream, which belongs to the first record of the directory -/
  miniStart : Starts (word f (blockAt (L.dir.headD 0) + 0x74)) L.mini
  miniChain : L.mini ≠ [] → Chain f L.bat L.mini
  /-- all blocks are in the file -/
  inside : ∀ b, b ∈ L.xbat ∨ b ∈ L.bat ∨ b ∈ L.dir ∨ b ∈ L.minifat ∨ b ∈ L.mini → blockAt b + 512 ≤ f.length

/-- The records of the directory. -/
def records (f : List UInt8) (dir : List Nat) : List (List UInt8) :=
  dir.flatMap fun b => [0, 1, 2, 3].map fun i => (f.drop (blockAt b + 128 * i)).take 128

/-- The number of characters of the name of a record. -/
def nameLength (r : List UInt8) : Nat :=
  let n := (r.getD 0x40 0).toNat
  if n < 2 ∨ 128 ≤ n then 0 else min n 64 / 2 - 1

/-- The lower and the upper halves of UTF-16 characters. -/
def lows : List UInt8 → List UInt8
  | a :: _ :: l => a :: lows l
  | _ => []
def highs : List UInt8 → List UInt8
  | _ :: b :: l => b :: highs l
  | _ => []

/-- The name of a record; nothing unless all characters are below 256. -/
def nameOf (r : List UInt8) : List UInt8 :=
  let chars := r.take (2 * nameLength r)
  if (highs chars).all (· == 0) then lows chars else []

def startOf (r : List UInt8) : Int := word r 0x74
def lengthOf (r : List UInt8) : Int := word r 0x78

/-- Is the record that of a stream that is not empty? -/
def IsStreamRecord (r : List UInt8) : Prop := r.getD 0x42 0 = 2 ∧ 0 < lengthOf r ∧ 0 ≤ startOf r

/-- The piece `k` of the ministream. -/
def piece (f : List UInt8) (mini : List Nat) (k : Nat) : List UInt8 :=
  (f.drop (blockAt (mini.getD (k / 8) 0) + 64 * (k % 8))).take 64

/-- The records stand for the entries, given with the number of the block or piece where they start; `big` are the blocks that the big streams use, `small` the pieces of the
ministream that the small ones use. -/
inductive Lists (f : List UInt8) (L : Layout) :
    List (List UInt8) → (big small : List Nat) → List (Nat × ArchiveEntry) → Prop
  | nil : Lists f L [] [] [] []
  | other {r rs big small es} : ¬ IsStreamRecord r → Lists f L rs big small es → Lists f L (r :: rs) big small es
  | big {r rs big small es b l} : IsStreamRecord r → 4096 ≤ lengthOf r → startOf r = (b : Nat) →
      Chain f L.bat (b :: l) → (∀ x ∈ b :: l, blockAt x + 512 ≤ f.length) →
      lengthOf r ≤ 512 * (b :: l).length → Lists f L rs big small es →
      Lists f L (r :: rs) ((b :: l) ++ big) small
        ((b, ⟨{ filename := nameOf r, size := lengthOf r }, ((b :: l).flatMap (block f)).take (lengthOf r).toNat⟩) :: es)
  | small {r rs big small es b l} : IsStreamRecord r → lengthOf r < 4096 → startOf r = (b : Nat) →
      Chain f L.minifat (b :: l) → (∀ x ∈ b :: l, x / 8 < L.mini.length) →
      lengthOf r ≤ 64 * (b :: l).length → Lists f L rs big small es →
      Lists f L (r :: rs) big ((b :: l) ++ small)
        ((b, ⟨{ filename := nameOf r, size := lengthOf r },
          ((b :: l).flatMap (piece f L.mini)).take (lengthOf r).toNat⟩) :: es)

end OleFile
end Strigi
