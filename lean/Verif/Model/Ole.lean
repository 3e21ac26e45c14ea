import Verif.Model.Magic
import Verif.Model.TextUtils
import Verif.Model.BufferedStream
import Verif.Model.Kmp
import Verif.ArchiveSpec

/-!
# Model of `OleInputStream` (lib/oleinputstream.cpp)

`data` points to the bytes that the input returned for one big `read`; the input is not used afterwards, so the
bytes stay valid.  Integers are 32-bit; a signed overflow is undefined behaviour (`ck`).  Memory is unlimited
(`batIndex.reserve(nBat)` always succeeds); messages to `stderr` are not modelled.
-/

namespace Strigi
namespace Ole

/-- The value of an expression of type `int32_t`; overflow is undefined behaviour. -/
def ck (x : Int) : Res Int := if -(2 ^ 31) ≤ x ∧ x < 2 ^ 31 then .ok x else .fault .undefined

/-- `readLittleEndianInt32(data + offset)`; the memory is the list. -/
def load (data : List UInt8) (offset : Int) : Res Int :=
  if 0 ≤ offset then TextUtils.readLittleEndianInt32 (data.drop offset.toNat) else .fault .outOfBounds

/-- `OleInputStream::Private` (oleinputstream.cpp:33-59), apart from the entry stream.  The sets are lists. -/
structure Doc where
  data : List UInt8 := []
  size : Int := 0
  bat : List Int := []
  sbat : List Int := []
  sbatb : List Int := []
  used : List Int := []
  usedS : List Int := []
  maxindex : Int := 0
  maxsindex : Int := 0
  tableBlock : Int := -1
  tableIndex : Int := 0
  dataBlock : Int := -1
  streamSize : Int := 0
deriving DecidableEq, Repr

/-- oleinputstream.cpp:156-165 `readInt32`; nothing if it returns false (and sets the status to `Error`). -/
def readInt32 (data : List UInt8) (size offset : Int) : Res (Option Int) :=
  if offset < 0 then .ok none
  else do
    let e ← ck (offset + 4)
    if e ≥ size then .ok none
    else do
      let v ← load data offset
      .ok (some v)

/-- oleinputstream.cpp:282-284, 310-312: the place of the entry `i` of a table with the given blocks (the test of
278 and 306 is part of the callers). -/
def slot (table : List Int) (i : Int) : Res Int := do
  let b ← aget table (i.tdiv 128)
  let b ← ck (b + 1)
  let o ← ck (512 * b)
  ck (i.tmod 128 * 4 + o)

/-- oleinputstream.cpp:274-301 `nextBlock`. -/
def nextBlock (d : Doc) (i : Int) : Res (Doc × Int) :=
  if i.tdiv 128 < 0 ∨ i.tdiv 128 ≥ d.bat.length then .ok (d, -4)
  else do
    let next ← slot d.bat i
    if next < 0 ∨ d.size - 4 < next then .ok (d, -4)
    else do
      let next ← load d.data next
      if next < -2 ∨ next = -1 ∨ next > d.maxindex ∨ next ∈ d.used then .ok (d, -4)
      else if next ≥ 0 then .ok ({ d with used := next :: d.used }, next)
      else .ok (d, next)

/-- oleinputstream.cpp:302-328 `nextSmallBlock`. -/
def nextSmallBlock (d : Doc) (i : Int) : Res (Doc × Int) :=
  if i.tdiv 128 < 0 ∨ i.tdiv 128 ≥ d.sbat.length then .ok (d, -4)
  else do
    let next ← slot d.sbat i
    if next < 0 ∨ d.size - 4 < next then .ok (d, -4)
    else do
      let next ← load d.data next
      if next < -2 ∨ next = -1 ∨ next > d.maxsindex ∨ next ∈ d.usedS then .ok (d, -4)
      else if next ≥ 0 then .ok ({ d with usedS := next :: d.usedS }, next)
      else .ok (d, next)

/-- oleinputstream.cpp:329-339 `getCurrentSmallBlock`: the offset from `data`, nothing for a null pointer. -/
def smallBlock (d : Doc) : Res (Option Int) :=
  if d.dataBlock.tdiv 8 < 0 ∨ d.dataBlock.tdiv 8 ≥ d.sbatb.length then .ok none
  else do
    let b ← aget d.sbatb (d.dataBlock.tdiv 8)
    let b ← ck (1 + b)
    let b ← ck (512 * b)
    let i ← ck (b + d.dataBlock.tmod 8 * 64)
    if i > d.size - 64 then .ok none else .ok (some i)

/-! ## The entry stream -/

/-- `OleEntryStream` (oleinputstream.cpp:62-83), apart from the buffer; `msize` is `m_size`, which
`BufferedStream` does not change if it is known.  `doc` is what `parent` points to. -/
structure Entry where
  doc : Doc
  done : Int := 0
  offset : Int := 0
  blocksize : Int := 64
  msize : Int := 0
deriving DecidableEq, Repr

/-- `n` bytes of `data` from `from` on, as `memcpy` copies them. -/
def copy (data : List UInt8) (start n : Int) : Res (List UInt8) :=
  if 0 ≤ start ∧ 0 ≤ n ∧ start + n ≤ data.length then .ok (slice data start n) else .fault .outOfBounds

/-- oleinputstream.cpp:112-122: the offset of the current block. -/
def blockStart (e : Entry) : Res (Option Int) :=
  if e.blocksize = 64 then smallBlock e.doc
  else do
    let b ← ck (1 + e.doc.dataBlock)
    let b ← ck (b * 512)
    .ok (some b)

/-- oleinputstream.cpp:134-140: the block after the current one. -/
def follow (e : Entry) : Res (Doc × Int) :=
  if e.blocksize = 64 then nextSmallBlock e.doc e.doc.dataBlock else nextBlock e.doc e.doc.dataBlock

/-- oleinputstream.cpp:131-150: after `data` (`n` bytes) has been copied. -/
def advance (e : Entry) (n : Int) (data : List UInt8) : Res (Entry × Fill UInt8) :=
  let e : Entry := { e with done := e.done + n, offset := e.offset + n }
  if e.offset = e.blocksize then do
    let r ← follow e
    let e : Entry := { e with doc := { r.1 with dataBlock := r.2 }, offset := 0 }
    if r.2 < 0 ∧ (r.2 ≠ -2 ∨ e.done ≠ e.msize) then .ok (e, ⟨-1, data, true⟩) else .ok (e, ⟨n, data, false⟩)
  else .ok (e, ⟨n, data, false⟩)

/-- oleinputstream.cpp:104-111: how much is copied. -/
def amount (e : Entry) (space : Int) : Int :=
  let avail := e.blocksize - e.offset
  let avail := if avail > e.msize - e.done then narrow32 (e.msize - e.done) else avail
  if space > avail then avail else space

/-- oleinputstream.cpp:100-151 `fillBuffer`. -/
def fill (e : Entry) (space : Int) : Res (Entry × Fill UInt8) :=
  if e.done = e.msize then .ok (e, ⟨-1, [], false⟩)
  else do
    let p ← blockStart e
    match p with
    | none => .ok (e, ⟨-1, [], true⟩)
    | some p =>
      if p < 0 ∨ e.doc.size < p + amount e space then .ok (e, ⟨-1, [], true⟩)
      else do
        let data ← copy e.doc.data (p + e.offset) (amount e space)
        advance e (amount e space) data

/-- `OleEntryStream` as a subclass of `BufferedInputStream`. -/
def producer : Producer Entry UInt8 where
  fill := fill
  fuel e := (e.msize - e.done).toNat + 2

/-- bufferedstream.h:69-77 `resetBuffer` and oleinputstream.cpp:75-81 `OleEntryStream::reset`. -/
def resetEntry (es : BufferedStream Entry UInt8) (d : Doc) : BufferedStream Entry UInt8 where
  prod := { doc := d, done := 0, offset := 0, blocksize := if d.streamSize < 4096 then 64 else 512,
            msize := d.streamSize }
  buf := { es.buf with offset := 0, avail := 0 }
  finished := false
  pos := 0
  size := d.streamSize
  status := .ok

/-! ## The constructor -/

/-- oleinputstream.cpp:192-197: the first entries of the block allocation table; `n` are left, `i` is the index.
Nothing if a number cannot be read. -/
def headerBat (mem : List UInt8) (size : Int) : Nat → Int → List Int → Int → Res (Option (List Int × Int))
  | 0, _, bat, max => .ok (some (bat, max))
  | n + 1, i, bat, max => do
    let r ← readInt32 mem size (4 * i)
    match r with
    | none => .ok none
    | some p => headerBat mem size n (i + 1) (bat ++ [p]) (if p > max then p else max)

/-- oleinputstream.cpp:221-225. -/
def xbatInner (data : List UInt8) (size nBat off : Int) : Nat → Int → List Int → Res (Option (List Int))
  | 0, _, bat => .ok (some bat)
  | n + 1, i, bat =>
    if (bat.length : Int) < nBat then do
      let o ← ck (4 * i + off)
      let r ← readInt32 data size o
      match r with
      | none => .ok none
      | some p => xbatInner data size nBat off n (i + 1) (bat ++ [p])
    else .ok (some bat)

/-- oleinputstream.cpp:220-228; `n` rounds are left. -/
def xbatLoop (data : List UInt8) (size nBat : Int) : Nat → Int → List Int → Res (Option (List Int))
  | 0, _, bat => .ok (some bat)
  | n + 1, off, bat => do
    let r ← xbatInner data size nBat off 127 0 bat
    match r with
    | none => .ok none
    | some bat => do
      let o ← ck (508 + off)
      let r ← readInt32 data size o
      match r with
      | none => .ok none
      | some x => do
        let x ← ck (512 * x)
        let x ← ck (512 + x)
        xbatLoop data size nBat n x bat

/-- oleinputstream.cpp:243-253 and 259-262: at most `n` blocks are collected. -/
def collect : Nat → Doc → Int → List Int → Res (Doc × Int × List Int)
  | 0, d, b, l => .ok (d, b, l)
  | n + 1, d, b, l =>
    if b ≥ 0 then do
      let r ← nextBlock d b
      collect n r.1 r.2 (l ++ [b])
    else .ok (d, b, l)

/-- oleinputstream.cpp:240-266, after the block allocation table has been read.  Nothing for an error. -/
def readTables (d : Doc) (ptOffset sBatOffset : Int) : Res (Option Doc) := do
  let r ← collect 1000 d sBatOffset []
  let d : Doc := { r.1 with sbat := r.2.2 }
  let p ← ck (1 + ptOffset)
  let p ← ck (p * 512)
  let p ← ck (p + 0x74)
  let v ← readInt32 d.data d.size p
  match v with
  | none => .ok none
  | some b => do
    let r ← collect 16000 d b []
    .ok (some { r.1 with sbatb := r.2.2, dataBlock := r.2.1, maxsindex := r.2.2.length * 8,
                         tableBlock := ptOffset, tableIndex := 0 })

/-- oleinputstream.cpp:216-266: all of the file is in `data`. -/
def readIndex (data : List UInt8) (size nBat nXBat ptOffset sBatOffset xBatOffset : Int) (bat : List Int) :
    Res (Option Doc) := do
  let x ← ck (512 * xBatOffset)
  let x ← ck (512 + x)
  let r ← xbatLoop data size nBat nXBat.toNat x bat
  match r with
  | none => .ok none
  | some bat =>
    readTables { data := data, size := size, bat := bat, maxindex := size.tdiv 512 - 2 } ptOffset sBatOffset

/-- The provider: the members of `SubStreamProvider` and the entry stream, which refers to the rest.
`open_` tells whether `m_entrystream` is not null. -/
structure State where
  status : Status
  info : EntryInfo := {}
  open_ : Bool := false
  es : BufferedStream Entry UInt8
deriving DecidableEq, Repr

/-- oleinputstream.cpp:69-74: the buffer of the new entry stream has 512 bytes. -/
def newEntry (d : Doc) : BufferedStream Entry UInt8 :=
  { (BufferedStream.new ({ doc := d } : Entry) : BufferedStream Entry UInt8) with
      buf := ⟨List.replicate 512 none, 0, 0⟩ }

/-- The provider after a failed constructor: `currentTableBlock` is -1. -/
def broken : State := { status := .error, es := newEntry {} }

/-- The provider after the constructor. -/
def opened : Option Doc → State
  | none => broken
  | some d => { status := .ok, es := newEntry d }

/-- oleinputstream.cpp:201-215: read the whole file. -/
def readFile {σ : Type} (P : StreamOps σ UInt8) (input : σ) (max : Int) : Res (Option (List UInt8 × Int)) := do
  let m ← ck (max + 2)
  let toread ← ck (m * 512)
  if P.size input ≥ 0 ∧ P.size input < toread then .ok none
  else do
    let toread : Int := if P.size input > 0 then narrow32 (P.size input) else 10000000
    let r ← P.read input toread toread
    let q ← P.reset r.1 0
    if r.2.1 ≠ P.size q.1 then .ok none else .ok (some (r.2.2, r.2.1))

/-- oleinputstream.cpp:189-266, after the header has been found to be good. -/
def readRest {σ : Type} (P : StreamOps σ UInt8) (input : σ) (header : List UInt8)
    (nBat ptOffset sBatOffset xBatOffset nXBat : Int) : Res State := do
  let b ← headerBat (header.drop 76) 512 (min 109 nBat).toNat 0 [] 0
  match b with
  | none => .ok broken
  | some (bat, max) => do
    let max := if ptOffset > max then ptOffset else max
    let m ← ck (128 * (nBat - 1))
    let max := if m > max then m else max
    let f ← readFile P input max
    match f with
    | none => .ok broken
    | some (data, size) => do
      let d ← readIndex data size nBat nXBat ptOffset sBatOffset xBatOffset bat
      .ok (opened d)

/-- oleinputstream.cpp:183-184: is the header bad? -/
def badHeader (header : List UInt8) (nBat nXBat : Int) : Res Bool := do
  let ok ← checkHeader header 512
  if !ok ∨ nBat < 0 then .ok true
  else do
    let m ← ck (128 * nXBat)
    let m ← ck (m + 109)
    .ok (decide (nBat > m ∨ nXBat < 0))

/-- oleinputstream.cpp:153-155, 166-267: the constructor. -/
def new {σ : Type} (P : StreamOps σ UInt8) (input : σ) : Res State := do
  let r ← P.read input 512 512
  if r.2.1 ≠ 512 then .ok broken
  else do
    let q ← P.reset r.1 0
    let header := r.2.2
    let nBat ← load header 0x2c
    let ptOffset ← load header 0x30
    let sBatOffset ← load header 0x3c
    let xBatOffset ← load header 0x44
    let nXBat ← load header 0x48
    let bad ← badHeader header nBat nXBat
    if bad then .ok broken
    else readRest P q.1 header nBat ptOffset sBatOffset xBatOffset nXBat

/-! ## The entries -/

/-- oleinputstream.cpp:355-358: the characters of the name and whether one is bad; `n` are left. -/
def nameLoop (d : Doc) (p : Int) : Nat → Int → List UInt8 → Bool → Res (List UInt8 × Bool)
  | 0, _, name, bad => .ok (name, bad)
  | n + 1, i, name, bad => do
    let h ← aget d.data (p + 2 * i + 1)
    let c ← aget d.data (p + 2 * i)
    nameLoop d p n (i + 1) (name ++ [c]) (bad || h ≠ 0)

/-- oleinputstream.cpp:349-352: the number of characters; `char` is signed. -/
def nameSize (c : UInt8) : Int :=
  let n : Int := c.toBitVec.toInt
  let n := if n < 2 then 2 else n
  let n := if n > 0x40 then 0x40 else n
  n.tdiv 2 - 1

/-- oleinputstream.cpp:340-378 `readEntryInfo`. -/
def readEntryInfo (d : Doc) (info : EntryInfo) : Res (Doc × EntryInfo) := do
  let p ← ck (1 + d.tableBlock)
  let p ← ck (p * 512)
  let p := p + 128 * d.tableIndex
  let type ← aget d.data (p + 0x42)
  if type ≠ 2 then .ok ({ d with dataBlock := -1 }, info)
  else do
    let c ← aget d.data (p + 0x40)
    let r ← nameLoop d p (nameSize c).toNat 0 [] false
    let name := if r.2 then [] else r.1
    let b ← load d.data (p + 0x74)
    let s ← load d.data (p + 0x78)
    let info : EntryInfo := { info with filename := name, size := s }
    .ok ({ d with dataBlock := if b > d.maxindex ∨ s ≤ 0 then -1 else b, streamSize := s }, info)

/-- oleinputstream.cpp:389-395: the next record of the directory; false if there is none. -/
def nextRecord (d : Doc) : Res (Doc × Bool) :=
  if d.tableIndex + 1 = 4 then do
    let r ← nextBlock d d.tableBlock
    let d : Doc := { r.1 with tableBlock := r.2, tableIndex := if r.2 < 0 then 4 else 0 }
    .ok (d, decide (0 ≤ r.2))
  else .ok ({ d with tableIndex := d.tableIndex + 1 }, true)

/-- oleinputstream.cpp:388-397; false if there are no more entries. -/
def entryLoop : Nat → Doc → EntryInfo → Res (Doc × EntryInfo × Bool)
  | 0, _, _ => .diverge
  | fuel + 1, d, info => do
    let r ← nextRecord d
    if r.2 then do
      let r ← readEntryInfo r.1 info
      if r.1.dataBlock < 0 then entryLoop fuel r.1 r.2 else .ok (r.1, r.2, true)
    else .ok (r.1, info, false)

/-- oleinputstream.cpp:379-403 `nextEntry`.  Every block is in the directory at most once (see C48), so the bound
on the loop is sufficient. -/
def nextEntry (s : State) : Res State :=
  if s.es.prod.doc.tableBlock < 0 then .ok { s with status := .eof, open_ := false }
  else do
    let r ← entryLoop (4 * s.es.prod.doc.size.toNat + 8) s.es.prod.doc s.info
    if r.2.2 then .ok { s with info := r.2.1, open_ := true, es := resetEntry s.es r.1 }
    else .ok { s with info := r.2.1, status := .eof, open_ := false,
                      es := { s.es with prod := { s.es.prod with doc := r.1 } } }

/-- `OleInputStream` through the virtual interface. -/
def ops : ProviderOps State (BufferedStream Entry UInt8) where
  nextEntry := nextEntry
  entry s := if s.open_ then some s.es else none
  setEntry s e := { s with es := e }
  info s := s.info
  status s := s.status
  stream := BufferedStream.ops producer

/-- oleinputstream.cpp:268-273 and substreamprovider.h:101-106: the destructor.  The entry stream is deleted by
`~Private()`, and again by the destructor of the base class if `m_entrystream` is not null. -/
def destroy (s : State) : Res Unit := if s.open_ then .fault .undefined else .ok ()

end Ole
end Strigi
