import Verif.NestSpec
import Verif.Model.Magic
import Verif.Model.ArchiveReader
import Verif.Model.Mail

/-!
# Model of `subStreamProvider` (lib/listinginprogress.cpp:80-158) and of the way a listing goes through a file

The readers are those of `Verif/NestSpec.lean`.  A reader is opened on a stream and moves it; the model hands the stream
back when the reader is given up.  `ListingInProgress::nextEntry` does one entry per call; `walk` does them all, with
the same calls of the readers and streams in the same order.
-/

namespace Strigi
namespace Walk

open Nest (Reader)

/-- A pair of `subs` (archivereader.cpp:183-196): a check of a header and the reader that goes with it. -/
structure Format where
  check : List UInt8 → Int → Res Bool
  reader : Reader

/-- `MailInputStream` (lib/mailinputstream.cpp) as such a reader.  (It is not among those of `Verif/NestSpec.lean`: what is required there is left out.) -/
def mailReader (conv : List UInt8 → List UInt8 → List UInt8) (stale : Int) (N fuel : Nat) : Reader where
  State := Mail.State
  Entry := Mail.Entry
  new P s := Mail.new P conv stale fuel s
  ops P := Mail.ops P conv stale N fuel
  under p := match p.entry with
    | some (.body e) => e.parent
    | some (.plain e) => e.parent
    | some (.base64 e) => e.prod.input.parent
    | none => p.input
  stored _ := False
  limit _ _ := False
  out _ n := n
  fits _ := False

/-- What `subStreamProvider` uses: the pairs in the order of the map (which depends on the addresses of the functions), zlib, libbz2, the LZMA
decoder (`lz` is one that was not initialised).  `N` bounds loops. -/
structure Kit where
  subs : List Format
  ζg : Type
  gz : Decompressor ζg
  ζb : Type
  bz : Decompressor ζb
  lz : LzmaDec.Dec
  N : Nat

/-- What is done with a stream: it is handed back with a result. -/
abbrev Use (α : Type) := (σ : Type) → StreamOps σ UInt8 → σ → Res (σ × α)

/-- listinginprogress.cpp:89-102: is it a bz2 stream?  `k true` goes on with the decompressed stream. -/
def tryBz2 (K : Kit) {α : Type} (k : Bool → Use α) : Use α := fun _ P s => do
  let r ← P.read s 16 0
  let s ← P.reset r.1 0
  let yes ← BZ2.checkHeader r.2.2 r.2.1
  if yes then do
    let b ← BZ2.new P K.bz s.1
    if b.status = .ok then do
      let x ← k true _ (BZ2.ops P K.bz K.N) b
      .ok (x.1.prod.input, x.2)
    else do
      let s ← P.reset b.prod.input 0
      k false _ P s.1
  else k false _ P s.1

/-- listinginprogress.cpp:105: the first two bytes of a gzip file. -/
def gzipMagic (c : List UInt8) (n : Int) : Res Bool :=
  if n ≥ 2 then do
    let a ← aget c 0
    if a ≠ 0x1f then .ok false else do
    let b ← aget c 1
    .ok (b == 0x8b)
  else .ok false

/-- listinginprogress.cpp:103-115. -/
def tryGzip (K : Kit) {α : Type} (k : Bool → Use α) : Use α := fun _ P s => do
  let r ← P.read s 2 0
  let s ← P.reset r.1 0
  let yes ← gzipMagic r.2.2 r.2.1
  if yes then do
    let b ← GZip.new P K.gz true s.1
    if b.status = .ok then do
      let x ← k true _ (GZip.ops P K.gz K.N) b
      .ok (x.1.prod.input, x.2)
    else do
      let s ← P.reset b.prod.input 0
      k false _ P s.1
  else k false _ P s.1

/-- listinginprogress.cpp:116-128.  Only two bytes are asked for. -/
def tryLzma (K : Kit) {α : Type} (k : Bool → Use α) : Use α := fun _ P s => do
  let r ← P.read s 2 0
  let s ← P.reset r.1 0
  let yes ← Lzma.checkHeader r.2.2 r.2.1
  if yes then do
    let b ← LzmaStream.new P LzmaDec.decoder K.lz s.1
    if b.status = .ok then do
      let x ← k true _ (LzmaStream.ops P LzmaDec.decoder K.N) b
      .ok (x.1.prod.input, x.2)
    else do
      let s ← P.reset b.prod.input 0
      k false _ P s.1
  else k false _ P s.1

/-- listinginprogress.cpp:84-129: the loop; `m` rounds are left (33 at first: `nestingDepth` counts to 32). -/
def unpack (K : Kit) {α : Type} (k : Use α) : Nat → Use α
  | 0 => k
  | m + 1 => tryBz2 K fun f1 => tryGzip K fun f2 => tryLzma K fun f3 =>
      if f1 || f2 || f3 then unpack K k m else k

/-- listinginprogress.cpp:137-154: the loop over the formats; `c` and `n` are the header.  `k` is done with a reader that is at
its first entry. -/
def choose {σ α : Type} (P : StreamOps σ UInt8) (none' : α) (k : (F : Format) → F.reader.State σ → Res (σ × α)) :
    List Format → σ → List UInt8 → Int → Res (σ × α)
  | [], s, _, _ => .ok (s, none')
  | F :: l, s, c, n => do
    let yes ← F.check c n
    if yes then do
      let p ← F.reader.new P s
      let p ← (F.reader.ops P).nextEntry p
      match (F.reader.ops P).entry p with
      | some _ => k F p
      | none => do
        let s ← P.reset (F.reader.under p) 0
        let r ← P.read s.1 1 0
        let s ← P.reset r.1 0
        choose P none' k l s.1 r.2.2 r.2.1
    else choose P none' k l s c n

/-- The flags of `EntryInfo::Type`. -/
def attrOf (i : EntryInfo) : Attr := ⟨i.filename, i.size, i.mtime, decide (i.type = .dir), decide (i.type = .file)⟩

/-- listinginprogress.cpp:226: `while (es->read(c, 1, 0) > 0) {}`. -/
def readToEnd {σ : Type} (P : StreamOps σ UInt8) : Nat → σ → Res σ
  | 0, _ => .diverge
  | n + 1, s => do
    let r ← P.read s 1 0
    if r.2.1 > 0 then readToEnd P n r.1 else .ok r.1

/-- listinginprogress.cpp:222-228: the number of bytes of an entry is counted if the archive does not tell it. -/
def measure {σ : Type} (P : StreamOps σ UInt8) (N : Nat) (size : Int) (s : σ) : Res (σ × Int) :=
  if size < 0 then do
    let s ← readToEnd P N s
    .ok (s, P.size s)
  else .ok (s, P.size s)

/-- What a listing finds in a reader that is at an entry (listinginprogress.cpp:199-237): the entry, what `inner` finds in its stream, and the
entries after it.  `m` bounds the number of entries. -/
def entries {σ : Type} (K : Kit) (inner : Use Contents) (L : Reader) (P : StreamOps σ UInt8) : Nat → L.State σ → Res (L.State σ × Contents)
  | 0, _ => .diverge
  | m + 1, p =>
    match (L.ops P).entry p with
    | none => .ok (p, .nil)
    | some e => do
      let info := (L.ops P).info p
      let x ← inner _ (L.ops P).stream e
      let y ← measure (L.ops P).stream K.N info.size x.1
      let p ← (L.ops P).nextEntry ((L.ops P).setEntry p y.1)
      let r ← entries K inner L P m p
      .ok (r.1, .entry (attrOf info) y.2 x.2 r.2)

/-- What a listing finds in a stream; `d` bounds the depth of archives in archives. -/
def walk (K : Kit) : Nat → Use Contents
  | 0 => fun _ _ _ => .diverge
  | d + 1 => unpack K (fun _ P s => do
      let r ← P.read s 1024 0
      let s ← P.reset r.1 0
      choose P .nil (fun F p => do
        let x ← entries K (walk K d) F.reader P K.N p
        .ok (F.reader.under x.1, x.2)) K.subs s.1 r.2.2 r.2.1) 33

end Walk
end Strigi
