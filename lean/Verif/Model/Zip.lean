import Verif.ArchiveSpec
import Verif.Model.SubInputStream
import Verif.Model.Decompress
import Verif.Model.TextUtils

/-!
# Model of `ZipInputStream` (lib/zipinputstream.cpp)

`mktime` is a parameter, as is the decompressor.
-/

namespace Strigi

namespace Zip

/-- The entry streams.  `deflated` is used if `compressedEntryStream` is set (it and `uncompressionStream` are
inside the entry stream). -/
inductive Entry (σ ζ : Type) where
  | stored (e : SubInputStream σ)
  | deflated (e : SubInputStream (BufferedStream (Unpack.State (SubInputStream σ) ζ) UInt8))
  | streamed (e : BufferedStream (Unpack.State σ ζ) UInt8)

/-- The members of the base class (include/strigi/substreamprovider.h:71-84); `entryCompressedSize` and
`compressionMethod` (zipinputstream.h:45-46) are only used inside one call of `nextEntry`.  While there is an
entry stream, it holds the state of the shared input. -/
structure State (σ ζ : Type) where
  status : Status
  input : σ
  entry : Option (Entry σ ζ)
  info : EntryInfo

variable {σ ζ : Type}

/-- zipinputstream.cpp:40-44 -/
def new (input : σ) : State σ ζ := ⟨.ok, input, none, {}⟩

/-- A virtual call on `m_entrystream` (include/strigi/streambase.h). -/
def entryOps (P : StreamOps σ UInt8) (D : Decompressor ζ) (N : Nat) : StreamOps (Entry σ ζ) UInt8 where
  read e mn mx := match e with
    | .stored e => do
      let (e, r) ← SubInputStream.read P e mn mx
      .ok (.stored e, r)
    | .deflated e => do
      let (e, r) ← SubInputStream.read (GZip.ops (SubInputStream.ops P) D N) e mn mx
      .ok (.deflated e, r)
    | .streamed e => do
      let (e, r) ← (GZip.ops P D N).read e mn mx
      .ok (.streamed e, r)
  skip e k := match e with
    | .stored e => do
      let (e, r) ← SubInputStream.skip P e k
      .ok (.stored e, r)
    | .deflated e => do
      let (e, r) ← SubInputStream.skip (GZip.ops (SubInputStream.ops P) D N) e k
      .ok (.deflated e, r)
    | .streamed e => do
      let (e, r) ← (GZip.ops P D N).skip e k
      .ok (.streamed e, r)
  reset e q := match e with
    | .stored e => do
      let (e, r) ← SubInputStream.reset P e q
      .ok (.stored e, r)
    | .deflated e => do
      let (e, r) ← SubInputStream.reset (GZip.ops (SubInputStream.ops P) D N) e q
      .ok (.deflated e, r)
    | .streamed e => do
      let (e, r) ← (GZip.ops P D N).reset e q
      .ok (.streamed e, r)
  position
    | .stored e => e.pos
    | .deflated e => e.pos
    | .streamed e => (GZip.ops P D N).position e
  size
    | .stored e => e.size
    | .deflated e => e.size
    | .streamed e => (GZip.ops P D N).size e
  status
    | .stored e => e.status
    | .deflated e => e.status
    | .streamed e => (GZip.ops P D N).status e

/-- The state of the input inside an entry stream. -/
def Entry.input : Entry σ ζ → σ
  | .stored e => e.parent
  | .deflated e => e.parent.prod.input.parent
  | .streamed e => e.prod.input

/-- zipinputstream.cpp:82-84: `while (m_entrystream->status() == Ok) m_entrystream->skip(size)`; at most `fuel`
iterations. -/
def skipAll {ε : Type} (S : StreamOps ε UInt8) (size : Int) : Nat → ε → Res ε
  | 0, _ => .diverge
  | fuel + 1, e =>
    if S.status e = .ok then do
      let (e', _) ← S.skip e size
      skipAll S size fuel e'
    else .ok e

/-- zipinputstream.cpp:67-76: a data descriptor behind deflated data. -/
def skipSignature (P : StreamOps σ UInt8) (input : σ) : Res σ := do
  let p := P.position input
  let (input, n, c) ← P.read input 16 16
  if n = 16 then do
    let sig ← TextUtils.readLittleEndianUInt32 c
    if sig ≠ 0x08074b50 then do
      let (input, _) ← P.reset input p
      .ok input
    else .ok input
  else .ok input

/-- zipinputstream.cpp:86-103: the data descriptor that has to follow; `false` if there is none.  (`n` is
compared as a signed number in the code; the signature is a positive one.) -/
def skipDescriptor (P : StreamOps σ UInt8) (input : σ) : Res (σ × Bool) := do
  let (input, n, c) ← P.read input 4 4
  if n = 4 then do
    let sig ← TextUtils.readLittleEndianUInt32 c
    if sig = 0x08074b50 then do
      let (input, n, _) ← P.read input 12 12
      .ok (input, decide (n - 8 = 4))
    else do
      let (input, n, _) ← P.read input 8 8
      .ok (input, decide (n - 4 = 4))
  else .ok (input, false)

/-- zipinputstream.cpp:78-104 for entry streams without `compressedEntryStream`; `false`: there is no data
descriptor. -/
def leaveOther (P : StreamOps σ UInt8) (D : Decompressor ζ) (N fuel : Nat) (e : Entry σ ζ) (known : Bool) :
    Res (σ × Bool) := do
  let size := (entryOps P D N).size e
  let e ← skipAll (entryOps P D N) (if size < 1 then 1024 else size) fuel e
  if known then .ok (e.input, true) else skipDescriptor P e.input

/-- zipinputstream.cpp:57-108: leave the current entry. -/
def leave (P : StreamOps σ UInt8) (D : Decompressor ζ) (N fuel : Nat) (s : State σ ζ) : Res (State σ ζ × Bool) :=
  match s.entry with
  | none => .ok (s, true)
  | some (.deflated e) => do
    let z := e.parent.prod.input
    let (z, _) ← SubInputStream.skip P z z.size
    let input ← skipSignature P z.parent
    .ok ({ s with entry := none, input := input }, true)
  | some e => do
    let (input, ok) ← leaveOther P D N fuel e (decide (0 ≤ s.info.size))
    .ok ({ s with entry := none, input := input, status := if ok then s.status else .error }, ok)

/-- zipinputstream.cpp:229-254.  `begin` points to the `nread` bytes. -/
def readFileName (P : StreamOps σ UInt8) (s : State σ ζ) (len : Int) : Res (State σ ζ) := do
  let (input, nread, b) ← P.read s.input len len
  let s : State σ ζ := { s with input := input, info := { s.info with filename := [] } }
  if nread ≠ len then .ok s
  else do
    let name := slice b 0 nread
    let c ← aget name (len - 1)
    if c = 47 then .ok { s with info := { s.info with filename := name.take (len - 1).toNat, type := .dir } }
    else .ok { s with info := { s.info with filename := name, type := .file } }

/-- zipinputstream.cpp:212-227: the name and the extra field. -/
def readNames (P : StreamOps σ UInt8) (s : State σ ζ) (namelen extralen : Int) : Res (State σ ζ) := do
  let s ← readFileName P s namelen
  if s.status ≠ .ok then .ok { s with status := .error }
  else do
    let (input, skipped) ← P.skip s.input extralen
    let s : State σ ζ := { s with input := input }
    if skipped ≠ extralen then .ok { s with status := .error } else .ok s

/-- The locals `compressionMethod` and `entryCompressedSize`. -/
structure Locals where
  method : Int
  compressed : Int

/-- zipinputstream.cpp:181-227: a local file header `hb` with the right signature. -/
def readFields (P : StreamOps σ UInt8) (mktime : TextUtils.Tm → Int) (s : State σ ζ) (hb : List UInt8) :
    Res (State σ ζ × Locals) := do
  let namelen ← TextUtils.readLittleEndianUInt16 (hb.drop 26)
  let extralen ← TextUtils.readLittleEndianUInt16 (hb.drop 28)
  let size ← TextUtils.readLittleEndianUInt32 (hb.drop 22)
  let s : State σ ζ := { s with info := { s.info with size := size } }
  let compressed ← TextUtils.readLittleEndianUInt32 (hb.drop 18)
  if 2 ^ 31 ≤ compressed then .ok ({ s with status := .error }, ⟨0, 0⟩)
  else do
    let method ← TextUtils.readLittleEndianUInt16 (hb.drop 8)
    let flags ← TextUtils.readLittleEndianUInt16 (hb.drop 6)
    if flags &&& 8 ≠ 0 ∧ method ≠ 8 then .ok ({ s with status := .error }, ⟨0, 0⟩)
    else do
      let unknown := decide (flags &&& 8 ≠ 0)
      let s : State σ ζ := if unknown then { s with info := { s.info with size := -1 } } else s
      let dost ← TextUtils.readLittleEndianUInt32 (hb.drop 10)
      let s : State σ ζ := { s with info := { s.info with mtime := mktime (TextUtils.dosFields dost) } }
      let s ← readNames P s namelen extralen
      .ok (s, ⟨method, if unknown then -1 else compressed⟩)

/-- zipinputstream.cpp:141-228 -/
def readHeader (P : StreamOps σ UInt8) (mktime : TextUtils.Tm → Int) (s : State σ ζ) :
    Res (State σ ζ × Locals) := do
  let (input, nread, hb) ← P.read s.input 30 30
  let s : State σ ζ := { s with input := input }
  if nread ≠ 30 then .ok ({ s with status := .error }, ⟨0, 0⟩)
  else do
    let b0 ← aget hb 0
    let b1 ← aget hb 1
    if b0 ≠ 0x50 ∨ b1 ≠ 0x4b then .ok ({ s with status := .error }, ⟨0, 0⟩)
    else do
      let b2 ← aget hb 2
      let b3 ← aget hb 3
      if b2 ≠ 0x03 ∨ b3 ≠ 0x04 then .ok ({ s with status := .eof }, ⟨0, 0⟩)
      else readFields P mktime s hb

/-- zipinputstream.cpp:121-138: the entry stream. -/
def openEntry (P : StreamOps σ UInt8) (D : Decompressor ζ) (N : Nat) (input : σ) (size : Int) (l : Locals) :
    Res (Entry σ ζ) :=
  if l.method = 8 then
    if size ≥ 0 then do
      let z ← SubInputStream.new P input l.compressed
      let u ← GZip.new (SubInputStream.ops P) D false z
      let e ← SubInputStream.new (GZip.ops (SubInputStream.ops P) D N) u size
      .ok (.deflated e)
    else do
      let e ← GZip.new P D false input
      .ok (.streamed e)
  else do
    let e ← SubInputStream.new P input size
    .ok (.stored e)

/-- zipinputstream.cpp:109-139: the next entry. -/
def next (P : StreamOps σ UInt8) (D : Decompressor ζ) (mktime : TextUtils.Tm → Int) (N : Nat) (s : State σ ζ) :
    Res (State σ ζ) :=
  if P.status s.input = .eof then .ok { s with status := .eof }
  else do
    let (s, l) ← readHeader P mktime s
    if s.status ≠ .ok then .ok s
    else if s.info.filename.length ≤ 0 then .ok { s with status := .error }
    else do
      let e ← openEntry P D N s.input s.info.size l
      .ok { s with entry := some e }

/-- zipinputstream.cpp:53-140 -/
def nextEntry (P : StreamOps σ UInt8) (D : Decompressor ζ) (mktime : TextUtils.Tm → Int) (N fuel : Nat)
    (s : State σ ζ) : Res (State σ ζ) :=
  if s.status ≠ .ok then
    .ok { s with entry := none, input := match s.entry with | none => s.input | some e => e.input }
  else do
    let (s, ok) ← leave P D N fuel s
    if ok then next P D mktime N s else .ok s

/-- The provider through the interface of `SubStreamProvider`. -/
def ops (P : StreamOps σ UInt8) (D : Decompressor ζ) (mktime : TextUtils.Tm → Int) (N fuel : Nat) :
    ProviderOps (State σ ζ) (Entry σ ζ) where
  nextEntry := nextEntry P D mktime N fuel
  entry s := s.entry
  setEntry s e := { s with entry := some e }
  info s := s.info
  status s := s.status
  stream := entryOps P D N

end Zip
end Strigi
