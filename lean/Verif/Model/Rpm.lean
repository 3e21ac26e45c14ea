import Verif.Model.Cpio
import Verif.Model.Magic
import Verif.Model.Ole
import Verif.Model.LzmaStream

/-!
# Model of `RpmInputStream` (lib/rpminputstream.cpp)

The decompressors are parameters.  The input is only used by the provider itself: when the constructor fails, it is dropped
from the model.
-/

namespace Strigi
namespace Rpm

/-- The decompressors. -/
structure Codecs (ζg ζb ζl : Type) where
  gz : Decompressor ζg
  bz : Decompressor ζb
  lz : LzmaDecoder ζl
  /-- the state of the lzma decoder before its initialisation -/
  z0 : ζl

/-- `uncompressionStream`: one of three classes. -/
inductive Payload (σ ζg ζb ζl : Type)
  | gz (s : BufferedStream (Unpack.State σ ζg) UInt8)
  | bz (s : BufferedStream (Unpack.State σ ζb) UInt8)
  | lz (s : BufferedStream (LzmaStream.State σ ζl) UInt8)
deriving DecidableEq, Repr

variable {σ ζg ζb ζl : Type}

/-- The virtual functions of `uncompressionStream`; `N` as for the three classes. -/
def payloadOps (P : StreamOps σ UInt8) (C : Codecs ζg ζb ζl) (N : Nat) : StreamOps (Payload σ ζg ζb ζl) UInt8 where
  read
    | .gz s, mn, mx => do let (s, r) ← (GZip.ops P C.gz N).read s mn mx; .ok (.gz s, r)
    | .bz s, mn, mx => do let (s, r) ← (BZ2.ops P C.bz N).read s mn mx; .ok (.bz s, r)
    | .lz s, mn, mx => do let (s, r) ← (LzmaStream.ops P C.lz N).read s mn mx; .ok (.lz s, r)
  skip
    | .gz s, k => do let (s, r) ← (GZip.ops P C.gz N).skip s k; .ok (.gz s, r)
    | .bz s, k => do let (s, r) ← (BZ2.ops P C.bz N).skip s k; .ok (.bz s, r)
    | .lz s, k => do let (s, r) ← (LzmaStream.ops P C.lz N).skip s k; .ok (.lz s, r)
  reset
    | .gz s, q => do let (s, r) ← (GZip.ops P C.gz N).reset s q; .ok (.gz s, r)
    | .bz s, q => do let (s, r) ← (BZ2.ops P C.bz N).reset s q; .ok (.bz s, r)
    | .lz s, q => do let (s, r) ← (LzmaStream.ops P C.lz N).reset s q; .ok (.lz s, r)
  position
    | .gz s => (GZip.ops P C.gz N).position s
    | .bz s => (BZ2.ops P C.bz N).position s
    | .lz s => (LzmaStream.ops P C.lz N).position s
  size
    | .gz s => (GZip.ops P C.gz N).size s
    | .bz s => (BZ2.ops P C.bz N).size s
    | .lz s => (LzmaStream.ops P C.lz N).size s
  status
    | .gz s => (GZip.ops P C.gz N).status s
    | .bz s => (BZ2.ops P C.bz N).status s
    | .lz s => (LzmaStream.ops P C.lz N).status s

/-- The members of the base class and `cpio` (which holds `uncompressionStream`, which holds the input); `m_entrystream` is
the one of `cpio`. -/
structure State (σ ζg ζb ζl : Type) where
  status : Status
  cpio : Option (Cpio.State (Payload σ ζg ζb ζl))
  info : EntryInfo
deriving DecidableEq, Repr

/-- rpminputstream.cpp:51-53, 60: an early `return` of the constructor. -/
def rejected : State σ ζg ζb ζl := ⟨.error, none, {}⟩

/-- rpminputstream.cpp:64: `headmagic` -/
def headmagic : List UInt8 := [0x8e, 0xad, 0xe8, 0x01]

/-- rpminputstream.cpp:65, 81: sixteen bytes with the magic. -/
def isHead (n : Int) (b : List UInt8) : Res Bool := if n ≠ 16 then .ok false else memEq b headmagic

/-- rpminputstream.cpp:69-71, 85-87: `nindex`, `hsize` and `nindex*16+hsize` (overflow of `int32_t` is undefined). -/
def blockSizes (b : List UInt8) : Res (Int × Int × Int) := do
  let nindex ← TextUtils.readBigEndianInt32 (b.drop 8)
  let hsize ← TextUtils.readBigEndianInt32 (b.drop 12)
  let m ← Ole.ck (nindex * 16)
  let size ← Ole.ck (m + hsize)
  .ok (nindex, hsize, size)

/-- rpminputstream.cpp:72-74 -/
def pad8 (sz : Int) : Res Int := if sz.tmod 8 ≠ 0 then Ole.ck (sz + (8 - sz.tmod 8)) else .ok sz

/-- rpminputstream.cpp:92-117: the loop over the index; `k` entries are left.  `b` are the `size` bytes read.  `false`: an
invalid offset.  (The local variable `end` is not used for anything.) -/
def checkIndex (b : List UInt8) (nindex hsize : Int) : Nat → Nat → Res Bool
  | 0, _ => .ok true
  | k + 1, i => do
    let _ ← TextUtils.readBigEndianInt32 (b.drop (i * 16))
    let _ ← TextUtils.readBigEndianInt32 (b.drop (i * 16 + 4))
    let offset ← TextUtils.readBigEndianInt32 (b.drop (i * 16 + 8))
    if offset < 0 ∨ offset ≥ hsize then .ok false
    else
      let _ ← TextUtils.readBigEndianInt32 (b.drop (i * 16 + 12))
      if (i : Int) < nindex - 1 then
        let _ ← TextUtils.readBigEndianInt32 (b.drop (i * 16 + 24))
        checkIndex b nindex hsize k (i + 1)
      else checkIndex b nindex hsize k (i + 1)

/-- rpminputstream.cpp:136-141: the provider over the payload. -/
def start (P : StreamOps σ UInt8) (C : Codecs ζg ζb ζl) (N : Nat) (u : Payload σ ζg ζb ζl) : State σ ζg ζb ζl :=
  if (payloadOps P C N).status u = .error then rejected
  else ⟨(Cpio.new u).status, some (Cpio.new u), {}⟩

/-- rpminputstream.cpp:119-141: the payload.  The pointer `b` is used after the `reset` (which leaves the memory alone). -/
def payload (P : StreamOps σ UInt8) (C : Codecs ζg ζb ζl) (N : Nat) (input : σ) : Res (State σ ζg ζb ζl) := do
  let pos := P.position input
  let r ← P.read input 16 16
  if r.2.1 ≠ 16 then .ok rejected
  else
    let q ← P.reset r.1 pos
    let bz ← BZ2.checkHeader r.2.2 16
    if bz then
      let s ← BZ2.new P C.bz q.1
      .ok (start P C N (.bz s))
    else
      let lz ← Lzma.checkHeader r.2.2 16
      if lz then
        let s ← LzmaStream.new P C.lz C.z0 q.1
        .ok (start P C N (.lz s))
      else
        let gz ← GZip.checkHeader r.2.2 16
        if gz then
          let s ← GZip.new P C.gz true q.1
          .ok (start P C N (.gz s))
        else .ok rejected

/-- rpminputstream.cpp:80-117: the header. -/
def header (P : StreamOps σ UInt8) (C : Codecs ζg ζb ζl) (N : Nat) (input : σ) : Res (State σ ζg ζb ζl) := do
  let r ← P.read input 16 16
  let ok ← isHead r.2.1 r.2.2
  if ok then
    let z ← blockSizes r.2.2
    let q ← P.read r.1 z.2.2 z.2.2
    if q.2.1 ≠ z.2.2 then .ok rejected
    else
      let ok ← checkIndex q.2.2 z.1 z.2.1 z.1.toNat 0
      if ok then payload P C N q.1 else .ok rejected
  else .ok rejected

/-- rpminputstream.cpp:63-78: the signature. -/
def signature (P : StreamOps σ UInt8) (C : Codecs ζg ζb ζl) (N : Nat) (input : σ) : Res (State σ ζg ζb ζl) := do
  let r ← P.read input 16 16
  let ok ← isHead r.2.1 r.2.2
  if ok then
    let z ← blockSizes r.2.2
    let sz ← pad8 z.2.2
    let q ← P.read r.1 sz sz
    if q.2.1 ≠ sz then .ok rejected else header P C N q.1
  else .ok rejected

/-- rpminputstream.cpp:49-142: the constructor. -/
def new (P : StreamOps σ UInt8) (C : Codecs ζg ζb ζl) (N : Nat) (input : σ) : Res (State σ ζg ζb ζl) := do
  let r ← P.read input 96 96
  if r.2.1 ≠ 96 then .ok rejected else signature P C N r.1

/-- rpminputstream.cpp:149-160 -/
def nextEntry (P : StreamOps σ UInt8) (C : Codecs ζg ζb ζl) (N fuel : Nat) (s : State σ ζg ζb ζl) : Res (State σ ζg ζb ζl) :=
  if s.status ≠ .ok then .ok s
  else match s.cpio with
    | none => .fault .undefined
    | some c => do
      let c ← Cpio.nextEntry (payloadOps P C N) fuel c
      .ok ⟨c.status, some c, if c.status = .ok then c.info else s.info⟩

/-- The provider through the interface of `SubStreamProvider`. -/
def ops (P : StreamOps σ UInt8) (C : Codecs ζg ζb ζl) (N fuel : Nat) :
    ProviderOps (State σ ζg ζb ζl) (SubInputStream (Payload σ ζg ζb ζl)) where
  nextEntry := nextEntry P C N fuel
  entry s := match s.cpio with | none => none | some c => c.entry
  setEntry s e := { s with cpio := s.cpio.map fun c => { c with entry := some e } }
  info s := s.info
  status s := s.status
  stream := SubInputStream.ops (payloadOps P C N)

end Rpm
end Strigi
