import Verif.Model.BufferedStream
import Verif.Model.Kmp
import Verif.DecompressSpec

/-!
# Model of `GZipInputStream` and `BZ2InputStream` (lib/gzipinputstream.cpp, lib/bz2inputstream.cpp)

The decompressor is a parameter.  Its memory and failure of its initialisation are modelled in Verif/Model/Lifecycle.lean.
-/

namespace Strigi

namespace Unpack

/-- The private data of both classes (gzipinputstream.cpp:27-42, bz2inputstream.cpp:27-38).  `isOpen` is
`input != NULL`; the input itself goes on to exist.  `availIn` are the bytes between `next_in` and
`next_in + avail_in`.  `failed` is `m_status == Error`. -/
structure State (σ ζ : Type) where
  input : σ
  isOpen : Bool
  z : ζ
  availIn : List UInt8
  availOut : Int
  failed : Bool
deriving DecidableEq, Repr

variable {σ ζ : Type}

/-- gzipinputstream.cpp:126-142, bz2inputstream.cpp:104-120: new input; the result tells whether the
status is `Error` afterwards. -/
def readFromStream (P : StreamOps σ UInt8) (s : State σ ζ) : Res (State σ ζ) := do
  let (input, nread, d) ← P.read s.input 1 0
  if nread < 1 then .ok { s with input := input, failed := true }
  else .ok { s with input := input, availIn := slice d 0 nread }

/-- gzipinputstream.cpp:157-184, bz2inputstream.cpp:133-169: decompress.  `keep`: after an error the number
of bytes written is returned (gzip) or -1 (bz2). -/
def decompress (P : StreamOps σ UInt8) (D : Decompressor ζ) (keep : Bool) (s : State σ ζ) (space : Int) :
    Res (State σ ζ × Fill UInt8) := do
  let (z, k, out, code) := D.run s.z s.availIn space
  let s : State σ ζ := { s with z := z, availIn := s.availIn.drop k, availOut := space - out.length }
  match code with
  | .more => .ok (s, ⟨out.length, out, false⟩)
  | .failed => .ok ({ s with failed := true }, ⟨if keep then out.length else -1, out, true⟩)
  | .ended =>
    if s.availIn ≠ [] then do
      let (input, _) ← P.reset s.input (P.position s.input - s.availIn.length)
      .ok ({ s with input := input, isOpen := false }, ⟨out.length, out, false⟩)
    else .ok ({ s with isOpen := false }, ⟨out.length, out, false⟩)

/-- gzipinputstream.cpp:143-185, bz2inputstream.cpp:121-170 -/
def fill (P : StreamOps σ UInt8) (D : Decompressor ζ) (keep : Bool) (s : State σ ζ) (space : Int) :
    Res (State σ ζ × Fill UInt8) :=
  if s.isOpen = false then .ok (s, ⟨-1, [], false⟩)
  else if s.availOut ≠ 0 then do
    let s ← readFromStream P s
    if s.failed then .ok (s, ⟨-1, [], true⟩)
    else decompress P D keep s space
  else decompress P D keep s space

/-- The subclass of `BufferedInputStream`; `N` bounds the number of calls of `fillBuffer`. -/
def producer (P : StreamOps σ UInt8) (D : Decompressor ζ) (keep : Bool) (N : Nat) :
    Producer (State σ ζ) UInt8 where
  fill := fill P D keep
  fuel _ := N

/-- gzipinputstream.cpp:58-93 (and the corresponding lines of bz2inputstream.cpp): nothing is available, the
first call of `fillBuffer` has to read. -/
def start (D : Decompressor ζ) (input : σ) : State σ ζ := ⟨input, true, D.init, [], 1, false⟩

/-- gzipinputstream.cpp:92, bz2inputstream.cpp:79: the buffer gets its minimal size. -/
def openStream (D : Decompressor ζ) (input : σ) : Res (BufferedStream (State σ ζ) UInt8) :=
  BufferedStream.setMinBufSize (BufferedStream.new (start D input)) 262144

/-- A stream whose constructor failed. -/
def broken (D : Decompressor ζ) (input : σ) : BufferedStream (State σ ζ) UInt8 :=
  { BufferedStream.new { start D input with failed := true } with status := .error }

end Unpack

namespace GZip

variable {σ ζ : Type}

/-- gzipinputstream.cpp:46-48 -/
def checkHeader (data : List UInt8) (datasize : Int) : Res Bool :=
  if datasize > 2 then do
    let a ← aget data 0
    if a ≠ 0x1f then .ok false else
    let b ← aget data 1
    .ok (b == 0x8b)
  else .ok false

/-- gzipinputstream.cpp:109-125; the pointer `begin` is used after the `reset` (which leaves the memory
alone). -/
def checkMagic (P : StreamOps σ UInt8) (input : σ) : Res (σ × Bool) := do
  let pos := P.position input
  let (input, nread, buf) ← P.read input 2 2
  let (input, _) ← P.reset input pos
  if nread ≠ 2 then .ok (input, false)
  else
    let a ← aget buf 0
    if a ≠ 0x1f then .ok (input, false) else
    let b ← aget buf 1
    .ok (input, b == 0x8b)

/-- gzipinputstream.cpp:42-45, 50-93: the constructor; `gzip` tells whether the format is `GZIPFORMAT` (the
other formats have no magic). -/
def new (P : StreamOps σ UInt8) (D : Decompressor ζ) (gzip : Bool) (input : σ) :
    Res (BufferedStream (Unpack.State σ ζ) UInt8) := do
  if gzip then
    let (input, ok) ← checkMagic P input
    if ok then Unpack.openStream D input else .ok (Unpack.broken D input)
  else Unpack.openStream D input

/-- `GZipInputStream` through the virtual interface. -/
def ops (P : StreamOps σ UInt8) (D : Decompressor ζ) (N : Nat) :
    StreamOps (BufferedStream (Unpack.State σ ζ) UInt8) UInt8 :=
  BufferedStream.ops (Unpack.producer P D true N)

end GZip

namespace BZ2

variable {σ ζ : Type}

/-- bz2inputstream.cpp:39-47 -/
def checkHeader (data : List UInt8) (datasize : Int) : Res Bool :=
  if datasize < 10 then .ok false
  else do
    let bz ← memEq data [0x42, 0x5a]
    if bz = false then .ok false else
    let c ← aget data 2
    if c ≠ 0x68 ∧ c ≠ 0x30 then .ok false
    else memEq (data.drop 4) [0x31, 0x41, 0x59, 0x26, 0x53, 0x59]

/-- bz2inputstream.cpp:90-103 -/
def checkMagic (P : StreamOps σ UInt8) (input : σ) : Res (σ × Bool) := do
  let pos := P.position input
  let (input, nread, buf) ← P.read input 10 0
  let (input, _) ← P.reset input pos
  if nread < 10 then .ok (input, false)
  else
    let ok ← checkHeader buf 10
    .ok (input, ok)

/-- bz2inputstream.cpp:48-80: the constructor. -/
def new (P : StreamOps σ UInt8) (D : Decompressor ζ) (input : σ) :
    Res (BufferedStream (Unpack.State σ ζ) UInt8) := do
  let (input, ok) ← checkMagic P input
  if ok then Unpack.openStream D input else .ok (Unpack.broken D input)

/-- `BZ2InputStream` through the virtual interface. -/
def ops (P : StreamOps σ UInt8) (D : Decompressor ζ) (N : Nat) :
    StreamOps (BufferedStream (Unpack.State σ ζ) UInt8) UInt8 :=
  BufferedStream.ops (Unpack.producer P D false N)

end BZ2
end Strigi
