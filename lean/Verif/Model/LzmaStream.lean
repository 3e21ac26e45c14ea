import Verif.Model.BufferedStream
import Verif.Model.Magic
import Verif.LzmaSpec

/-!
# Model of `LZMAInputStream` (lib/lzmainputstream.cpp)

The decoder (lib/lzma/LzmaDec.c) is a parameter; its own model is Verif/Model/LzmaDec.lean.  The memory and
failure of `malloc` are modelled in Verif/Model/Lifecycle.lean.
-/

namespace Strigi
namespace LzmaStream

variable {σ ζ : Type}

/-- lzmainputstream.cpp:32-41: the private data.  `availIn` are the bytes between `next_in` and `next_in + avail_in`;
`msize` is `m_size` as `fillBuffer` sees it; `done` is `bytesDecompressed`; `failed` is `m_status == Error`; `marked` tells
that `m_size` was set at the end mark. -/
structure State (σ ζ : Type) where
  input : σ
  z : ζ
  availIn : List UInt8
  msize : Int
  done : Int
  failed : Bool
  marked : Bool
deriving DecidableEq, Repr

/-- lzmainputstream.cpp:105-116: new input; `failed` tells whether the status is `Error` afterwards. -/
def readFromStream (P : StreamOps σ UInt8) (s : State σ ζ) : Res (State σ ζ) := do
  let r ← P.read s.input 1 0
  if r.2.1 < 1 then .ok { s with input := r.1, failed := true }
  else .ok { s with input := r.1, availIn := slice r.2.2 0 r.2.1 }

/-- lzmainputstream.cpp:149-170: what is done with the result of the decoder, which consumed `k` bytes. -/
def finish (s : State σ ζ) (k : Nat) (out : List UInt8) : LzmaCode → State σ ζ × Fill UInt8
  | .failed => ({ s with failed := true }, ⟨-1, out, true⟩)
  | .more => if k = 0 ∧ out = [] then ({ s with failed := true }, ⟨-1, out, true⟩) else (s, ⟨out.length, out, false⟩)
  | .mark =>
    if k = 0 ∧ out = [] ∧ s.msize ≠ -1 then ({ s with failed := true }, ⟨-1, out, true⟩)
    else ({ s with msize := s.done, marked := true }, ⟨out.length, out, false⟩)

/-- lzmainputstream.cpp:134-170: decompress. -/
def decompress (D : LzmaDecoder ζ) (s : State σ ζ) (space : Int) : Res (State σ ζ × Fill UInt8) := do
  let todo := s.msize - s.done
  let fin := decide (s.msize ≠ -1 ∧ space > todo)
  let r ← D.run s.z s.availIn (if fin then todo else space) fin
  .ok (finish { s with z := r.1, availIn := s.availIn.drop r.2.1, done := s.done + r.2.2.1.length } r.2.1 r.2.2.1 r.2.2.2)

/-- lzmainputstream.cpp:117-133: `fillBuffer`. -/
def fill (P : StreamOps σ UInt8) (D : LzmaDecoder ζ) (s : State σ ζ) (space : Int) : Res (State σ ζ × Fill UInt8) :=
  if s.failed then .ok (s, ⟨-1, [], false⟩)
  else if s.msize = s.done then .ok (s, ⟨-1, [], false⟩)
  else if s.availIn = [] then do
    let s ← readFromStream P s
    if s.failed then .ok (s, ⟨-1, [], true⟩)
    else decompress D s space
  else decompress D s space

/-- The subclass of `BufferedInputStream`; `N` bounds the number of calls of `fillBuffer`. -/
def producer (P : StreamOps σ UInt8) (D : LzmaDecoder ζ) (N : Nat) : Producer (State σ ζ) UInt8 where
  fill := fill P D
  fuel _ := N

/-- `LZMAInputStream` through the virtual interface.  The size is set by `fillBuffer` when it sees the end mark (which
makes no difference inside `BufferedStream`: there it is only compared with a smaller position, and is set at the end
if it is -1). -/
def ops (P : StreamOps σ UInt8) (D : LzmaDecoder ζ) (N : Nat) : StreamOps (BufferedStream (State σ ζ) UInt8) UInt8 :=
  { BufferedStream.ops (producer P D N) with size := fun s => if s.prod.marked then s.prod.done else s.size }

/-- lzmainputstream.cpp:71-98: the constructor. -/
def new (P : StreamOps σ UInt8) (D : LzmaDecoder ζ) (z0 : ζ) (input : σ) : Res (BufferedStream (State σ ζ) UInt8) := do
  let r ← P.read input 13 13
  let ok ← (if r.2.1 = 13 then Lzma.checkHeader r.2.2 13 else .ok false)
  if ok then
    let z ← D.init (r.2.2.take 5)
    let size ← TextUtils.readLittleEndianInt64 (r.2.2.drop 5)
    BufferedStream.setMinBufSize
      (BufferedStream.new { input := r.1, z := z, availIn := [], msize := size, done := 0, failed := false, marked := false } size) 262144
  else
    .ok { BufferedStream.new { input := r.1, z := z0, availIn := [], msize := 0, done := 0, failed := true, marked := false } with status := .error }

end LzmaStream
end Strigi
