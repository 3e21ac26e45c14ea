import Verif.Model.BufferedStream
import Verif.CompressSpec

/-!
# Model of `GZipCompressInputStream` (lib/gzipcompressstream.cpp)

The compressor is a parameter; its memory and failure of its initialisation are modelled in Verif/Model/Lifecycle.lean.  The
messages to `cerr` are not modelled.
-/

namespace Strigi
namespace GZipCompress

variable {σ ζ : Type}

/-- The members (lib/gzipcompressstream.h): `z` is `zstream` (`none`: the null pointer), `availIn` the bytes between `next_in`
and `next_in + avail_in`. -/
structure State (σ ζ : Type) where
  input : σ
  z : Option ζ
  availIn : List UInt8
deriving DecidableEq, Repr

/-- gzipcompressstream.cpp:98-110: at the end of the input. -/
def finish (K : Compressor ζ) (s : State σ ζ) (z : ζ) (space : Int) : State σ ζ × Fill UInt8 :=
  let r := K.run z [] space true
  match r.2.2.2 with
  | .ok => ({ s with z := some r.1 }, ⟨r.2.2.1.length, r.2.2.1, false⟩)
  | .ended => ({ s with z := none }, ⟨r.2.2.1.length, r.2.2.1, false⟩)
  | .other => ({ s with z := none }, ⟨-1, r.2.2.1, false⟩)

/-- gzipcompressstream.cpp:112-130: the result of `deflate` is compared with three codes that `deflate` never returns; they
are not modelled. -/
def feed (K : Compressor ζ) (s : State σ ζ) (z : ζ) (space : Int) : State σ ζ × Fill UInt8 :=
  let r := K.run z s.availIn space false
  ({ s with z := some r.1, availIn := s.availIn.drop r.2.1 }, ⟨r.2.2.1.length, r.2.2.1, false⟩)

/-- gzipcompressstream.cpp:66-131: `fillBuffer` with `readFromStream`. -/
def fill (P : StreamOps σ UInt8) (K : Compressor ζ) (s : State σ ζ) (space : Int) : Res (State σ ζ × Fill UInt8) :=
  match s.z with
  | none => .ok (s, ⟨-1, [], false⟩)
  | some z =>
    if s.availIn = [] then do
      let r ← P.read s.input 1 0
      let s : State σ ζ := { s with input := r.1 }
      if r.2.1 < -1 then .ok (s, ⟨-1, [], true⟩)
      else if r.2.1 < 1 then .ok (finish K s z space)
      else .ok (feed K { s with availIn := slice r.2.2 0 r.2.1 } z space)
    else .ok (feed K s z space)

/-- The subclass of `BufferedInputStream`; `N` bounds the number of calls of `fillBuffer`. -/
def producer (P : StreamOps σ UInt8) (K : Compressor ζ) (N : Nat) : Producer (State σ ζ) UInt8 where
  fill := fill P K
  fuel _ := N

/-- `GZipCompressInputStream` through the virtual interface. -/
def ops (P : StreamOps σ UInt8) (K : Compressor ζ) (N : Nat) : StreamOps (BufferedStream (State σ ζ) UInt8) UInt8 :=
  BufferedStream.ops (producer P K N)

/-- gzipcompressstream.cpp:27-55: the constructor. -/
def new (K : Compressor ζ) (input : σ) : BufferedStream (State σ ζ) UInt8 :=
  BufferedStream.new { input := input, z := some K.init, availIn := [] }

end GZipCompress
end Strigi
