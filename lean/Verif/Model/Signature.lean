import Verif.Spec

/-!
# Model of `SignatureInputStream` (lib/signatureinputstream.cpp)

The signature itself is never computed by the code: `signature()` returns the empty string (it is the
default value of a member nothing assigns to).
-/

namespace Strigi

/-- signatureinputstream.cpp:34-44 and the members of `StreamBase` (include/strigi/streambase.h:45-56). -/
structure SignatureStream (σ : Type) where
  input : σ
  signaturesize : Int
  signature : List UInt8
  status : Status
  pos : Int
  size : Int
deriving DecidableEq, Repr

namespace SignatureStream

variable {σ : Type}

/-- signatureinputstream.cpp:46-49: only the size is copied; position and status keep the values of the
constructor of `StreamBase` (streambase.h:57). -/
def new (P : StreamOps σ UInt8) (input : σ) (signaturesize : Int) : SignatureStream σ :=
  ⟨input, signaturesize, [], .ok, 0, P.size input⟩

/-- signatureinputstream.cpp:56-58, 64-66, 72-74 -/
def mirror (P : StreamOps σ UInt8) (s : SignatureStream σ) (input : σ) : SignatureStream σ :=
  { s with input := input, status := P.status input, pos := P.position input, size := P.size input }

/-- signatureinputstream.cpp:53-60 -/
def read (P : StreamOps σ UInt8) (s : SignatureStream σ) (mn mx : Int) :
    Res (SignatureStream σ × Int × List UInt8) := do
  let (input, r, d) ← P.read s.input mn mx
  .ok (s.mirror P input, r, d)

/-- signatureinputstream.cpp:61-68 -/
def reset (P : StreamOps σ UInt8) (s : SignatureStream σ) (q : Int) : Res (SignatureStream σ × Int) := do
  let (input, r) ← P.reset s.input q
  .ok (s.mirror P input, r)

/-- signatureinputstream.cpp:69-76 -/
def skip (P : StreamOps σ UInt8) (s : SignatureStream σ) (n : Int) : Res (SignatureStream σ × Int) := do
  let (input, r) ← P.skip s.input n
  .ok (s.mirror P input, r)

/-- `SignatureInputStream` through the virtual interface. -/
def ops (P : StreamOps σ UInt8) : StreamOps (SignatureStream σ) UInt8 where
  read := read P
  skip := skip P
  reset := reset P
  position := pos
  size := size
  status := status

end SignatureStream
end Strigi
