import Verif.Model.BufferedStream
import Verif.CharsetSpec

/-!
# Model of `InputStreamReader` (lib/inputstreamreader.cpp) and `EncodingInputStream`
(lib/encodinginputstream.cpp)

The two differ only in the type of the items (`wchar_t` or `char`), so one model with items of type `α`
serves for both; `iconv()` is the function `Charset.iconv`.  Errors of `iconv()` other than the three
documented ones are not modelled.
-/

namespace Strigi

namespace Iconv

/-- State (inputstreamreader.h, encodinginputstream.cpp:37-44): `isOpen` is `input != 0`; `chars` are the
`avail` bytes of `charbuf` at `readPos`; `offset` is `charbuf.readPos - charbuf.start`; `conv` is the state of
`converter`. `charsLeft` and `finishedDecoding` are never used. -/
structure State (σ τ : Type) where
  conv : τ
  input : σ
  isOpen : Bool
  chars : List UInt8
  offset : Nat
deriving DecidableEq, Repr

variable {σ τ α : Type}

/-- inputstreamreader.cpp:64 `charbuf.setSize(262)`. -/
def bufSize : Nat := 262

/-- inputstreamreader.cpp:38-67, encodinginputstream.cpp:60-82, if the converter is available. -/
def State.new (cs : Charset τ α) (input : σ) : State σ τ := ⟨cs.init, input, true, [], 0⟩

/-- inputstreamreader.cpp:73-119, encodinginputstream.cpp:86-131.  (The number of steps of `iconv` is bounded by twice the number of
bytes and two, which is enough also if every other step consumes nothing.) -/
def decode (cs : Charset τ α) (s : State σ τ) (space : Int) : State σ τ × Fill α :=
  match cs.iconv (2 * s.chars.length + 2) s.conv s.chars space.toNat with
  | (_, out, st, .ilseq) => ({ s with conv := st }, ⟨-1, out, true⟩)
  | (left, out, st, .inval) => ({ s with conv := st, chars := left, offset := 0 }, ⟨out.length, out, false⟩)
  | (left, out, st, .tooBig) =>
    ({ s with conv := st, chars := left, offset := s.offset + (s.chars.length - left.length) }, ⟨space, out, false⟩)
  | (_, out, st, .done) => ({ s with conv := st, chars := [], offset := 0 }, ⟨out.length, out, false⟩)

/-- inputstreamreader.cpp:120-151, encodinginputstream.cpp:133-164.  The `memmove` into `charbuf` is out of
bounds if the bytes do not fit. -/
def fill (P : StreamOps σ UInt8) (cs : Charset τ α) (s : State σ τ) (space : Int) : Res (State σ τ × Fill α) :=
  if s.isOpen ∧ s.offset = 0 then do
    let (p, n, d) ← P.read s.input 1 (bufSize - s.chars.length)
    if n < -1 then .ok ({ s with input := p, isOpen := false }, ⟨n, [], true⟩)
    else if n < 1 then
      .ok ({ s with input := p, isOpen := false }, ⟨-1, [], decide (s.chars ≠ [])⟩)
    else if s.chars.length + n > bufSize then .fault .outOfBounds
    else .ok (decode cs { s with input := p, chars := s.chars ++ d } space)
  else .ok (decode cs s space)

/-- As a subclass of `BufferedStream<T>`.  `N` bounds the number of calls made by one loop; the theorems hold
for all sufficiently large `N`. -/
def producer (P : StreamOps σ UInt8) (cs : Charset τ α) (N : Nat) : Producer (State σ τ) α where
  fill := fill P cs
  fuel _ := N

end Iconv
end Strigi
