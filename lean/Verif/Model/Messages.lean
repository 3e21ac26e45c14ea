import Verif.Model.Decompress
import Verif.Model.LzmaStream
import Verif.Model.GZipCompress
import Verif.Model.Base64
import Verif.Model.Iconv
import Verif.Model.Signature
import Verif.Model.SubInputStream

/-!
# The texts that `error()` returns

The models of the subclasses of `BufferedStream` again, now with the member `m_error`.  `err` is `error()` of the input.  Texts that
contain numbers are reduced to their constant part.
-/

namespace Strigi

/-- The state of a subclass with the member `m_error`. -/
structure Said (φ : Type) where
  st : φ
  msg : String
deriving DecidableEq, Repr

/-- streambase.h:78 `error()` of a `BufferedStream`; bufferedstream.h:148-150: if there are more items than the declared size, the text
is replaced (this is the only case in which the position is beyond the size). -/
def BufferedStream.error {φ α : Type} (s : BufferedStream (Said φ) α) : String :=
  if 0 < s.size ∧ s.size < s.pos then "Stream is longer than specified." else s.prod.msg

namespace Unpack

variable {σ ζ : Type}

/-- gzipinputstream.cpp:127-143 (`keep`), bz2inputstream.cpp:108-124: the two compare the result of `read` in different ways, `< -1` and
`<= -1`. -/
def readSaid (P : StreamOps σ UInt8) (err : σ → String) (keep : Bool) (s : Said (State σ ζ)) : Res (Said (State σ ζ)) := do
  let (input, n, d) ← P.read s.st.input 1 0
  if (if keep then decide (n < -1) else decide (n ≤ -1)) then
    .ok ⟨{ s.st with input := input, failed := true }, err input⟩
  else if n < 1 then .ok ⟨{ s.st with input := input, failed := true }, "unexpected end of stream"⟩
  else .ok { s with st := { s.st with input := input, availIn := slice d 0 n } }

/-- gzipinputstream.cpp:156-184, bz2inputstream.cpp:137-169: one text stands for those of the three (four) codes. -/
def decompressSaid (P : StreamOps σ UInt8) (D : Decompressor ζ) (keep : Bool) (s : Said (State σ ζ)) (space : Int) :
    Res (Said (State σ ζ) × Fill UInt8) := do
  let (st, r) ← decompress P D keep s.st space
  .ok (⟨st, if r.error then "DATA_ERROR" else s.msg⟩, r)

/-- gzipinputstream.cpp:144-185, bz2inputstream.cpp:125-170: `fillBuffer` -/
def fillSaid (P : StreamOps σ UInt8) (err : σ → String) (D : Decompressor ζ) (keep : Bool) (s : Said (State σ ζ)) (space : Int) :
    Res (Said (State σ ζ) × Fill UInt8) :=
  if s.st.isOpen = false then .ok (s, ⟨-1, [], false⟩)
  else if s.st.availOut ≠ 0 then do
    let s ← readSaid P err keep s
    if s.st.failed then .ok (s, ⟨-1, [], true⟩)
    else decompressSaid P D keep s space
  else decompressSaid P D keep s space

/-- The subclass with its text. -/
def producerSaid (P : StreamOps σ UInt8) (err : σ → String) (D : Decompressor ζ) (keep : Bool) (N : Nat) :
    Producer (Said (State σ ζ)) UInt8 where
  fill := fillSaid P err D keep
  fuel _ := N

/-- gzipinputstream.cpp:49-95, bz2inputstream.cpp:50-82: the constructors; `ok` tells whether the magic bytes are right. -/
def newSaid (D : Decompressor ζ) (magic : Res (σ × Bool)) : Res (BufferedStream (Said (State σ ζ)) UInt8) := do
  let (input, ok) ← magic
  if ok then BufferedStream.setMinBufSize (BufferedStream.new ⟨start D input, ""⟩) 262144
  else .ok { BufferedStream.new ⟨{ start D input with failed := true }, "Magic bytes are wrong."⟩ with status := .error }

end Unpack

namespace LzmaStream

variable {σ ζ : Type}

/-- lzmainputstream.cpp:106-117 -/
def readSaid (P : StreamOps σ UInt8) (err : σ → String) (s : Said (State σ ζ)) : Res (Said (State σ ζ)) := do
  let r ← P.read s.st.input 1 0
  if r.2.1 ≤ -1 then .ok ⟨{ s.st with input := r.1, failed := true }, err r.1⟩
  else if r.2.1 < 1 then .ok ⟨{ s.st with input := r.1, failed := true }, "unexpected end of stream"⟩
  else .ok { s with st := { s.st with input := r.1, availIn := slice r.2.2 0 r.2.1 } }

/-- lzmainputstream.cpp:136-170: the texts "error decompressing" and "unexpected end". -/
def decompressSaid (D : LzmaDecoder ζ) (s : Said (State σ ζ)) (space : Int) : Res (Said (State σ ζ) × Fill UInt8) := do
  let (st, r) ← decompress D s.st space
  .ok (⟨st, if r.error then "error decompressing" else s.msg⟩, r)

/-- lzmainputstream.cpp:118-171: `fillBuffer` -/
def fillSaid (P : StreamOps σ UInt8) (err : σ → String) (D : LzmaDecoder ζ) (s : Said (State σ ζ)) (space : Int) :
    Res (Said (State σ ζ) × Fill UInt8) :=
  if s.st.failed then .ok (s, ⟨-1, [], false⟩)
  else if s.st.msize = s.st.done then .ok (s, ⟨-1, [], false⟩)
  else if s.st.availIn = [] then do
    let s ← readSaid P err s
    if s.st.failed then .ok (s, ⟨-1, [], true⟩)
    else decompressSaid D s space
  else decompressSaid D s space

/-- The subclass with its text. -/
def producerSaid (P : StreamOps σ UInt8) (err : σ → String) (D : LzmaDecoder ζ) (N : Nat) : Producer (Said (State σ ζ)) UInt8 where
  fill := fillSaid P err D
  fuel _ := N

/-- lzmainputstream.cpp:70-99: the constructor. -/
def newSaid (P : StreamOps σ UInt8) (D : LzmaDecoder ζ) (z0 : ζ) (input : σ) : Res (BufferedStream (Said (State σ ζ)) UInt8) := do
  let r ← P.read input 13 13
  let ok ← (if r.2.1 = 13 then Lzma.checkHeader r.2.2 13 else .ok false)
  if ok then
    let z ← D.init (r.2.2.take 5)
    let size ← TextUtils.readLittleEndianInt64 (r.2.2.drop 5)
    BufferedStream.setMinBufSize
      (BufferedStream.new ⟨{ input := r.1, z := z, availIn := [], msize := size, done := 0, failed := false, marked := false }, ""⟩ size) 262144
  else
    .ok { BufferedStream.new ⟨{ input := r.1, z := z0, availIn := [], msize := 0, done := 0, failed := true, marked := false },
      "LZMA header is not supported."⟩ with status := .error }

end LzmaStream

/-- gzipcompressstream.cpp:67-135: `fillBuffer`; the only text is that of the input. -/
def GZipCompress.fillSaid {σ ζ : Type} (P : StreamOps σ UInt8) (err : σ → String) (K : Compressor ζ) (s : Said (State σ ζ)) (space : Int) :
    Res (Said (State σ ζ) × Fill UInt8) := do
  let (st, r) ← fill P K s.st space
  .ok (⟨st, if r.error then err st.input else s.msg⟩, r)

/-- The subclass with its text. -/
def GZipCompress.producerSaid {σ ζ : Type} (P : StreamOps σ UInt8) (err : σ → String) (K : Compressor ζ) (N : Nat) :
    Producer (Said (State σ ζ)) UInt8 where
  fill := fillSaid P err K
  fuel _ := N

/-- base64inputstream.cpp:89-183: `fillBuffer`; the only text is that of the input (line 94). -/
def Base64.fillSaid {σ : Type} (P : StreamOps σ UInt8) (err : σ → String) (N : Nat) (s : Said (State σ)) (space : Int) :
    Res (Said (State σ) × Fill UInt8) := do
  let (st, r) ← fill P N s.st space
  .ok (⟨st, if r.error then err st.input else s.msg⟩, r)

/-- The subclass with its text. -/
def Base64.producerSaid {σ : Type} (P : StreamOps σ UInt8) (err : σ → String) (N : Nat) : Producer (Said (State σ)) UInt8 where
  fill := fillSaid P err N
  fuel _ := N

namespace Iconv

variable {σ τ α : Type}

/-- inputstreamreader.cpp:83-108, encodinginputstream.cpp:96-121 -/
def decodeSaid (cs : Charset τ α) (s : Said (State σ τ)) (space : Int) : Said (State σ τ) × Fill α :=
  let x := decode cs s.st space
  (⟨x.1, if x.2.error then "Invalid multibyte sequence." else s.msg⟩, x.2)

/-- inputstreamreader.cpp:120-151, encodinginputstream.cpp:133-164 -/
def fillSaid (P : StreamOps σ UInt8) (err : σ → String) (cs : Charset τ α) (s : Said (State σ τ)) (space : Int) :
    Res (Said (State σ τ) × Fill α) :=
  if s.st.isOpen ∧ s.st.offset = 0 then do
    let (p, n, d) ← P.read s.st.input 1 (bufSize - s.st.chars.length)
    if n < -1 then .ok (⟨{ s.st with input := p, isOpen := false }, err p⟩, ⟨n, [], true⟩)
    else if n < 1 then
      .ok (⟨{ s.st with input := p, isOpen := false }, if s.st.chars ≠ [] then "stream ends on incomplete character" else s.msg⟩,
        ⟨-1, [], decide (s.st.chars ≠ [])⟩)
    else if s.st.chars.length + n > bufSize then .fault .outOfBounds
    else .ok (decodeSaid cs { s with st := { s.st with input := p, chars := s.st.chars ++ d } } space)
  else .ok (decodeSaid cs s space)

/-- The subclass with its text. -/
def producerSaid (P : StreamOps σ UInt8) (err : σ → String) (cs : Charset τ α) (N : Nat) : Producer (Said (State σ τ)) α where
  fill := fillSaid P err cs
  fuel _ := N

end Iconv

namespace SubInputStream

variable {σ α : Type}

/-- lib/subinputstream.cpp:48-76: the text is that of the input (line 53), or its own (line 67). -/
def readParentSaid (P : StreamOps σ α) (err : σ → String) (s : Said (SubInputStream σ)) (min max : Int) :
    Res (Said (SubInputStream σ) × Int × List α) := do
  let (p', nread, d) ← P.read s.st.parent min max
  let st := { s.st with parent := p' }
  Res.assert (max < min ∨ nread ≤ max)
  if nread < -1 then .ok (⟨{ st with status := .error }, err p'⟩, nread, d)
  else if nread < min then
    if st.size = -1 then
      if nread > 0 then .ok (⟨{ st with status := .eof, pos := st.pos + nread, size := st.pos + nread }, s.msg⟩, nread, d)
      else .ok (⟨{ st with status := .eof }, s.msg⟩, nread, d)
    else .ok (⟨{ st with status := .error }, "Premature end of stream\n"⟩, -2, d)
  else
    let pos := st.pos + nread
    .ok (⟨{ st with pos := pos, status := if pos = st.size then .eof else st.status }, s.msg⟩, nread, d)

/-- lib/subinputstream.cpp:35-77 -/
def readSaid (P : StreamOps σ α) (err : σ → String) (s : Said (SubInputStream σ)) (min max : Int) :
    Res (Said (SubInputStream σ) × Int × List α) :=
  if s.st.size ≠ -1 then
    let left := s.st.size - s.st.pos
    if left = 0 then .ok ({ s with st := { s.st with status := .eof } }, -1, [])
    else
      let min := if min > left then narrow32 left else min
      let max := if max < min ∨ max > left then narrow32 left else max
      readParentSaid P err s min max
  else readParentSaid P err s min max

/-- lib/subinputstream.cpp:79-94: the status of the input is taken over without its text (line 91). -/
def resetSaid (P : StreamOps σ α) (err : σ → String) (s : Said (SubInputStream σ)) (newpos : Int) :
    Res (Said (SubInputStream σ) × Int) := do
  Res.assert (newpos ≥ 0)
  let (p', r) ← P.reset s.st.parent (newpos + s.st.offset)
  if r < s.st.offset then .ok (⟨{ s.st with parent := p', pos := r, status := .error }, err p'⟩, r)
  else .ok ({ s with st := { s.st with parent := p', pos := r - s.st.offset, status := P.status p' } }, r - s.st.offset)

/-- lib/subinputstream.cpp:110-124 -/
def skipParentSaid (P : StreamOps σ α) (err : σ → String) (s : Said (SubInputStream σ)) (ntoskip : Int) :
    Res (Said (SubInputStream σ) × Int) := do
  let (p', skipped) ← P.skip s.st.parent ntoskip
  let st := { s.st with parent := p' }
  if P.status p' = .error then .ok (⟨{ st with status := .error }, err p'⟩, skipped)
  else
    let pos := st.pos + skipped
    if pos = st.size then .ok (⟨{ st with pos := pos, status := .eof }, s.msg⟩, skipped)
    else if skipped ≤ 0 then .ok (⟨{ st with pos := pos, status := .error }, "Premature end of stream\n"⟩, -2)
    else .ok (⟨{ st with pos := pos }, s.msg⟩, skipped)

/-- lib/subinputstream.cpp:96-125 -/
def skipSaid (P : StreamOps σ α) (err : σ → String) (s : Said (SubInputStream σ)) (ntoskip : Int) :
    Res (Said (SubInputStream σ) × Int) :=
  if s.st.size = s.st.pos then .ok ({ s with st := { s.st with status := .eof } }, -1)
  else if ntoskip = 0 then .ok (s, 0)
  else if s.st.size ≠ -1 then
    let left := s.st.size - s.st.pos
    skipParentSaid P err s (if ntoskip > left then left else ntoskip)
  else skipParentSaid P err s ntoskip

/-- `SubInputStream` through the virtual interface, with its text. -/
def opsSaid (P : StreamOps σ α) (err : σ → String) : StreamOps (Said (SubInputStream σ)) α where
  read := readSaid P err
  skip := skipSaid P err
  reset := resetSaid P err
  position s := s.st.pos
  size s := s.st.size
  status s := s.st.status

end SubInputStream

/-- lib/signatureinputstream.cpp: `m_error` is never written, so that `error()` returns the empty text. -/
def SignatureStream.error {σ : Type} (_ : SignatureStream σ) : String := ""

end Strigi
