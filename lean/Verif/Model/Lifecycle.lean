import Verif.LifeSpec
import Verif.Model.Decompress
import Verif.Model.LzmaStream
import Verif.Model.GZipCompress

/-!
# The memory of the decompressors: constructors, `fillBuffer` and destructors
(lib/gzipinputstream.cpp, lib/bz2inputstream.cpp, lib/lzmainputstream.cpp, lib/gzipcompressstream.cpp, lib/lzma/LzmaDec.c)

The models of the four classes again, now with the memory that belongs to the decompressor.  What zlib and libbz2 do with it is
taken from their documentation and reduced to one block: `…Init` allocates it and stores the pointer in the member `state`, which it
leaves as it is if there is no memory; every other call uses it; `…End` frees it and sets the pointer to null, and does nothing if
it is null already.  The heap is that of the whole program, but no other object frees blocks of this one.  Failure of the
allocation of the output buffer is not modelled.
-/

namespace Strigi

/-! ## `GZipInputStream` and `BZ2InputStream` -/

namespace Unpack

variable {σ ζ : Type}

/-- The private data with the memory: `ptr` is the member `state` of `zstream` or `bzstream`; `started` is the member of that name
(gzip only). -/
structure Owner (σ ζ : Type) where
  st : State σ ζ
  ptr : Ptr
  heap : Heap
  started : Bool
deriving DecidableEq, Repr

/-- `inflateEnd`, `BZ2_bzDecompressEnd`: the block is freed and the pointer set to null; nothing for the null pointer. -/
def libEnd (o : Owner σ ζ) : Res (Owner σ ζ) := do
  let h ← o.heap.free o.ptr
  .ok { o with heap := h, ptr := .null }

/-- gzipinputstream.cpp:102-110, bz2inputstream.cpp:89-93: `dealloc()`.  `guard` tells that `started` is looked at and that the structure is
zeroed (gzip). -/
def dealloc (guard : Bool) (o : Owner σ ζ) : Res (Owner σ ζ) :=
  if guard then
    if o.started then do
      let o ← libEnd o
      .ok { o with started := false, ptr := .null, st := { o.st with isOpen := false } }
    else .ok { o with ptr := .null, st := { o.st with isOpen := false } }
  else do
    let o ← libEnd o
    .ok { o with st := { o.st with isOpen := false } }

/-- gzipinputstream.cpp:156-184, bz2inputstream.cpp:137-169: the call of the library uses its memory; at the end of the data everything
is freed. -/
def decompressOwned (P : StreamOps σ UInt8) (D : Decompressor ζ) (keep : Bool) (o : Owner σ ζ) (space : Int) :
    Res (Owner σ ζ × Fill UInt8) := do
  o.heap.use o.ptr
  let (st, r) ← decompress P D keep o.st space
  let o := { o with st := st }
  if st.isOpen then .ok (o, r)
  else do
    let o ← dealloc keep o
    .ok (o, r)

/-- gzipinputstream.cpp:144-185, bz2inputstream.cpp:125-170: `fillBuffer` -/
def fillOwned (P : StreamOps σ UInt8) (D : Decompressor ζ) (keep : Bool) (o : Owner σ ζ) (space : Int) :
    Res (Owner σ ζ × Fill UInt8) :=
  if o.st.isOpen = false then .ok (o, ⟨-1, [], false⟩)
  else if o.st.availOut ≠ 0 then do
    let st ← readFromStream P o.st
    if st.failed then .ok ({ o with st := st }, ⟨-1, [], true⟩)
    else decompressOwned P D keep { o with st := st } space
  else decompressOwned P D keep o space

/-- The subclass of `BufferedInputStream` with its memory. -/
def producerOwned (P : StreamOps σ UInt8) (D : Decompressor ζ) (keep : Bool) (N : Nat) : Producer (Owner σ ζ) UInt8 where
  fill := fillOwned P D keep
  fuel _ := N

/-- gzipinputstream.cpp:61-95, bz2inputstream.cpp:63-82: the decompressor is initialised; `memory` tells whether there was memory for it.
If not, it is deallocated. -/
def openOwned (D : Decompressor ζ) (guard memory : Bool) (h : Heap) (input : σ) : Res (BufferedStream (Owner σ ζ) UInt8) := do
  let (h', p) := h.alloc memory
  if memory then BufferedStream.setMinBufSize (BufferedStream.new ⟨start D input, p, h', true⟩) 262144
  else do
    let o ← dealloc guard ⟨{ start D input with failed := true }, .raw, h', true⟩
    .ok { BufferedStream.new o with status := .error }

/-- gzipinputstream.cpp:55-59, bz2inputstream.cpp:56-61: the magic bytes are wrong; the library is not called, its structure is not
written. -/
def brokenOwned (D : Decompressor ζ) (h : Heap) (input : σ) : BufferedStream (Owner σ ζ) UInt8 :=
  { BufferedStream.new ⟨{ start D input with failed := true }, .raw, h, false⟩ with status := .error }

/-- gzipinputstream.cpp:96-101, bz2inputstream.cpp:83-88: the destructor; the heap that it leaves. -/
def destroy (guard : Bool) (s : BufferedStream (Owner σ ζ) UInt8) : Res Heap := do
  let o ← dealloc guard s.prod
  .ok o.heap

end Unpack

/-- gzipinputstream.cpp:49-95: the constructor with the memory. -/
def GZip.newOwned {σ ζ : Type} (P : StreamOps σ UInt8) (D : Decompressor ζ) (gzip memory : Bool) (h : Heap) (input : σ) :
    Res (BufferedStream (Unpack.Owner σ ζ) UInt8) := do
  if gzip then
    let (input, ok) ← checkMagic P input
    if ok then Unpack.openOwned D true memory h input else .ok (Unpack.brokenOwned D h input)
  else Unpack.openOwned D true memory h input

/-- bz2inputstream.cpp:50-82: the constructor with the memory. -/
def BZ2.newOwned {σ ζ : Type} (P : StreamOps σ UInt8) (D : Decompressor ζ) (memory : Bool) (h : Heap) (input : σ) :
    Res (BufferedStream (Unpack.Owner σ ζ) UInt8) := do
  let (input, ok) ← checkMagic P input
  if ok then Unpack.openOwned D false memory h input else .ok (Unpack.brokenOwned D h input)

/-! ## `LZMAInputStream` -/

namespace LzmaStream

variable {σ ζ : Type}

/-- The private data with the memory: `probs` and `dic` are the members of `CLzmaDec` (lib/lzma/LzmaDec.h) of these names. -/
structure Owner (σ ζ : Type) where
  st : State σ ζ
  probs : Ptr
  dic : Ptr
  heap : Heap
deriving DecidableEq, Repr

/-- LzmaDec.c:932-975 `LzmaDec_AllocateProbs2` and `LzmaDec_Allocate`: two blocks; if there is no memory for the second one the first
is freed.  `m₁` and `m₂` tell whether there is memory.  (`LzmaProps_Decode` succeeded in `checkHeader` before.)  Result: the pointers
`probs` and `dic`, and whether it is `SZ_OK`. -/
def allocate (h : Heap) (m₁ m₂ : Bool) (probs dic : Ptr) : Res (Heap × Ptr × Ptr × Bool) := do
  let h ← (if probs = .null then h.free probs else .ok h)
  let (h, probs) := if probs = .null then h.alloc m₁ else (h, probs)
  if probs = .null then .ok (h, .null, dic, false)
  else do
    let h ← (if dic = .null then h.free dic else .ok h)
    let (h, dic) := if dic = .null then h.alloc m₂ else (h, dic)
    if dic = .null then do
      let h ← h.free probs
      .ok (h, .null, .null, false)
    else .ok (h, probs, dic, true)

/-- lzmainputstream.cpp:135-170: the decoder uses both blocks. -/
def decompressOwned (D : LzmaDecoder ζ) (o : Owner σ ζ) (space : Int) : Res (Owner σ ζ × Fill UInt8) := do
  o.heap.use o.probs
  o.heap.use o.dic
  let (st, r) ← decompress D o.st space
  .ok ({ o with st := st }, r)

/-- lzmainputstream.cpp:118-171: `fillBuffer` -/
def fillOwned (P : StreamOps σ UInt8) (D : LzmaDecoder ζ) (o : Owner σ ζ) (space : Int) : Res (Owner σ ζ × Fill UInt8) :=
  if o.st.failed then .ok (o, ⟨-1, [], false⟩)
  else if o.st.msize = o.st.done then .ok (o, ⟨-1, [], false⟩)
  else if o.st.availIn = [] then do
    let st ← readFromStream P o.st
    if st.failed then .ok ({ o with st := st }, ⟨-1, [], true⟩)
    else decompressOwned D { o with st := st } space
  else decompressOwned D o space

/-- The subclass of `BufferedInputStream` with its memory. -/
def producerOwned (P : StreamOps σ UInt8) (D : LzmaDecoder ζ) (N : Nat) : Producer (Owner σ ζ) UInt8 where
  fill := fillOwned P D
  fuel _ := N

/-- lzmainputstream.cpp:70-99: the constructor.  `LzmaDec_Construct` (LzmaDec.h) sets both pointers to null. -/
def newOwned (P : StreamOps σ UInt8) (D : LzmaDecoder ζ) (z0 : ζ) (m₁ m₂ : Bool) (h : Heap) (input : σ) :
    Res (BufferedStream (Owner σ ζ) UInt8) := do
  let r ← P.read input 13 13
  let ok ← (if r.2.1 = 13 then Lzma.checkHeader r.2.2 13 else .ok false)
  let failed : State σ ζ := { input := r.1, z := z0, availIn := [], msize := 0, done := 0, failed := true, marked := false }
  if ok then
    let z ← D.init (r.2.2.take 5)
    let size ← TextUtils.readLittleEndianInt64 (r.2.2.drop 5)
    let (h, probs, dic, good) ← allocate h m₁ m₂ .null .null
    if good then
      BufferedStream.setMinBufSize
        (BufferedStream.new ⟨{ input := r.1, z := z, availIn := [], msize := size, done := 0, failed := false, marked := false }, probs, dic, h⟩ size)
        262144
    else .ok { BufferedStream.new ⟨failed, probs, dic, h⟩ size with status := .error }
  else .ok { BufferedStream.new ⟨failed, .null, .null, h⟩ with status := .error }

/-- lzmainputstream.cpp:100-105, LzmaDec.c:888-904 `LzmaDec_Free`: the destructor. -/
def destroy (s : BufferedStream (Owner σ ζ) UInt8) : Res Heap := do
  let h ← s.prod.heap.free s.prod.probs
  h.free s.prod.dic

end LzmaStream

/-! ## `GZipCompressInputStream` -/

namespace GZipCompress

variable {σ ζ : Type}

/-- The members with the memory: `zs` is the member `zstream`, a pointer to a block, and `ptr` the member `state` in that block. -/
structure Owner (σ ζ : Type) where
  st : State σ ζ
  zs : Ptr
  ptr : Ptr
  heap : Heap
deriving DecidableEq, Repr

/-- gzipcompressstream.cpp:59-66: `dealloc()` -/
def dealloc (o : Owner σ ζ) : Res (Owner σ ζ) :=
  if o.zs = .null then .ok o
  else do
    o.heap.use o.zs
    let h ← o.heap.free o.ptr
    let h ← h.free o.zs
    .ok { o with heap := h, zs := .null, ptr := .null, st := { o.st with z := none } }

/-- gzipcompressstream.cpp:101-113, 116-134: a call of `deflate` uses both blocks; after the end, and after an error at the end,
everything is freed (there the model without memory sets the pointer to null). -/
def deflated (o : Owner σ ζ) (x : State σ ζ × Fill UInt8) : Res (Owner σ ζ × Fill UInt8) := do
  o.heap.use o.zs
  o.heap.use o.ptr
  let o := { o with st := x.1 }
  if x.1.z.isSome then .ok (o, x.2)
  else do
    let o ← dealloc o
    .ok (o, x.2)

/-- gzipcompressstream.cpp:83-135: `fillBuffer`; the members of the block are used as soon as the pointer has been seen not to be
null. -/
def fillOwned (P : StreamOps σ UInt8) (K : Compressor ζ) (o : Owner σ ζ) (space : Int) : Res (Owner σ ζ × Fill UInt8) :=
  match o.st.z with
  | none => .ok (o, ⟨-1, [], false⟩)
  | some z => do
    o.heap.use o.zs
    if o.st.availIn = [] then do
      let r ← P.read o.st.input 1 0
      let s : State σ ζ := { o.st with input := r.1 }
      if r.2.1 < -1 then .ok ({ o with st := s }, ⟨-1, [], true⟩)
      else if r.2.1 < 1 then deflated { o with st := s } (finish K s z space)
      else deflated { o with st := s } (feed K { s with availIn := slice r.2.2 0 r.2.1 } z space)
    else deflated o (feed K o.st z space)

/-- The subclass of `BufferedInputStream` with its memory. -/
def producerOwned (P : StreamOps σ UInt8) (K : Compressor ζ) (N : Nat) : Producer (Owner σ ζ) UInt8 where
  fill := fillOwned P K
  fuel _ := N

/-- gzipcompressstream.cpp:27-55: the constructor.  The result of `malloc` is used without a check; `m₁` and `m₂` tell whether there is
memory for the structure and for `deflateInit`. -/
def newOwned (K : Compressor ζ) (m₁ m₂ : Bool) (h : Heap) (input : σ) : Res (BufferedStream (Owner σ ζ) UInt8) := do
  let (h, zs) := h.alloc m₁
  h.use zs
  let (h, p) := h.alloc m₂
  let st : State σ ζ := { input := input, z := some K.init, availIn := [] }
  if m₂ then .ok (BufferedStream.new ⟨st, zs, p, h⟩)
  else do
    let o ← dealloc ⟨st, zs, .raw, h⟩
    .ok { BufferedStream.new o with status := .error }

/-- gzipcompressstream.cpp:56-58: the destructor. -/
def destroy (s : BufferedStream (Owner σ ζ) UInt8) : Res Heap := do
  let o ← dealloc s.prod
  .ok o.heap

end GZipCompress
end Strigi
