import Verif.Spec

/-!
# Model of `StreamBuffer<T>` and `BufferedStream<T>`
(include/strigi/streambuffer.h, include/strigi/bufferedstream.h)

32-bit overflow of `2 * size` and failure of `realloc` are not modelled.
-/

namespace Strigi

/-- `StreamBuffer<T>` (streambuffer.h:34-63).  `mem` is the allocated memory (`start`, `size` is its
length); `none` is memory that was never written.  `offset` is `readPos - start`. -/
structure StreamBuffer (α : Type) where
  mem : List (Option α)
  offset : Int
  avail : Int
deriving DecidableEq, Repr

namespace StreamBuffer

variable {α : Type}

/-- streambuffer.h:113-116. -/
def empty : StreamBuffer α := ⟨[], 0, 0⟩

/-- the member `size` -/
def size (b : StreamBuffer α) : Int := b.mem.length

/-- streambuffer.h:123-137.  `realloc` keeps the old contents; new memory is uninitialised. -/
def setSize (b : StreamBuffer α) (size : Int) : Res (StreamBuffer α) := do
  Res.assert (0 ≤ size)
  Res.assert (0 ≤ b.avail)
  Res.assert (0 ≤ b.offset)
  Res.assert (b.avail + b.offset ≤ size)
  .ok { b with mem := b.mem.take size.toNat ++ List.replicate (size.toNat - b.mem.length) none }

/-- streambuffer.h:139-183. The `memmove` of line 158 copies the `avail` items at `readPos` to the start
of the memory and leaves the rest as it is. -/
def makeSpace (b : StreamBuffer α) (needed : Int) : Res (StreamBuffer α × Int) := do
  let space := b.size - b.offset - b.avail
  Res.assert (0 ≤ b.offset)
  Res.assert (0 ≤ b.size)
  Res.assert (0 ≤ b.avail)
  Res.assert (b.avail + b.offset ≤ b.size)
  if space ≥ needed then .ok (b, space) else
  let (b, space) :=
    if b.avail ≠ 0 then
      if b.offset ≠ 0 then
        ({ b with mem := slice b.mem b.offset b.avail ++ b.mem.drop b.avail.toNat, offset := 0 },
          space + b.offset)
      else (b, space)
    else ({ b with offset := 0 }, b.size)
  if space ≥ needed then .ok (b, space) else
  if b.size > needed - space then do
    let b' ← b.setSize (2 * b.size)
    .ok (b', space + b.size)
  else do
    let b' ← b.setSize (b.size + needed - space)
    .ok (b', needed)

/-- The items behind a pointer into the buffer; reading memory that was never written is undefined. -/
def initialised : List (Option α) → Res (List α)
  | [] => .ok []
  | some a :: l => do let r ← initialised l; .ok (a :: r)
  | none :: _ => .fault .undefined

/-- streambuffer.h:184-199. -/
def read (b : StreamBuffer α) (max : Int) : Res (StreamBuffer α × Int × List α) := do
  Res.assert (0 ≤ b.size)
  Res.assert (0 ≤ b.avail)
  Res.assert (0 ≤ b.offset)
  Res.assert (b.avail + b.offset ≤ b.size)
  let max := if max ≤ 0 ∨ max > b.avail then b.avail else max
  let d ← initialised (slice b.mem b.offset max)
  .ok ({ b with offset := b.offset + max, avail := b.avail - max }, max, d)

/-- A producer stores `d` from index `i` on; outside of the allocated memory this is an out-of-bounds
write. -/
def store (b : StreamBuffer α) (i : Int) (d : List α) : Res (StreamBuffer α) :=
  if 0 ≤ i ∧ i + d.length ≤ b.size then
    .ok { b with mem := b.mem.take i.toNat ++ d.map some ++ b.mem.drop (i.toNat + d.length) }
  else .fault .outOfBounds

end StreamBuffer

/-- What a call to the virtual `fillBuffer(start, space)` does (bufferedstream.h:44-63): the returned
number, the items stored from `start` on, and whether it set the status to `Error`. -/
structure Fill (α : Type) where
  n : Int
  data : List α
  error : Bool
deriving DecidableEq, Repr

/-- A subclass of `BufferedStream<T>`: its `fillBuffer` as a function of its own state.
`fuel` bounds the number of calls until it reports the end; it only serves to make the loop of
`writeToBuffer` a total function (running out of it is reported as divergence). -/
structure Producer (φ α : Type) where
  fill : φ → Int → Res (φ × Fill α)
  fuel : φ → Nat

/-- State of a `BufferedStream<T>` (bufferedstream.h:37-40, streambase.h:43-58). -/
structure BufferedStream (φ α : Type) where
  prod : φ
  buf : StreamBuffer α
  finished : Bool
  pos : Int
  size : Int
  status : Status
deriving DecidableEq, Repr

namespace BufferedStream

variable {φ α : Type}

/-- bufferedstream.h:100-102, streambase.h:69: a new stream over a producer; subclasses may declare a
size in their constructor. -/
def new (f : φ) (size : Int := -1) : BufferedStream φ α :=
  ⟨f, StreamBuffer.empty, false, 0, size, .ok⟩

/-- bufferedstream.h:81-83 -/
def setMinBufSize (s : BufferedStream φ α) (n : Int) : Res (BufferedStream φ α) := do
  let (b, _) ← s.buf.makeSpace n
  .ok { s with buf := b }

/-- The loop of bufferedstream.h:107-122; returns the last value of `nwritten`. -/
def writeLoop (P : Producer φ α) (ntoread maxread : Int) :
    Nat → BufferedStream φ α → Int → Int → Res (BufferedStream φ α × Int)
  | 0, _, _, _ => .diverge
  | fuel + 1, s, missing, nwritten =>
    if missing > 0 ∧ nwritten ≥ 0 then do
      let (b, space) ← s.buf.makeSpace missing
      let space := if maxread ≥ ntoread ∧ space > maxread then maxread else space
      let (f, r) ← P.fill s.prod space
      let b ← b.store (b.offset + b.avail) r.data
      let s := { s with prod := f, buf := b, status := if r.error then .error else s.status }
      Res.assert (s.status ≠ .eof)
      if r.n > 0 then
        let b := { s.buf with avail := s.buf.avail + r.n }
        writeLoop P ntoread maxread fuel { s with buf := b } (ntoread - b.avail) r.n
      else writeLoop P ntoread maxread fuel s missing r.n
    else .ok (s, nwritten)

/-- bufferedstream.h:106-126. -/
def writeToBuffer (P : Producer φ α) (s : BufferedStream φ α) (ntoread maxread : Int) :
    Res (BufferedStream φ α) := do
  let (s, nwritten) ← writeLoop P ntoread maxread (P.fuel s.prod + 1) s (ntoread - s.buf.avail) 0
  if nwritten < 0 then .ok { s with finished := true } else .ok s

/-- bufferedstream.h:137-139: fill the buffer if needed. -/
def ensure (P : Producer φ α) (s : BufferedStream φ α) (min max : Int) : Res (BufferedStream φ α) :=
  if !s.finished ∧ min > s.buf.avail then writeToBuffer P s min max else .ok s

/-- bufferedstream.h:129-162. -/
def read (P : Producer φ α) (s : BufferedStream φ α) (min max : Int) :
    Res (BufferedStream φ α × Int × List α) :=
  if s.status = .error then .ok (s, -2, [])
  else if s.status = .eof then .ok (s, -1, [])
  else
    let max := if min > max then 0 else max
    do
    let s ← ensure P s min max
    if s.status = .error then .ok (s, -2, [])
    else do
      let (b, nread, d) ← s.buf.read max
      let s := { s with buf := b, pos := s.pos + nread }
      if s.pos > s.size ∧ s.size > 0 then
        .ok ({ s with status := .error }, -2, d)
      else if s.status = .ok ∧ s.buf.avail = 0 ∧ s.finished then
        .ok ({ s with status := .eof, size := if s.size = -1 then s.pos else s.size },
          if nread = 0 then -1 else nread, d)
      else .ok (s, nread, d)

/-- bufferedstream.h:164-177; `buffer.readPos >= buffer.start + d` is `offset ≥ d`. -/
def reset (s : BufferedStream φ α) (newpos : Int) : Res (BufferedStream φ α × Int) := do
  Res.assert (0 ≤ newpos)
  if s.status = .error then .ok (s, -2)
  else
    let d := s.pos - newpos
    if s.buf.offset ≥ d ∧ -d ≤ s.buf.avail then
      .ok ({ s with
              pos := s.pos - d
              buf := { s.buf with avail := s.buf.avail + d, offset := s.buf.offset - d }
              status := .ok }, s.pos - d)
    else .ok (s, s.pos)

/-- The loop of bufferedstream.h:184-192. -/
def skipLoop (P : Producer φ α) :
    Nat → BufferedStream φ α → Int → Int → Res (BufferedStream φ α × Int)
  | 0, _, _, _ => .diverge
  | fuel + 1, s, ntoskip, skipped =>
    if ntoskip ≠ 0 then do
      let step := if ntoskip > s.buf.size then s.buf.size else ntoskip
      let (s', nread, _) ← read P s 1 step
      if nread ≤ 0 then .ok (s', skipped)
      else skipLoop P fuel s' (ntoskip - nread) (skipped + nread)
    else .ok (s, skipped)

/-- bufferedstream.h:180-194. For `ntoskip ≥ 0` every iteration but the last skips at least one item.
Negative arguments (for which the code reads to the end of the stream) are outside the model: they are
reported as divergence. -/
def skip (P : Producer φ α) (s : BufferedStream φ α) (ntoskip : Int) :
    Res (BufferedStream φ α × Int) :=
  skipLoop P (ntoskip.toNat + 1) s ntoskip 0

/-- `BufferedStream<T>` through the virtual interface. -/
def ops (P : Producer φ α) : StreamOps (BufferedStream φ α) α where
  read := read P
  skip := skip P
  reset := reset
  position s := s.pos
  size s := s.size
  status s := s.status

end BufferedStream
end Strigi
