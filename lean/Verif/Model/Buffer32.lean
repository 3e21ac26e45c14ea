import Verif.Model.BufferedStream

/-!
# Model of `StreamBuffer<T>` and `BufferedStream<T>` with the 32-bit numbers of the code
(include/strigi/streambuffer.h, include/strigi/bufferedstream.h)

The definitions are those of Model/BufferedStream, but every sum and product of `int32_t` values is checked: an overflow is undefined
behaviour.
-/

namespace Strigi

namespace StreamBuffer

variable {α : Type}

/-- The value of an expression of type `int32_t`; overflow is undefined behaviour. -/
def i32 (x : Int) : Res Int := if -(2 ^ 31) ≤ x ∧ x < 2 ^ 31 then .ok x else .fault .undefined

/-- streambuffer.h:139-183 -/
def makeSpace32 (b : StreamBuffer α) (needed : Int) : Res (StreamBuffer α × Int) := do
  let space ← i32 (b.size - b.offset - b.avail)
  Res.assert (0 ≤ b.offset)
  Res.assert (0 ≤ b.size)
  Res.assert (0 ≤ b.avail)
  Res.assert (b.avail + b.offset ≤ b.size)
  if space ≥ needed then .ok (b, space) else
  let (b, space) ←
    if b.avail ≠ 0 then
      if b.offset ≠ 0 then do
        let space ← i32 (space + b.offset)
        .ok ({ b with mem := slice b.mem b.offset b.avail ++ b.mem.drop b.avail.toNat, offset := 0 }, space)
      else .ok (b, space)
    else .ok ({ b with offset := 0 }, b.size)
  if space ≥ needed then .ok (b, space) else
  let more ← i32 (needed - space)
  if b.size > more then do
    let space ← i32 (space + b.size)
    let size ← i32 (2 * b.size)
    let b' ← b.setSize size
    .ok (b', space)
  else do
    let sum ← i32 (b.size + needed)
    let size ← i32 (sum - space)
    let b' ← b.setSize size
    .ok (b', needed)

end StreamBuffer

namespace BufferedStream

variable {φ α : Type}

open StreamBuffer (i32)

/-- bufferedstream.h:107-122 -/
def writeLoop32 (P : Producer φ α) (ntoread maxread : Int) :
    Nat → BufferedStream φ α → Int → Int → Res (BufferedStream φ α × Int)
  | 0, _, _, _ => .diverge
  | fuel + 1, s, missing, nwritten =>
    if missing > 0 ∧ nwritten ≥ 0 then do
      let (b, space) ← s.buf.makeSpace32 missing
      let space := if maxread ≥ ntoread ∧ space > maxread then maxread else space
      let (f, r) ← P.fill s.prod space
      let b ← b.store (b.offset + b.avail) r.data
      let s := { s with prod := f, buf := b, status := if r.error then .error else s.status }
      Res.assert (s.status ≠ .eof)
      if r.n > 0 then do
        let avail ← i32 (s.buf.avail + r.n)
        let missing ← i32 (ntoread - avail)
        writeLoop32 P ntoread maxread fuel { s with buf := { s.buf with avail := avail } } missing r.n
      else writeLoop32 P ntoread maxread fuel s missing r.n
    else .ok (s, nwritten)

/-- bufferedstream.h:106-126 -/
def writeToBuffer32 (P : Producer φ α) (s : BufferedStream φ α) (ntoread maxread : Int) :
    Res (BufferedStream φ α) := do
  let missing ← i32 (ntoread - s.buf.avail)
  let (s, nwritten) ← writeLoop32 P ntoread maxread (P.fuel s.prod + 1) s missing 0
  if nwritten < 0 then .ok { s with finished := true } else .ok s

/-- bufferedstream.h:137-139 -/
def ensure32 (P : Producer φ α) (s : BufferedStream φ α) (min max : Int) : Res (BufferedStream φ α) :=
  if !s.finished ∧ min > s.buf.avail then writeToBuffer32 P s min max else .ok s

/-- bufferedstream.h:129-162; the position has 64 bits (not checked). -/
def read32 (P : Producer φ α) (s : BufferedStream φ α) (min max : Int) :
    Res (BufferedStream φ α × Int × List α) :=
  if s.status = .error then .ok (s, -2, [])
  else if s.status = .eof then .ok (s, -1, [])
  else
    let max := if min > max then 0 else max
    do
    let s ← ensure32 P s min max
    if s.status = .error then .ok (s, -2, [])
    else do
      let (b, nread, d) ← s.buf.read max
      let s := { s with buf := b, pos := s.pos + nread }
      if s.pos > s.size ∧ s.size > 0 then
        .ok ({ s with status := .error }, -2, d)
      else if s.status = .ok ∧ s.buf.avail = 0 ∧ s.finished then
        .ok ({ s with status := .eof, size := if s.size = -1 then s.pos else s.size },
          if nread = 0 then -1 else nread, d)
      else .ok (s, nread, d)

/-- bufferedstream.h:184-192 -/
def skipLoop32 (P : Producer φ α) :
    Nat → BufferedStream φ α → Int → Int → Res (BufferedStream φ α × Int)
  | 0, _, _, _ => .diverge
  | fuel + 1, s, ntoskip, skipped =>
    if ntoskip ≠ 0 then do
      let step := if ntoskip > s.buf.size then s.buf.size else ntoskip
      let (s', nread, _) ← read32 P s 1 step
      if nread ≤ 0 then .ok (s', skipped)
      else skipLoop32 P fuel s' (ntoskip - nread) (skipped + nread)
    else .ok (s, skipped)

/-- bufferedstream.h:180-194 -/
def skip32 (P : Producer φ α) (s : BufferedStream φ α) (ntoskip : Int) :
    Res (BufferedStream φ α × Int) :=
  skipLoop32 P (ntoskip.toNat + 1) s ntoskip 0

end BufferedStream
end Strigi
