import Verif.Model.BufferedStream

/-!
# Model of the file streams
(lib/mmapfileinputstream.cpp, lib/skippingfileinputstream.cpp, lib/fileinputstream.cpp,
lib/skippingbufferedstream.h, lib/skippingfileinputstream2.cpp)

The operating system is modelled by an immutable file content; I/O errors (`ferror`, failing `mmap`,
`fseeko`) are not modelled except where said.  Offsets are unbounded integers: overflow of 64-bit
offsets and of `2 * buffersize` is not modelled.
-/

namespace Strigi

variable {α : Type}

/-- A `FILE*` opened for reading: its content and its offset (C11 7.21). -/
structure CFile (α : Type) where
  content : List α
  off : Int
deriving DecidableEq, Repr

namespace CFile

/-- `fread(buf, 1, n, f)`: as many items as there are, at most `n`. -/
def fread (f : CFile α) (n : Int) : CFile α × List α :=
  let d := slice f.content f.off n
  ({ f with off := f.off + d.length }, d)

/-- `fseek(f, q, SEEK_SET)`: fails for negative offsets; offsets past the end are allowed. -/
def fseek (f : CFile α) (q : Int) : CFile α × Bool :=
  if q < 0 then (f, true) else ({ f with off := q }, false)

end CFile

/-- State of `MMapFileInputStream` (mmapfileinputstream.h, streambase.h:43-58): the mapped bytes
(`m_size` is their number), `m_position`, `m_status`. -/
structure MMapStream (α : Type) where
  mem : List α
  pos : Int
  status : Status
deriving DecidableEq, Repr

namespace MMapStream

/-- mmapfileinputstream.cpp:33-64, the case of a file that can be mapped (or is empty). -/
def new (c : List α) : MMapStream α := ⟨c, 0, .ok⟩

/-- Bytes of the mapping; outside of it the access is out of bounds. -/
def at_ (s : MMapStream α) (n : Int) : Res (List α) :=
  if 0 ≤ s.pos ∧ s.pos + n ≤ s.mem.length then .ok (slice s.mem s.pos n) else .fault .outOfBounds

/-- mmapfileinputstream.cpp:70-82. -/
def read (s : MMapStream α) (mn mx : Int) : Res (MMapStream α × Int × List α) :=
  if s.status = .error then .ok (s, -2, [])
  else if s.status = .eof then .ok (s, -1, [])
  else
    let n := max mn mx
    let left := (s.mem.length : Int) - s.pos
    let st := if n ≥ left then .eof else s.status
    let n := if n ≥ left then left else n
    do
    let d ← s.at_ n
    .ok ({ s with pos := s.pos + n, status := st }, n, d)

/-- mmapfileinputstream.cpp:83-91. -/
def skip (s : MMapStream α) (n : Int) : MMapStream α × Int :=
  let left := (s.mem.length : Int) - s.pos
  if n ≥ left then ({ s with pos := s.pos + left, status := .eof }, left)
  else ({ s with pos := s.pos + n }, n)

/-- mmapfileinputstream.cpp:92-106. -/
def reset (s : MMapStream α) (q : Int) : MMapStream α × Int :=
  if s.status = .error then (s, -2)
  else if q ≥ s.mem.length then ({ s with pos := s.mem.length, status := .eof }, s.mem.length)
  else if q < 0 then ({ s with pos := 0, status := .ok }, 0)
  else ({ s with pos := q, status := .ok }, q)

def ops : StreamOps (MMapStream α) α where
  read s mn mx := s.read mn mx
  skip s n := .ok (s.skip n)
  reset s q := .ok (s.reset q)
  position s := s.pos
  size s := s.mem.length
  status s := s.status

end MMapStream

/-- State of `SkippingFileInputStream` (skippingfileinputstream.h): the open file, `buffersize`,
`m_position`, `m_size`, `m_status`.  The buffer content is not modelled: it is overwritten by every
read, and `read` returns a pointer to its start. -/
structure SkippingFile (α : Type) where
  file : Option (CFile α)
  buffersize : Int
  pos : Int
  size : Int
  status : Status
deriving DecidableEq, Repr

namespace SkippingFile

/-- skippingfileinputstream.cpp:44-77.  `seekable` says whether `fseeko(file, 0, SEEK_END)` succeeds,
`reported` is the size that `ftello` then gives: the length of the content for ordinary files, `0` for
the files of `/proc`. -/
def new (c : List α) (seekable : Bool := true) (reported : Int := c.length) : SkippingFile α :=
  let size := if ¬ seekable then -1 else
    if reported = 0 ∧ c.length ≥ 1 then -1 else reported
  ⟨some ⟨c, 0⟩, 0, 0, size, .ok⟩

/-- skippingfileinputstream.cpp:87-122 without the `ferror` branch.  `fread` writes into `buffersize`
items of memory. -/
def read (s : SkippingFile α) (mn mx : Int) : Res (SkippingFile α × Int × List α) :=
  match s.file with
  | none => .ok ({ s with status := .error }, -2, [])
  | some f =>
    let n := if mx ≤ 0 then max 1024 (max s.buffersize mn) else max mn mx
    let grow := n > s.buffersize
    let n := if grow ∧ mx ≤ 0 then
        let n := max n (2 * s.buffersize)
        if s.size ≠ -1 ∧ n > s.size - s.pos then s.size - s.pos + 1 else n
      else n
    let bufsize := if grow then n else s.buffersize
    if n < 0 ∨ n > bufsize then .fault .outOfBounds
    else
      let r := f.fread n
      let nr : Int := r.2.length
      let pos := r.1.off
      .ok (⟨some r.1, bufsize, pos, if nr ≠ n ∧ s.size = -1 then pos else s.size,
            if nr ≠ n then .eof else s.status⟩, nr, r.2)

/-- skippingfileinputstream.cpp:129-143. -/
def reset (s : SkippingFile α) (q : Int) : SkippingFile α × Int :=
  match s.file with
  | none => ({ s with status := .error }, -2)
  | some f =>
    let q := if s.size ≥ 0 ∧ q > s.size then s.size else q
    let r := f.fseek q
    if r.2 then ({ s with status := .error }, -2)
    else
      let pos := r.1.off
      (⟨some r.1, s.buffersize, pos, s.size, if pos = s.size then .eof else .ok⟩, pos)

/-- skippingfileinputstream.cpp:123-128. -/
def skip (s : SkippingFile α) (n : Int) : SkippingFile α × Int :=
  let r := s.reset (s.pos + n)
  if r.2 = -2 then (r.1, -2) else (r.1, r.1.pos - s.pos)

def ops : StreamOps (SkippingFile α) α where
  read s mn mx := s.read mn mx
  skip s n := .ok (s.skip n)
  reset s q := .ok (s.reset q)
  position s := s.pos
  size s := s.size
  status s := s.status

end SkippingFile

namespace FileInputStream

/-- fileinputstream.cpp:98-117 (and skippingfileinputstream2.cpp:95-114) as a producer; the state is
the member `file` (`none` after `fclose`).  `feof` holds iff fewer items than requested were read.
The `ferror` branch is not modelled. -/
def producer : Producer (Option (CFile α)) α where
  fill f space :=
    match f with
    | none => .ok (none, ⟨-1, [], false⟩)
    | some f =>
      let r := f.fread space
      .ok (if (r.2.length : Int) < space then none else some r.1, ⟨r.2.length, r.2, false⟩)
  fuel f :=
    match f with
    | none => 1
    | some f => f.content.length - f.off.toNat + 3

/-- fileinputstream.cpp:48-89.  `seekable`, `reported`: see `SkippingFile.new`. -/
def new (c : List α) (buffersize : Int) (seekable : Bool := true) (reported : Int := c.length) :
    Res (BufferedStream (Option (CFile α)) α) :=
  let size := if ¬ seekable then -1 else
    if reported = 0 ∧ c.length ≥ 1 then -1 else reported
  if size = 0 then .ok (BufferedStream.new none 0)
  else
    BufferedStream.setMinBufSize (BufferedStream.new (some ⟨c, 0⟩) size)
      (if size ≤ buffersize then size + 1 else buffersize)

end FileInputStream

namespace SkippingBuffered

/-! `SkippingBufferedStream<T>` has the members of `BufferedStream<T>`, and its `writeToBuffer` and
`read` (skippingbufferedstream.h:106-164) are textually those of bufferedstream.h:104-162; the model
uses the same definitions. -/

variable {φ : Type}

/-- skippingbufferedstream.h:165-179. `readPos - d >= start` is `offset - d ≥ 0`. -/
def reset (s : BufferedStream φ α) (newpos : Int) : Res (BufferedStream φ α × Int) := do
  Res.assert (0 ≤ newpos)
  if s.status = .error then .ok (s, -2)
  else
    let d := s.pos - newpos
    if s.buf.offset - d ≥ 0 ∧ -d < s.buf.avail then
      .ok (⟨s.prod, ⟨s.buf.mem, s.buf.offset - d, s.buf.avail + d⟩, s.finished, s.pos - d, s.size, .ok⟩,
        s.pos - d)
    else .ok (s, s.pos)

/-- skippingbufferedstream.h:180-209, over the virtual `advanceInput`. -/
def skip (advance : BufferedStream φ α → Int → Res (BufferedStream φ α × Int))
    (s : BufferedStream φ α) (n : Int) : Res (BufferedStream φ α × Int) := do
  Res.assert (0 ≤ n)
  if n = 0 then .ok (s, 0)
  else if s.buf.avail > n then
    .ok ({ s with buf := ⟨s.buf.mem, s.buf.offset + n, s.buf.avail - n⟩, pos := s.pos + n }, n)
  else
    let fromBuffer := s.buf.avail
    let oldpos := s.pos + fromBuffer
    let s := { s with pos := oldpos, buf := { s.buf with avail := 0 } }
    let rest := n - fromBuffer
    let (s, k) ← if rest ≠ 0 then advance s rest else .ok (s, 0)
    if k < 0 then .ok ({ s with status := .error }, -2)
    else
      let s := { s with pos := oldpos + k }
      let s := if k < rest then
          { s with status := .eof, size := if s.size = -1 then s.pos else s.size } else s
      .ok (s, k + fromBuffer)

/-- skippingbufferedstream.h:210-226: the default `advanceInput` is the loop of
`BufferedStream<T>::skip`. -/
def advanceDefault (P : Producer φ α) (s : BufferedStream φ α) (n : Int) :
    Res (BufferedStream φ α × Int) :=
  BufferedStream.skipLoop P (n.toNat + 1) s n 0

/-- skippingfileinputstream2.cpp:115-127 (`fseeko(file, n, SEEK_CUR)`). -/
def advanceFile (s : BufferedStream (Option (CFile α)) α) (n : Int) :
    Res (BufferedStream (Option (CFile α)) α × Int) :=
  if s.status = .error then .ok (s, -1)
  else match s.prod with
    | none => .ok (s, 0)
    | some f => .ok ({ s with prod := some { f with off := f.off + n } }, n)

/-- `SkippingBufferedStream<T>` through the virtual interface. -/
def ops (P : Producer φ α)
    (advance : BufferedStream φ α → Int → Res (BufferedStream φ α × Int)) :
    StreamOps (BufferedStream φ α) α where
  read := BufferedStream.read P
  skip := skip advance
  reset := reset
  position s := s.pos
  size s := s.size
  status s := s.status

end SkippingBuffered
end Strigi
