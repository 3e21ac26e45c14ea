import Verif.Model.FileStreams

/-!
# Model of `MMapFileInputStream` including its failures (lib/mmapfileinputstream.cpp)
-/

namespace Strigi

variable {α : Type}

/-- The members of `MMapFileInputStream` (mmapfileinputstream.h, streambase.h:43-58): `buffer` (`none` is the null pointer), `m_size`,
`m_position` and `m_status`. -/
structure MMapFile (α : Type) where
  buffer : Option (List α)
  size : Int
  pos : Int
  status : Status
deriving DecidableEq, Repr

namespace MMapFile

/-- mmapfileinputstream.cpp:33-64.  `file`: the content of the file if `open` and `fstat` succeed; `mapped`: whether `mmap` does.  Before
the constructor runs `m_size` is -1 (streambase.h:69).  An empty file is not mapped. -/
def new (file : Option (List α)) (mapped : Bool) : MMapFile α :=
  match file with
  | none => ⟨none, -1, 0, .error⟩
  | some c =>
    if (c.length : Int) > 0 then
      if mapped then ⟨some c, c.length, 0, .ok⟩ else ⟨none, c.length, 0, .error⟩
    else ⟨none, 0, 0, .ok⟩

/-- The `n` bytes at `buffer + m_position`; nothing may be read from the null pointer. -/
def at_ (s : MMapFile α) (n : Int) : Res (List α) :=
  match s.buffer with
  | none => if n ≤ 0 then .ok [] else .fault .outOfBounds
  | some mem => if 0 ≤ s.pos ∧ s.pos + n ≤ mem.length then .ok (slice mem s.pos n) else .fault .outOfBounds

/-- mmapfileinputstream.cpp:70-82: the result of the call; `start` is `buffer + m_position` (`data` tells what a client finds there). -/
def readRaw (s : MMapFile α) (mn mx : Int) : MMapFile α × Int :=
  if s.status = .error then (s, -2)
  else if s.status = .eof then (s, -1)
  else
    let n := max mn mx
    let st := if n ≥ s.size - s.pos then .eof else s.status
    let n := if n ≥ s.size - s.pos then s.size - s.pos else n
    ({ s with pos := s.pos + n, status := st }, n)

/-- What a client finds behind `start` after a call of `read`. -/
def data (s : MMapFile α) (mn mx : Int) : Res (List α) :=
  if s.status = .ok then s.at_ (s.readRaw mn mx).2 else .ok []

/-- mmapfileinputstream.cpp:83-91 -/
def skip (s : MMapFile α) (n : Int) : MMapFile α × Int :=
  if n ≥ s.size - s.pos then ({ s with pos := s.pos + (s.size - s.pos), status := .eof }, s.size - s.pos)
  else ({ s with pos := s.pos + n }, n)

/-- mmapfileinputstream.cpp:92-106 -/
def reset (s : MMapFile α) (q : Int) : MMapFile α × Int :=
  if s.status = .error then (s, -2)
  else if q ≥ s.size then ({ s with pos := s.size, status := .eof }, s.size)
  else if q < 0 then ({ s with pos := 0, status := .ok }, 0)
  else ({ s with pos := q, status := .ok }, q)

/-- Through the virtual interface; a client looks at all that was delivered. -/
def ops : StreamOps (MMapFile α) α where
  read s mn mx := do
    let d ← s.data mn mx
    .ok ((s.readRaw mn mx).1, (s.readRaw mn mx).2, d)
  skip s n := .ok (s.skip n)
  reset s q := .ok (s.reset q)
  position s := s.pos
  size s := s.size
  status s := s.status

end MMapFile
end Strigi
