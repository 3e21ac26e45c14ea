import Verif.Model.BaseSkip

/-!
# Model of `DataEventInputStream` (lib/dataeventinputstream.cpp), over an arbitrary input and handler
-/

namespace Strigi

/-- A call made on the `DataEventHandler` (dataeventinputstream.h:35-76). -/
inductive Event (α : Type)
  | data (d : List α)
  | finished
deriving DecidableEq, Repr

/-- A `DataEventHandler`: what `handleData(d)` returns after the calls `log` were made.  As an arbitrary
function of the calls made so far it covers every sequence of answers. -/
abbrev Handler (α : Type) := List (Event α) → List α → Bool

/-- State of a `DataEventInputStream` (dataeventinputstream.h, streambase.h:43-58) and of the input it
points to, and the list of the calls it has made on its handler so far. -/
structure DataEvent (σ α : Type) where
  input : σ
  totalread : Int
  finished : Bool
  pos : Int
  size : Int
  status : Status
  log : List (Event α)
deriving DecidableEq, Repr

namespace DataEvent

variable {σ α : Type}

/-- dataeventinputstream.cpp:28-35. -/
def new (P : StreamOps σ α) (input : σ) : Res (DataEvent σ α) := do
  Res.assert (P.position input = 0)
  .ok ⟨input, 0, false, 0, P.size input, .ok, []⟩

/-- dataeventinputstream.cpp:46-62 for `nread > 0`: the position advances and the data that was not
reported before is reported.  `d` are the items behind `start`; reporting items before `start` or after
the returned ones leaves the array. -/
def report (h : Handler α) (s : DataEvent σ α) (p : σ) (n : Int) (d : List α) :
    Res (DataEvent σ α × Int) := do
  let nread := if s.size ≠ -1 ∧ s.pos + n > s.size then narrow32 (s.size - s.pos) else n
  let pos := s.pos + nread
  if s.totalread ≠ -1 ∧ s.totalread < pos then
    let amount := narrow32 (pos - s.totalread)
    if 0 ≤ amount ∧ 0 ≤ nread - amount ∧ nread ≤ d.length then
      let e := slice d (nread - amount) amount
      let total := if h s.log e then pos else -1
      .ok (⟨p, total, s.finished, pos, s.size, s.status, s.log ++ [.data e]⟩, nread)
    else .fault .outOfBounds
  else .ok (⟨p, s.totalread, s.finished, pos, s.size, s.status, s.log⟩, nread)

/-- dataeventinputstream.cpp:63-83, 122-125: less than `min` items: the end of the stream. -/
def atEnd (s : DataEvent σ α) : Res (DataEvent σ α) := do
  let size := if s.size = -1 then s.pos else s.size
  Res.assert (size = s.pos)
  Res.assert (s.totalread = -1 ∨ s.totalread = size)
  .ok ⟨s.input, s.totalread, true, s.pos, size, .eof,
    if s.finished then s.log else s.log ++ [.finished]⟩

/-- dataeventinputstream.cpp:36-85. -/
def read (P : StreamOps σ α) (h : Handler α) (s : DataEvent σ α) (min max : Int) :
    Res (DataEvent σ α × Int × List α) := do
  let (p, n, d) ← P.read s.input min max
  if n < -1 then .ok ({ s with input := p, status := .error }, -2, [])
  else do
    let (s, n) ← if n > 0 then report h s p n d else .ok ({ s with input := p }, n)
    if n < min then do
      let s ← atEnd s
      .ok (s, n, d.take n.toNat)
    else .ok (s, n, d.take n.toNat)

/-- dataeventinputstream.cpp:86-100. -/
def skip (P : StreamOps σ α) (h : Handler α) (s : DataEvent σ α) (ntoskip : Int) :
    Res (DataEvent σ α × Int) :=
  if s.totalread = -1 then do
    let (p, r) ← P.skip s.input ntoskip
    .ok ({ s with input := p, status := P.status p, pos := P.position p, size := P.size p }, r)
  else baseSkip (read P h) s ntoskip

/-- dataeventinputstream.cpp:101-121. -/
def reset (P : StreamOps σ α) (h : Handler α) (s : DataEvent σ α) (np : Int) :
    Res (DataEvent σ α × Int) :=
  if np > s.pos then do
    let (s, _) ← skip P h s (np - s.pos)
    .ok (s, s.pos)
  else do
    let (p, newpos) ← P.reset s.input np
    let st := if newpos < 0 then .error else if newpos = s.size then .eof else .ok
    .ok ({ s with input := p, status := st, pos := newpos }, newpos)

/-- `DataEventInputStream` through the virtual interface. -/
def ops (P : StreamOps σ α) (h : Handler α) : StreamOps (DataEvent σ α) α where
  read := read P h
  skip := skip P h
  reset := reset P h
  position s := s.pos
  size s := s.size
  status s := s.status

end DataEvent
end Strigi
