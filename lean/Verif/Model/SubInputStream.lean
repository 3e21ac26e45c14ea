import Verif.Spec

/-!
# Model of `SubInputStream` (lib/subinputstream.cpp), over an arbitrary parent stream
-/

namespace Strigi

/-- State of a `SubInputStream` (include/strigi/subinputstream.h:42-45): its own members and the state of
the parent it points to (all accesses to the parent go through the substream while it is in use). -/
structure SubInputStream (σ : Type) where
  parent : σ
  offset : Int
  pos : Int
  size : Int
  status : Status
deriving DecidableEq, Repr

namespace SubInputStream

variable {σ α : Type}

/-- lib/subinputstream.cpp:28-33 -/
def new (ops : StreamOps σ α) (parent : σ) (length : Int := -1) : Res (SubInputStream σ) := do
  Res.assert (length ≥ -1)
  .ok ⟨parent, ops.position parent, 0, length, .ok⟩

/-- lib/subinputstream.cpp:48-76: the parent is read and the result is evaluated. -/
def readParent (ops : StreamOps σ α) (s : SubInputStream σ) (min max : Int) :
    Res (SubInputStream σ × Int × List α) := do
  let (p', nread, d) ← ops.read s.parent min max
  let s := { s with parent := p' }
  Res.assert (max < min ∨ nread ≤ max)
  if nread < -1 then
    .ok ({ s with status := .error }, nread, d)
  else if nread < min then
    if s.size = -1 then
      if nread > 0 then
        .ok ({ s with status := .eof, pos := s.pos + nread, size := s.pos + nread }, nread, d)
      else .ok ({ s with status := .eof }, nread, d)
    else .ok ({ s with status := .error }, -2, d)
  else
    let pos := s.pos + nread
    .ok ({ s with pos := pos, status := if pos = s.size then .eof else s.status }, nread, d)

/-- lib/subinputstream.cpp:35-77; lines 43 and 45 narrow `left` to 32 bits. -/
def read (ops : StreamOps σ α) (s : SubInputStream σ) (min max : Int) :
    Res (SubInputStream σ × Int × List α) :=
  if s.size ≠ -1 then
    let left := s.size - s.pos
    if left = 0 then .ok ({ s with status := .eof }, -1, [])
    else
      let min := if min > left then narrow32 left else min
      let max := if max < min ∨ max > left then narrow32 left else max
      readParent ops s min max
  else readParent ops s min max

/-- lib/subinputstream.cpp:79-94 -/
def reset (ops : StreamOps σ α) (s : SubInputStream σ) (newpos : Int) :
    Res (SubInputStream σ × Int) := do
  Res.assert (newpos ≥ 0)
  let (p', r) ← ops.reset s.parent (newpos + s.offset)
  if r < s.offset then
    .ok ({ s with parent := p', pos := r, status := .error }, r)
  else
    .ok ({ s with parent := p', pos := r - s.offset, status := ops.status p' }, r - s.offset)

/-- lib/subinputstream.cpp:110-124 -/
def skipParent (ops : StreamOps σ α) (s : SubInputStream σ) (ntoskip : Int) :
    Res (SubInputStream σ × Int) := do
  let (p', skipped) ← ops.skip s.parent ntoskip
  let s := { s with parent := p' }
  if ops.status p' = .error then .ok ({ s with status := .error }, skipped)
  else
    let pos := s.pos + skipped
    if pos = s.size then .ok ({ s with pos := pos, status := .eof }, skipped)
    else if skipped ≤ 0 then .ok ({ s with pos := pos, status := .error }, -2)
    else .ok ({ s with pos := pos }, skipped)

/-- lib/subinputstream.cpp:96-125 -/
def skip (ops : StreamOps σ α) (s : SubInputStream σ) (ntoskip : Int) :
    Res (SubInputStream σ × Int) :=
  if s.size = s.pos then .ok ({ s with status := .eof }, -1)
  else if ntoskip = 0 then .ok (s, 0)
  else if s.size ≠ -1 then
    let left := s.size - s.pos
    skipParent ops s (if ntoskip > left then left else ntoskip)
  else skipParent ops s ntoskip

/-- `SubInputStream` through the virtual interface. -/
def ops (P : StreamOps σ α) : StreamOps (SubInputStream σ) α where
  read := read P
  skip := skip P
  reset := reset P
  position s := s.pos
  size s := s.size
  status s := s.status

end SubInputStream
end Strigi
