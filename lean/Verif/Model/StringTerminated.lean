import Verif.Model.Kmp
import Verif.Model.BaseSkip

/-!
# Model of `StringTerminatedSubStream` (lib/stringterminatedsubstream.cpp), over an arbitrary parent
-/

namespace Strigi

/-- State of a `StringTerminatedSubStream` (stringterminatedsubstream.cpp:32-43, streambase.h:43-58) and
of the parent it points to. -/
structure StringTerminated (σ : Type) where
  parent : σ
  searcher : Kmp.Searcher
  offset : Int
  furthest : Int
  pos : Int
  size : Int
  status : Status
deriving DecidableEq, Repr

namespace StringTerminated

variable {σ : Type}

/-- stringterminatedsubstream.cpp:39-47. -/
def new (P : StreamOps σ UInt8) (parent : σ) (terminator : List UInt8) : Res (StringTerminated σ) := do
  let k ← Kmp.setQuery terminator
  .ok ⟨parent, k, P.position parent, 0, 0, -1, .ok⟩

/-- stringterminatedsubstream.cpp:64-77: data that was searched before is handed out again. -/
def readAgain (P : StreamOps σ UInt8) (s : StringTerminated σ) (nread min max : Int) :
    Res (StringTerminated σ × Int × List UInt8) := do
  let max := if max ≤ 0 ∨ max > nread then nread else max
  let (p, n, d) ← P.read s.parent min max
  Res.assert (n ≥ -1)
  if n > 0 then
    .ok (⟨p, s.searcher, s.offset, s.furthest, s.pos + n, s.size,
      if s.pos + n = s.size then .eof else s.status⟩, n, d)
  else .ok ({ s with parent := p }, n, d)

/-- stringterminatedsubstream.cpp:130-134: the end of `read` with the final values of `m_status`,
`furthest` and `nread`. -/
def finish (s : StringTerminated σ) (p : σ) (furthest : Int) (st : Status) (nread : Int)
    (d : List UInt8) : StringTerminated σ × Int × List UInt8 :=
  let pos := if nread > 0 then s.pos + nread else s.pos
  (⟨p, s.searcher, s.offset, furthest, pos, if st = .eof then pos else s.size, st⟩, nread,
    d.take nread.toNat)

/-- stringterminatedsubstream.cpp:55-135.  Line 63 narrows to 32 bits. -/
def read (P : StreamOps σ UInt8) (s : StringTerminated σ) (min max : Int) :
    Res (StringTerminated σ × Int × List UInt8) :=
  if s.status = .eof then .ok (s, -1, [])
  else if s.status = .error then .ok (s, -2, [])
  else
    let pos := P.position s.parent
    let nread := narrow32 (s.furthest - pos)
    if min ≤ nread then readAgain P s nread min max
    else do
      let tl : Int := s.searcher.query.length
      let tlmin := if min = 0 then 1 + tl else min + tl
      let tlmax := if max > 0 ∧ max < tlmin then tlmin else max
      let (p, nread, d) ← P.read s.parent tlmin tlmax
      if nread = -1 then .ok ({ s with parent := p, status := .eof }, nread, d)
      else if nread < -1 then .ok ({ s with parent := p, status := .error }, nread, d)
      else do
        match ← Kmp.search s.searcher d with
        | some k => do
          let (p, _) ← P.reset p (pos + k + tl)
          .ok (finish s p s.furthest .eof k d)
        | none =>
          if nread ≥ tlmin then do
            let n := nread - tl
            let (p, _) ← P.reset p (pos + n)
            .ok (finish s p (pos + n) s.status n d)
          else if max ≠ 0 ∧ nread > max then do
            let (p, _) ← P.reset p (pos + max)
            .ok (finish s p (pos + nread) s.status max d)
          else .ok (finish s p s.furthest .eof nread d)

/-- stringterminatedsubstream.cpp:136-148. -/
def reset (P : StreamOps σ UInt8) (s : StringTerminated σ) (newpos : Int) :
    Res (StringTerminated σ × Int) := do
  let (p, r) ← P.reset s.parent (newpos + s.offset)
  if r ≥ s.offset then
    let pos := r - s.offset
    .ok ({ s with parent := p, pos := pos, status := if pos ≠ s.size then .ok else s.status }, pos)
  else .ok ({ s with parent := p, pos := -1, status := .error }, -1)

/-- `StringTerminatedSubStream` through the virtual interface; `skip` is inherited. -/
def ops (P : StreamOps σ UInt8) : StreamOps (StringTerminated σ) UInt8 where
  read := read P
  skip := baseSkip (read P)
  reset := reset P
  position s := s.pos
  size s := s.size
  status s := s.status

end StringTerminated
end Strigi
