import Verif.Spec

/-!
# Model of `StringStream<T>` (include/strigi/stringstream.h)
-/

namespace Strigi

/-- State of `StringStream<T>` (stringstream.h:39-42, streambase.h:43-58): the array `data` with its
length `m_size`, `m_position` and `m_status`.  Ownership (`dataowner`) and the unused `markpt` are not
modelled. -/
structure StringStream (α : Type) where
  data : List α
  pos : Int
  status : Status
deriving DecidableEq, Repr

namespace StringStream

variable {α : Type}

/-- stringstream.h:80-98: constructor with an explicit length. -/
def new (c : List α) : StringStream α := ⟨c, 0, .ok⟩

/-- stringstream.h:82-88: constructor with length `-1`: the data ends before the first NUL.
`mem` is the memory behind `value`; without a NUL in it the scan leaves the array. -/
def newZ [DecidableEq α] (nul : α) (mem : List α) : Res (StringStream α) :=
  if nul ∈ mem then .ok ⟨mem.takeWhile (· ≠ nul), 0, .ok⟩ else .fault .outOfBounds

/-- stringstream.h:107-121. Line 113 (`min`) has no effect. Line 114 narrows `left` to 32 bits, which
is the identity because `m_size` comes from an `int32_t`. -/
def read (s : StringStream α) (_min max : Int) : StringStream α × Int × List α :=
  let left := (s.data.length : Int) - s.pos
  if left = 0 then ({ s with status := .eof }, -1, [])
  else
    let nread := if max > left ∨ max < 1 then left else max
    let pos' := s.pos + nread
    let st' := if pos' = s.data.length then .eof else s.status
    ({ s with pos := pos', status := st' }, nread, slice s.data s.pos nread)

/-- stringstream.h:124-128; the casts are `(int32_t)ntoskip`. -/
def skip (s : StringStream α) (n : Int) : StringStream α × Int :=
  if n = 0 then (s, 0)
  else
    let r := read s (narrow32 n) (narrow32 n)
    (r.1, r.2.1)

/-- stringstream.h:131-143. -/
def reset (s : StringStream α) (q : Int) : StringStream α × Int :=
  if q < 0 then ({ s with status := .ok, pos := 0 }, 0)
  else if q < s.data.length then ({ s with status := .ok, pos := q }, q)
  else ({ s with pos := s.data.length, status := .eof }, s.data.length)

/-- `StringStream<T>` through the virtual interface. -/
def ops : StreamOps (StringStream α) α where
  read s mn mx := .ok (s.read mn mx)
  skip s n := .ok (s.skip n)
  reset s q := .ok (s.reset q)
  position s := s.pos
  size s := s.data.length
  status s := s.status

end StringStream
end Strigi
