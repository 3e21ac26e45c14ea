import Verif.Model.StringStream

/-!
# Model of the memory of `StringStream<T>` (include/strigi/stringstream.h)

`Model/StringStream.lean` takes the items as given; here the stream has a pointer into memory, that is its own or
that of the caller.  The memory is a list of blocks; a block that was freed is nothing.
-/

namespace Strigi
namespace StringMemory

variable {α : Type}

/-- The blocks of memory by number. -/
abbrev Memory (α : Type) := List (Option (List α))

/-- A pointer: a block and an offset in it. -/
abbrev Ptr := Nat × Int

/-- The `n` items at a pointer. -/
def load (m : Memory α) (p : Ptr) (n : Int) : Res (List α) :=
  match m[p.1]? with
  | some (some l) => if 0 ≤ p.2 ∧ 0 ≤ n ∧ p.2 + n ≤ l.length then .ok (slice l p.2 n) else .fault .outOfBounds
  | _ => .fault .outOfBounds

/-- The member variables (stringstream.h:37-39, streambase.h:43-58), without the unused `markpt`. -/
structure Stream where
  size : Int
  position : Int
  status : Status
  data : Ptr
  dataowner : Bool
deriving DecidableEq, Repr

/-- stringstream.h:83-86: the loop over `value[length]`.  An `int32_t` that becomes too large is undefined. -/
def scan [DecidableEq α] (nul : α) (m : Memory α) (value : Ptr) : Nat → Int → Res Int
  | 0, _ => .diverge
  | fuel + 1, length => do
    let x ← load m (value.1, value.2 + length) 1
    if x = [nul] then .ok length
    else if length + 1 ≥ 2 ^ 31 then .fault .undefined
    else scan nul m value fuel (length + 1)

/-- stringstream.h:79-98: the constructor. `new T[length+1]` allocates a block, in which `memcpy` and line 93 write; the
sum `length+1` is an `int32_t`.  `fuel` bounds the loop. -/
def construct [DecidableEq α] (nul : α) (fuel : Nat) (m : Memory α) (value : Ptr) (length : Int) (copy : Bool) :
    Res (Memory α × Stream) := do
  let length ← if length < 0 then scan nul m value fuel 0 else .ok length
  if copy then do
    if length + 1 ≥ 2 ^ 31 then .fault .undefined
    else do
      let c ← load m value length
      .ok (m ++ [some (c ++ [nul])], ⟨length, 0, .ok, (m.length, 0), true⟩)
  else .ok (m, ⟨length, 0, .ok, value, false⟩)

/-- stringstream.h:106-121 `read`: the number and the pointer, if it is set. -/
def read (s : Stream) (_min max : Int) : Stream × Int × Option Ptr :=
  let left := s.size - s.position
  if left = 0 then ({ s with status := .eof }, -1, none)
  else
    let nread := if max > left ∨ max < 1 then left else max
    let position := s.position + nread
    ({ s with position, status := if position = s.size then .eof else s.status }, nread,
      some (s.data.1, s.data.2 + s.position))

/-- stringstream.h:122-128 `skip`. -/
def skip (s : Stream) (n : Int) : Stream × Int :=
  if n = 0 then (s, 0)
  else
    let r := read s (narrow32 n) (narrow32 n)
    (r.1, r.2.1)

/-- stringstream.h:129-143 `reset`. -/
def reset (s : Stream) (q : Int) : Stream × Int :=
  if q < 0 then ({ s with status := .ok, position := 0 }, 0)
  else if q < s.size then ({ s with status := .ok, position := q }, q)
  else ({ s with position := s.size, status := .eof }, s.size)

/-- stringstream.h:99-104: the destructor.  To delete something that is not the start of a block, or was deleted, is
undefined. -/
def destroy (m : Memory α) (s : Stream) : Res (Memory α) :=
  if s.dataowner then
    match m[s.data.1]? with
    | some (some _) => if s.data.2 = 0 then .ok (m.set s.data.1 none) else .fault .undefined
    | _ => .fault .undefined
  else .ok m

/-- What happens while the stream exists: calls, and what others do to the memory. -/
inductive Act (α : Type)
  | read (min max : Int)
  | skip (n : Int)
  | reset (q : Int)
  | others (f : Memory α → Memory α)

/-- The actions in order; the list is what the calls returned: the number, and the pointer if
there is one. -/
def history : List (Act α) → Memory α × Stream → (Memory α × Stream) × List (Int × Option Ptr)
  | [], x => (x, [])
  | .read mn mx :: l, x =>
    let r := read x.2 mn mx
    let y := history l (x.1, r.1)
    (y.1, r.2 :: y.2)
  | .skip n :: l, x =>
    let r := skip x.2 n
    let y := history l (x.1, r.1)
    (y.1, (r.2, none) :: y.2)
  | .reset q :: l, x =>
    let r := reset x.2 q
    let y := history l (x.1, r.1)
    (y.1, (r.2, none) :: y.2)
  | .others f :: l, x => history l (f x.1, x.2)

end StringMemory
end Strigi
