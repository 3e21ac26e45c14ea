import Verif.Base

/-!
# The memory of the libraries

What a program may do with blocks of memory: take one, use it, give it back, once.
-/

namespace Strigi

/-- A pointer: never written, null, or to the block with a number. -/
inductive Ptr
  | raw | null | to (b : Nat)
deriving DecidableEq, Repr

/-- The blocks that have been allocated and not been freed; `next` is the number of the next one. -/
structure Heap where
  next : Nat
  live : List Nat
deriving DecidableEq, Repr

namespace Heap

/-- `malloc`: a new block, or the null pointer if there is no memory. -/
def alloc (h : Heap) (memory : Bool) : Heap × Ptr :=
  if memory then (⟨h.next + 1, h.next :: h.live⟩, .to h.next) else (h, .null)

/-- `free`: nothing for the null pointer; undefined for a block that is not allocated (any more) and for a pointer that was never
written. -/
def free (h : Heap) : Ptr → Res Heap
  | .null => .ok h
  | .to b => if b ∈ h.live then .ok { h with live := h.live.erase b } else .fault .undefined
  | .raw => .fault .undefined

/-- An access to a block: undefined unless it is allocated. -/
def use (h : Heap) : Ptr → Res Unit
  | .to b => if b ∈ h.live then .ok () else .fault .undefined
  | _ => .fault .undefined

end Heap
end Strigi
