import Verif.Spec

/-!
# What a user sees of a stream

Independent of any implementation: the sequence of results of a sequence of calls.
-/

namespace Strigi

/-- What can be seen after a call: its result, the data it handed out, and the three accessors. -/
structure Seen (α : Type) where
  result : Int
  data : List α
  position : Int
  size : Int
  status : Status
deriving DecidableEq, Repr

variable {σ α : Type}

/-- One call. -/
def Op.call (ops : StreamOps σ α) (s : σ) : Op → Res (σ × Seen α)
  | .read mn mx => do
    let (s', n, d) ← ops.read s mn mx
    .ok (s', ⟨n, d, ops.position s', ops.size s', ops.status s'⟩)
  | .skip n => do
    let (s', r) ← ops.skip s n
    .ok (s', ⟨r, [], ops.position s', ops.size s', ops.status s'⟩)
  | .reset q => do
    let (s', r) ← ops.reset s q
    .ok (s', ⟨r, [], ops.position s', ops.size s', ops.status s'⟩)

/-- What the user sees during the calls `l`; a fault or a hanging call is the last thing that is seen. -/
def trace (ops : StreamOps σ α) : σ → List Op → List (Res (Seen α))
  | _, [] => []
  | s, op :: l =>
    match op.call ops s with
    | .ok (s', x) => .ok x :: trace ops s' l
    | .fault f => [.fault f]
    | .diverge => [.diverge]

end Strigi
