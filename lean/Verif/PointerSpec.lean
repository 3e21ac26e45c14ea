import Verif.Spec

/-!
# Specification: how long the pointer that `read` returned can be used
-/

namespace Strigi

/-- What streambase.h documents: the pointer that `read` returns can be used after the call, also after calls of `reset`
for positions in the part of the stream that was read.  `V s a b` says that in the state `s` the items
from position `a` up to `b` are still there, where the last call of `read` said that they are.  `I` are the states in
which `read` may be called. -/
structure Pointers {σ α : Type} (O : StreamOps σ α) (I : σ → Prop) (V : σ → Int → Int → Prop) : Prop where
  read : ∀ {s s' mn mx n d}, I s → 1 ≤ mn → (mx = 0 ∨ mn ≤ mx) → O.read s mn mx = .ok (s', n, d) → 0 ≤ n →
    (d.length : Int) = n ∧ (0 < n → V s' (O.position s) (O.position s + n))
  reset : ∀ {s s' a b q r}, V s a b → a ≤ q → q ≤ b → O.reset s q = .ok (s', r) → V s' a b
  part : ∀ {s a b a' b'}, V s a b → a ≤ a' → b' ≤ b → V s a' b'

/-- The same for resets backwards only: the pointer can be used after `read`, and after resets to
positions that are in the part that was read and not after the current one. -/
structure PointersBack {σ α : Type} (O : StreamOps σ α) (I : σ → Prop) (V : σ → Int → Int → Prop) : Prop where
  read : ∀ {s s' mn mx n d}, I s → 1 ≤ mn → (mx = 0 ∨ mn ≤ mx) → O.read s mn mx = .ok (s', n, d) → 0 ≤ n →
    (d.length : Int) = n ∧ (0 < n → V s' (O.position s) (O.position s + n))
  reset : ∀ {s s' a b q r}, V s a b → a ≤ q → q ≤ b → q ≤ O.position s → O.reset s q = .ok (s', r) → V s' a b
  part : ∀ {s a b a' b'}, V s a b → a ≤ a' → b' ≤ b → V s a' b'

end Strigi
