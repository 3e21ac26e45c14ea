import Verif.Model.BufferedStream

/-!
# Model of `ProcessInputStream` (lib/processinputstream.cpp)

The child process and the operating system are an arbitrary machine which answers the system calls: state `κ`.
A system call that blocks for ever diverges.  `fork`, `execve` and the handling of the arguments are not modelled:
the model starts when the child runs (or when the pipes could not be made: then the descriptors are closed).
Descriptor 0 is never used for the pipes.
-/

namespace Strigi

/-- `write`, `close` and `read` on the pipes to and from the child.  `write` returns the number of bytes taken,
or a negative number for an error; `read` the number of bytes, which it stores. -/
structure Pipes (κ : Type) where
  write : κ → List UInt8 → Res (κ × Int)
  closeIn : κ → κ
  read : κ → Int → Res (κ × Int × List UInt8)

namespace Process

variable {σ κ : Type}

/-- processinputstream.h:30-35 `input`, `fdin`, `fdout`; the descriptors are only modelled as open (positive) or
not, and the child by `os`. -/
structure State (σ κ : Type) where
  input : Option σ
  fdin : Bool
  fdout : Bool := true
  os : κ
deriving DecidableEq, Repr

/-- processinputstream.cpp:38-57, 150-151, 185-188: the constructor, after the child has been started. -/
def new (input : Option σ) (os : κ) : BufferedStream (State σ κ) UInt8 :=
  BufferedStream.new { input := input, fdin := input.isSome, os := os }

/-- processinputstream.cpp:77-103 `writeToPipe`; the flag tells whether the status was set to `Error`.  (In line 98
the descriptor stays open.) -/
def writeToPipe (P : StreamOps σ UInt8) (E : Pipes κ) (s : State σ κ) (input : σ) : Res (State σ κ × Bool) := do
  let pos := P.position input
  let r ← P.read input 1 0
  if r.2.1 ≤ 0 ∨ P.status r.1 = .eof then
    .ok ({ s with input := none, fdin := false, os := E.closeIn s.os }, decide (P.status r.1 = .error))
  else do
    let w ← E.write s.os r.2.2
    if w.2 < 0 then .ok ({ s with input := none, os := w.1 }, true)
    else if w.2 ≠ r.2.1 then do
      let q ← P.reset r.1 (pos + r.2.1)
      .ok ({ s with input := some q.1, os := w.1 }, false)
    else .ok ({ s with input := some r.1, os := w.1 }, false)

/-- processinputstream.cpp:107-109. -/
def feed (P : StreamOps σ UInt8) (E : Pipes κ) (s : State σ κ) : Res (State σ κ × Bool) :=
  match s.input with
  | none => .ok (s, false)
  | some i => if P.status i = .ok then writeToPipe P E s i else .ok (s, false)

/-- processinputstream.cpp:104-121 `fillBuffer`. -/
def fill (P : StreamOps σ UInt8) (E : Pipes κ) (s : State σ κ) (space : Int) : Res (State σ κ × Fill UInt8) :=
  if s.fdout = false then .ok (s, ⟨-1, [], false⟩)
  else do
    let w ← feed P E s
    let r ← E.read w.1.os space
    if r.2.1 < 0 then .ok ({ w.1 with os := r.1, fdout := false }, ⟨-2, [], true⟩)
    else if r.2.1 = 0 then .ok ({ w.1 with os := r.1, fdout := false }, ⟨0, [], w.2⟩)
    else .ok ({ w.1 with os := r.1 }, ⟨r.2.1, r.2.2, w.2⟩)

/-- `ProcessInputStream` as a subclass of `BufferedInputStream`; `fuel` bounds the calls of `fillBuffer` by one call
of `read`. -/
def producer (P : StreamOps σ UInt8) (E : Pipes κ) (fuel : Nat) : Producer (State σ κ) UInt8 where
  fill := fill P E
  fuel _ := fuel

/-- `ProcessInputStream` as a stream. -/
def ops (P : StreamOps σ UInt8) (E : Pipes κ) (fuel : Nat) : StreamOps (BufferedStream (State σ κ) UInt8) UInt8 :=
  BufferedStream.ops (producer P E fuel)

/-- The system calls of the destructor; `kill a b` is the call `kill(a, b)`, which sends signal `b` to process `a`. -/
inductive Call
  | closeIn
  | closeOut
  | kill (pid sig : Int)
  | wait (pid : Int)
deriving DecidableEq, Repr

/-- processinputstream.cpp:58-69: the destructor.  `SIGTERM` is 15. -/
def destroy (s : State σ κ) (pid : Int) : List Call :=
  (if s.fdin then [.closeIn] else []) ++ (if s.fdout then [.closeOut] else []) ++
    if pid ≠ -1 then [.kill 15 pid, .wait pid] else []

end Process
end Strigi
