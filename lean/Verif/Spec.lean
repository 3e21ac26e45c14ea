import Verif.Base

/-!
# Specification of the stream interface

This file is the *specification*: what a user of `StreamBase<T>` (include/strigi/streambase.h:113-192)
may rely on.  It does not refer to any implementation.

A stream over a content `c` (a list of items) is used through `read`, `skip` and `reset`, and observed
through `position()`, `size()` and `status()`.
-/

namespace Strigi

/-- The virtual interface of `StreamBase<T>` (streambase.h:65-98, 151, 165, 191).

`read s min max` returns the new state, the returned count and the items that the pointer `start`
refers to (empty unless the count is positive). -/
structure StreamOps (σ α : Type) where
  read : σ → Int → Int → Res (σ × Int × List α)
  skip : σ → Int → Res (σ × Int)
  reset : σ → Int → Res (σ × Int)
  position : σ → Int
  size : σ → Int
  status : σ → Status

/-- One call by the user of a stream. -/
inductive Op
  | read (min max : Int)
  | skip (n : Int)
  | reset (q : Int)
deriving DecidableEq, Repr

/-- Which operations of a stream are allowed to fail. -/
structure Failure where
  onRead : Prop
  onSkip : Prop

/-- The stream never fails. -/
def Failure.never : Failure := ⟨False, False⟩
/-- The stream may fail at any time. -/
def Failure.always : Failure := ⟨True, True⟩

/-- The documented result of `read(start, min, max)` at position `p` (streambase.h:118-151),
for `min ≥ 1` and `max` either `0` (no limit) or `≥ min`:

* data: exactly the items of the content at the old position, the position advances by their number,
  no more than `max`, and at least `min` unless the end of the content is reached; or
* the end had been reached before: nothing is returned (`-1`; some streams return `0`); or
* an error: the status is `Error` and the result is below `-1`. -/
inductive ReadOk {α : Type} (c : List α) (F : Failure) (p min max : Int)
    (n : Int) (d : List α) (p' : Int) (st' : Status) : Prop
  | data (pos : 0 < n) (items : d = slice c p n) (inside : p + n ≤ c.length) (adv : p' = p + n)
      (limit : max ≠ 0 → n ≤ max) (enough : min ≤ n ∨ p + n = c.length) (st : st' ≠ .error)
  | ended (none : n = -1 ∨ n = 0) (nodata : d = []) (atEnd : p = c.length) (stay : p' = p)
      (st : st' = .eof)
  | failed (allowed : F.onRead) (code : n < -1) (st : st' = .error)

/-- The result of `skip(n)` at position `p`, `0 ≤ n < 2^31` (streambase.h:152-165): the position
advances by `n` but not past the end, and the result is the number of items skipped (at the end of
the stream some streams return `-1` instead of `0`). -/
inductive SkipOk {α : Type} (c : List α) (F : Failure) (p n r p' : Int) (st' : Status) : Prop
  | skipped (adv : p' = min (p + n) c.length) (res : r = p' - p ∨ (r = -1 ∧ p' = p ∧ p = c.length))
      (st : st' ≠ .error)
  | failed (allowed : F.onSkip) (st : st' = .error)

variable {σ α : Type}

/-- What can be observed of a healthy stream over content `c` at any moment: the position lies in the
resettable window `[lo, hi]` inside the content, the status is not `Error`, it is `Eof` only at the end,
and the size is either not known (`-1`) or right (a stream that may fail may have declared a wrong
size). -/
def Healthy (ops : StreamOps σ α) (c : List α) (F : Failure) (s : σ) (lo hi : Int) : Prop :=
  0 ≤ lo ∧ lo ≤ ops.position s ∧ ops.position s ≤ hi ∧ hi ≤ c.length ∧
  ops.status s ≠ .error ∧ (ops.status s = .eof → ops.position s = c.length) ∧
  (ops.size s = -1 ∨ ops.size s = c.length ∨ F.onRead)

/-- `Behaves ops c F soft s lo hi l`: started in state `s`, the stream behaves like a stream over the
content `c` during the calls `l`, up to the first reported error.

`[lo, hi]` is the range of positions that belong to the data handed out by the last `read`, for which
`reset` is guaranteed to succeed (streambase.h:166-191).  If `soft` holds, resets to all other
positions of the stream are tolerated: they either succeed or leave the position as it is.  Calls that
violate the documented preconditions end the guarantee. -/
def Behaves (ops : StreamOps σ α) (c : List α) (F : Failure) (soft : Prop) :
    σ → Int → Int → List Op → Prop
  | s, lo, hi, [] => Healthy ops c F s lo hi
  | s, lo, hi, op :: l =>
      Healthy ops c F s lo hi ∧
      match op with
      | .read min max =>
          1 ≤ min → (max = 0 ∨ min ≤ max) →
          ∃ s' n d, ops.read s min max = .ok (s', n, d) ∧
            ReadOk c F (ops.position s) min max n d (ops.position s') (ops.status s') ∧
            (ops.status s' ≠ .error →
              Behaves ops c F soft s' (ops.position s) (ops.position s') l)
      | .skip k =>
          0 ≤ k → k < 2 ^ 31 →
          ∃ s' r, ops.skip s k = .ok (s', r) ∧
            SkipOk c F (ops.position s) k r (ops.position s') (ops.status s') ∧
            (ops.status s' ≠ .error →
              Behaves ops c F soft s' (ops.position s') (ops.position s') l)
      | .reset q =>
          (lo ≤ q → q ≤ hi →
            ∃ s', ops.reset s q = .ok (s', q) ∧ ops.position s' = q ∧ ops.status s' ≠ .error ∧
              (q ≤ ops.position s → Behaves ops c F soft s' lo hi l) ∧
              Behaves ops c F soft s' q q l) ∧
          (soft → 0 ≤ q → q ≤ c.length →
            ∃ s' r, ops.reset s q = .ok (s', r) ∧ ops.position s' = r ∧
              (r = q ∨ r = ops.position s) ∧ ops.status s' ≠ .error ∧
              Behaves ops c F soft s' r r l)

/-- The stream `s` is a stream over content `c`, whatever calls are made: the whole contract of
`StreamBase<T>`. -/
def IsStream (ops : StreamOps σ α) (c : List α) (F : Failure) (soft : Prop) (s : σ) : Prop :=
  ∀ l : List Op, Behaves ops c F soft s (ops.position s) (ops.position s) l

/-- `Reaches ops s₀ s lo hi`: the state `s` is reached from `s₀` by some calls that respect the documented
preconditions and reported no error; `[lo, hi]` is the range of positions for which `reset` is
guaranteed to succeed now. -/
inductive Reaches (ops : StreamOps σ α) (s₀ : σ) : σ → Int → Int → Prop
  | start : Reaches ops s₀ s₀ (ops.position s₀) (ops.position s₀)
  | read {s s' : σ} {lo hi mn mx n : Int} {d : List α} : Reaches ops s₀ s lo hi → 1 ≤ mn → (mx = 0 ∨ mn ≤ mx) →
      ops.read s mn mx = .ok (s', n, d) → ops.status s' ≠ .error →
      Reaches ops s₀ s' (ops.position s) (ops.position s')
  | skip {s s' : σ} {lo hi k r : Int} : Reaches ops s₀ s lo hi → 0 ≤ k → k < 2 ^ 31 →
      ops.skip s k = .ok (s', r) → ops.status s' ≠ .error →
      Reaches ops s₀ s' (ops.position s') (ops.position s')
  | back {s s' : σ} {lo hi q r : Int} : Reaches ops s₀ s lo hi → lo ≤ q → q ≤ ops.position s →
      ops.reset s q = .ok (s', r) → Reaches ops s₀ s' lo hi
  | reset {s s' : σ} {lo hi q r : Int} : Reaches ops s₀ s lo hi → lo ≤ q → q ≤ hi →
      ops.reset s q = .ok (s', r) → Reaches ops s₀ s' q q

/-- Make the calls `l` one after the other, whatever they return. -/
def run (ops : StreamOps σ α) : σ → List Op → Res σ
  | s, [] => .ok s
  | s, .read mn mx :: l => do let (s', _, _) ← ops.read s mn mx; run ops s' l
  | s, .skip n :: l => do let (s', _) ← ops.skip s n; run ops s' l
  | s, .reset q :: l => do let (s', _) ← ops.reset s q; run ops s' l

/-- The state after one call. -/
def Op.exec (ops : StreamOps σ α) (s : σ) : Op → Res σ
  | .read mn mx => do let (s', _, _) ← ops.read s mn mx; .ok s'
  | .skip n => do let (s', _) ← ops.skip s n; .ok s'
  | .reset q => do let (s', _) ← ops.reset s q; .ok s'

/-- Make the calls `l` one after the other, stopping at the first reported error. -/
def runUntilError (ops : StreamOps σ α) : σ → List Op → Res σ
  | s, [] => .ok s
  | s, op :: l =>
    if ops.status s = .error then .ok s
    else do let s' ← op.exec ops s; runUntilError ops s' l

/-- Calls that respect the documented preconditions on a stream over content `c`. -/
def Admissible (c : List α) : Op → Prop
  | .read mn mx => 1 ≤ mn ∧ (mx = 0 ∨ mn ≤ mx)
  | .skip k => 0 ≤ k ∧ k < 2 ^ 31
  | .reset q => 0 ≤ q ∧ q ≤ c.length

/-- Reading with a list of `(min, max)` arguments; the data is collected until a read returns
nothing. -/
def readAll (ops : StreamOps σ α) : σ → List (Int × Int) → Res (σ × List α)
  | s, [] => .ok (s, [])
  | s, (mn, mx) :: l => do
      let (s', n, d) ← ops.read s mn mx
      if n ≤ 0 then .ok (s', []) else
      let (s'', d') ← readAll ops s' l
      .ok (s'', d ++ d')

end Strigi
