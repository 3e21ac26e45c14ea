import Verif.ArchiveSpec

/-!
# Specification of what an archive shows if its last bytes are missing

Downloads break off and disks fill up: the input of an archive may end anywhere.  This file says what a user can
see in that case; it does not refer to any archive format.
-/

namespace Strigi

variable {σ α π ε : Type}

/-- The stream says so when it cannot deliver what was asked for: after a read that returned less than `min` items its
status is not `Ok` any more. -/
def Prompt (P : StreamOps σ α) : Prop :=
  ∀ (s s' : σ) (mn mx n : Int) (d : List α), 1 ≤ mn → (mx = 0 ∨ mn ≤ mx) → P.read s mn mx = .ok (s', n, d) → n < mn →
    P.status s' ≠ .ok

/-- `Tries ops c soft s₀ s lo hi`: a client that respects the documented preconditions, and does not use the stream any
more after it has reported an error, brought it from state `s₀` to state `s` by any number of reads, skips and resets.
(The last of these calls may have failed.) -/
inductive Tries (ops : StreamOps σ α) (c : List α) (soft : Prop) (s₀ : σ) : σ → Int → Int → Prop
  | start : Tries ops c soft s₀ s₀ (ops.position s₀) (ops.position s₀)
  | read {s s' : σ} {lo hi mn mx n : Int} {d : List α} : Tries ops c soft s₀ s lo hi → ops.status s ≠ .error → 1 ≤ mn →
      (mx = 0 ∨ mn ≤ mx) → ops.read s mn mx = .ok (s', n, d) →
      Tries ops c soft s₀ s' (ops.position s) (ops.position s')
  | skip {s s' : σ} {lo hi k r : Int} : Tries ops c soft s₀ s lo hi → ops.status s ≠ .error → 0 ≤ k → k < 2 ^ 31 →
      ops.skip s k = .ok (s', r) → Tries ops c soft s₀ s' (ops.position s') (ops.position s')
  | back {s s' : σ} {lo hi q r : Int} : Tries ops c soft s₀ s lo hi → ops.status s ≠ .error → lo ≤ q →
      q ≤ ops.position s → ops.reset s q = .ok (s', r) → Tries ops c soft s₀ s' lo hi
  | reset {s s' : σ} {lo hi q r : Int} : Tries ops c soft s₀ s lo hi → ops.status s ≠ .error → lo ≤ q → q ≤ hi →
      ops.reset s q = .ok (s', r) → Tries ops c soft s₀ s' q q
  | jump {s s' : σ} {lo hi q r : Int} : Tries ops c soft s₀ s lo hi → ops.status s ≠ .error → soft → 0 ≤ q →
      q ≤ c.length → ops.reset s q = .ok (s', r) → Tries ops c soft s₀ s' r r

/-- The next `nextEntry()` returns no stream and sets the status `st`, for good. -/
def EndsWith (A : ProviderOps π ε) (st : Status) (p : π) : Prop := ∃ p', A.nextEntry p = .ok p' ∧ Finished A st p'

/-- Iterating the provider in state `p` presents exactly the entries `l`, in this order and whatever the client does with
the entry streams (see `Presents`), and leads to a state for which `K` holds. -/
def PresentsThen (A : ProviderOps π ε) (F : Failure) (soft : Prop) (K : π → Prop) : π → List ArchiveEntry → Prop
  | p, [] => K p
  | p, e :: l => ∃ p' es, A.nextEntry p = .ok p' ∧ A.entry p' = some es ∧ A.info p' = e.info ∧
      A.status p' = .ok ∧ A.stream.position es = 0 ∧ A.stream.size es = e.info.size ∧
      IsStream A.stream e.content F soft es ∧
      ∀ es' lo hi, Uses A.stream e.content soft es es' lo hi →
        PresentsThen A F soft K (A.setEntry p' es') l

/-- The next `nextEntry()` returns a stream with the information `i` of which only the beginning `x` of the content is
there:

* its `size()` is the size of the whole entry, and it delivers the bytes `x`, up to an error;
* no read ends with status `Eof`: who reads to the end is told that something is missing;
* whatever the client does with it up to that error leads to a state for which `K` holds. -/
def ShowsPartThen (A : ProviderOps π ε) (soft : Prop) (i : EntryInfo) (x : List UInt8) (K : π → Prop) (p : π) : Prop :=
  ∃ p' es, A.nextEntry p = .ok p' ∧ A.entry p' = some es ∧ A.info p' = i ∧ A.status p' = .ok ∧
    A.stream.position es = 0 ∧ A.stream.size es = i.size ∧
    IsStream A.stream x Failure.always soft es ∧
    ∀ es' lo hi, Tries A.stream x soft es es' lo hi →
      (A.stream.status es' ≠ .error → ∀ mn mx s n d, 1 ≤ mn → (mx = 0 ∨ mn ≤ mx) →
        A.stream.read es' mn mx = .ok (s, n, d) → A.stream.status s ≠ .eof) ∧
      K (A.setEntry p' es')

/-- The same, and the following `nextEntry()` returns no stream and sets the status `st`, for good. -/
def ShowsPart (A : ProviderOps π ε) (soft : Prop) (i : EntryInfo) (x : List UInt8) (st : Status) (p : π) : Prop :=
  ShowsPartThen A soft i x (EndsWith A st) p

/-- The next `nextEntry()` returns a stream with the information `i` that delivers the bytes `y`, or some of them and then an
error; whatever the client does with it up to that error leads to a state for which `K` holds. -/
def ShowsUpToError (A : ProviderOps π ε) (soft : Prop) (i : EntryInfo) (y : List UInt8) (K : π → Prop) (p : π) : Prop :=
  ∃ p' es, A.nextEntry p = .ok p' ∧ A.entry p' = some es ∧ A.info p' = i ∧ A.status p' = .ok ∧
    A.stream.position es = 0 ∧ A.stream.size es = i.size ∧ IsStream A.stream y Failure.always soft es ∧
    ∀ es' lo hi, Tries A.stream y soft es es' lo hi → K (A.setEntry p' es')

end Strigi
