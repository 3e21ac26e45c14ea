import Verif.Spec

/-!
# Specification of archive iteration

What a user of `SubStreamProvider` (include/strigi/substreamprovider.h) relies on: repeated calls of
`nextEntry()` present the entries of the archive one after the other, whatever the user does with the
entry streams in between.  This file does not refer to any archive format.
-/

namespace Strigi

/-- include/strigi/substreamprovider.h:51-55 `EntryInfo::Type` -/
inductive EntryType
  | unknown | dir | file
deriving DecidableEq, Repr

/-- include/strigi/substreamprovider.h:32-59 `struct EntryInfo` (the property map is not modelled: no
provider in the library that is modelled fills it). -/
structure EntryInfo where
  filename : List UInt8 := []
  size : Int := -1
  mtime : Int := 0
  type : EntryType := .unknown
deriving DecidableEq, Repr

/-- The virtual interface of `SubStreamProvider` (substreamprovider.h:69-160) for providers whose entry
streams have the state space `ε` and deliver bytes.

The entry stream lives inside the provider; `setEntry` replaces its state by the state that results from
the calls a client makes on it. -/
structure ProviderOps (π ε : Type) where
  nextEntry : π → Res π
  entry : π → Option ε
  setEntry : π → ε → π
  info : π → EntryInfo
  status : π → Status
  stream : StreamOps ε UInt8

/-- One entry of an archive as the user sees it. -/
structure ArchiveEntry where
  info : EntryInfo
  content : List UInt8
deriving DecidableEq, Repr

/-- `Uses ops c soft s₀ s`: a client that respects the documented preconditions brought the stream from
state `s₀` to state `s` by any number of reads, skips and resets.  If `soft` holds, the client may also
reset to any position of the stream. -/
inductive Uses {σ α : Type} (ops : StreamOps σ α) (c : List α) (soft : Prop) (s₀ : σ) :
    σ → Int → Int → Prop
  | start : Uses ops c soft s₀ s₀ (ops.position s₀) (ops.position s₀)
  | read {s s' : σ} {lo hi mn mx n : Int} {d : List α} : Uses ops c soft s₀ s lo hi → 1 ≤ mn →
      (mx = 0 ∨ mn ≤ mx) → ops.read s mn mx = .ok (s', n, d) →
      Uses ops c soft s₀ s' (ops.position s) (ops.position s')
  | skip {s s' : σ} {lo hi k r : Int} : Uses ops c soft s₀ s lo hi → 0 ≤ k → k < 2 ^ 31 →
      ops.skip s k = .ok (s', r) → Uses ops c soft s₀ s' (ops.position s') (ops.position s')
  | back {s s' : σ} {lo hi q r : Int} : Uses ops c soft s₀ s lo hi → lo ≤ q → q ≤ ops.position s →
      ops.reset s q = .ok (s', r) → Uses ops c soft s₀ s' lo hi
  | reset {s s' : σ} {lo hi q r : Int} : Uses ops c soft s₀ s lo hi → lo ≤ q → q ≤ hi →
      ops.reset s q = .ok (s', r) → Uses ops c soft s₀ s' q q
  | jump {s s' : σ} {lo hi q r : Int} : Uses ops c soft s₀ s lo hi → soft → 0 ≤ q → q ≤ c.length →
      ops.reset s q = .ok (s', r) → Uses ops c soft s₀ s' r r

/-- After the end: `nextEntry()` returns no stream, the status is `st`, and it stays so however often
`nextEntry()` is called. -/
def Finished {π ε : Type} (A : ProviderOps π ε) (st : Status) (p : π) : Prop :=
  A.entry p = none ∧ A.status p = st ∧ A.nextEntry p = .ok p

/-- Iterating the provider in state `p` presents exactly the entries `l`, in this order, and then ends
with status `last`:

* each `nextEntry()` returns a stream that delivers exactly the content of the entry (the whole stream
  contract holds for it) and sets the entry information;
* this holds whatever the client did with the previous entry streams;
* after the last entry `nextEntry()` returns no stream, for good. -/
def Presents {π ε : Type} (A : ProviderOps π ε) (F : Failure) (soft : Prop) (last : Status) :
    π → List ArchiveEntry → Prop
  | p, [] => ∃ p', A.nextEntry p = .ok p' ∧ Finished A last p'
  | p, e :: l => ∃ p' es, A.nextEntry p = .ok p' ∧ A.entry p' = some es ∧ A.info p' = e.info ∧
      A.status p' = .ok ∧ A.stream.position es = 0 ∧ A.stream.size es = e.info.size ∧
      IsStream A.stream e.content F soft es ∧
      ∀ es' lo hi, Uses A.stream e.content soft es es' lo hi →
        Presents A F soft last (A.setEntry p' es') l

end Strigi
