import Verif.Model.ReaderHistory

/-!
# Specification of the use of an `ArchiveReader` over time
-/

namespace Strigi

open Reader (Opener Call)

/-- What an `ArchiveReader` can rely on if its files do not change: of the parts of a url that end before a slash (and
the url itself) the opener opens at most one, and not the empty one; archives are nested at most nine deep,
and have at most `B` entries. -/
structure Steady (fs : Opener) (B : Nat) : Prop where
  one : ∀ url k k', Ancestor k url → Ancestor k' url → fs.openStream k ≠ none → fs.openStream k' ≠ none → k = k'
  empty : fs.openStream [] = none
  small : ∀ k c, fs.openStream k = some c → c.depth ≤ 9 ∧ c.count ≤ B

/-- The names of the entries that were returned. -/
def namesOf (outs : List (Option Attr)) : List Name := outs.filterMap fun o => o.map Attr.filename

/-- The results of the calls of a `DirLister` (nothing stands for `false`) deliver the names that are `shown`: each at
most once, no others, all of them before the first `false`, and after that only `false`; and it comes to that. -/
structure Delivers (shown : Name → Prop) (outs : List (Option Attr)) : Prop where
  distinct : (namesOf outs).Nodup
  over : ∀ o1 o2, outs = o1 ++ none :: o2 → ∀ o ∈ o2, o = none
  sound : ∀ k ∈ namesOf outs, shown k
  complete : none ∈ outs → ∀ k, shown k → k ∈ namesOf outs
  ends : ∀ ks : List Name, (∀ k, shown k → k ∈ ks) → ks.length < outs.length → none ∈ outs

/-- `url` is the path `path` in the archive with the contents `c`. -/
def InArchive (fs : Opener) (url : Name) (c : Contents) (path : List Name) : Prop :=
  ∃ k, fs.openStream k = some c ∧ UrlOf k url path

/-- What the complete listing of the archive `c` shows in the directory `path`. -/
def shownIn (c : Contents) (path : List Name) (k : Name) : Prop := shownAt (c.entries []).reverse (path ++ [k]) ≠ none

/-- What `stat` tells of a file of the opener: what the opener tells, and archives are also directories. -/
def statOf (fs : Opener) (url : Name) (e : Attr) : Attr :=
  if e.isFile = true ∧ (fs.openStream url ≠ none ∧ fs.openStream url ≠ some .nil) then
    { e with isDir := true }
  else e

/-- What `stat` returns if the files do not change: for a file of the opener `statOf`; for something in an archive an
entry with the name that was asked for if the complete listing shows it, and nothing otherwise; nothing for all
else. -/
structure StatResult (fs : Opener) (url : Name) (o : Option Attr) : Prop where
  file : ∀ e, fs.stat url = some e → o = some (statOf fs url e)
  entry : fs.stat url = none → ∀ parent name c path, url = parent ++ 47 :: name → (47 : UInt8) ∉ name → (0 : UInt8) ∉ name →
    InArchive fs parent c path → (∀ a, o = some a → a.filename = name) ∧ (o ≠ none ↔ shownIn c path name)
  nothing : fs.stat url = none → (∀ k, Ancestor k url → fs.openStream k = none) → o = none

/-- The urls for which `dirEntries` was called, in order. -/
def openedUrls (calls : List Call) : List Name :=
  calls.filterMap fun c => match c with
    | .dirEntries u => some u
    | _ => none

/-- The results of the calls of `nextEntry` of the `DirLister` number `i`, in order. -/
def resultsOf (i : Nat) (calls : List Call) (outs : List (Option Attr)) : List (Option Attr) :=
  ((calls.zip outs).filter fun x => decide (x.1 = .next i)).map fun x => x.2

/-- Calls for new listings. -/
def Asks : Call → Prop
  | .dirEntries _ => True
  | .stat _ => True
  | _ => False

/-- A `DirLister` is used after it was returned, and is asked for its first entry before `dirEntries` or
`stat` is called again. -/
structure Diligent (calls : List Call) : Prop where
  known : ∀ pre i post, calls = pre ++ .next i :: post → i < (openedUrls pre).length
  first : ∀ pre c post, calls = pre ++ c :: post → Asks c → ∀ i, i < (openedUrls pre).length → .next i ∈ pre

end Strigi
