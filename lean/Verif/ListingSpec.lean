import Verif.Base

/-!
# Specification of listings of archives

What a listing of an archive shows.  Independent of the tree that the library keeps.
-/

namespace Strigi

/-- A component of a path. -/
abbrev Name := List UInt8

/-- What is known of an entry (`struct EntryInfo`, include/strigi/substreamprovider.h:32-57, without the
properties).  `type` is a set of flags. -/
structure Attr where
  filename : List UInt8 := []
  size : Int := -1
  mtime : Int := 0
  isDir : Bool := false
  isFile : Bool := false
deriving DecidableEq, Repr

/-- The components of a path: the parts between the slashes.  There is always at least one. -/
def components : List UInt8 → List Name
  | [] => [[]]
  | b :: l =>
    if b = 47 then [] :: components l
    else match components l with
      | [] => [[b]]
      | c :: cs => (b :: c) :: cs

/-- A path from its components. -/
def joinPath : List Name → List UInt8
  | [] => []
  | [c] => c
  | c :: cs => c ++ 47 :: joinPath cs

/-- The entry that is shown for a directory that the archive does not mention. -/
def impliedDir (n : Name) : Attr := { filename := n, size := 0, isDir := true }

/-- What is shown at the path `q` (not empty) after the entries `h` were added (the newest one comes first):
the last entry added at this path; failing that a directory if something was added below it; and an entry
that is added hides everything that was added before below its path. -/
def shownAt : List (List Name × Attr) → List Name → Option Attr
  | [], _ => none
  | (p, a) :: h, q =>
    if q = p then some { a with filename := p.getLast?.getD [] }
    else if p <+: q then none
    else if q <+: p then (shownAt h q).or (some (impliedDir (q.getLast?.getD [])))
    else shownAt h q

/-- The contents of an archive: its entries one after the other, each with the contents of the archive that
it is itself, if so (`nil` otherwise), and the number of bytes of its stream. -/
inductive Contents
  | nil
  | entry (a : Attr) (len : Int) (sub : Contents) (rest : Contents)
deriving DecidableEq, Repr

/-- The entry as it is shown: an archive is also a directory; a size that the archive does not tell is
counted. -/
def shownAttr (a : Attr) (len : Int) (sub : Contents) : Attr :=
  { a with
    isDir := a.isDir || decide (sub ≠ .nil)
    size := if a.size < 0 then max len 0 else a.size }

/-- All entries of an archive and of the archives nested in it, in the order of the archive, with their full
paths. -/
def Contents.entries : Contents → List Name → List (List Name × Attr)
  | .nil, _ => []
  | .entry a len sub rest, pre =>
    (pre ++ components a.filename, shownAttr a len sub) ::
      (sub.entries (pre ++ components a.filename) ++ rest.entries pre)

/-- How deep archives are nested: an archive without archives in it has depth 1. -/
def Contents.depth : Contents → Nat
  | .nil => 0
  | .entry _ _ sub rest => max (sub.depth + 1) rest.depth

/-- The number of entries of an archive and of the archives nested in it. -/
def Contents.count : Contents → Nat
  | .nil => 0
  | .entry _ _ sub rest => sub.count + rest.count + 1

/-- What is known of the entries of an archive (without those of nested archives). -/
def Contents.attrs : Contents → List Attr
  | .nil => []
  | .entry a _ _ rest => a :: rest.attrs

/-- A name up to its first zero byte. -/
def cName (s : List UInt8) : List UInt8 := s.takeWhile (· ≠ 0)

/-- The path starts with the name of a plain file. -/
def NamedBy (path : List UInt8) (a : Attr) : Prop :=
  a.isFile = true ∧ a.isDir = false ∧ cName a.filename <+: path

/-- `EntryPath c path x`: in the archive `c` the path `path` leads to the entry with which `x` begins: it is an
entry of `c` with this name, or it is in a nested archive that is an entry of `c`; and no plain file before
that entry has a name with which the path starts.  The names do not end with a slash. -/
inductive EntryPath : Contents → List UInt8 → Contents → Prop
  | skip {a : Attr} {len : Int} {sub rest : Contents} {path : List UInt8} {x : Contents}
      (h : ¬ NamedBy path a) (hr : EntryPath rest path x) :
      EntryPath (.entry a len sub rest) path x
  | here {a : Attr} {len : Int} {sub rest : Contents} (h1 : a.isFile = true) (h2 : a.isDir = false)
      (h3 : a.filename.getLast? ≠ some 47) :
      EntryPath (.entry a len sub rest) a.filename (.entry a len sub rest)
  | inside {a : Attr} {len : Int} {sub rest : Contents} {path : List UInt8} {x : Contents}
      (h1 : a.isFile = true) (h2 : a.isDir = false) (h3 : a.filename.getLast? ≠ some 47)
      (hs : EntryPath sub path x) :
      EntryPath (.entry a len sub rest) (a.filename ++ 47 :: path) x

/-- The paths of the entries of an archive (not those of nested archives), in their order. -/
def topPaths : Contents → List (List Name)
  | .nil => []
  | .entry a _ _ rest => components a.filename :: topPaths rest

/-- The archive mentions a directory at or above `path`, if at all, before everything else at, above or
below `path`: nothing that was listed is hidden later. -/
def Orderly (c : Contents) (path : List Name) : Prop :=
  ∀ t1 x t2, topPaths c = t1 ++ x :: t2 → x <+: path → ∀ y ∈ t1, ¬ y <+: path ∧ ¬ path <+: y

/-- `k` is the url itself, or a part of it that ends before a slash. -/
def Ancestor (k url : List UInt8) : Prop := k = url ∨ ∃ rest, url = k ++ 47 :: rest

/-- The url of the entry `path` of the archive with the url `lurl`. -/
def UrlOf (lurl url : List UInt8) (path : List Name) : Prop :=
  (url = lurl ∧ path = []) ∨ ∃ rest, url = lurl ++ 47 :: rest ∧ path = components rest

end Strigi
