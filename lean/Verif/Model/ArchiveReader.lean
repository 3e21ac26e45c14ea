import Verif.Model.DirLister
import Verif.Model.CLib

/-!
# Model of `ArchiveReader` (lib/archivereader.cpp) with one `StreamOpener`

The `StreamOpener` is given by what it opens and what it tells about urls.  A stream is represented by
the contents of the archive that it is (`nil` if it is none), see `Contents`; a substream provider by the entries
from its current one on.
-/

namespace Strigi
namespace Reader

/-- A `StreamOpener` (include/strigi/archivereader.h:34-64). -/
structure Opener where
  /-- `openStream(url)`: the contents of the file; nothing for a null pointer. -/
  openStream : List UInt8 → Option Contents
  /-- `stat(url, e)`: nothing for -1. -/
  stat : List UInt8 → Option Attr

/-- The characters of `s.c_str()` up to the terminating zero. -/
abbrev czstr (s : List UInt8) : List UInt8 := cName s

/-- `strncmp(a, b, n) == 0`. -/
def strnEq (a b : List UInt8) (n : Nat) : Bool := (czstr a).take n = (czstr b).take n

/-- The loop of archivereader.cpp:218-222.  `p` is the position of a slash, `parts` is `partpos`. -/
def cullLoop (fs : Opener) (url : List UInt8) : Nat → Option Nat → Option Contents → List Nat →
    Res (Option Contents × List Nat)
  | 0, _, _, _ => .diverge
  | fuel + 1, p, stream, parts =>
    match p, stream with
    | some p, none =>
      if p = 0 then .ok (none, parts)
      else
        cullLoop fs url fuel (Listing.rfindSlash (url.take p)) (fs.openStream (url.take p)) (parts ++ [p + 1])
    | _, _ => .ok (stream, parts)

/-- archivereader.cpp:212-224 `cullName`. `url.rfind('/', p-1)` is the last slash of the first `p` characters. -/
def cullName (fs : Opener) (url : List UInt8) : Res (Option Contents × List Nat) :=
  cullLoop fs url (url.length + 1) (Listing.rfindSlash url) (fs.openStream url) []

/-- archivereader.cpp:262-265: the test of an entry at position `i` of the url. -/
def fits (url : List UInt8) (i : Nat) (a : Attr) : Bool :=
  a.isFile && !a.isDir && decide (a.filename.length < url.length) &&
    strnEq a.filename (url.drop i) a.filename.length

/-- archivereader.cpp:258-282, the loop over the entries of a provider: the first that fits. -/
def firstFit (url : List UInt8) (i : Nat) : Contents → Contents
  | .nil => .nil
  | .entry a len sub rest => if fits url i a then .entry a len sub rest else firstFit url i rest

/-- archivereader.cpp:246-283: `parts` are the remaining positions in ascending order, `c` is what
`substream` contains.  The result is the provider, positioned.  Matched parts are skipped (267-271); if there are
no more parts this is it (272-276); otherwise the entry itself is opened as an archive. -/
def openLoop (url : List UInt8) : Nat → List Nat → Contents → Res (Option Contents)
  | 0, _, _ => .diverge
  | _, [], _ => .ok none
  | fuel + 1, i :: parts, c =>
    match firstFit url i c with
    | .nil => .ok none
    | .entry a len sub rest =>
      match parts.dropWhile (· < i + a.filename.length) with
      | [] => .ok (some (.entry a len sub rest))
      | parts => openLoop url fuel parts sub

/-- archivereader.cpp:230-290 `positionedProvider`. -/
def positionedProvider (fs : Opener) (url : List UInt8) : Res (Option Contents) := do
  match ← cullName fs url with
  | (none, _) => .ok none
  | (some c, parts) => openLoop url (parts.length + 1) parts.reverse c

/-- What `openStream` returns: a file that the opener opened, or the current entry of a provider. -/
inductive Opened
  | file (c : Contents)
  | entry (p : Contents)
deriving DecidableEq, Repr

/-- archivereader.cpp:389-400 `openStream`. -/
def openStream (fs : Opener) (url : List UInt8) : Res (Option Opened) :=
  match fs.openStream url with
  | some c => .ok (some (.file c))
  | none => do
    let p ← positionedProvider fs url
    .ok (p.map .entry)

/-! ## `stat` -/

/-- A pointer to a root entry of the cache; `alive` tells whether the entry was not deleted. -/
structure Cached where
  attr : Attr
  alive : Bool := true

/-- `std::map::erase(key)`. -/
def mapErase {β : Type} (k : Name) (m : List (Name × β)) : List (Name × β) := m.filter fun x => x.1 ≠ k

/-- `delete rse`: all pointers to the entry are dangling; here the one that is stored under `k`. -/
def free (k : Name) (m : List (Name × Cached)) : List (Name × Cached) :=
  m.map fun x => if x.1 = k then (x.1, { x.2 with alive := false }) else x

/-- archivereader.cpp:337-345: is the file an archive? -/
def probe (fs : Opener) (url : List UInt8) (e : Attr) : Attr :=
  match fs.openStream url with
  | none => e
  | some .nil => e
  | some (.entry ..) => { e with isDir := true, isFile := true }

/-- archivereader.cpp:303-360 `localStat` while no listing of `url` is in progress.  The first part of the result
is the entry (nothing for -1).  To read a deleted entry is undefined behaviour. -/
def localStat (fs : Opener) (cache : List (Name × Cached)) (url : List UInt8) :
    Res (Option Attr × List (Name × Cached)) :=
  match fs.stat url with
  | none => .ok (none, cache)
  | some e =>
    if e.isFile = false then .ok (some e, cache)
    else
      match mapFind url cache with
      | none => .ok (some (probe fs url e), cache)
      | some c =>
        if c.alive = false then .fault .undefined
        else if c.attr.mtime = e.mtime then .ok (some { e with isDir := c.attr.isDir, isFile := c.attr.isFile }, cache)
        else .ok (some (probe fs url e), mapErase c.attr.filename (free url cache))

/-- archivereader.cpp:416-423 `isArchive`. -/
def isArchive (fs : Opener) (cache : List (Name × Cached)) (url : List UInt8) :
    Res (Bool × List (Name × Cached)) := do
  let r ← localStat fs cache url
  match r.1 with
  | none => .ok (false, r.2)
  | some e => .ok (e.isFile || e.isDir, r.2)

/-- The loop of archivereader.cpp:494-497; `r` is the result of the last `localStat`. -/
def handleLoop (fs : Opener) (url : List UInt8) : Nat → Option Nat → Option Attr → List (Name × Cached) →
    Res (Option Attr × List (Name × Cached))
  | 0, _, _, _ => .diverge
  | fuel + 1, p, r, cache =>
    match p, r with
    | some p, none =>
      if p = 0 then .ok (r, cache)
      else do
        let r' ← localStat fs cache (url.take p)
        handleLoop fs url fuel (Listing.rfindSlash (url.take p)) r'.1 r'.2
    | _, _ => .ok (r, cache)

/-- archivereader.cpp:486-499 `canHandle`. -/
def canHandle (fs : Opener) (cache : List (Name × Cached)) (url : List UInt8) : Res Bool := do
  let r ← localStat fs cache url
  let r' ← handleLoop fs url (url.length + 1) (Listing.rfindSlash url) r.1 r.2
  match r'.1 with
  | none => .ok false
  | some e => .ok (e.isFile && e.isDir)

/-! ## Reading the entries of a new reader -/

/-- archivereader.cpp:382-387: go through the lister until an entry has the name (a name without zero bytes). -/
def statLoop (fuel n : Nat) (lurl parent : List UInt8) (name : List UInt8) : Nat → Listing.Lister → Listing.State →
    Res (Option Attr)
  | 0, _, _ => .diverge
  | m + 1, l, s => do
    let r ← l.next fuel n lurl parent s
    match r.2.2 with
    | none => .ok none
    | some e => if e.filename = name then .ok (some e) else statLoop fuel n lurl parent name m r.1 r.2.1

/-- archivereader.cpp:454-458: the name of the physical file. -/
def fileOf (url : List UInt8) (parts : List Nat) : List UInt8 :=
  match parts.getLast? with
  | none => url
  | some l => url.take (l - 1)

/-- archivereader.cpp:366-388 `stat`, with 434-485 `dirEntries`, of a reader that was not used before: the cache
and the list of listings are empty.  `fuel`, `n`, `m` bound loops. -/
def statNew (fuel n m : Nat) (fs : Opener) (url : List UInt8) : Res (Option Attr) := do
  let r ← localStat fs [] url
  match r.1 with
  | some e => .ok (some e)
  | none =>
    match Listing.rfindSlash url with
    | none => .ok none
    | some pos =>
      let parent := url.take pos
      match ← cullName fs parent with
      | (none, _) => .ok none
      | (some c, parts) => do
        let file := fileOf parent parts
        let e ← localStat fs [] file
        let name := url.drop (pos + 1)
        statLoop fuel n file parent name m {} (Listing.State.new (e.1.getD {}) c)

/-! ## Copies and assignments of `DirLister` -/

/-- What happens to the objects that refer to one `ListingInProgress`: a `DirLister` is constructed from it, is
copied (archivereader.cpp:118-120), or is destroyed. -/
inductive RefEvent
  | construct
  | copy
  | destroy
deriving DecidableEq, Repr

/-- The reference count, and whether the listing was deleted. -/
structure RefState where
  count : Int
  deleted : Bool := false
deriving DecidableEq, Repr

/-- archivereader.cpp:47-50 (`listing->ref()`), 118-120 (the implicit copy of `Private` does not call
`ref()`), 51-53 (`unref()`, and deletion if it returns true; listinginprogress.h:92-93). -/
def refStep (s : RefState) : RefEvent → Res RefState
  | .construct => if s.deleted then .fault .undefined else .ok { s with count := s.count + 1 }
  | .copy => .ok s
  | .destroy =>
    if s.deleted then .fault .undefined
    else .ok ⟨s.count - 1, decide (s.count - 1 = 0)⟩

/-- A sequence of events. -/
def refRun : List RefEvent → RefState → Res RefState
  | [], s => .ok s
  | e :: l, s => do refRun l (← refStep s e)

/-- archivereader.cpp:54-62 `operator=`: everything but the url (which is constant) is taken over. The pair
is the url and the rest. -/
def assign (own other : List UInt8 × Listing.Lister) : List UInt8 × Listing.Lister := (own.1, other.2)

end Reader
end Strigi
