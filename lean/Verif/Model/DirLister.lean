import Verif.Model.Listing

/-!
# Model of `ArchiveReader::DirLister` (lib/archivereader.cpp:35-136) on a `ListingInProgress`

A `DirLister` holds a pointer to an entry of the tree of the listing.  The tree only changes at the root
(`addEntry(root, …)`, listinginprogress.cpp:230, at depth 0): entries of nested archives are
added to an entry that is not yet in the tree.  An entry that is replaced by a later one with the same path
is not freed, but it cannot be reached any more.  Hence a pointer is either a path in the tree, or an
entry that changes no more.
-/

namespace Strigi
namespace Listing

/-- A `const SubEntry*` into the tree of a listing. -/
inductive Ptr
  | at (path : List Name)
  | orphan (t : Tree)

/-- `entry->entries`. -/
def Ptr.kids (root : Tree) : Ptr → List (Name × Tree)
  | .orphan t => t.kids
  | .at p => match root.get p with
    | none => []
    | some t => t.kids

/-- The file name of the entry that the listing is about to add to the root: `e->p->entryInfo()` at
depth 0. -/
def State.head (s : State) : Option (List UInt8) :=
  match s.stack with
  | ⟨.entry a _ _ _, _⟩ :: _ => some a.filename
  | _ => none

/-- What a pointer of someone is after the listing went from `s` to a state at depth `d`: if an entry was added
to the root (which is so if the depth is now 0) at the path of the pointer or above it, the pointer does not lead
to an entry of the tree any more. -/
def Ptr.after (s : State) (d : Int) : Ptr → Ptr
  | .orphan t => .orphan t
  | .at p =>
    match s.head with
    | none => .at p
    | some f =>
      if d = 0 ∧ components f <+: p then .orphan ((s.root.get p).getD (.node {} []))
      else .at p

/-- listinginprogress.cpp:238-248 `nextEntry()` while someone holds the pointer `p`. -/
def advance (fuel : Nat) (s : State) (p : Ptr) : Res (State × Ptr × Bool) := do
  let r ← nextEntry fuel s
  .ok (r.1, if s.currentdepth ≥ 0 then p.after s r.1.currentdepth else p, r.2)

/-- The loop of listinginprogress.cpp:266-269: go on until the entry has more subentries. -/
def growLoop (fuel : Nat) (size : Nat) : Nat → State → Ptr → Res (State × Ptr × Bool)
  | 0, _, _ => .diverge
  | n + 1, s, p => do
    let r ← advance fuel s p
    if r.2.2 ∧ size = (r.2.1.kids r.1.root).length then growLoop fuel size n r.1 r.2.1
    else .ok (r.1, r.2.1, decide ((r.2.1.kids r.1.root).length > size))

/-- listinginprogress.cpp:262-271 `nextEntry(const SubEntry* entry)`. -/
def grow (fuel n : Nat) (s : State) (p : Ptr) : Res (State × Ptr × Bool) :=
  if s.currentdepth < 0 then .ok (s, p, false)
  else growLoop fuel (p.kids s.root).length n s p

/-- `root->findEntry(this->url, url)` as a pointer.  The path is read from the url. -/
def findPtr (s : State) (lurl url : List UInt8) : Res (Option Ptr) := do
  match ← findBelow s.root lurl url with
  | none => .ok none
  | some _ => .ok (some (.at (components (url.drop (lurl.length + 1)))))

/-- `entry == NULL || entry->entries.size() == 0`. -/
def bare (s : State) (p : Option Ptr) : Bool :=
  match p with
  | none => true
  | some p => (p.kids s.root).length = 0

/-- The loop of listinginprogress.cpp:255-259. -/
def seekLoop (fuel : Nat) (lurl url : List UInt8) : Nat → State → Bool → Option Ptr → Res (State × Option Ptr)
  | 0, _, _, _ => .diverge
  | n + 1, s, ok, p =>
    if ok ∧ bare s p then do
      let r ← nextEntry fuel s
      let p ← findPtr r.1 lurl url
      seekLoop fuel lurl url n r.1 r.2 p
    else .ok (s, p)

/-- listinginprogress.cpp:249-261 `nextEntry(const std::string& url)`; `lurl` is the url of the
listing. -/
def seek (fuel n : Nat) (lurl url : List UInt8) (s : State) : Res (State × Option Ptr) :=
  if url = lurl then
    if s.root.kids.length ≠ 0 then .ok (s, some (.at []))
    else do
      let r ← grow fuel n s (.at [])
      .ok (r.1, if r.2.2 then some (.at []) else none)
  else do
    let p ← findPtr s lurl url
    seekLoop fuel lurl url n s true p

/-- `DirLister::Private` (archivereader.cpp:35-61) with a listing.  `done` is the set of names. -/
structure Lister where
  pos : Int := 0
  entry : Option Ptr := none
  done : List Name := []

/-- archivereader.cpp:96-110 `nextEntry()`: the first subentry that was not returned yet.  If there is none, the
end of the map is dereferenced. -/
def takeNext (l : Lister) (kids : List (Name × Tree)) : Res (Lister × Attr) :=
  match kids.find? fun x => decide (x.1 ∉ l.done) with
  | none => .fault .outOfBounds
  | some x => .ok ({ l with done := x.1 :: l.done, pos := l.pos + 1 }, x.2.attr)

/-- archivereader.cpp:63-90 `nextEntry(EntryInfo&)` with a listing; returns the entry, or nothing for
`false`. -/
def Lister.next (fuel n : Nat) (lurl url : List UInt8) (l : Lister) (s : State) :
    Res (Lister × State × Option Attr) :=
  if l.pos < 0 then .ok ({ l with pos := -1 }, s, none)
  else
    match l.entry with
    | none => do
      let r ← seek fuel n lurl url s
      match r.2 with
      | none => .ok ({ l with entry := none, pos := -1 }, r.1, none)
      | some p =>
        if (p.kids r.1.root).length ≠ 0 then do
          let t ← takeNext { l with entry := some p } (p.kids r.1.root)
          .ok ({ t.1 with pos := 1 }, r.1, some t.2)
        else .ok ({ l with entry := some p, pos := -1 }, r.1, none)
    | some p =>
      if l.pos < (p.kids s.root).length then do
        let t ← takeNext l (p.kids s.root)
        .ok (t.1, s, some t.2)
      else do
        let r ← grow fuel n s p
        if r.2.2 then do
          let t ← takeNext { l with entry := some r.2.1 } (r.2.1.kids r.1.root)
          .ok (t.1, r.1, some t.2)
        else .ok ({ l with entry := some r.2.1, pos := -1 }, r.1, none)

/-- archivereader.cpp:63-90 without a listing: the entries are known. -/
def Lister.nextStatic (entries : List Attr) (pos : Int) : Int × Option Attr :=
  if pos < 0 ∨ pos ≥ entries.length then (-1, none)
  else (pos + 1, entries[pos.toNat]?)

/-- What happens to the listing: the user calls `nextEntry` of the `DirLister`, or something else advances the
listing (another `DirLister` on the same archive). -/
inductive Event
  | call
  | other
deriving DecidableEq, Repr

/-- The results of the calls, in order. -/
def Lister.run (fuel n : Nat) (lurl url : List UInt8) : List Event → Lister → State →
    Res (Lister × State × List (Option Attr))
  | [], l, s => .ok (l, s, [])
  | .call :: ev, l, s => do
    let r ← l.next fuel n lurl url s
    let r' ← Lister.run fuel n lurl url ev r.1 r.2.1
    .ok (r'.1, r'.2.1, r.2.2 :: r'.2.2)
  | .other :: ev, l, s => do
    let r ← nextEntry fuel s
    let l' : Lister :=
      { l with entry := l.entry.map fun p => if s.currentdepth ≥ 0 then p.after s r.1.currentdepth else p }
    Lister.run fuel n lurl url ev l' r.1

end Listing
end Strigi
