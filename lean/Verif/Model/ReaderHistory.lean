import Verif.Model.ArchiveReader

/-!
# Model of the history of an `ArchiveReader` (lib/archivereader.cpp): its cache, its listings and its `DirLister`s

The state of the reader is what survives from call to call: the cache, the listings in progress, and the `DirLister`s
that the user holds.  A `ListingInProgress` is an object that both the reader and `DirLister`s refer to; it has
a number here.  Destruction of `DirLister`s is not modelled here (see `refRun`): a listing is only deleted when
nothing refers to it.
-/

namespace Strigi
namespace Reader

open Listing (Lister findRootEntry findBelow rfindSlash)

/-- A `ListingInProgress` (listinginprogress.h:72-94) as others see it.  `held` is `root != 0`.  `alive` tells whether
the tree was not deleted. -/
structure Obj where
  url : Name
  st : Listing.State
  held : Bool := true
  alive : Bool := true

/-- `DirLister::Private` (archivereader.cpp:35-62): with known entries, or with a listing. -/
inductive Handle
  | known (entries : List Attr) (pos : Int)
  | listing (obj : Nat) (url : Name) (l : Lister)

/-- `ArchiveReaderPrivate` (archivereader.cpp:138-178), without the open streams, and the `DirLister`s that were
returned.  An entry of the cache that is nothing is a pointer to a deleted tree. -/
structure Reader where
  cache : List (Name × Option Tree) := []
  lips : List (Name × Nat) := []
  objs : List Obj := []
  handles : List Handle := []

/-- archiveentrycache.cpp:53-63 `findEntry`.  To follow a pointer to a deleted tree is undefined; if the url is the
key itself the pointer is only returned, but all callers follow it (archivereader.cpp:374, 428). -/
def findCached (cache : List (Name × Option Tree)) (url : Name) : Res (Option Tree) := do
  match ← findRootEntry cache url with
  | none => .ok none
  | some (_, none) => .fault .undefined
  | some (k, some t) => if k = url then .ok (some t) else findBelow t k url

/-- archivereader.cpp:424-433 `convert`. -/
def kidAttrs (t : Tree) : List Attr := t.kids.map fun x => x.2.attr

/-- archivereader.cpp:330-334: the tree in the cache under `url` is deleted; the key that is removed is its file
name. -/
def Reader.drop (r : Reader) (url : Name) (t : Tree) : Reader :=
  { r with
    cache := mapErase t.attr.filename (r.cache.map fun x => if x.1 = url then (x.1, none) else x)
    objs := r.objs.map fun o => if o.url = url ∧ o.held = false then { o with alive := false } else o }

/-- archivereader.cpp:303-360 `localStat`.  The first part of the result is the entry (nothing for -1). -/
def Reader.localStat (fs : Opener) (r : Reader) (url : Name) : Res (Option Attr × Reader) :=
  match fs.stat url with
  | none => .ok (none, r)
  | some e =>
    if e.isFile = false then .ok (some e, r)
    else
      match mapFind url r.lips with
      | some id =>
        match r.objs[id]? with
        | none => .fault .undefined
        | some o => if o.held then .ok (some o.st.root.attr, r) else .fault .undefined
      | none =>
        match mapFind url r.cache with
        | none => .ok (some (probe fs url e), r)
        | some none => .fault .undefined
        | some (some t) =>
          if t.attr.mtime = e.mtime then .ok (some { e with isDir := t.attr.isDir, isFile := t.attr.isFile }, r)
          else .ok (some (probe fs url e), r.drop url t)

/-- A new `DirLister`. -/
def Reader.add (r : Reader) (h : Handle) : Reader := { r with handles := r.handles ++ [h] }

/-- archivereader.cpp:440-460: the listing for the url: one in progress, or a new one; nothing if no part of the url
can be opened. -/
def Reader.lipFor (fs : Opener) (r : Reader) (url : Name) : Res (Reader × Option Nat) := do
  match ← findRootEntry r.lips url with
  | some (_, id) => .ok (r, some id)
  | none =>
    match ← cullName fs url with
    | (none, _) => .ok (r, none)
    | (some c, parts) => do
      let name := fileOf url parts
      let s ← r.localStat fs name
      .ok ({ s.2 with
        lips := mapSet name s.2.objs.length s.2.lips
        objs := s.2.objs ++ [⟨name, Listing.State.new (s.1.getD {}) c, true, true⟩] }, some s.2.objs.length)

/-- archivereader.cpp:464-468: a listing that is done: its tree goes to the cache. -/
def Reader.collect (r : Reader) (id : Nat) (o : Obj) : Reader :=
  { r with
    cache := mapSet o.url (if o.held then some o.st.root else none) r.cache
    lips := mapErase o.url r.lips
    objs := r.objs.set id { o with held := false } }

/-- archivereader.cpp:434-485 `dirEntries`: the new `DirLister` is the last one. -/
def Reader.dirEntries (fs : Opener) (r : Reader) (url : Name) : Res Reader := do
  match ← findCached r.cache url with
  | some t => .ok (r.add (.known (kidAttrs t) 0))
  | none => do
    let x ← r.lipFor fs url
    match x.2 with
    | none => .ok (x.1.add (.known [] 0))
    | some id =>
      match x.1.objs[id]? with
      | none => .fault .undefined
      | some o =>
        if o.st.streamOpen then .ok (x.1.add (.listing id url {}))
        else do
          let r := x.1.collect id o
          match ← findCached r.cache url with
          | some t => .ok (r.add (.known (kidAttrs t) 0))
          | none => .ok (r.add (.known [] 0))

/-- What becomes of the pointer of a `DirLister` while the listing, from state `s`, is advanced `k` times by
others. -/
def watch (N : Nat) : Nat → Listing.State → Lister → Res Lister
  | 0, _, l => .ok l
  | k + 1, s, l => do
    let r ← Listing.nextEntry N s
    watch N k r.1
      { l with entry := l.entry.map fun p => if s.currentdepth ≥ 0 then p.after s r.1.currentdepth else p }

/-- The same for all `DirLister`s of the listing `id`. -/
def watchAll (N id k : Nat) (s : Listing.State) : List Handle → Res (List Handle)
  | [] => .ok []
  | .known es p :: hs => do .ok (.known es p :: (← watchAll N id k s hs))
  | .listing id' url l :: hs => do
    let l' ← if id' = id then watch N k s l else .ok l
    .ok (.listing id' url l' :: (← watchAll N id k s hs))

/-- archivereader.cpp:63-90 `nextEntry(EntryInfo&)` of the `DirLister` number `i`; nothing for `false`.  A `DirLister`
that has no entry asks the root of the listing, also if that is a null pointer; one that has an entry follows the
pointer.  `N` bounds loops. -/
def Reader.next (N : Nat) (r : Reader) (i : Nat) : Res (Reader × Option Attr) :=
  match r.handles[i]? with
  | none => .fault .undefined
  | some (.known es pos) =>
    let x := Lister.nextStatic es pos
    .ok ({ r with handles := r.handles.set i (.known es x.1) }, x.2)
  | some (.listing id url l) =>
    match r.objs[id]? with
    | none => .fault .undefined
    | some o =>
      if 0 ≤ l.pos ∧ (o.alive = false ∨ (o.held = false ∧ l.entry.isNone)) then .fault .undefined
      else do
        let x ← l.next N N o.url url o.st
        let hs ← watchAll N id (x.2.1.steps - o.st.steps) o.st r.handles
        .ok ({ r with objs := r.objs.set id { o with st := x.2.1 }, handles := hs.set i (.listing id url x.1) }, x.2.2)

/-- archivereader.cpp:382-387: the loop of `stat` through the last `DirLister`.  The name is compared as a C
string. -/
def Reader.statLoop (N i : Nat) (name : Name) : Nat → Reader → Res (Reader × Option Attr)
  | 0, _ => .diverge
  | m + 1, r => do
    let x ← r.next N i
    match x.2 with
    | none => .ok (x.1, none)
    | some e => if e.filename = cName name then .ok (x.1, some e) else statLoop N i name m x.1

/-- archivereader.cpp:366-388 `stat`.  The `DirLister` is destroyed at the end. -/
def Reader.stat (N : Nat) (fs : Opener) (r : Reader) (url : Name) : Res (Reader × Option Attr) := do
  let x ← r.localStat fs url
  match x.1 with
  | some e => .ok (x.2, some e)
  | none =>
    match ← findCached x.2.cache url with
    | some t => .ok (x.2, some t.attr)
    | none =>
      match rfindSlash url with
      | none => .ok (x.2, none)
      | some pos => do
        let r ← x.2.dirEntries fs (url.take pos)
        let y ← r.statLoop N x.2.handles.length (url.drop (pos + 1)) N
        .ok ({ y.1 with handles := y.1.handles.dropLast }, y.2)

/-- The calls of a user.  `next i` asks the `DirLister` that the call number `i` (from 0) of `dirEntries` returned.
`isArchive` and `canHandle` do to the reader what `localStat` does. -/
inductive Call
  | dirEntries (url : Name)
  | next (i : Nat)
  | stat (url : Name)
  | localStat (url : Name)
deriving DecidableEq, Repr

/-- One call; the second part is the entry that it returns, if any. -/
def Reader.call (N : Nat) (fs : Opener) (r : Reader) : Call → Res (Reader × Option Attr)
  | .dirEntries url => do .ok (← r.dirEntries fs url, none)
  | .next i => r.next N i
  | .stat url => r.stat N fs url
  | .localStat url => do
    let x ← r.localStat fs url
    .ok (x.2, x.1)

/-- A history of calls, each with what the opener finds at that time: the results in order. -/
def Reader.run (N : Nat) : List (Opener × Call) → Reader → Res (Reader × List (Option Attr))
  | [], r => .ok (r, [])
  | (fs, c) :: l, r => do
    let x ← r.call N fs c
    let y ← Reader.run N l x.1
    .ok (y.1, x.2 :: y.2)

end Reader
end Strigi
