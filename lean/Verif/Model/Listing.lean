import Verif.ListingSpec

/-!
# Model of `ArchiveEntryCache` (lib/archiveentrycache.{h,cpp}) and `ListingInProgress`
(lib/listinginprogress.{h,cpp})

The entries of the cache are linked by pointers to a tree; the model keeps the tree itself.  The streams
that lead to a substream provider are modelled by the contents that the provider goes through
(`Contents`): see `Archive` theorems for what `nextEntry()`, `currentEntry()` and `entryInfo()` of
a substream provider do.
-/

namespace Strigi

/-- `ArchiveEntryCache::SubEntry` (archiveentrycache.h:46-55): an entry and the map of its subentries, ordered
by name. -/
inductive Tree
  | node (attr : Attr) (kids : List (Name × Tree))

namespace Tree

def attr : Tree → Attr
  | node a _ => a

def kids : Tree → List (Name × Tree)
  | node _ k => k

end Tree

/-- `std::map<std::string, T>::find`. -/
def mapFind {β : Type} (k : Name) : List (Name × β) → Option β
  | [] => none
  | (k', v) :: l => if k = k' then some v else mapFind k l

/-- The entry at a path given by its components: following pointers from an entry (no function of the code; what
`RootSubEntry::findEntry`, archiveentrycache.cpp:64-91, finds is proved in terms of it). -/
def Tree.get : Tree → List Name → Option Tree
  | t, [] => some t
  | .node _ k, n :: q => (mapFind n k).bind fun t => t.get q

/-- Insertion of a new key at its place in the order of the keys. -/
def mapInsert {β : Type} (k : Name) (v : β) : List (Name × β) → List (Name × β)
  | [] => [(k, v)]
  | (k', v') :: l => if k < k' then (k, v) :: (k', v') :: l else (k', v') :: mapInsert k v l

/-- `m[k] = v` of `std::map<std::string, T>`: the value of an existing key is replaced; a new key goes to its
place in the order. -/
def mapSet {β : Type} (k : Name) (v : β) (m : List (Name × β)) : List (Name × β) :=
  match mapFind k m with
  | some _ => m.map fun x => if x.1 = k then (k, v) else x
  | none => mapInsert k v m

namespace Listing

/-- `std::string::find('/')`. -/
def findSlash (s : List UInt8) : Option Nat := s.findIdx? (· = 47)

/-- listinginprogress.cpp:43-50: the loop that splits the name; every round removes a slash, so `fuel` need
not exceed the length. -/
def splitLoop : Nat → List Name → List UInt8 → List Name × List UInt8
  | 0, names, name => (names, name)
  | fuel + 1, names, name =>
    match findSlash name with
    | none => (names, name)
    | some p => splitLoop fuel (names ++ [name.take p]) (name.drop (p + 1))

/-- listinginprogress.cpp:53-68: descend along `names`, creating directories, and put `se` under `name`. -/
def link (name : Name) (se : Tree) : List Name → Tree → Tree
  | [], .node a kids => .node a (mapSet name se kids)
  | n :: names, .node a kids =>
    let child := match mapFind n kids with
      | some c => c
      | none => .node { filename := n, size := 0, isDir := true } []
    .node a (mapSet n (link name se names child) kids)

/-- listinginprogress.cpp:38-69 `addEntry(parent, se)`; the file name of `se` becomes its last component. -/
def addEntry (parent se : Tree) : Tree :=
  let r := splitLoop se.attr.filename.length [] se.attr.filename
  link r.2 (.node { se.attr with filename := r.2 } se.kids) r.1 parent

/-- `url.find('/', from)`. -/
def findSlashFrom (url : List UInt8) (i : Nat) : Option Nat :=
  (findSlash (url.drop i)).map (· + i)

/-- The loop of archiveentrycache.cpp:69-90. `name.assign(url, p+1, …)` throws an exception if `p+1` exceeds
the length.  If nothing is found, `e` is 0 and both ways to leave the loop return it; after the last
component `p` is `npos`. `p == url.length()` never holds for a position of a slash. -/
def findLoop (url : List UInt8) : Nat → Tree → Nat → Res (Option Tree)
  | 0, _, _ => .diverge
  | fuel + 1, e, p =>
    if p + 1 > url.length then .fault .undefined
    else
      let np := findSlashFrom url (p + 1)
      let name := match np with
        | none => url.drop (p + 1)
        | some np => (url.drop (p + 1)).take (np - p - 1)
      match mapFind name e.kids with
      | none => .ok none
      | some t =>
        match np with
        | none => .ok (some t)
        | some np => if np = url.length then .ok (some t) else findLoop url fuel t np

/-- archiveentrycache.cpp:64-91 `RootSubEntry::findEntry(rootpath, url)`. -/
def findBelow (root : Tree) (rootpath url : List UInt8) : Res (Option Tree) :=
  findLoop url (url.length + 1) root rootpath.length

/-- `n.rfind('/')`. -/
def rfindSlash (s : List UInt8) : Option Nat :=
  (s.reverse.findIdx? (· = 47)).map (fun i => s.length - 1 - i)

/-- The loop of archiveentrycache.cpp:33-48 over a map from urls to entries of any kind; also
archivereader.cpp:500-520 `findListingInProgress`. -/
def rootLoop {β : Type} (cache : List (Name × β)) : Nat → List UInt8 → Res (Option (List UInt8 × β))
  | 0, _ => .diverge
  | fuel + 1, n =>
    match mapFind n cache with
    | some v => .ok (some (n, v))
    | none =>
      match rfindSlash n with
      | none => .ok none
      | some p => rootLoop cache fuel (n.take p)

/-- archiveentrycache.cpp:31-49. -/
def findRootEntry {β : Type} (cache : List (Name × β)) (url : List UInt8) : Res (Option (List UInt8 × β)) :=
  rootLoop cache (url.length + 1) url

/-- archiveentrycache.cpp:53-63. -/
def findEntry (cache : List (Name × Tree)) (url : List UInt8) : Res (Option Tree) := do
  match ← findRootEntry cache url with
  | none => .ok none
  | some (k, t) => if k = url then .ok (some t) else findBelow t k url

/-! ## `ListingInProgress` -/

/-- listinginprogress.h:54-59 `StackEntry`.  `p` stands for the substream provider: the entries from the
current one on; `nil` is a null pointer (a provider without entries is never kept,
listinginprogress.cpp:138-150). -/
structure StackEntry where
  p : Contents
  entry : Tree

/-- A new element of the vector: pointers are zero. -/
def StackEntry.zero : StackEntry := ⟨.nil, .node {} []⟩

/-- State of a `ListingInProgress` (listinginprogress.h:72-94).  `root` is the entry of the bottom of the
stack.  `streamOpen` is `stream != 0`.  `steps` is not in the code: it counts the calls of `nextEntry()`, so that
pointers into the tree that others hold can be followed (see `Ptr.after`). -/
structure State where
  stack : List StackEntry
  currentdepth : Int
  streamOpen : Bool
  steps : Nat := 0

/-- listinginprogress.cpp:160-176: a listing of an archive with the given contents (`nil` if the file is not
an archive, or has no entries). -/
def State.new (a : Attr) (c : Contents) : State :=
  let root : Tree := .node { a with isDir := a.isDir || decide (c ≠ .nil) } []
  ⟨⟨c, root⟩ :: List.replicate 9 .zero, if c = .nil then -1 else 0, true, 0⟩

/-- The root of the tree. -/
def State.root (s : State) : Tree :=
  match s.stack with
  | [] => .node {} []
  | e :: _ => e.entry

/-- listinginprogress.cpp:222-235: the entry of slot `ce` is complete; it goes into the entry of slot
`depth`, and the provider goes on.  If the size is not known the stream is read to its end. -/
def finish (stack : List StackEntry) (depth : Nat) (ce : StackEntry) : Res (List StackEntry) :=
  match stack[depth]? with
  | none => .fault .outOfBounds
  | some e =>
    match e.p with
    | .nil => .fault .undefined
    | .entry _ len _ rest =>
      let se : Tree :=
        if ce.entry.attr.size < 0 then .node { ce.entry.attr with size := max len 0 } ce.entry.kids
        else ce.entry
      .ok (stack.set depth ⟨rest, addEntry e.entry se⟩)

/-- listinginprogress.cpp:199-237 `nextEntry(int depth)`. -/
def nextEntryAt : Nat → List StackEntry → Nat → Res (List StackEntry × Int)
  | 0, _, _ => .diverge
  | fuel + 1, stack, depth =>
    let stack := stack ++ List.replicate (depth + 1 - stack.length) .zero
    match stack[depth]? with
    | none => .fault .outOfBounds
    | some e =>
      match e.p with
      | .entry a _ sub _ =>
        if depth + 1 < stack.length then
          if sub ≠ .nil then
            nextEntryAt fuel (stack.set (depth + 1) ⟨sub, .node { a with isDir := true } []⟩) (depth + 1)
          else do
            let ce : StackEntry := ⟨.nil, .node a []⟩
            let stack ← finish (stack.set (depth + 1) ce) depth ce
            .ok (stack, depth)
        else .fault .outOfBounds
      | .nil =>
        if depth = 0 then .ok (stack, -1)
        else do
          let stack ← finish stack (depth - 1) e
          .ok (stack, (depth : Int) - 1)

/-- listinginprogress.cpp:238-248 `nextEntry()`.  `fuel` bounds the nesting. -/
def nextEntry (fuel : Nat) (s : State) : Res (State × Bool) := do
  let (stack, d) ←
    if s.currentdepth ≥ 0 then nextEntryAt fuel s.stack s.currentdepth.toNat else .ok (s.stack, s.currentdepth)
  .ok (⟨stack, d, if d < 0 then false else s.streamOpen, s.steps + 1⟩, decide (d ≥ 0))

/-- Calling `nextEntry()` until it returns false (as listinginprogress.cpp:193-196 does, and as a user of
`DirLister` does who iterates to the end); `n` bounds the number of calls. -/
def listAll (fuel : Nat) : Nat → State → Res State
  | 0, _ => .diverge
  | n + 1, s => do
    let (s, more) ← nextEntry fuel s
    if more then listAll fuel n s else .ok s

end Listing
end Strigi
