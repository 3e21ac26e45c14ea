import Verif.Base

/-!
# Model of who deletes the streams of an `ArchiveReader` (lib/archivereader.cpp, lib/listinginprogress.cpp)

Objects are numbers.  What is found in the files (whether a stream can be opened, which layers of compression and which formats there are, which
entries fit) is a script that may be anything, so the model covers all files, urls and `StreamOpener`s.
-/

namespace Strigi
namespace Owner

/-- A stream or provider that exists: the stream it reads from, and the current entry stream, which it deletes itself (`m_entrystream`). -/
structure Obj where
  input : Option Nat
  entry : Option Nat
deriving DecidableEq, Repr

/-- The objects that exist. -/
structure Heap where
  next : Nat
  live : Nat → Option Obj

def Heap.set (h : Heap) (i : Nat) (o : Option Obj) : Heap := { h with live := fun k => if k = i then o else h.live k }

/-- `new`. -/
def alloc (h : Heap) (o : Obj) : Heap × Nat := ({ next := h.next + 1, live := fun k => if k = h.next then some o else h.live k }, h.next)

/-- A call of a method: the object and the streams it reads from have to exist.  (An input is always older.) -/
def touchLoop (h : Heap) : Nat → Nat → Res Unit
  | 0, _ => .diverge
  | n + 1, i =>
    match h.live i with
    | none => .fault .undefined
    | some o =>
      match o.input with
      | none => .ok ()
      | some j => touchLoop h n j

def touch (h : Heap) (i : Nat) : Res Unit := touchLoop h (i + 1) i

/-- `delete`: destructors do not use the input; that of `SubStreamProvider` deletes the entry stream. -/
def delete (h : Heap) (i : Nat) : Res Heap :=
  match h.live i with
  | none => .fault .undefined
  | some o =>
    match o.entry with
    | none => .ok (h.set i none)
    | some e =>
      match h.live e with
      | none => .fault .undefined
      | some _ => .ok ((h.set i none).set e none)

/-- listinginprogress.cpp:71-78 `free`: from the front to the back. -/
def free (h : Heap) : List Nat → Res Heap
  | [] => .ok h
  | i :: l => do
    let h ← delete h i
    free h l

/-- `delete m_entrystream`. -/
def deleteEntry (h : Heap) (o : Obj) : Res Heap :=
  match o.entry with
  | none => .ok h
  | some e => delete h e

/-- `nextEntry()` of a provider: the entry stream is deleted, and there is another one if `more`. -/
def nextEntry (h : Heap) (p : Nat) (more : Bool) : Res (Heap × Option Nat) := do
  touch h p
  match h.live p with
  | none => .fault .undefined
  | some o => do
    let h ← deleteEntry h o
    if more then
      let a := alloc h ⟨o.input, none⟩
      .ok (a.1.set p (some ⟨o.input, some a.2⟩), some a.2)
    else .ok (h.set p (some ⟨o.input, none⟩), none)

/-- What `subStreamProvider` finds: the decompressors that are tried, with their status; the number of formats that are tried in vain; whether there
is one with an entry. -/
structure Probe where
  layers : List Bool
  vain : Nat
  found : Bool

/-- listinginprogress.cpp:84-129: `s` is the innermost stream, `streams` what is to be deleted. -/
def layers (h : Heap) (s : Nat) (streams : List Nat) : List Bool → Res (Heap × Nat × List Nat)
  | [] => .ok (h, s, streams)
  | good :: l => do
    touch h s
    let a := alloc h ⟨some s, none⟩
    touch a.1 a.2
    if good then layers a.1 a.2 (streams ++ [a.2]) l
    else do
      let h ← delete a.1 a.2
      touch h s
      layers h s streams l

/-- listinginprogress.cpp:137-154: the formats that are tried in vain. -/
def formats (h : Heap) (s : Nat) : Nat → Res Heap
  | 0 => .ok h
  | n + 1 => do
    let a := alloc h ⟨some s, none⟩
    let r ← nextEntry a.1 a.2 false
    let h ← delete r.1 a.2
    touch h s
    formats h s n

/-- listinginprogress.cpp:80-158 `subStreamProvider`: the provider and its entry, and the list `streams`. -/
def subStreamProvider (h : Heap) (q : Probe) (input : Option Nat) (streams : List Nat) : Res (Heap × Option (Nat × Option Nat) × List Nat) :=
  match input with
  | none => .ok (h, none, streams)
  | some s => do
    let r ← layers h s streams q.layers
    touch r.1 r.2.1
    let h ← formats r.1 r.2.1 q.vain
    if q.found then do
      let a := alloc h ⟨some r.2.1, none⟩
      let e ← nextEntry a.1 a.2 true
      .ok (e.1, some (a.2, e.2), r.2.2 ++ [a.2])
    else do
      let h ← free h r.2.2
      .ok (h, none, [])

/-- A round of the loop of `positionedProvider`: the entries that are passed over, and whether one fits then. -/
structure Round where
  probe : Probe
  skipped : Nat
  fits : Bool

/-- archivereader.cpp:258-282: entries that do not fit. -/
def skipEntries (h : Heap) (p : Nat) (e : Option Nat) : Nat → Res (Heap × Option Nat)
  | 0 => .ok (h, e)
  | n + 1 => do
    let r ← nextEntry h p true
    skipEntries r.1 p r.2 n

/-- The streams that are open: archivereader.cpp:140 `openstreams`. -/
abbrev Open := List (Nat × List Nat)

/-- `openstreams[k] = l`. -/
def register (m : Open) (k : Nat) (l : List Nat) : Open := (k, l) :: m.filter fun x => x.1 ≠ k

/-- archivereader.cpp:246-289, the loop and what follows; the result is the entry of the provider.  If there are no more rounds no part of the url is left. -/
def rounds (h : Heap) (m : Open) (substream : Option Nat) (streams : List Nat) : List Round → Res (Heap × Open × Option Nat)
  | [] =>
    match substream with
    | some s => .ok (h, register m s streams, none)
    | none => do
      let h ← free h streams
      .ok (h, m, none)
  | r :: l => do
    let x ← subStreamProvider h r.probe substream streams
    match x.2.1 with
    | none => do
      let h ← free x.1 x.2.2
      .ok (h, m, none)
    | some (p, e) => do
      let y ← skipEntries x.1 p e r.skipped
      if r.fits then
        match y.2 with
        | none => .fault .undefined
        | some s =>
          match l with
          | [] => .ok (y.1, register m s x.2.2, some s)
          | r' :: l => rounds y.1 m (some s) x.2.2 (r' :: l)
      else do
        let z ← nextEntry y.1 p false
        rounds z.1 m none x.2.2 l

/-- What happens in `openStream`: an opener opens the url; or one opens a part of it, and the loop goes on from there; or nothing is opened. -/
inductive Finds
  | direct
  | inside (l : List Round)
  | nothing

/-- archivereader.cpp:389-400 `openStream` with `open` and `positionedProvider`. -/
def openStream (h : Heap) (m : Open) : Finds → Res (Heap × Open × Option Nat)
  | .direct =>
    let a := alloc h ⟨none, none⟩
    .ok (a.1, m, some a.2)
  | .inside l =>
    let a := alloc h ⟨none, none⟩
    rounds a.1 m (some a.2) [a.2] l
  | .nothing => .ok (h, m, none)

/-- archivereader.cpp:405-415 `closeStream`. -/
def closeStream (h : Heap) (m : Open) (s : Nat) : Res (Heap × Open) :=
  match m.find? fun x => x.1 = s with
  | none => do
    let h ← delete h s
    .ok (h, m)
  | some x => do
    let h ← free h x.2
    .ok (h, m.filter fun y => y.1 ≠ s)

/-- archivereader.cpp:336-354: `localStat` looks whether a file is an archive; nothing if it cannot be opened. -/
def probeFile (h : Heap) : Option Probe → Res Heap
  | none => .ok h
  | some q => do
    let a := alloc h ⟨none, none⟩
    let x ← subStreamProvider a.1 q (some a.2) []
    let h ← match x.2.1 with
      | none => .ok x.1
      | some _ => free x.1 x.2.2
    delete h a.2

/-- archivereader.cpp:184-192 `~ArchiveReaderPrivate`: what was not closed. -/
def destroy (h : Heap) : Open → Res Heap
  | [] => .ok h
  | x :: m => do
    let h ← free h x.2
    destroy h m

/-! ## A client -/

/-- A client opens streams, uses one that it has, closes one that it has, and asks for the type of files. -/
inductive Call
  | openStream (f : Finds)
  | use (k : Nat)
  | closeStream (k : Nat)
  | stat (q : Option Probe)

/-- `mine`: the streams that the client has, newest first; `k` counts in this list. -/
structure State where
  heap : Heap
  opened : Open
  mine : List Nat

def State.new : State := ⟨⟨0, fun _ => none⟩, [], []⟩

def State.call (s : State) : Call → Res State
  | .openStream f => do
    let r ← Owner.openStream s.heap s.opened f
    match r.2.2 with
    | none => .ok { s with heap := r.1, opened := r.2.1 }
    | some x => .ok ⟨r.1, r.2.1, x :: s.mine⟩
  | .use k =>
    match s.mine[k]? with
    | none => .ok s
    | some x => do
      touch s.heap x
      .ok s
  | .closeStream k =>
    match s.mine[k]? with
    | none => .ok s
    | some x => do
      let r ← Owner.closeStream s.heap s.opened x
      .ok ⟨r.1, r.2, s.mine.erase x⟩
  | .stat q => do
    let h ← probeFile s.heap q
    .ok { s with heap := h }

def State.run (s : State) : List Call → Res State
  | [] => .ok s
  | c :: l => do
    let s ← s.call c
    s.run l

end Owner
end Strigi
