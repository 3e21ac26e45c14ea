import Verif.Model.Ownership

/-!
# Model of who deletes the entry streams of the providers (lib/*inputstream.cpp)

Only the pointers are modelled; what is found in the data is a script that may be anything.  `Owner` has the objects.
-/

namespace Strigi
namespace Owner

/-- A provider: two pointers of the class itself, `m_entrystream`, and whether `m_status` is something else than `Ok`. -/
structure Prov where
  heap : Heap
  a : Option Nat
  b : Option Nat
  entry : Option Nat
  stopped : Bool

/-- `delete p`, which may be null. -/
def del (h : Heap) : Option Nat → Res Heap
  | none => .ok h
  | some i => delete h i

/-- `new SubInputStream(i)` etc. -/
def make (h : Heap) (i : Nat) : Heap := (alloc h ⟨some i, none⟩).1

/-- A client reads from the current entry. -/
def Prov.use (s : Prov) : Res Prov :=
  match s.entry with
  | none => .ok s
  | some e => do
    touch s.heap e
    .ok s

/-! ## tar and ar -/

/-- tarinputstream.cpp:35-50, arinputstream.cpp:46-57. -/
def plainNext (s : Prov) (r : Nat) (found : Bool) : Res Prov :=
  if s.stopped then .ok s
  else do
    let s ← match s.entry with
      | none => (.ok s : Res Prov)
      | some e => do
        touch s.heap e
        let h ← delete s.heap e
        .ok { s with heap := h, entry := none }
    touch s.heap r
    if found then .ok { s with heap := make s.heap r, entry := some s.heap.next } else .ok { s with stopped := true }

/-- substreamprovider.h:101-106. -/
def plainDestroy (s : Prov) : Res Heap := del s.heap s.entry

/-! ## zip -/

/-- What is behind an entry: nothing; a stored one; a deflated one of known or of unknown size. -/
inductive ZipFound
  | nothing
  | stored
  | deflated
  | streamed

/-- zipinputstream.cpp:53-140 `nextEntry`: `a` is `compressedEntryStream`, `b` is `uncompressionStream`; `missing`: there is no data descriptor. -/
def zipNext (s : Prov) (r : Nat) (missing : Bool) (found : ZipFound) : Res Prov :=
  if s.stopped then .ok s
  else do
    let s ← match s.entry with
      | none => (.ok s : Res Prov)
      | some e =>
        match s.a with
        | some c => do
          touch s.heap c
          let h ← delete s.heap c
          let h ← del h s.b
          touch h r
          let h ← delete h e
          .ok { s with heap := h, a := none, b := none, entry := none }
        | none => do
          touch s.heap e
          touch s.heap r
          if missing then .ok { s with stopped := true }
          else do
            let h ← delete s.heap e
            .ok { s with heap := h, entry := none }
    if s.stopped then .ok s
    else do
      touch s.heap r
      match found with
      | .nothing => .ok { s with stopped := true }
      | .stored | .streamed => .ok { s with heap := make s.heap r, entry := some s.heap.next }
      | .deflated => do
        let c := s.heap.next
        let h := make s.heap r
        let h ← del h s.b
        let u := h.next
        touch h c
        let h := make h c
        touch h u
        .ok { s with heap := make h u, a := some c, b := some u, entry := some h.next }

/-- zipinputstream.cpp:45-52 and substreamprovider.h:101-106. -/
def zipDestroy (s : Prov) : Res Heap := do
  let h ← del s.heap s.a
  let h ← del h s.b
  del h s.entry

/-! ## mail -/

/-- The next part: there is none; one; one in base64. -/
inductive MailFound
  | nothing
  | part
  | base64

/-- mailinputstream.cpp:655-677, sdfinputstream.cpp:89-103: the last part is read to its end and deleted. -/
def lastPart (s : Prov) (bad : Bool) : Res Prov :=
  match s.a with
  | none => .ok s
  | some p => do
    touch s.heap p
    let h ← if s.a ≠ s.entry then delete s.heap p else .ok s.heap
    let h ← del h s.entry
    .ok { s with heap := h, a := none, entry := none, stopped := bad }

/-- mailinputstream.cpp:643-684 `nextEntry` with :620-624: `a` is `p->substream`; `multi`: there is a boundary; `bad`: the part cannot be read. -/
def mailNext (multi : Bool) (s : Prov) (r : Nat) (bad : Bool) (found : MailFound) : Res Prov :=
  if s.stopped then .ok s
  else if multi then do
    let s ← lastPart s bad
    if s.stopped then .ok s
    else do
      touch s.heap r
      match found with
      | .nothing => .ok { s with stopped := true }
      | .part => .ok { s with heap := make s.heap r, a := some s.heap.next, entry := some s.heap.next }
      | .base64 =>
        let h := make s.heap r
        .ok { s with heap := make h s.heap.next, a := some s.heap.next, entry := some h.next }
  else .ok { s with heap := make s.heap r, entry := some s.heap.next, stopped := true }

/-- mailinputstream.cpp:348-352, 362-364; sdfinputstream.cpp:38-42. -/
def mailDestroy (s : Prov) : Res Heap := do
  let h ← if s.a ≠ none ∧ s.a ≠ s.entry then del s.heap s.a else .ok s.heap
  del h s.entry

/-! ## SD files -/

/-- sdfinputstream.cpp:82-170 `nextEntry`: `a` is `substream`.  If the last molecule cannot be read the status is an error, but the search goes on. -/
def sdfNext (s : Prov) (r : Nat) (bad : Bool) (found : Bool) : Res Prov :=
  if s.stopped then .ok s
  else do
    touch s.heap r
    let s ← lastPart s bad
    touch s.heap r
    if found then .ok { s with heap := make s.heap r, a := some s.heap.next, entry := some s.heap.next } else .ok { s with entry := none, stopped := true }

/-! ## RPM packages -/

/-- rpminputstream.cpp:48-142, the constructor: it gives up, or its decompressor does not work, or there is a reader of the cpio archive. -/
inductive RpmFound
  | nothing
  | broken
  | good

/-- `a` is `uncompressionStream`, `b` is `cpio`. -/
def rpmNew (h : Heap) (r : Nat) : RpmFound → Res Prov
  | .nothing => .ok ⟨h, none, none, none, true⟩
  | .broken => do
    touch h r
    .ok ⟨make h r, some h.next, none, none, true⟩
  | .good => do
    touch h r
    let h' := make h r
    touch h' h.next
    .ok ⟨make h' h.next, some h.next, some h'.next, none, false⟩

/-- rpminputstream.cpp:149-160. -/
def rpmNext (s : Prov) (found : Bool) : Res Prov :=
  if s.stopped then .ok s
  else
    match s.b with
    | none => .fault .undefined
    | some c => do
      let x ← nextEntry s.heap c found
      .ok { s with heap := x.1, entry := x.2, stopped := !found }

/-- rpminputstream.cpp:143-148: `m_entrystream` is set to null, as `cpio` deletes it. -/
def rpmDestroy (s : Prov) : Res Heap := do
  let h ← del s.heap s.a
  let h ← del h s.b
  del h none

/-! ## OLE files -/

/-- oleinputstream.cpp:166-168: `a` is `p->entrystream`, which is there from the beginning. -/
def oleNew (h : Heap) (r : Nat) : Prov := ⟨make h r, some h.next, none, none, false⟩

/-- oleinputstream.cpp:379-403: the entry is always the same stream. -/
def oleNext (s : Prov) (found : Bool) : Res Prov :=
  if found then
    match s.a with
    | none => .fault .undefined
    | some a => do
      touch s.heap a
      .ok { s with entry := some a }
  else .ok { s with entry := none }

/-- oleinputstream.cpp:268-273 and substreamprovider.h:101-106. -/
def oleDestroy (s : Prov) : Res Heap := do
  let h ← del s.heap s.a
  del h s.entry

/-! ## Clients -/

/-- The entry is used, or the next one is asked for. -/
inductive Step (α : Type)
  | use
  | next (x : α)

def runSteps {α : Type} (next : Prov → α → Res Prov) (s : Prov) : List (Step α) → Res Prov
  | [] => .ok s
  | .use :: l => do
    let s ← s.use
    runSteps next s l
  | .next x :: l => do
    let s ← next s x
    runSteps next s l

end Owner
end Strigi
