import Verif.Model.ReaderHistory

/-!
# Model of `ArchiveReader` (lib/archivereader.cpp) with several `StreamOpener`s

`Model/ArchiveReader.lean` and `Model/ReaderHistory.lean` model the reader with one opener; here are the functions that go
through the list of openers, and those that call them.
-/

namespace Strigi
namespace Reader

open Listing (rfindSlash)

namespace Several

/-- archivereader.cpp:294-302 `open`. -/
def «open» : List Opener → Name → Option Contents
  | [], _ => none
  | o :: os, url =>
    match o.openStream url with
    | some c => some c
    | none => «open» os url

/-- archivereader.cpp:212-224 `cullName`: it only uses `open`. -/
def cullName (os : List Opener) (url : Name) : Res (Option Contents × List Nat) :=
  Reader.cullName ⟨«open» os, fun _ => none⟩ url

/-- archivereader.cpp:303-360 `localStat`: the loop over the openers.  What is done for the first one that knows the url
is in `Reader.localStat`; in particular the stream that is looked into (337) is the one of this opener. -/
def localStat : List Opener → Reader → Name → Res (Option Attr × Reader)
  | [], r, _ => .ok (none, r)
  | o :: os, r, url =>
    match o.stat url with
    | some _ => r.localStat o url
    | none => localStat os r url

/-- archivereader.cpp:440-460, see `Reader.lipFor`. -/
def lipFor (os : List Opener) (r : Reader) (url : Name) : Res (Reader × Option Nat) := do
  match ← Listing.findRootEntry r.lips url with
  | some (_, id) => .ok (r, some id)
  | none =>
    match ← cullName os url with
    | (none, _) => .ok (r, none)
    | (some c, parts) => do
      let name := fileOf url parts
      let s ← localStat os r name
      .ok ({ s.2 with
        lips := mapSet name s.2.objs.length s.2.lips
        objs := s.2.objs ++ [⟨name, Listing.State.new (s.1.getD {}) c, true, true⟩] }, some s.2.objs.length)

/-- archivereader.cpp:434-485 `dirEntries`, see `Reader.dirEntries`. -/
def dirEntries (os : List Opener) (r : Reader) (url : Name) : Res Reader := do
  match ← findCached r.cache url with
  | some t => .ok (r.add (.known (kidAttrs t) 0))
  | none => do
    let x ← lipFor os r url
    match x.2 with
    | none => .ok (x.1.add (.known [] 0))
    | some id =>
      match x.1.objs[id]? with
      | none => .fault .undefined
      | some o =>
        if o.st.streamOpen then .ok (x.1.add (.listing id url {}))
        else do
          let r := x.1.collect id o
          match ← findCached r.cache url with
          | some t => .ok (r.add (.known (kidAttrs t) 0))
          | none => .ok (r.add (.known [] 0))

/-- archivereader.cpp:366-388 `stat`, see `Reader.stat`. -/
def stat (N : Nat) (os : List Opener) (r : Reader) (url : Name) : Res (Reader × Option Attr) := do
  let x ← localStat os r url
  match x.1 with
  | some e => .ok (x.2, some e)
  | none =>
    match ← findCached x.2.cache url with
    | some t => .ok (x.2, some t.attr)
    | none =>
      match rfindSlash url with
      | none => .ok (x.2, none)
      | some pos => do
        let r ← dirEntries os x.2 (url.take pos)
        let y ← r.statLoop N x.2.handles.length (url.drop (pos + 1)) N
        .ok ({ y.1 with handles := y.1.handles.dropLast }, y.2)

/-- archivereader.cpp:416-423 `isArchive`. -/
def isArchive (os : List Opener) (r : Reader) (url : Name) : Res (Bool × Reader) := do
  let x ← localStat os r url
  match x.1 with
  | none => .ok (false, x.2)
  | some e => .ok (e.isFile || e.isDir, x.2)

/-- The loop of archivereader.cpp:494-497; `e` is the result of the last `localStat`. -/
def handleLoop (os : List Opener) (url : Name) : Nat → Option Nat → Option Attr → Reader → Res (Option Attr × Reader)
  | 0, _, _, _ => .diverge
  | fuel + 1, p, e, r =>
    match p, e with
    | some p, none =>
      if p = 0 then .ok (e, r)
      else do
        let x ← localStat os r (url.take p)
        handleLoop os url fuel (rfindSlash (url.take p)) x.1 x.2
    | _, _ => .ok (e, r)

/-- archivereader.cpp:486-499 `canHandle`. -/
def canHandle (os : List Opener) (r : Reader) (url : Name) : Res (Bool × Reader) := do
  let x ← localStat os r url
  let y ← handleLoop os url (url.length + 1) (rfindSlash url) x.1 x.2
  match y.1 with
  | none => .ok (false, y.2)
  | some e => .ok (e.isFile && e.isDir, y.2)

/-- archivereader.cpp:230-290 `positionedProvider`. -/
def positionedProvider (os : List Opener) (url : Name) : Res (Option Contents) := do
  match ← cullName os url with
  | (none, _) => .ok none
  | (some c, parts) => openLoop url (parts.length + 1) parts.reverse c

/-- archivereader.cpp:389-400 `openStream`. -/
def openStream (os : List Opener) (url : Name) : Res (Option Opened) :=
  match «open» os url with
  | some c => .ok (some (.file c))
  | none => do
    let p ← positionedProvider os url
    .ok (p.map .entry)

/-- One call, see `Reader.call`. -/
def call (N : Nat) (os : List Opener) (r : Reader) : Call → Res (Reader × Option Attr)
  | .dirEntries url => do .ok (← dirEntries os r url, none)
  | .next i => r.next N i
  | .stat url => stat N os r url
  | .localStat url => do
    let x ← localStat os r url
    .ok (x.2, x.1)

/-- A history of calls.  With every call are the openers at that time: files change, and `addStreamOpener`
(archivereader.cpp:401-404) appends one to the list. -/
def run (N : Nat) : List (List Opener × Call) → Reader → Res (Reader × List (Option Attr))
  | [], r => .ok (r, [])
  | (os, c) :: l, r => do
    let x ← call N os r c
    let y ← run N l x.1
    .ok (y.1, x.2 :: y.2)

end Several

end Reader
end Strigi
