import Verif.Model.CLib

/-!
# Model of `TarInputStream` (lib/tarinputstream.cpp)
-/

namespace Strigi

namespace Tar

/-- State: the members of the base class and `numPaddingBytes` (not initialised by the constructor, but it
is set before it is used). -/
structure State (σ : Type) extends Provider σ where
  padding : Int
deriving DecidableEq, Repr

/-- tarinputstream.cpp:29-31 -/
def new {σ : Type} (input : σ) : State σ :=
  { status := .ok, input := input, entry := none, info := {}, padding := 0 }

/-- tarinputstream.cpp:51-62: returns the state and the memory `begin` points to. -/
def readHeader {σ : Type} (P : StreamOps σ UInt8) (s : State σ) : Res (State σ × List UInt8) := do
  let (input, nread, d) ← P.read s.input 512 512
  let s := { s with input := input }
  if nread = 0 ∨ P.status input = .eof then .ok ({ s with status := .eof }, d)
  else if nread ≠ 512 then .ok ({ s with status := .error }, d)
  else .ok (s, d)

/-- tarinputstream.cpp:63-91.  The loops over the first 256 bytes are written with list functions: the
first 100 bytes up to the first NUL are the name, only NULs may follow it; afterwards `p` is 100 (lines
71-78).  Lines 79-85: the bytes up to 256 must not all be NUL. -/
def checkHeader (h : List UInt8) (hsize : Int) : Res Bool :=
  if hsize < 257 then .ok false
  else if ((h.take 100).dropWhile (· ≠ 0)).any (· ≠ 0) then .ok false
  else if (slice h 100 156).all (· = 0) then .ok false
  else do
    let h107 ← aget h 107
    if h107 ≠ 0 then .ok false else
    let h115 ← aget h 115
    if h115 ≠ 0 then .ok false else
    let h123 ← aget h 123
    if h123 ≠ 0 then .ok false else
    let h135 ← aget h 135
    if h135 ≠ 0 ∧ h135 ≠ 32 then .ok false else
    let h147 ← aget h 147
    if h147 ≠ 0 ∧ h147 ≠ 32 then .ok false else
    let h256 ← aget h 256
    .ok (h256 == 0)

/-- tarinputstream.cpp:183-193 -/
def readOctalField {σ : Type} (s : State σ) (b : List UInt8) (offset : Int) : Res (State σ × Int) := do
  match ← CLib.scanOctal (b.drop offset.toNat) with
  | some v => .ok (s, v)
  | none => .ok ({ s with status := .error }, 0)

/-- tarinputstream.cpp:194-226 -/
def readLongLink {σ : Type} (P : StreamOps σ UInt8) (s : State σ) (b : List UInt8) : Res (State σ) := do
  let (s, toread) ← readOctalField s b 124
  let left := toread.tmod 512
  let left := if left ≠ 0 then 512 - left else 0
  if s.status ≠ .ok then .ok s
  else
    let (input, nread, d) ← P.read s.input toread toread
    let s := { s with input := input }
    if nread ≠ toread then .ok { s with status := .error }
    else
      let s := { s with info := { s.info with filename := s.info.filename ++ slice d 0 nread } }
      let (input, skipped) ← P.skip s.input left
      let s := { s with input := input }
      if skipped ≠ left then .ok { s with status := .error } else .ok s

/-- tarinputstream.cpp:108-126: blocks of NULs; `n` is `numZeroBlocks`, at most `fuel` blocks.  The result
is never `Ok`. -/
def zeroBlocks {σ : Type} (P : StreamOps σ UInt8) : Nat → Int → State σ → Res (State σ)
  | 0, _, _ => .diverge
  | fuel + 1, n, s => do
    let n := n + 1
    let (s, hb) ← readHeader P s
    if n = 1 ∧ s.status = .eof then .ok { s with status := .error }
    else if s.status ≠ .ok then .ok s
    else if (slice hb 0 512).all (· = 0) then zeroBlocks P fuel n s
    else .ok { s with status := .error }

/-- tarinputstream.cpp:158-181: size, time, padding, final slash and type. -/
def finish {σ : Type} (s : State σ) (hb : List UInt8) : Res (State σ) := do
  let (s, size) ← readOctalField s hb 124
  let s : State σ := { s with info := { s.info with size := size } }
  if s.status ≠ .ok then .ok s
  else
    let (s, mtime) ← readOctalField s hb 136
    let s : State σ := { s with info := { s.info with mtime := mtime } }
    if s.status ≠ .ok then .ok s
    else
      let pad := 512 - s.info.size.tmod 512
      let s : State σ := { s with padding := if pad = 512 then 0 else pad }
      let name := s.info.filename
      let last ← aget name ((name.length : Int) - 1)
      let name := if last = 47 then name.take (name.length - 1) else name
      let t ← aget hb 156
      let type := if t = 0 ∨ t = 48 then EntryType.file else if t = 53 then .dir else .unknown
      .ok { s with info := { s.info with filename := name, type := type } }

/-- tarinputstream.cpp:92-182; at most `fuel` nested calls and blocks of NULs.  Line 141 cuts at 100
bytes if the name fills its field. -/
def parseHeader {σ : Type} (P : StreamOps σ UInt8) : Nat → State σ → Res (State σ)
  | 0, _ => .diverge
  | fuel + 1, s => do
    let (s, hb) ← readHeader P s
    if s.status ≠ .ok then .ok { s with status := .error }
    else if (slice hb 0 512).all (· = 0) then zeroBlocks P fuel 0 s
    else if (← checkHeader hb 257) = false then .ok { s with status := .error }
    else
      let len ← CLib.strlen hb
      if len = 0 then .ok { s with status := .eof }
      else
        let len := if len > 100 then 100 else len
        let s := { s with info := { s.info with filename := [] } }
        if len = 13 ∧ hb.take 13 = [46, 47, 46, 47, 64, 76, 111, 110, 103, 76, 105, 110, 107] then
          let s ← readLongLink P s hb
          if s.status ≠ .ok then .ok s
          else
            let (s, hb) ← readHeader P s
            if s.status ≠ .ok then .ok s else finish s hb
        else if len > 1 ∧ hb.take 2 = [46, 47] then
          if len = 2 then parseHeader P fuel s
          else finish { s with info := { s.info with filename := slice hb 2 (len - 2) } } hb
        else finish { s with info := { s.info with filename := slice hb 0 len } } hb

/-- tarinputstream.cpp:38-43: leave the current entry. -/
def leave {σ : Type} (P : StreamOps σ UInt8) (s : State σ) : Res (State σ) :=
  match s.entry with
  | none => .ok s
  | some e => do
    let (e, _) ← SubInputStream.skip P e e.size
    let (input, _) ← P.skip e.parent s.padding
    .ok { s with entry := none, input := input }

/-- tarinputstream.cpp:35-50 -/
def nextEntry {σ : Type} (P : StreamOps σ UInt8) (fuel : Nat) (s : State σ) : Res (State σ) :=
  if s.status ≠ .ok then .ok s
  else do
    let s ← leave P s
    let s ← parseHeader P fuel s
    if s.status ≠ .ok then .ok s
    else if s.info.size ≥ 0 then
      let e ← SubInputStream.new P s.input s.info.size
      .ok { s with entry := some e }
    else .ok s

/-- The provider through the interface of `SubStreamProvider`. -/
def ops {σ : Type} (P : StreamOps σ UInt8) (fuel : Nat) : ProviderOps (State σ) (SubInputStream σ) where
  nextEntry := nextEntry P fuel
  entry s := s.entry
  setEntry s e := { s with entry := some e }
  info s := s.info
  status s := s.status
  stream := SubInputStream.ops P

end Tar
end Strigi
