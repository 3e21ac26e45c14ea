import Verif.Model.CLib
import Verif.SdfSpec

/-!
# Model of `SdfInputStream` (lib/sdfinputstream.cpp)
-/

namespace Strigi

namespace Sdf

/-- sdfinputstream.cpp:30 -/
def delimiter : List UInt8 := [36, 36, 36, 36]

/-- sdfinputstream.cpp:31 -/
def label : List UInt8 := [86, 50, 48, 48, 48]

/-- sdfinputstream.cpp:55-56: `for (i=0; i<max && data[i] != '\n' && data[i] != '\r'; ++i)`; `n` is
`max - i`, `off` the offset of `data`. -/
def eol (m : List UInt8) (off : Int) : Nat → Int → Res Int
  | 0, i => .ok i
  | n + 1, i => do
    let c ← aget m (off + i)
    if c ≠ 10 ∧ c ≠ 13 then eol m off n (i + 1) else .ok i

/-- sdfinputstream.cpp:49-63.  A pointer into the memory `m` is its offset, the null pointer is `none`; the
result is an offset in `m`, too. -/
def skip80Line (m : List UInt8) (off : Int) (size : Int) : Res (Option Int) :=
  if size ≤ 0 then .ok none
  else do
    let max := min size 81
    let i ← eol m off max.toNat 0
    if i = max then .ok none else
    let c ← aget m (off + i)
    if c = 10 then .ok (if i + 1 < size then some (off + i + 1) else none)
    else
      let single ← if i + 1 < size then do
          let b ← aget m (off + i + 1)
          .ok (b != 10)
        else .ok false
      if single then .ok (some (off + i + 1))
      else .ok (if i + 2 < size then some (off + i + 2) else none)

/-- The loop of sdfinputstream.cpp:71-74 with `n` iterations left; returns `thisLine` and `nextLine`. -/
def lines (data : List UInt8) (datasize : Int) : Nat → Int → Option Int → Res (Int × Option Int)
  | 0, this, next => .ok (this, next)
  | n + 1, this, next =>
    match next with
    | none => .ok (this, next)
    | some p => do
      let q ← skip80Line data p (datasize - p)
      lines data datasize n p q

/-- sdfinputstream.cpp:64-80 -/
def checkHeader (data : List UInt8) (datasize : Int) : Res Bool :=
  if datasize ≤ 10 then .ok false
  else do
    let (this, next) ← lines data datasize 4 0 (some 0)
    match next with
    | none => .ok false
    | some next => do
      let r ← Kmp.find label (slice data this (next - this))
      .ok r.isSome

/-- The members of the base class and of the class (include/strigi/sdfinputstream.h).  `substream` and
`m_entrystream` are always the same pointer between calls of `nextEntry`. -/
structure State (σ : Type) extends Provider σ where
  number : Nat
  previous : Int
deriving DecidableEq, Repr

/-- sdfinputstream.cpp:33-37; the searcher is built for every search in the model. -/
def new {σ : Type} (input : σ) : State σ :=
  { status := .ok, input := input, entry := none, info := {}, number := 0, previous := 0 }

variable {σ : Type}

/-- sdfinputstream.cpp:92-94: `while (substream->status() == Ok) substream->read(dummy, 1, 0)`; at most `fuel`
iterations. -/
def drain (P : StreamOps σ UInt8) : Nat → SubInputStream σ → Res (SubInputStream σ)
  | 0, _ => .diverge
  | fuel + 1, e =>
    if e.status = .ok then do
      let (e', _, _) ← SubInputStream.read P e 1 0
      drain P fuel e'
    else .ok e

/-- sdfinputstream.cpp:112-116: the line breaks; `d` is what the last read returned. -/
def eat (P : StreamOps σ UInt8) : Nat → σ → List UInt8 → Res σ
  | 0, _, _ => .diverge
  | fuel + 1, input, d =>
    if P.status input = .ok then do
      let c ← aget d 0
      if c = 10 ∨ c = 13 then
        let (input, _, d) ← P.read input 1 1
        eat P fuel input d
      else .ok input
    else .ok input

/-- sdfinputstream.cpp:108-118: the delimiter and the line breaks. -/
def eatDelimiter (P : StreamOps σ UInt8) (fuel : Nat) (input : σ) : Res σ :=
  if P.status input = .ok then do
    let (input, nread, d) ← P.read input 4 4
    if nread = 4 ∧ d.take 4 = delimiter then
      let (input, _, d) ← P.read input 1 1
      eat P fuel input d
    else .ok input
  else .ok input

/-- sdfinputstream.cpp:88-119: leave the current entry. -/
def leave (P : StreamOps σ UInt8) (fuel : Nat) (s : State σ) : Res (State σ) :=
  match s.entry with
  | none => .ok s
  | some e => do
    let (e, _) ← SubInputStream.reset P e 0
    let e ← drain P fuel e
    let s : State σ := { s with status := if e.status = .error then .error else s.status, entry := none }
    let (input, _) ← P.reset e.parent s.previous
    let input ← eatDelimiter P fuel input
    .ok { s with input := input }

/-- sdfinputstream.cpp:130-140: the search for the delimiter; the result is `len`.  `total` is not narrowed. -/
def scan (P : StreamOps σ UInt8) : Nat → σ → Int → Res (σ × Int)
  | 0, _, _ => .diverge
  | fuel + 1, input, total =>
    if P.status input = .ok then do
      let (input, nread, d) ← P.read input 1024 0
      if nread > 0 then
        match ← Kmp.find delimiter (slice d 0 nread) with
        | some p => .ok (input, p + total)
        | none => scan P fuel input (total + nread)
      else scan P fuel input total
    else .ok (input, 0)

/-- sdfinputstream.cpp:124-169: the next entry. -/
def next (P : StreamOps σ UInt8) (fuel : Nat) (s : State σ) : Res (State σ) := do
  let pos := P.position s.input
  let (input, len) ← scan P fuel s.input 0
  let s : State σ := { s with input := input }
  if P.status input = .error then .ok { s with status := .error, entry := none }
  else
    let (input, _) ← P.reset input pos
    let s : State σ := { s with input := input }
    if len > 0 then
      let e ← SubInputStream.new P input len
      .ok { s with
        entry := some e
        previous := P.position input + len
        info := { s.info with
          type := .file
          size := len
          filename := [77, 111, 108, 101, 99, 117, 108, 101] ++ SdfSpec.decimal (s.number + 1) }
        number := s.number + 1 }
    else .ok { s with status := .eof, entry := none }

/-- sdfinputstream.cpp:85: `m_input->reset(previousStartOfDelimiter)`; the state of the input is part of the
entry stream if there is one. -/
def rewind (P : StreamOps σ UInt8) (s : State σ) : Res (State σ) :=
  match s.entry with
  | none => do
    let (input, _) ← P.reset s.input s.previous
    .ok { s with input := input }
  | some e => do
    let (input, _) ← P.reset e.parent s.previous
    .ok { s with entry := some { e with parent := input } }

/-- sdfinputstream.cpp:81-170 -/
def nextEntry (P : StreamOps σ UInt8) (fuel : Nat) (s : State σ) : Res (State σ) :=
  if s.status ≠ .ok then .ok s
  else do
    let s ← rewind P s
    let s ← leave P fuel s
    next P fuel s

/-- The provider through the interface of `SubStreamProvider`. -/
def ops (P : StreamOps σ UInt8) (fuel : Nat) : ProviderOps (State σ) (SubInputStream σ) where
  nextEntry := nextEntry P fuel
  entry s := s.entry
  setEntry s e := { s with entry := some e }
  info s := s.info
  status s := s.status
  stream := SubInputStream.ops P

end Sdf
end Strigi
