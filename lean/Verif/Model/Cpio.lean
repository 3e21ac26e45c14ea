import Verif.Model.CLib

/-!
# Model of `CpioInputStream` (lib/cpioinputstream.cpp)
-/

namespace Strigi

namespace Cpio

/-- lib/cpioinputstream.cpp:30: `"070701"` -/
def magic : List UInt8 := [48, 55, 48, 55, 48, 49]

/-- lib/cpioinputstream.cpp:129: `"TRAILER!!!"` -/
def trailer : List UInt8 := [84, 82, 65, 73, 76, 69, 82, 33, 33, 33]

/-- cpioinputstream.cpp:32-38 -/
def checkHeader (data : List UInt8) (datasize : Int) : Res Bool :=
  if datasize < 6 then .ok false else memEq data magic

/-- State: the members of the base class and `padding` (include/strigi/cpioinputstream.h:31; not initialised by the
constructor, but it is set before it is used). -/
structure State (σ : Type) extends Provider σ where
  padding : Int
deriving DecidableEq, Repr

/-- cpioinputstream.cpp:39-42 -/
def new {σ : Type} (input : σ) : State σ :=
  { status := .ok, input := input, entry := none, info := { type := .file }, padding := 0 }

/-- cpioinputstream.cpp:138-148: the loop of `readHexField`; `n` characters are left, the next one is
`b[off]`.  `val <<= 4` is taken to wrap around in 32 bits, as compilers do. -/
def hexLoop (b : List UInt8) : Nat → Int → Int → Res Int
  | 0, _, val => .ok val
  | n + 1, off, val => do
    let val := narrow32 (val * 16)
    let c := schar (← aget b off)
    let val := if c > 70 then val + (c - 87) else if c > 57 then val + (c - 55) else val + (c - 48)
    hexLoop b n (off + 1) (narrow32 val)

/-- cpioinputstream.cpp:134-150 -/
def readHexField (b : List UInt8) (off : Int) : Res Int := hexLoop b 8 off 0

/-- cpioinputstream.cpp:125: `while (len < filenamesize && b[len] != '\0') len++`; `n` is
`filenamesize - len`. -/
def nameLen (b : List UInt8) (base : Int) : Nat → Int → Res Int
  | 0, len => .ok len
  | n + 1, len => do
    if (← aget b (base + len)) ≠ 0 then nameLen b base n (len + 1) else .ok len

/-- cpioinputstream.cpp:105-108: padding to a multiple of four, given the remainder. -/
def padTo4 (r : Int) : Int := if r ≠ 0 then 4 - r else 0

/-- cpioinputstream.cpp:119-122: an initial `./` of the name is left out. -/
def nameBase (b : List UInt8) (filenamesize : Int) : Res Int :=
  if filenamesize - 1 > 2 then do
    let b0 ← aget b 0
    if b0 = 46 then do
      let b1 ← aget b 1
      if b1 = 47 then .ok 2 else .ok 0
    else .ok 0
  else .ok 0

/-- cpioinputstream.cpp:110-132: the name of the entry. -/
def readName {σ : Type} (P : StreamOps σ UInt8) (s : State σ) (filenamesize : Int) : Res (State σ) := do
  let toread := filenamesize + padTo4 ((filenamesize + 2).tmod 4)
  let (input, nread, b) ← P.read s.input toread toread
  let s := { s with input := input }
  if nread ≠ toread then .ok { s with status := .error }
  else
    let base ← nameBase b filenamesize
    let len ← nameLen b base filenamesize.toNat 0
    let name := slice b base len
    let s := { s with info := { s.info with filename := name } }
    if name = trailer then .ok { s with status := .eof } else .ok s

/-- cpioinputstream.cpp:69-133 -/
def readHeader {σ : Type} (P : StreamOps σ UInt8) (s : State σ) : Res (State σ) := do
  let (input, nread, b) ← P.read s.input 110 110
  let s := { s with input := input }
  if nread ≠ 110 then .ok { s with status := P.status input }
  else if b.take 6 ≠ magic then .ok { s with status := .error }
  else
    let size ← readHexField b 54
    let mtime ← readHexField b 46
    let filenamesize ← readHexField b 94
    let s := { s with info := { s.info with size := size, mtime := mtime } }
    let s := { s with padding := padTo4 (size.tmod 4) }
    readName P s filenamesize

/-- cpioinputstream.cpp:53-55: `while (m_entrystream->status() == Ok) m_entrystream->skip(size())`; at
most `fuel` iterations. -/
def skipEntry {σ : Type} (P : StreamOps σ UInt8) : Nat → SubInputStream σ → Res (SubInputStream σ)
  | 0, _ => .diverge
  | fuel + 1, e =>
    if e.status = .ok then do
      let (e', _) ← SubInputStream.skip P e e.size
      skipEntry P fuel e'
    else .ok e

/-- cpioinputstream.cpp:52-61: leave the current entry. -/
def leave {σ : Type} (P : StreamOps σ UInt8) (fuel : Nat) (s : State σ) : Res (State σ) :=
  match s.entry with
  | none => .ok s
  | some e => do
    let e ← skipEntry P fuel e
    let s : State σ := { s with entry := none, input := e.parent }
    if s.padding ≠ 0 then do
      let (input, _) ← P.skip s.input s.padding
      .ok { s with input := input }
    else .ok s

/-- cpioinputstream.cpp:45-68 -/
def nextEntry {σ : Type} (P : StreamOps σ UInt8) (fuel : Nat) (s : State σ) : Res (State σ) :=
  if s.status ≠ .ok then
    .ok { s with entry := none, input := match s.entry with | none => s.input | some e => e.parent }
  else do
    let s ← leave P fuel s
    let s ← readHeader P s
    let e ← SubInputStream.new P s.input s.info.size
    if s.status ≠ .ok then .ok { s with entry := none } else .ok { s with entry := some e }

/-- The provider through the interface of `SubStreamProvider`. -/
def ops {σ : Type} (P : StreamOps σ UInt8) (fuel : Nat) : ProviderOps (State σ) (SubInputStream σ) where
  nextEntry := nextEntry P fuel
  entry s := s.entry
  setEntry s e := { s with entry := some e }
  info s := s.info
  status s := s.status
  stream := SubInputStream.ops P

end Cpio
end Strigi
