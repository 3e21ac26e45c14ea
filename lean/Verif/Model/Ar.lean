import Verif.Model.CLib

/-!
# Model of `ArInputStream` (lib/arinputstream.cpp)
-/

namespace Strigi

namespace Ar

/-- arinputstream.cpp:30 -/
def magic : List UInt8 := [0x21, 0x3c, 0x61, 0x72, 0x63, 0x68, 0x3e, 0x0a]

/-- arinputstream.cpp:28-34 -/
def checkHeader (data : List UInt8) (datasize : Int) : Res Bool :=
  if datasize < 8 then .ok false else memEq data magic

/-- State: the members of the base class and `gnufilenames`. -/
structure State (σ : Type) extends Provider σ where
  names : List UInt8
deriving DecidableEq, Repr

/-- arinputstream.cpp:35-42 -/
def new {σ : Type} (P : StreamOps σ UInt8) (input : σ) : Res (State σ) := do
  let (input, n, b) ← P.read input 8 8
  let ok ← if n ≠ 8 then .ok false else checkHeader b 8
  .ok { status := if ok then .ok else .error, input := input, entry := none, info := {}, names := [] }

/-- arinputstream.cpp:87-93: the length of the name in the first 16 bytes; `n` bytes are left to look
at. -/
def nameLen (b : List UInt8) : Nat → Int → Res Int
  | 0, len => .ok len
  | n + 1, len => do
    let c ← aget b len
    if c = 32 ∨ c = 47 ∨ c = 0 then .ok len else nameLen b n (len + 1)

/-- arinputstream.cpp:127-133: the name at `c_str() + p`, up to a slash or the NUL at the end of the
string. -/
def nameAt (names : List UInt8) (p : Nat) : List UInt8 :=
  (names.drop p).takeWhile (fun b => b ≠ 47 ∧ b ≠ 0)

/-- arinputstream.cpp:64-67: headers start at even positions. -/
def align {σ : Type} (P : StreamOps σ UInt8) (input : σ) : Res σ :=
  if (P.position input).tmod 2 ≠ 0 then do
    let (input', _) ← P.skip input 1
    .ok input'
  else .ok input

/-- arinputstream.cpp:58-139; at most `fuel` nested calls.  `bc` (lines 96-98) is the header with a NUL
appended.  Line 121 converts the result of `atoi` to `unsigned`. -/
def readHeader {σ : Type} (P : StreamOps σ UInt8) : Nat → State σ → Res (State σ)
  | 0, _ => .diverge
  | fuel + 1, s => do
    let input ← align P s.input
    let (input, nread, b) ← P.read input 60 60
    let s := { s with input := input }
    if P.status input = .error then .ok { s with status := .error }
    else if nread ≤ 1 then .ok { s with status := .eof }
    else if nread ≠ 60 then .ok { s with status := .error }
    else
      let len ← nameLen b 16 0
      let bc := b ++ [0]
      let size ← CLib.atoi (bc.drop 48)
      let s := { s with info := { s.info with size := size } }
      if size < 0 then .ok { s with status := .error }
      else
        let mtime ← CLib.atoi (bc.drop 16)
        let s := { s with info := { s.info with mtime := mtime } }
        if len = 0 then
          let b1 ← aget b 1
          if b1 = 47 then
            let (input, nread, d) ← P.read s.input size size
            let s := { s with input := input }
            if nread ≠ size then .ok { s with status := .error }
            else
              let s ← readHeader P fuel { s with names := slice d 0 size }
              .ok { s with info := { s.info with type := .file } }
          else if b1 = 32 then
            let (input, _) ← P.skip s.input size
            let s ← readHeader P fuel { s with input := input }
            .ok { s with info := { s.info with type := .file } }
          else
            let p := ((← CLib.atoi (bc.drop 1)) % 2 ^ 32).toNat
            if s.names.length ≤ p then .ok { s with status := .error }
            else .ok { s with info := { s.info with filename := nameAt s.names p, type := .file } }
        else .ok { s with info := { s.info with filename := slice b 0 len, type := .file } }

/-- arinputstream.cpp:48-52: leave the current entry. -/
def leave {σ : Type} (P : StreamOps σ UInt8) (s : State σ) : Res (State σ) :=
  match s.entry with
  | none => .ok s
  | some e => do
    let (e, _) ← SubInputStream.skip P e e.size
    .ok { s with entry := none, input := e.parent }

/-- arinputstream.cpp:45-57 -/
def nextEntry {σ : Type} (P : StreamOps σ UInt8) (fuel : Nat) (s : State σ) : Res (State σ) :=
  if s.status ≠ .ok then .ok s
  else do
    let s ← leave P s
    let s ← readHeader P fuel s
    if s.status ≠ .ok then .ok s
    else
      let e ← SubInputStream.new P s.input s.info.size
      .ok { s with entry := some e }

/-- The provider through the interface of `SubStreamProvider`. -/
def ops {σ : Type} (P : StreamOps σ UInt8) (fuel : Nat) : ProviderOps (State σ) (SubInputStream σ) where
  nextEntry := nextEntry P fuel
  entry s := s.entry
  setEntry s e := { s with entry := some e }
  info s := s.info
  status s := s.status
  stream := SubInputStream.ops P

end Ar
end Strigi
