import Verif.Base

/-!
# The LZMA format

This file says which data a sequence of LZMA-compressed bytes stands for.  It follows the description of the format
(range coder with adaptive probabilities; literals, matches, repeated matches; end mark) and not the code in lib/lzma: the
probabilities are indexed by what they are used for, the history is a list, and there is no buffer of any kind.
-/

namespace Strigi
namespace Lzma

/-- The parameters of a stream: `lc` high bits of the previous byte and `lp` low bits of the position select the
probabilities of a literal, `pb` low bits of the position those of other things; distances do not exceed `dicSize`. -/
structure Params where
  lc : Nat
  lp : Nat
  pb : Nat
  dicSize : Nat
deriving DecidableEq, Repr

/-- What an adaptive probability is used for.  A `node` is the position in a binary tree (1 is the root, `2n` and `2n+1` are below
`n`). -/
inductive Ctx
  /-- a literal or something else? -/
  | isMatch (state posState : Nat)
  /-- a match with a new distance or with a repeated one? -/
  | isRep (state : Nat)
  /-- the last distance or an older one? -/
  | isRepG0 (state : Nat)
  /-- the last but one or an older one? -/
  | isRepG1 (state : Nat)
  /-- the third last or the fourth last? -/
  | isRepG2 (state : Nat)
  /-- only one byte with the last distance, or more? -/
  | isRep0Long (state posState : Nat)
  | posSlot (lenState node : Nat)
  | posSpecial (slot node : Nat)
  | align (node : Nat)
  | lenChoice (rep : Bool)
  | lenChoice2 (rep : Bool)
  | lenLow (rep : Bool) (posState node : Nat)
  | lenMid (rep : Bool) (posState node : Nat)
  | lenHigh (rep : Bool) (node : Nat)
  | literal (litState node : Nat)
  | matched (litState : Nat) (matchBit : Bool) (node : Nat)
deriving DecidableEq, Repr

/-- A procedure that reads bits and returns a value: the next bit is read with the adaptive probability `c`, or
without one. -/
inductive Parse (κ α : Type)
  | done (a : α)
  | bit (c : κ) (k : Bool → Parse κ α)
  | plain (k : Bool → Parse κ α)

namespace Parse
variable {κ α β : Type}

def bind : Parse κ α → (α → Parse κ β) → Parse κ β
  | done a, f => f a
  | bit c k, f => bit c (fun b => (k b).bind f)
  | plain k, f => plain (fun b => (k b).bind f)

instance : Monad (Parse κ) where
  pure := done
  bind := bind

end Parse

/-- Read `n` bits, the most significant one first; the result is `node` followed by these bits. -/
def tree {κ : Type} (c : Nat → κ) : Nat → Nat → Parse κ Nat
  | 0, node => .done node
  | n + 1, node => .bit (c node) fun b => tree c n (2 * node + b.toNat)

/-- Read `n` bits, the least significant one first: their value. -/
def reverseTree {κ : Type} (c : Nat → κ) : Nat → Nat → Parse κ Nat
  | 0, _ => .done 0
  | n + 1, node => .bit (c node) fun b => do
    let v ← reverseTree c n (2 * node + b.toNat)
    pure (b.toNat + 2 * v)

/-- Read `n` bits without probabilities, the most significant one first; the result is `v` followed by these bits. -/
def plainBits {κ : Type} : Nat → Nat → Parse κ Nat
  | 0, v => .done v
  | n + 1, v => .plain fun b => plainBits n (2 * v + b.toNat)

/-- The `n` low bits of a literal after a match, as long as the bits read so far agree with those of the byte `m` at the last
distance. -/
def matchedLiteral (litState m : Nat) : Nat → Nat → Parse Ctx Nat
  | 0, node => .done node
  | n + 1, node => .bit (.matched litState (m.testBit n) node) fun b =>
    if b = m.testBit n then matchedLiteral litState m n (2 * node + b.toNat)
    else tree (.literal litState) n (2 * node + b.toNat)

/-- A literal, plus 256.  `m` is the byte at the last distance, if the last symbol was not a literal. -/
def literal (litState : Nat) : Option Nat → Parse Ctx Nat
  | none => tree (.literal litState) 8 1
  | some m => matchedLiteral litState m 8 1

/-- The length of a match, minus 2. -/
def length (rep : Bool) (posState : Nat) : Parse Ctx Nat :=
  .bit (.lenChoice rep) fun b =>
    if b = false then do
      let v ← tree (.lenLow rep posState) 3 1
      pure (v - 8)
    else .bit (.lenChoice2 rep) fun b =>
      if b = false then do
        let v ← tree (.lenMid rep posState) 3 1
        pure (v - 8 + 8)
      else do
        let v ← tree (.lenHigh rep) 8 1
        pure (v - 256 + 16)

/-- The distance of a match, minus 1; `len` is the length minus 2. -/
def distance (len : Nat) : Parse Ctx Nat := do
  let slot ← tree (.posSlot (min len 3)) 6 1
  let slot := slot - 64
  if slot < 4 then pure slot
  else
    let bits := slot / 2 - 1
    let high := 2 + slot % 2
    if slot < 14 then do
      let low ← reverseTree (.posSpecial slot) bits 1
      pure (high * 2 ^ bits + low)
    else do
      let v ← plainBits (bits - 4) high
      let low ← reverseTree .align 4 1
      pure (v * 16 + low)

/-- What the compressed data consists of. -/
inductive Symbol
  | literal (b : Nat)
  /-- repeat `len + 2` bytes from `dist + 1` bytes ago; `dist = 2^32 - 1` is the end mark -/
  | copy (len dist : Nat)
  /-- repeat one byte, with the last distance -/
  | shortRep
  /-- repeat `len + 2` bytes, with the last distance but `i` -/
  | rep (i len : Nat)
deriving DecidableEq, Repr

/-- Read a symbol.  `m` is the byte at the last distance, if the last symbol was not a literal. -/
def symbol (state posState litState : Nat) (m : Option Nat) : Parse Ctx Symbol :=
  .bit (.isMatch state posState) fun b =>
    if b = false then do
      let v ← literal litState m
      pure (.literal (v - 256))
    else .bit (.isRep state) fun b =>
      if b = false then do
        let len ← length false posState
        let dist ← distance len
        pure (.copy len dist)
      else .bit (.isRepG0 state) fun b =>
        if b = false then .bit (.isRep0Long state posState) fun b =>
          if b = false then pure .shortRep
          else do
            let len ← length true posState
            pure (.rep 0 len)
        else .bit (.isRepG1 state) fun b =>
          if b = false then do
            let len ← length true posState
            pure (.rep 1 len)
          else .bit (.isRepG2 state) fun b => do
            let len ← length true posState
            pure (.rep (2 + b.toNat) len)

/-- The range coder with the bytes it has not read yet. -/
structure Coder where
  range : Nat
  code : Nat
  rest : List UInt8
deriving DecidableEq, Repr

/-- Read a byte if the range has become small; `none`: there is no byte. -/
def Coder.normalize (c : Coder) : Option Coder :=
  if c.range < 2 ^ 24 then
    match c.rest with
    | [] => none
    | b :: t => some ⟨c.range * 256, (c.code * 256 + b.toNat) % 2 ^ 32, t⟩
  else some c

/-- Carry out a procedure, with the probabilities `probs` (of the bit 0, in units of 1/2048); `none`: the data has ended.  The
probabilities are adapted.  In data that no compressor has made `code` may exceed `range`; then a bit read without a
probability is 1 iff `code - range`, as a 32-bit number, is less than 2^31. -/
def run {α : Type} : Parse Ctx α → (Ctx → Nat) → Coder → Option (α × (Ctx → Nat) × Coder)
  | .done a, probs, c => some (a, probs, c)
  | .bit x k, probs, c =>
    let p := probs x
    let bound := c.range / 2048 * p
    if c.code < bound then do
      let c ← Coder.normalize { c with range := bound }
      run (k false) (fun y => if y = x then p + (2048 - p) / 32 else probs y) c
    else do
      let c ← Coder.normalize { c with range := c.range - bound, code := c.code - bound }
      run (k true) (fun y => if y = x then p - p / 32 else probs y) c
  | .plain k, probs, c =>
    let half := c.range / 2
    if half ≤ c.code ∧ c.code < half + 2 ^ 31 then do
      let c ← Coder.normalize { c with range := half, code := c.code - half }
      run (k true) probs c
    else do
      let c ← Coder.normalize { c with range := half }
      run (k false) probs c

/-- The state between two symbols.  `past` is the data so far, the last byte first; `rep0` … `rep3` are the last distances. -/
structure State where
  past : List UInt8
  state : Nat
  rep0 : Nat
  rep1 : Nat
  rep2 : Nat
  rep3 : Nat
  probs : Ctx → Nat
  range : Nat
  code : Nat

/-- Repeat `n` bytes from `d` bytes ago. -/
def repeatPast (d : Nat) : Nat → List UInt8 → List UInt8
  | 0, past => past
  | n + 1, past => repeatPast d n (past.getD (d - 1) 0 :: past)

/-- The result of reading a symbol. -/
inductive Outcome
  /-- the data ends within the symbol -/
  | more
  /-- the symbol makes no sense -/
  | corrupt
  /-- the end mark, after which the coder has the given `code`, and the bytes after it -/
  | ended (code : Nat) (rest : List UInt8)
  /-- any other symbol: the new state and the bytes after it -/
  | next (s : State) (rest : List UInt8)

/-- Carry out a symbol. -/
def State.apply (P : Params) (s : State) (rest : List UInt8) : Symbol → Outcome
  | .literal b =>
    let state := if s.state < 4 then 0 else if s.state < 10 then s.state - 3 else s.state - 6
    .next { s with past := UInt8.ofNat b :: s.past, state := state } rest
  | .copy len dist =>
    if dist = 2 ^ 32 - 1 then .ended s.code rest
    else if dist + 1 ≤ s.past.length ∧ dist + 1 ≤ P.dicSize then
      let past := repeatPast (dist + 1) (len + 2) s.past
      let state := if s.state < 7 then 7 else 10
      .next { s with past := past, state := state, rep0 := dist + 1, rep1 := s.rep0, rep2 := s.rep1, rep3 := s.rep2 } rest
    else .corrupt
  | .shortRep =>
    if s.past = [] then .corrupt
    else .next { s with past := repeatPast s.rep0 1 s.past, state := if s.state < 7 then 9 else 11 } rest
  | .rep i len =>
    if s.past = [] then .corrupt
    else
      let s := match i with
        | 0 => s
        | 1 => { s with rep0 := s.rep1, rep1 := s.rep0 }
        | 2 => { s with rep0 := s.rep2, rep1 := s.rep0, rep2 := s.rep1 }
        | _ => { s with rep0 := s.rep3, rep1 := s.rep0, rep2 := s.rep1, rep3 := s.rep2 }
      .next { s with past := repeatPast s.rep0 (len + 2) s.past, state := if s.state < 7 then 8 else 11 } rest

/-- The procedure that reads the next symbol. -/
def State.parser (P : Params) (s : State) : Parse Ctx Symbol :=
  let pos := s.past.length
  symbol s.state (pos % 2 ^ P.pb) (pos % 2 ^ P.lp * 2 ^ P.lc + (s.past.headD 0).toNat / 2 ^ (8 - P.lc))
    (if s.state < 7 then none else some (s.past.getD (s.rep0 - 1) 0).toNat)

/-- Read and carry out the next symbol of `x`. -/
def State.step (P : Params) (s : State) (x : List UInt8) : Outcome :=
  match run (s.parser P) s.probs ⟨s.range, s.code, x⟩ with
  | none => .more
  | some (sym, probs, c) => State.apply P { s with probs := probs, range := c.range, code := c.code } c.rest sym

/-- The state at the beginning, after the first five bytes. -/
def State.start (code : Nat) : State where
  past := []
  state := 0
  rep0 := 1
  rep1 := 1
  rep2 := 1
  rep3 := 1
  probs := fun _ => 1024
  range := 2 ^ 32 - 1
  code := code

/-- The first five bytes: a zero and the code, which has the most significant byte first. -/
def header (x : List UInt8) (code : Nat) : Prop :=
  ∃ a b c d : UInt8, x = [0, a, b, c, d] ∧ code = ((a.toNat * 256 + b.toNat) * 256 + c.toNat) * 256 + d.toNat

/-- From state `s`, the bytes `x` are exactly some symbols followed by the end mark, and stand for a data stream that goes on with
`y`. -/
inductive Marked (P : Params) : State → List UInt8 → List UInt8 → Prop
  | ended {s x} : s.step P x = .ended 0 [] → Marked P s x []
  | next {s s' x x' new y} : s.step P x = .next s' x' → s'.past = new.reverse ++ s.past → Marked P s' x' y → Marked P s x (new ++ y)

/-- The same for data whose size is known: the symbols are followed by the end mark, or by nothing, and then the code is zero. -/
inductive Sized (P : Params) : State → List UInt8 → List UInt8 → Prop
  | done {s} : s.code = 0 → Sized P s [] []
  | ended {s x} : s.step P x = .ended 0 [] → Sized P s x []
  | next {s s' x x' new y} : s.step P x = .next s' x' → s'.past = new.reverse ++ s.past → Sized P s' x' y → Sized P s x (new ++ y)

/-- From state `s`, the bytes `x` begin with symbols that stand for `y`; whatever follows is left open. -/
inductive Begins (P : Params) : State → List UInt8 → List UInt8 → Prop
  | stop {s x} : Begins P s x []
  | next {s s' x x' new y} : s.step P x = .next s' x' → s'.past = new.reverse ++ s.past → Begins P s' x' y → Begins P s x (new ++ y)

/-- The five bytes that describe the parameters: a number that combines `lc`, `lp` and `pb`, and the size of the dictionary with the
least significant byte first (less than 4096 counts as 4096). -/
def props (b : List UInt8) (P : Params) : Prop :=
  ∃ d b0 b1 b2 b3 : UInt8, b = [d, b0, b1, b2, b3] ∧ P.lc < 9 ∧ P.lp < 5 ∧ P.pb < 5 ∧ d.toNat = (P.pb * 5 + P.lp) * 9 + P.lc ∧
    P.dicSize = max 4096 (b0.toNat + 256 * (b1.toNat + 256 * (b2.toNat + 256 * b3.toNat)))

/-- The bytes `x` are a complete stream with end mark, and stand for `y`. -/
def MarkedStream (P : Params) (x y : List UInt8) : Prop := ∃ hdr code w, x = hdr ++ w ∧ header hdr code ∧ Marked P (State.start code) w y

/-- The bytes `x` are a complete stream without end mark, or with one, and stand for `y`. -/
def SizedStream (P : Params) (x y : List UInt8) : Prop := ∃ hdr code w, x = hdr ++ w ∧ header hdr code ∧ Sized P (State.start code) w y

/-- The bytes `x`, which may be cut off or broken somewhere, begin with symbols that stand for `y`. -/
def StartsWith (P : Params) (x y : List UInt8) : Prop := y = [] ∨ ∃ hdr code w, x = hdr ++ w ∧ header hdr code ∧ Begins P (State.start code) w y

/-- `y` is everything that the bytes `x`, which may be cut off or broken somewhere, stand for. -/
def Whole (P : Params) (x y : List UInt8) : Prop := StartsWith P x y ∧ ∀ y', StartsWith P x y' → y' <+: y

/-- A bound for the number of bytes that `n` bytes can stand for. -/
def most (n : Nat) : Nat := 273 * 2 ^ 32 * (n + 1)

end Lzma
end Strigi
