import Verif.Model.BufferedStream
import Verif.Model.Kmp

/-!
# Model of `Base64InputStream` (lib/base64inputstream.cpp), over an arbitrary input
-/

namespace Strigi

namespace Base64

/-- base64inputstream.cpp:47-48 `alphabet`. -/
def alphabet : List UInt8 :=
  [65, 66, 67, 68, 69, 70, 71, 72, 73, 74, 75, 76, 77, 78, 79, 80, 81, 82, 83, 84, 85, 86, 87, 88, 89, 90,
    97, 98, 99, 100, 101, 102, 103, 104, 105, 106, 107, 108, 109, 110, 111, 112, 113, 114, 115, 116, 117,
    118, 119, 120, 121, 122, 48, 49, 50, 51, 52, 53, 54, 55, 56, 57, 43, 47]

/-- base64inputstream.cpp:49, 56-69: the table `inalphabet` (static storage is zero initialised). -/
def inalphabet (c : UInt8) : Bool := c ∈ alphabet

/-- base64inputstream.cpp:50, 56-69: the table `decoder`, only used for characters in the alphabet (all
of them are below its size 133). -/
def decoder (c : UInt8) : Nat := alphabet.idxOf c

/-- State of a `Base64InputStream` (base64inputstream.cpp:31-44).  `isOpen` is `input != 0`; `chunk` are the
bytes from `pos` to `pend`.  `bits` stays below 2^24 (see `Base64.Rest`), so the 32-bit type of the code
does not overflow. -/
structure State (σ : Type) where
  input : σ
  isOpen : Bool
  chunk : List UInt8
  bits : Nat
  todo : Nat
  count : Nat
deriving DecidableEq, Repr

variable {σ : Type}

/-- base64inputstream.cpp:78-87. -/
def State.new (input : σ) : State σ := ⟨input, true, [], 0, 0, 0⟩

/-- base64inputstream.cpp:88-105: the returned flags are the result of the function and whether the status
was set to `Error`. -/
def moreData (P : StreamOps σ UInt8) (s : State σ) : Res (State σ × Bool × Bool) :=
  if s.chunk = [] then do
    let (p, n, d) ← P.read s.input 1 0
    if n < -1 then .ok ({ s with input := p, isOpen := false }, false, true)
    else if n ≤ 0 then .ok ({ s with input := p, isOpen := false }, false, false)
    else .ok ({ s with input := p, chunk := d }, true, false)
  else .ok (s, true, false)

/-- The byte `(char)x` of an integer. -/
def byte (x : Nat) : UInt8 := UInt8.ofNat x

/-- The loop of base64inputstream.cpp:133-179.  `out` are the bytes between `start` and `p`; `nwritten` is
their number.  Returns the state, the bytes written and whether an error was reported. -/
def loop (P : StreamOps σ UInt8) (space : Int) :
    Nat → State σ → List UInt8 → Res (State σ × List UInt8 × Bool)
  | 0, _, _ => .diverge
  | fuel + 1, s, out => do
    let (s, more, err) ← moreData P s
    if !more then .ok (s, out, err)
    else match s.chunk with
      | [] => .fault .outOfBounds
      | c :: chunk =>
        let s := { s with chunk := chunk }
        if c = 61 then
          if s.count = 2 then
            .ok ({ s with todo := 1, bits := s.bits / 2 ^ 10, isOpen := false }, out, false)
          else if s.count = 3 then
            .ok ({ s with todo := 2, bits := s.bits / 2 ^ 8, isOpen := false }, out, false)
          else .ok ({ s with isOpen := false }, out, false)
        else if ¬ inalphabet c then loop P space fuel s out
        else
          let s := { s with bits := s.bits + decoder c, count := s.count + 1 }
          if s.count = 4 then
            if (out.length : Int) ≥ space then .ok ({ s with todo := 3 }, out, false)
            else
              let out := out ++ [byte (s.bits / 2 ^ 16)]
              if (out.length : Int) ≥ space then .ok ({ s with todo := 2 }, out, false)
              else
                let out := out ++ [byte (s.bits / 2 ^ 8 % 256)]
                if (out.length : Int) ≥ space then .ok ({ s with todo := 1 }, out, false)
                else
                  loop P space fuel { s with bits := 0, count := 0 } (out ++ [byte (s.bits % 256)])
          else loop P space fuel { s with bits := s.bits * 2 ^ 6 } out

/-- base64inputstream.cpp:110-184. -/
def fill (P : StreamOps σ UInt8) (fuel : Nat) (s : State σ) (space : Int) : Res (State σ × Fill UInt8) :=
  if !s.isOpen ∧ s.todo = 0 then .ok (s, ⟨-1, [], false⟩)
  else if s.todo ≠ 0 then
    if s.todo = 3 then .ok ({ s with todo := s.todo - 1 }, ⟨1, [byte (s.bits / 2 ^ 16)], false⟩)
    else if s.todo = 2 then .ok ({ s with todo := s.todo - 1 }, ⟨1, [byte (s.bits / 2 ^ 8 % 256)], false⟩)
    else .ok ({ s with todo := s.todo - 1, bits := 0, count := 0 }, ⟨1, [byte (s.bits % 256)], false⟩)
  else do
    let (s, out, err) ← loop P space fuel s []
    .ok (s, ⟨if out = [] ∧ !s.isOpen ∧ s.todo = 0 then -1 else out.length, out, err⟩)

/-- `Base64InputStream` as a subclass of `BufferedStream<char>`.  `N` bounds the number of loop iterations;
the theorems hold for all sufficiently large `N`. -/
def producer (P : StreamOps σ UInt8) (N : Nat) : Producer (State σ) UInt8 where
  fill := fill P N
  fuel _ := N

/-! ## The static function `decode` -/

/-- The three output bytes of base64inputstream.cpp:205-210, in `char` arithmetic. -/
def three (a k l d : Nat) : List UInt8 := [byte (a * 4 + k / 16), byte (k * 16 + l / 4), byte (l * 64 + d)]

/-- The loop of base64inputstream.cpp:200-214 over the bytes `c`..`e`; `none` is the early return of an
empty string. -/
def decodeLoop : List UInt8 → List UInt8 → Option (List UInt8)
  | c0 :: c1 :: c2 :: c3 :: l, d =>
    if inalphabet c0 ∧ inalphabet c1 ∧ inalphabet c2 ∧ inalphabet c3 then
      decodeLoop l (d ++ three (decoder c0) (decoder c1) (decoder c2) (decoder c3))
    else none
  | _, d => some d

/-- base64inputstream.cpp:185-230.  `aget` is an access `in[i]`; for length 0 it is `in[-1]`. -/
def decode (inp : List UInt8) : Res (List UInt8) :=
  if inp.length % 4 ≠ 0 then .ok []
  else do
    let last ← aget inp (inp.length - 1)
    let e := if last = 61 then inp.length - 4 else inp.length
    match decodeLoop (inp.take e) [] with
    | none => .ok []
    | some d => do
      let last2 ← aget inp (inp.length - 2)
      if last2 = 61 then do
        -- `c` points at the bytes that were not consumed by the loop
        let c0 ← aget inp e
        let c1 ← aget inp (e + 1)
        if inalphabet c0 ∧ inalphabet c1 then
          .ok (d ++ [byte (decoder c0 * 4 + decoder c1 / 16)])
        else .ok []
      else if last = 61 then do
        let c0 ← aget inp e
        let c1 ← aget inp (e + 1)
        let c2 ← aget inp (e + 2)
        if inalphabet c0 ∧ inalphabet c1 ∧ inalphabet c2 then
          .ok (d ++ [byte (decoder c0 * 4 + decoder c1 / 16), byte (decoder c1 * 16 + decoder c2 / 4)])
        else .ok []
      else .ok d

end Base64
end Strigi
