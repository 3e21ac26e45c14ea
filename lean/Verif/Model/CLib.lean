import Verif.Model.Kmp
import Verif.Model.SubInputStream
import Verif.ArchiveSpec

/-!
# The few functions of the C library that the archive readers use
-/

namespace Strigi

/-- The value of a `char` (signed on the platforms the library is built for). -/
def schar (b : UInt8) : Int := if b.toNat < 128 then b.toNat else (b.toNat : Int) - 256

namespace CLib

/-- `isspace` in the C locale. -/
def isSpace (b : UInt8) : Bool := b == 32 || (9 ≤ b.toNat && b.toNat ≤ 13)

/-- Value of a digit below `base ≤ 10`. -/
def digit (base : Nat) (b : UInt8) : Option Nat :=
  if 48 ≤ b.toNat ∧ b.toNat < 48 + base then some (b.toNat - 48) else none

/-- The digits at the start of the memory `m`; the scan faults if it leaves the memory.  The second
component tells whether there was a digit at all. -/
def digits (base : Nat) : List UInt8 → Nat → Bool → Res (Nat × Bool)
  | [], _, _ => .fault .outOfBounds
  | b :: m, v, any =>
    match digit base b with
    | some k => digits base m (v * base + k) true
    | none => .ok (v, any)

/-- Skip white space. -/
def skipSpace : List UInt8 → Res (List UInt8)
  | [] => .fault .outOfBounds
  | b :: m => if isSpace b then skipSpace m else .ok (b :: m)

/-- `strtol`/`strtoul` with base 8 or 10: white space, sign, digits.  `none`: no number. -/
def number (base : Nat) (m : List UInt8) : Res (Option Int) := do
  let m ← skipSpace m
  match m with
  | [] => .fault .outOfBounds
  | b :: m' =>
    let (neg, m) := if b = 45 then (true, m') else if b = 43 then (false, m') else (false, b :: m')
    let (v, any) ← digits base m 0 false
    .ok (if any then some (if neg then -v else v) else none)

/-- `atoi` (glibc: `(int)strtol(s, 0, 10)`, where `strtol` saturates to 64 bits). -/
def atoi (m : List UInt8) : Res Int := do
  match ← number 10 m with
  | none => .ok 0
  | some v => .ok (narrow32 (max (-(2 ^ 63)) (min v (2 ^ 63 - 1))))

/-- `sscanf(s, "%o", &val)` with `int32_t val` (glibc: `strtoul` saturates to 64 bits and a negative
number is negated as an unsigned number; the result is stored in 32 bits).  `none`: the result of
`sscanf` is not `1`. -/
def scanOctal (m : List UInt8) : Res (Option Int) := do
  match ← number 8 m with
  | none => .ok none
  | some v =>
    if v.natAbs < 2 ^ 64 then .ok (some (narrow32 v)) else .ok (some (narrow32 (2 ^ 64 - 1)))

/-- `strlen`, or `strchr(…, 0)` -/
def strlen : List UInt8 → Res Nat
  | [] => .fault .outOfBounds
  | b :: m => if b = 0 then .ok 0 else do let n ← strlen m; .ok (n + 1)

end CLib

/-- Members of `SubStreamProvider` (include/strigi/substreamprovider.h:71-84) for the providers whose entry
streams are `SubInputStream`s over the input.  While there is an entry stream, it holds the state of the
shared input; otherwise `input` does. -/
structure Provider (σ : Type) where
  status : Status
  input : σ
  entry : Option (SubInputStream σ)
  info : EntryInfo
deriving DecidableEq, Repr

/-- substreamprovider.h:95-99: constructor. -/
def Provider.new {σ : Type} (input : σ) : Provider σ := ⟨.ok, input, none, {}⟩

end Strigi
