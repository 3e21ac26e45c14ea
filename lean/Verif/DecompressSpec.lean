import Verif.Base

/-!
# What is assumed of zlib and libbz2

`inflate()` and `BZ2_bzDecompress()` are not modelled.  This file says what a decompressor is and what it
means that one turns `x` into `y`; the theorems about `GZipInputStream` and `BZ2InputStream` hold for every
decompressor that does so.
-/

namespace Strigi

/-- How a call to the decompressor ends: it wants to be called again, the compressed data has ended, or it
is broken. -/
inductive Code
  | more | ended | failed
deriving DecidableEq, Repr

/-- A decompressor with states `ζ`.  `run z inp space` is a call with the input `inp` and room for `space`
bytes: the new state, the number of bytes it consumed, the bytes it wrote, and how it ended. -/
structure Decompressor (ζ : Type) where
  init : ζ
  run : ζ → List UInt8 → Int → ζ × Nat × List UInt8 × Code

/-- `R z x y` means: in state `z` the decompressor needs exactly the bytes `x`, and writes exactly the bytes
`y` while it consumes them.  A call with the next bytes of the input (which may go on after `x`) and some
space consumes a part of `x` and writes a part of `y`; it stops when the space is full or the input is used
up.  It reports the end in the call in which both `x` and `y` are complete, unless the space was just
filled.  If `bad` holds it may also report that the data is broken. -/
def Unpacks {ζ : Type} (D : Decompressor ζ) (bad : Prop) (R : ζ → List UInt8 → List UInt8 → Prop) : Prop :=
  ∀ {z x y}, R z x y → ∀ {inp : List UInt8}, (inp <+: x ∨ x <+: inp) → ∀ {space : Int}, 0 < space →
    ∃ z' k out code, D.run z inp space = (z', k, out, code) ∧ k ≤ inp.length ∧ (out.length : Int) ≤ space ∧
      ∃ y', y = out ++ y' ∧
        ((code = .ended ∧ x = inp.take k ∧ y' = []) ∨
          (code = .more ∧ ∃ x', x = inp.take k ++ x' ∧ R z' x' y' ∧
            ((out.length : Int) = space ∨ (k = inp.length ∧ x' ≠ []))) ∨
          (bad ∧ code = .failed))

/-- What is assumed of a decompressor whatever its input is: a call consumes no more than it is given and writes no
more than there is room for; and for every byte that it consumes it writes at most `g` bytes, some of them later
(`w z` bounds what it may still write without consuming anything). -/
def Tidy {ζ : Type} (D : Decompressor ζ) (g : Nat) (w : ζ → Nat) : Prop :=
  ∀ (z : ζ) (inp : List UInt8) (space : Int), 0 < space → ∃ z' k out code, D.run z inp space = (z', k, out, code) ∧
    k ≤ inp.length ∧ (out.length : Int) ≤ space ∧ w z' + out.length ≤ w z + g * k

end Strigi
