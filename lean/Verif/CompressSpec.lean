import Verif.Base

/-!
# What is assumed of `deflate()`

`deflate()` is not modelled.  This file says what a compressor is and what it means that one turns `x` into `y`.
-/

namespace Strigi

/-- What a call to the compressor returns: `Z_OK`, `Z_STREAM_END` or something else. -/
inductive PackCode
  | ok | ended | other
deriving DecidableEq, Repr

/-- A compressor with states `ζ`.  `run z inp space finish` is a call with the input `inp` and room for `space` bytes, with
`Z_FINISH` if `finish` holds and with `Z_NO_FLUSH` otherwise: the new state, the number of bytes it consumed, the bytes
it wrote, and the code. -/
structure Compressor (ζ : Type) where
  init : ζ
  run : ζ → List UInt8 → Int → Bool → ζ × Nat × List UInt8 × PackCode

/-- `R z x y` means: if in state `z` the compressor is given exactly the bytes `x`, in whatever pieces, and then told
to finish, it writes exactly the bytes `y`.  While it is fed it goes on until the input is used up or the space is
full; when it is told to finish it goes on until everything is written, which it reports, or the space is full. -/
structure Packs {ζ : Type} (K : Compressor ζ) (R : ζ → List UInt8 → List UInt8 → Prop) : Prop where
  feed : ∀ {z x y}, R z x y → ∀ {inp : List UInt8}, inp <+: x → inp ≠ [] → ∀ {space : Int}, 0 < space →
    ∃ z' k out code, K.run z inp space false = (z', k, out, code) ∧ k ≤ inp.length ∧ (out.length : Int) ≤ space ∧
      ∃ y', y = out ++ y' ∧ R z' (x.drop k) y' ∧ ((out.length : Int) = space ∨ k = inp.length)
  finish : ∀ {z y}, R z [] y → ∀ {space : Int}, 0 < space →
    ∃ z' k out code, K.run z [] space true = (z', k, out, code) ∧ (out.length : Int) ≤ space ∧
      ∃ y', y = out ++ y' ∧ ((code = .ended ∧ y' = []) ∨ (code = .ok ∧ R z' [] y' ∧ (out.length : Int) = space))

end Strigi
