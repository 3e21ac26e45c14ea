import Verif.Base

/-!
# What is expected of an LZMA decoder

`LZMAInputStream` calls `LzmaDec_DecodeToBuf` (lib/lzma/LzmaDec.c).  This file says what such a decoder is, and
what it means that one turns the bytes `x` into `y`.
-/

namespace Strigi

/-- How a call to the decoder ends: `SZ_OK` with the status `LZMA_STATUS_FINISHED_WITH_MARK`, `SZ_OK` with another
status, or an error. -/
inductive LzmaCode
  | more | mark | failed
deriving DecidableEq, Repr

/-- An LZMA decoder with states `ζ`.  `init props` is the state after `LzmaDec_Allocate` and `LzmaDec_Init` with the
five bytes of properties.  `run z inp space finish` is a call with the input `inp` and room for `space` bytes, with
mode `LZMA_FINISH_END` if `finish` holds and `LZMA_FINISH_ANY` otherwise: the new state, the number of bytes it
consumed, the bytes it wrote, and how it ended. -/
structure LzmaDecoder (ζ : Type) where
  init : List UInt8 → Res ζ
  run : ζ → List UInt8 → Int → Bool → Res (ζ × Nat × List UInt8 × LzmaCode)

/-- Data with an end mark.  `R z x y` means: in state `z` the decoder needs exactly the bytes `x` (up to the end of the
mark), and writes exactly the bytes `y` while it consumes them.  A call with the next bytes of the input (which may
go on after `x`) and some space consumes a part of `x` and writes a part of `y`; it stops when the space is full or
the input is used up; it reports the mark when it has been consumed.  If `bad` holds it may also report that the
data is broken. -/
structure LzmaMarked {ζ : Type} (D : LzmaDecoder ζ) (bad : Prop) (R : ζ → List UInt8 → List UInt8 → Prop) : Prop where
  needs : ∀ {z x y}, R z x y → x ≠ []
  run : ∀ {z x y}, R z x y → ∀ {inp : List UInt8}, (inp <+: x ∨ x <+: inp) → ∀ {space : Int}, 0 < space →
    ∃ z' k out code, D.run z inp space false = .ok (z', k, out, code) ∧ k ≤ inp.length ∧ (out.length : Int) ≤ space ∧
      ∃ y', y = out ++ y' ∧
        ((code = .mark ∧ x = inp.take k ∧ y' = []) ∨
          (code = .more ∧ ∃ x', x = inp.take k ++ x' ∧ R z' x' y' ∧ ((out.length : Int) = space ∨ k = inp.length)) ∨
          (bad ∧ code = .failed))

/-- Data of known size.  `R z x y` means: in state `z` the decoder needs at most the bytes `x` and has still to write
`y`, which is not empty.  It is called with space for at most `y`; with `LZMA_FINISH_END` if there would be more
space. -/
structure LzmaSized {ζ : Type} (D : LzmaDecoder ζ) (bad : Prop) (R : ζ → List UInt8 → List UInt8 → Prop) : Prop where
  rest : ∀ {z x y}, R z x y → y ≠ []
  run : ∀ {z x y}, R z x y → ∀ {inp : List UInt8}, (inp <+: x ∨ x <+: inp) → ∀ {space : Int}, 0 < space →
    space ≤ y.length → ∀ {finish : Bool}, (finish = true → space = y.length) →
    ∃ z' k out code, D.run z inp space finish = .ok (z', k, out, code) ∧ k ≤ inp.length ∧ (out.length : Int) ≤ space ∧
      ∃ y', y = out ++ y' ∧
        ((y' = [] ∧ code ≠ .failed) ∨
          (code = .more ∧ ∃ x', x = inp.take k ++ x' ∧ R z' x' y' ∧ ((out.length : Int) = space ∨ k = inp.length)) ∨
          (bad ∧ code = .failed))

/-- After some calls of the decoder from the state `z0` on, with any pieces of input, space and modes, none of which ended with the mark or
an error: the state, the bytes consumed so far and the bytes written so far. -/
inductive LzmaCalls {ζ : Type} (D : LzmaDecoder ζ) (z0 : ζ) : ζ → List UInt8 → List UInt8 → Prop
  | start : LzmaCalls D z0 z0 [] []
  | call {z z' X Y inp out space finish k} : LzmaCalls D z0 z X Y → 0 < space → D.run z inp space finish = .ok (z', k, out, .more) →
      LzmaCalls D z0 z' (X ++ inp.take k) (Y ++ out)

end Strigi
