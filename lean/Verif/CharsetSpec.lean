import Verif.Base

/-!
# Character encodings

`iconv()` is not modelled; this file says what an encoding is and which text a sequence of bytes
denotes.  It does not refer to any implementation.

An encoding may have a state: the byte order of UTF-16, the shift state of ISO-2022-JP or UTF-7, a letter that is held back because the
next byte may be an accent (CP1258).  For a stateless encoding `τ` is `Unit`.
-/

namespace Strigi

/-- What the next character of some bytes is: a character (or shift sequence) of `k` bytes that is converted to the items `out` and
leads to the state `st`; the beginning of a character that needs more bytes; or nothing that is allowed. -/
inductive Next (τ α : Type) where
  | char (k : Nat) (out : List α) (st : τ)
  | incomplete
  | invalid
deriving DecidableEq, Repr

/-- A conversion: in some state it looks at (non-empty) bytes and tells what comes next.  `flush` is what is still to be written when
there are no more bytes (POSIX: `iconv` called with a null pointer as input). -/
structure Charset (τ α : Type) where
  init : τ
  next : τ → List UInt8 → Next τ α
  flush : τ → List α

/-- The laws of such a conversion: a character has some bytes, and what follows does not matter once a
decision is made.  An incomplete character has less than 262 bytes (all encodings in use need at most a few
bytes). -/
structure Charset.Lawful {τ α : Type} (cs : Charset τ α) : Prop where
  char : ∀ {st l k out st'}, l ≠ [] → cs.next st l = .char k out st' → 0 < k ∧ k ≤ l.length ∧ ∀ m, cs.next st (l ++ m) = .char k out st'
  invalid : ∀ {st l}, l ≠ [] → cs.next st l = .invalid → ∀ m, cs.next st (l ++ m) = .invalid
  incomplete : ∀ {st l}, l ≠ [] → cs.next st l = .incomplete → l.length < 262

/-- Every character is converted to at most one item (wide characters; single byte encodings). -/
def Charset.Single {τ α : Type} (cs : Charset τ α) : Prop :=
  ∀ {st l k out st'}, cs.next st l = .char k out st' → out.length ≤ 1

/-- In the state `st` the bytes are a text: they are converted to the items and lead to the state at the end. -/
inductive Charset.Denotes {τ α : Type} (cs : Charset τ α) : τ → List UInt8 → List α → τ → Prop
  | nil {st} : Denotes cs st [] [] st
  | cons {st l k out st' rest last} : l ≠ [] → cs.next st l = .char k out st' → Denotes cs st' (l.drop k) rest last →
      Denotes cs st l (out ++ rest) last

/-- The bytes are the text `t`, with everything that has to be written at the end. -/
def Charset.Text {τ α : Type} (cs : Charset τ α) (l : List UInt8) (t : List α) : Prop :=
  ∃ out last, cs.Denotes cs.init l out last ∧ t = out ++ cs.flush last

/-- Nothing is held back: all that bytes stand for is written when they are read. -/
def Charset.Prompt {τ α : Type} (cs : Charset τ α) : Prop := ∀ st, cs.flush st = []

/-- The bytes denote the items up to a place where there is no complete character: an invalid sequence, or a
character cut off by the end. -/
inductive Charset.Breaks {τ α : Type} (cs : Charset τ α) : τ → List UInt8 → List α → Prop
  | here {st l} : l ≠ [] → cs.next st l = .incomplete ∨ cs.next st l = .invalid → Breaks cs st l []
  | cons {st l k out st' rest} : l ≠ [] → cs.next st l = .char k out st' → Breaks cs st' (l.drop k) rest →
      Breaks cs st l (out ++ rest)

/-- How a call to `iconv()` ends: all the input is converted, an invalid sequence (`EILSEQ`), an incomplete
character at the end of the input (`EINVAL`), or no room for the next character (`E2BIG`). -/
inductive IconvCode
  | done | ilseq | inval | tooBig
deriving DecidableEq, Repr

/-- What POSIX says about `iconv(cd, &inbuf, &inbytesleft, &outbuf, &outbytesleft)`: characters are converted
one by one as long as they fit.  Returns the bytes of the input that are left, the items written, the state that is kept in `cd`,
and how it ended.  `fuel` is any number not below the number of steps (the number of input bytes, if every step consumes one). -/
def Charset.iconv {τ α : Type} (cs : Charset τ α) : Nat → τ → List UInt8 → Nat → List UInt8 × List α × τ × IconvCode
  | _, st, [], _ => ([], [], st, .done)
  | 0, st, l, _ => (l, [], st, .inval)
  | fuel + 1, st, l, space =>
    match cs.next st l with
    | .incomplete => (l, [], st, .inval)
    | .invalid => (l, [], st, .ilseq)
    | .char k out st' =>
      if out.length > space then (l, [], st, .tooBig)
      else
        let r := cs.iconv fuel st' (l.drop k) (space - out.length)
        (r.1, out ++ r.2.1, r.2.2.1, r.2.2.2)

end Strigi
