import Verif.Model.Base64
import Verif.Model.CLib

/-!
# Model of the text functions of `MailInputStream` (lib/mailinputstream.cpp:48-53, 97-309, 446-469)
-/

namespace Strigi

namespace MailText

/-- mailinputstream.cpp:48-53 (`char` arithmetic) -/
def decodeHex (h : UInt8) : UInt8 :=
  if h ≥ 65 ∧ h ≤ 70 then 10 + h - 65
  else if h ≥ 97 ∧ h ≤ 102 then 10 + h - 97
  else h - 48

/-- `isxdigit` in the C locale; negative characters are taken not to be digits. -/
def isXDigit (c : UInt8) : Bool := (48 ≤ c && c ≤ 57) || (65 ≤ c && c ≤ 70) || (97 ≤ c && c ≤ 102)

/-- The loop of mailinputstream.cpp:115-136 over the bytes from `v` to `end`; `pre` are the bytes from `pos` to
`v`. -/
def qpLoop (decoded pre : List UInt8) : List UInt8 → List UInt8
  | [] => decoded ++ pre
  | [c] => if c = 95 then qpLoop (decoded ++ pre ++ [32]) [] [] else qpLoop decoded (pre ++ [c]) []
  | [c, a] => if c = 95 then qpLoop (decoded ++ pre ++ [32]) [] [a] else qpLoop decoded (pre ++ [c]) [a]
  | c :: a :: b :: l =>
    if c = 61 ∧ isXDigit a ∧ isXDigit b then
      qpLoop (decoded ++ pre ++ [decodeHex a * 16 + decodeHex b]) [] l
    else if c = 95 then qpLoop (decoded ++ pre ++ [32]) [] (a :: b :: l)
    else qpLoop decoded (pre ++ [c]) (a :: b :: l)

/-- mailinputstream.cpp:110-137 -/
def decodeQuotedPrintable (v : List UInt8) : List UInt8 := qpLoop [] [] v

/-- mailinputstream.cpp:217-224 -/
inductive ParserState
  | inName | inValue | maybeNewLine | possibleName | maybeEnd | inBody
deriving DecidableEq, Repr

open ParserState in
/-- The body of the loop of mailinputstream.cpp:246-304 for one character; `none` is `return false`, `some
(st, true)` means that the character is to be looked at again in state `st`.  A `char` is negative for a byte
of 128 or more. -/
def parseChar (st : ParserState) (c : UInt8) : Option (ParserState × Bool) :=
  match st with
  | inName =>
    if c = 58 then some (inValue, false)
    else if c = 32 ∨ c = 9 then none
    else if schar c < 0 ∨ schar c ≥ 128 then none
    else if (schar c ≥ 0 ∧ schar c ≤ 31) ∨ schar c = 127 then none
    else some (inName, false)
  | inValue =>
    if c = 13 then some (maybeNewLine, false)
    else if schar c < 0 ∨ schar c ≥ 128 then none
    else some (inValue, false)
  | maybeNewLine => if c = 10 then some (possibleName, false) else some (inValue, true)
  | possibleName =>
    if c = 32 ∨ c = 9 then some (inValue, false)
    else if c = 13 then some (maybeEnd, false)
    else some (inName, true)
  | maybeEnd => if c = 10 then some (inBody, false) else none
  | inBody => if schar c < 0 ∨ schar c ≥ 128 then none else some (inBody, false)

/-- The loop of mailinputstream.cpp:245-306; `fuel` bounds the number of iterations. -/
def parseLoop (data : List UInt8) (datasize : Int) : Nat → ParserState → Int → Res Bool
  | 0, _, _ => .diverge
  | fuel + 1, st, pos =>
    if pos < datasize then do
      let c ← aget data pos
      match parseChar st c with
      | none => .ok false
      | some (st, again) => parseLoop data datasize fuel st (if again then pos else pos + 1)
    else .ok true

/-- mailinputstream.cpp:209-309.  Every character is looked at once or twice. -/
def checkHeader (data : List UInt8) (datasize : Int) : Res Bool :=
  parseLoop data datasize (2 * datasize.toNat + 1) .inName 0

/-- mailinputstream.cpp:155, 157, 159: `while (q < e && *q != '?') q++`, for `n = e - q`. -/
def findMark (m : List UInt8) : Nat → Int → Res Int
  | 0, q => .ok q
  | n + 1, q => do
    let c ← aget m q
    if c = 63 then .ok q else findMark m n (q + 1)

/-- `tolower` in the C locale. -/
def toLower (b : UInt8) : UInt8 := if 65 ≤ b ∧ b ≤ 90 then b + 32 else b

/-- `strncasecmp("utf-8", s, 5) == 0`; `l` is the memory at `s`.  (The bytes are compared one after the other,
but at least 5 of them exist where this is used.) -/
def isUtf8 (l : List UInt8) : Bool := (l.take 5).map toLower == [117, 116, 102, 45, 56]

/-- mailinputstream.cpp:169-186: the data of an encoded word; `conv` is `Decoder::decode`.  `none`: the encoding
is unknown, nothing is appended.  `Base64InputStream::decode` looks at the two characters before empty data,
which are part of the header and not in the alphabet, so that the result is empty. -/
def decodeWord (conv : List UInt8 → List UInt8 → List UInt8) (m : List UInt8) (s q1 q2 e : Int) :
    Res (List UInt8) := do
  let c ← aget m q1
  let data := slice m q2 (e - q2)
  if c = 98 ∨ c = 66 then do
    let str ← if data = [] then Res.ok [] else Base64.decode data
    .ok (if isUtf8 (m.drop s.toNat) then str else conv (slice m s (q1 - s - 1)) str)
  else if c = 113 ∨ c = 81 then
    let str := decodeQuotedPrintable data
    .ok (if isUtf8 (m.drop s.toNat) then str else conv (slice m s (q1 - s - 1)) str)
  else .ok []

/-- mailinputstream.cpp:151: `e-s > 8 && *s == '=' && s[1] == '?'` where `*s` is `c0`. -/
def wordStart (m : List UInt8) (e s : Int) (c0 : UInt8) : Res Bool :=
  if e - s > 8 ∧ c0 = 61 then do
    let c1 ← aget m (s + 1)
    .ok (c1 == 63)
  else .ok false

/-- mailinputstream.cpp:160: `!(e - end < 1 || end[1] != '=')` -/
def wordEnd (m : List UInt8) (e stop : Int) : Res Bool :=
  if e - stop < 1 then .ok false
  else do
    let c ← aget m (stop + 1)
    .ok (c == 61)

/-- mailinputstream.cpp:190-191: `e-s > 3 && s[0] == 13 && s[1] == 10 && (s[2] == 9 || s[2] == 32)` -/
def foldStart (m : List UInt8) (e s : Int) (c0 : UInt8) : Res Bool :=
  if e - s > 3 ∧ c0 = 13 then do
    let a ← aget m (s + 1)
    if a ≠ 10 then .ok false else
    let b ← aget m (s + 2)
    .ok (b == 9 || b == 32)
  else .ok false

/-- The loop of mailinputstream.cpp:150-198.  `m` is the memory from `v` on, of which `e` bytes belong to the
value.  `fuel` bounds the number of iterations. -/
def headerLoop (conv : List UInt8 → List UInt8 → List UInt8) (m : List UInt8) (e : Int) :
    Nat → (s p : Int) → List UInt8 → Res (List UInt8)
  | 0, _, _, _ => .diverge
  | fuel + 1, s, p, decoded =>
    if s < e then do
      let c0 ← aget m s
      if ← wordStart m e s c0 then
        let q1 ← findMark m (e - (s + 2)).toNat (s + 2)
        let q2 ← findMark m (e - (q1 + 1)).toNat (q1 + 1)
        let stop ← findMark m (e - (q2 + 1)).toNat (q2 + 1)
        if ← wordEnd m e stop then
          let str ← decodeWord conv m (s + 2) (q1 + 1) (q2 + 1) stop
          headerLoop conv m e fuel (stop + 2) (stop + 2) (decoded ++ slice m p (s - p) ++ str)
        else headerLoop conv m e fuel (s + 1) p decoded
      else if ← foldStart m e s c0 then
        headerLoop conv m e fuel (s + 4) (s + 4) (decoded ++ slice m p (s - p))
      else headerLoop conv m e fuel (s + 1) p decoded
    else if p < e then .ok (decoded ++ slice m p (e - p))
    else .ok decoded

/-- mailinputstream.cpp:141-203 -/
def decodedHeaderValue (conv : List UInt8 → List UInt8 → List UInt8) (m : List UInt8) (len : Nat) :
    Res (List UInt8) :=
  headerLoop conv m len (len + 1) 0 0 []

end MailText
end Strigi
