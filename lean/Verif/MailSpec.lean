import Verif.Base64Spec

/-!
# Specification of mail headers

Independent of any implementation.
-/

namespace Strigi.MailSpec

/-! ## The "Q" encoding (RFC 2047, section 4.2) -/

/-- The value of a hexadecimal digit of either case. -/
def hexValue (c : UInt8) : Option Nat :=
  let n := c.toNat
  if 48 ≤ n ∧ n ≤ 57 then some (n - 48)
  else if 65 ≤ n ∧ n ≤ 70 then some (n - 65 + 10)
  else if 97 ≤ n ∧ n ≤ 102 then some (n - 97 + 10)
  else none

/-- `QEncodes b e`: `e` is an encoding of the bytes `b`.  Every byte may be written as `=` and two hexadecimal
digits, a space may be written as `_`, and every byte but `=` and `_` may be written as it is. -/
inductive QEncodes : List UInt8 → List UInt8 → Prop
  | nil : QEncodes [] []
  | escaped {x h l : UInt8} {i j : Nat} {b e : List UInt8} : hexValue h = some i → hexValue l = some j →
      x.toNat = 16 * i + j → QEncodes b e → QEncodes (x :: b) (61 :: h :: l :: e)
  | space {b e : List UInt8} : QEncodes b e → QEncodes (32 :: b) (95 :: e)
  | plain {x : UInt8} {b e : List UInt8} : x ≠ 61 → x ≠ 95 → QEncodes b e → QEncodes (x :: b) (x :: e)

/-- The text starts with a valid escape. -/
def Escape (e : List UInt8) : Prop :=
  ∃ h l t, e = 61 :: h :: l :: t ∧ (hexValue h).isSome ∧ (hexValue l).isSome

/-- `QDecodes e b`: the decoding `b` of an arbitrary text `e`: escapes and `_` are replaced, everything else
is copied. -/
inductive QDecodes : List UInt8 → List UInt8 → Prop
  | nil : QDecodes [] []
  | escaped {x h l : UInt8} {i j : Nat} {b e : List UInt8} : hexValue h = some i → hexValue l = some j →
      x.toNat = 16 * i + j → QDecodes e b → QDecodes (61 :: h :: l :: e) (x :: b)
  | space {b e : List UInt8} : QDecodes e b → QDecodes (95 :: e) (32 :: b)
  | plain {x : UInt8} {b e : List UInt8} : ¬ Escape (x :: e) → x ≠ 95 → QDecodes e b → QDecodes (x :: e) (x :: b)

/-! ## Mails -/

/-- 7-bit characters. -/
def Ascii (l : List UInt8) : Prop := ∀ b ∈ l, b.toNat < 128

/-- The name of a header field: printable characters without space and colon. -/
def FieldName (l : List UInt8) : Prop := ∀ b ∈ l, 32 < b.toNat ∧ b.toNat < 127 ∧ b ≠ 58

/-- The value of a header field: 7-bit characters; a line break is only allowed if the line is continued, i.e.
if a space or a tab follows. -/
def FieldValue (v : List UInt8) : Prop :=
  Ascii v ∧ ∀ a t, v = a ++ 13 :: 10 :: t → ∃ w t', t = w :: t' ∧ (w = 32 ∨ w = 9)

/-- A header field. -/
def Field (f : List UInt8) : Prop :=
  ∃ name v, f = name ++ 58 :: (v ++ [13, 10]) ∧ FieldName name ∧ FieldValue v

/-- A mail: at least one header field, an empty line, the body. -/
def Mail (m : List UInt8) : Prop :=
  ∃ (f : List UInt8) (fs : List (List UInt8)) (body : List UInt8),
    m = f ++ fs.flatten ++ 13 :: 10 :: body ∧ Field f ∧ (∀ g ∈ fs, Field g) ∧ Ascii body

/-! ## Encoded words (RFC 2047, section 2) -/

/-- No question mark. -/
def NoMark (l : List UInt8) : Prop := 63 ∉ l

/-- The charset is "utf-8" (in any case), possibly followed by something. -/
def IsUtf8 (charset : List UInt8) : Prop :=
  (charset.take 5).map (fun b => if 65 ≤ b.toNat ∧ b.toNat ≤ 90 then b + 32 else b) = [117, 116, 102, 45, 56]

/-- `encodedWord charset encoding data` is `=?charset?encoding?data?=`. -/
def encodedWord (charset encoding data : List UInt8) : List UInt8 :=
  61 :: 63 :: (charset ++ 63 :: (encoding ++ 63 :: (data ++ [63, 61])))

/-- The text `out` that an encoded word stands for; `conv charset b` is the conversion of the bytes `b` to UTF-8
(which is left out for UTF-8).  `B` stands for base64 and `Q` for the "Q" encoding; a word with another
encoding stands for nothing. -/
inductive WordText (conv : List UInt8 → List UInt8 → List UInt8) (charset : List UInt8) :
    (encoding data out : List UInt8) → Prop
  | b {k : UInt8} {more data str out : List UInt8} : k = 66 ∨ k = 98 →
      (B64.IsText data → str = B64.decoded data) → (¬ B64.IsText data → str = []) →
      (IsUtf8 charset → out = str) → (¬ IsUtf8 charset → out = conv charset str) →
      WordText conv charset (k :: more) data out
  | q {k : UInt8} {more data str out : List UInt8} : k = 81 ∨ k = 113 → QDecodes data str →
      (IsUtf8 charset → out = str) → (¬ IsUtf8 charset → out = conv charset str) →
      WordText conv charset (k :: more) data out
  | other {k : UInt8} {more data : List UInt8} : k ≠ 66 → k ≠ 98 → k ≠ 81 → k ≠ 113 →
      WordText conv charset (k :: more) data []
  | none {data : List UInt8} : WordText conv charset [] data []

/-- The text starts with an encoded word (and has at least 9 characters). -/
def StartsWithWord (l : List UInt8) : Prop :=
  8 < l.length ∧ ∃ cs enc data t, l = encodedWord cs enc data ++ t ∧ NoMark cs ∧ NoMark enc ∧ NoMark data

/-- The text starts with a line break, white space and another character. -/
def StartsWithFold (l : List UInt8) : Prop := ∃ w x t, l = 13 :: 10 :: w :: x :: t ∧ (w = 9 ∨ w = 32)

/-- `HeaderText conv raw out`: how `MailInputStream` understands a header value. -/
inductive HeaderText (conv : List UInt8 → List UInt8 → List UInt8) : List UInt8 → List UInt8 → Prop
  | nil : HeaderText conv [] []
  | char {c : UInt8} {raw out : List UInt8} : ¬ StartsWithWord (c :: raw) → ¬ StartsWithFold (c :: raw) →
      HeaderText conv raw out → HeaderText conv (c :: raw) (c :: out)
  | word {cs enc data raw txt out : List UInt8} : 8 < (encodedWord cs enc data ++ raw).length →
      NoMark cs → NoMark enc → NoMark data → WordText conv cs enc data txt →
      HeaderText conv raw out → HeaderText conv (encodedWord cs enc data ++ raw) (txt ++ out)
  | fold {w x : UInt8} {raw out : List UInt8} : w = 9 ∨ w = 32 → HeaderText conv raw out →
      HeaderText conv (13 :: 10 :: w :: x :: raw) out

end Strigi.MailSpec
