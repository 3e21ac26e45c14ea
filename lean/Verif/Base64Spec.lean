/-!
# Specification of base64 (RFC 2045, section 6.8)

Independent of any implementation.
-/

namespace Strigi.B64

/-- The base64 alphabet: `A`–`Z`, `a`–`z`, `0`–`9`, `+`, `/` stand for 0, …, 63. -/
def value (c : UInt8) : Option Nat :=
  let n := c.toNat
  if 65 ≤ n ∧ n ≤ 90 then some (n - 65)
  else if 97 ≤ n ∧ n ≤ 122 then some (n - 97 + 26)
  else if 48 ≤ n ∧ n ≤ 57 then some (n - 48 + 52)
  else if n = 43 then some 62
  else if n = 47 then some 63
  else none

/-- The character for a value below 64. -/
def char (v : Nat) : UInt8 :=
  if v < 26 then UInt8.ofNat (65 + v)
  else if v < 52 then UInt8.ofNat (97 + (v - 26))
  else if v < 62 then UInt8.ofNat (48 + (v - 52))
  else if v = 62 then 43
  else 47

/-- The padding character `=`. -/
def pad : UInt8 := 61

/-- Three bytes become four characters; one or two remaining bytes are padded with `=`. -/
def encode : List UInt8 → List UInt8
  | [] => []
  | [x] => [char (x.toNat / 4), char (x.toNat % 4 * 16), pad, pad]
  | [x, y] => [char (x.toNat / 4), char (x.toNat % 4 * 16 + y.toNat / 16), char (y.toNat % 16 * 4), pad]
  | x :: y :: z :: l =>
    [char (x.toNat / 4), char (x.toNat % 4 * 16 + y.toNat / 16),
      char (y.toNat % 16 * 4 + z.toNat / 64), char (z.toNat % 64)] ++ encode l

/-- The characters that belong to the encoding: those of the alphabet and the padding.  All other bytes
(line breaks etc.) are to be ignored (RFC 2045). -/
def significant (c : UInt8) : Bool := (value c).isSome || c = pad

/-- The bytes denoted by a list of values below 64: four values denote three bytes.  If the text is ended by
padding, two remaining values denote one byte and three remaining values denote two bytes; an incomplete
group that is not followed by padding denotes nothing. -/
def bytes (padded : Bool) : List Nat → List UInt8
  | a :: b :: c :: d :: l =>
    [UInt8.ofNat (a * 4 + b / 16), UInt8.ofNat (b % 16 * 16 + c / 4), UInt8.ofNat (c % 4 * 64 + d)] ++
      bytes padded l
  | [a, b, c] => if padded then [UInt8.ofNat (a * 4 + b / 16), UInt8.ofNat (b % 16 * 16 + c / 4)] else []
  | [a, b] => if padded then [UInt8.ofNat (a * 4 + b / 16)] else []
  | _ => []

/-- The meaning of an arbitrary text: the values of the characters of the alphabet before the first padding
character, everything else being ignored. -/
def decoded (t : List UInt8) : List UInt8 :=
  bytes (t.contains pad) ((t.takeWhile (· ≠ pad)).filterMap value)

/-- The text consists of characters of the base64 alphabet, followed by at most two padding characters, and
its length is a multiple of four. -/
def IsText (t : List UInt8) : Prop :=
  t.length % 4 = 0 ∧ ∃ body k, t = body ++ List.replicate k pad ∧ k ≤ 2 ∧
    ∀ x ∈ body, (value x).isSome

end Strigi.B64
