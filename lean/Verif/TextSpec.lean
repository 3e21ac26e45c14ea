/-!
# Specification of UTF-8 text, byte orders and DOS times

Independent of any implementation.
-/

namespace Strigi.Text

/-- The UTF-8 encoding (RFC 3629) of a code point. -/
def encodeChar (n : Nat) : List UInt8 :=
  if n < 0x80 then [.ofNat n]
  else if n < 0x800 then [.ofNat (0xC0 + n / 64), .ofNat (0x80 + n % 64)]
  else if n < 0x10000 then [.ofNat (0xE0 + n / 4096), .ofNat (0x80 + n / 64 % 64), .ofNat (0x80 + n % 64)]
  else [.ofNat (0xF0 + n / 262144), .ofNat (0x80 + n / 4096 % 64), .ofNat (0x80 + n / 64 % 64),
    .ofNat (0x80 + n % 64)]

/-- The characters of XML 1.0 (https://www.w3.org/TR/REC-xml/#charsets). -/
def XmlChar (n : Nat) : Prop :=
  n = 0x9 ∨ n = 0xA ∨ n = 0xD ∨ (0x20 ≤ n ∧ n ≤ 0xD7FF) ∨ (0xE000 ≤ n ∧ n ≤ 0xFFFD) ∨
    (0x10000 ≤ n ∧ n ≤ 0x10FFFF)

/-- A continuation byte. -/
def Cont (b : UInt8) : Prop := 0x80 ≤ b.toNat ∧ b.toNat ≤ 0xBF

/-- The lead byte `b` announces `k` continuation bytes. -/
def Announces (b : UInt8) (k : Nat) : Prop :=
  (k = 1 ∧ 0xC2 ≤ b.toNat ∧ b.toNat ≤ 0xDF) ∨ (k = 2 ∧ 0xE0 ≤ b.toNat ∧ b.toNat ≤ 0xEF) ∨
    (k = 3 ∧ 0xF0 ≤ b.toNat ∧ b.toNat ≤ 0xF4)

/-- No surrogate and neither U+FFFE nor U+FFFF. -/
def ValueOk (v : Nat) : Prop := v ≠ 0xFFFE ∧ v ≠ 0xFFFF ∧ ¬ (0xD800 ≤ v ∧ v ≤ 0xDFFF)

/-- The byte sequences that `checkUtf8` takes for one character. -/
inductive Unit : List UInt8 → Prop
  | one (b : UInt8) : (b = 0x9 ∨ b = 0xA ∨ b = 0xD ∨ (0x20 ≤ b.toNat ∧ b.toNat ≤ 0x7F)) → Unit [b]
  | two (a b : UInt8) : Announces a 1 → Cont b → Unit [a, b]
  | three (a b c : UInt8) : Announces a 2 → Cont b → Cont c →
      ValueOk ((a.toNat - 0xE0) * 4096 + (b.toNat - 0x80) * 64 + (c.toNat - 0x80)) → Unit [a, b, c]
  | four (a b c d : UInt8) : Announces a 3 → Cont b → Cont c → Cont d →
      ValueOk ((a.toNat - 0xF0) * 262144 + (b.toNat - 0x80) * 4096 + (c.toNat - 0x80) * 64 + (d.toNat - 0x80)) →
      Unit [a, b, c, d]

/-- A sequence of such characters. -/
def Units (t : List UInt8) : Prop := ∃ us : List (List UInt8), t = us.flatten ∧ ∀ u ∈ us, Unit u

/-- The beginning of a character of which `k ≥ 1` bytes are missing. -/
def Incomplete (u : List UInt8) (k : Nat) : Prop :=
  1 ≤ k ∧ ∃ a conts, u = a :: conts ∧ Announces a (conts.length + k) ∧ ∀ b ∈ conts, Cont b

/-- The number represented by some bytes, least significant byte first. -/
def leValue : List UInt8 → Nat
  | [] => 0
  | b :: l => b.toNat + 256 * leValue l

/-- The number represented by some bytes, most significant byte first. -/
def beValue (l : List UInt8) : Nat := leValue l.reverse

/-- Two's complement interpretation of a `w`-bit pattern. -/
def signed (w : Nat) (v : Nat) : Int := if v < 2 ^ (w - 1) then v else (v : Int) - 2 ^ w

/-- A broken-down MS-DOS time. -/
structure DosTime where
  year : Nat
  month : Nat
  day : Nat
  hour : Nat
  min : Nat
  sec : Nat

/-- The fields have sensible values; the year is between 1980 and 2107. -/
def DosTime.Valid (t : DosTime) : Prop :=
  1980 ≤ t.year ∧ t.year < 2108 ∧ 1 ≤ t.month ∧ t.month ≤ 12 ∧ 1 ≤ t.day ∧ t.day ≤ 31 ∧ t.hour < 24 ∧
    t.min < 60 ∧ t.sec < 60

/-- The 32-bit encoding (dostime.cpp:29-35). -/
def DosTime.encode (t : DosTime) : Nat :=
  (t.year - 1980) * 2 ^ 25 + t.month * 2 ^ 21 + t.day * 2 ^ 16 + t.hour * 2 ^ 11 + t.min * 2 ^ 5 + t.sec / 2

end Strigi.Text
