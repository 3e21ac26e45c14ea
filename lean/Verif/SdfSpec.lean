import Verif.ArchiveSpec
import Verif.SearchSpec

/-!
# Specification of SD files

Independent of any implementation.
-/

namespace Strigi.SdfSpec

/-- `$$$$` -/
def delimiter : List UInt8 := [36, 36, 36, 36]

/-- `V2000` -/
def label : List UInt8 := [86, 50, 48, 48, 48]

/-- No line feed and no carriage return. -/
def NoBreak (l : List UInt8) : Prop := ∀ b ∈ l, b ≠ 10 ∧ b ≠ 13

/-- `Line d l rest`: the text `d` starts with a line `l` of at most 80 bytes, which is ended by LF, CR or CR LF;
behind it comes `rest`, which is not empty. -/
inductive Line : List UInt8 → List UInt8 → List UInt8 → Prop
  | lf {l rest : List UInt8} : NoBreak l → l.length ≤ 80 → rest ≠ [] → Line (l ++ 10 :: rest) l rest
  | crlf {l rest : List UInt8} : NoBreak l → l.length ≤ 80 → rest ≠ [] → Line (l ++ 13 :: 10 :: rest) l rest
  | cr {l rest : List UInt8} {b : UInt8} : NoBreak l → l.length ≤ 80 → b ≠ 10 →
      Line (l ++ 13 :: b :: rest) l (b :: rest)

/-- The beginning of a mol file: four lines of at most 80 bytes, the fourth contains `V2000`; something follows,
and there are more than ten bytes. -/
def Mol (d : List UInt8) : Prop :=
  10 < d.length ∧ ∃ l1 l2 l3 l4 r1 r2 r3 r4, Line d l1 r1 ∧ Line r1 l2 r2 ∧ Line r2 l3 r3 ∧ Line r3 l4 r4 ∧
    ∃ p, OccursAt label l4 p

/-- The decimal digits of a number. -/
def decimal (n : Nat) : List UInt8 := (Nat.toDigits 10 n).map (fun c => UInt8.ofNat c.toNat)

/-- A record behind the first one: line breaks, a character, other text. -/
structure Record where
  breaks : List UInt8
  first : UInt8
  text : List UInt8

/-- The bytes of a record and the delimiter behind it. -/
def Record.bytes (r : Record) : List UInt8 := r.breaks ++ r.first :: (r.text ++ delimiter)

/-- `text` contains no delimiter and does not overlap with the delimiter behind it. -/
def Clean (text : List UInt8) : Prop := ∀ p, OccursAt delimiter (text ++ delimiter) p → text.length ≤ p

/-- The line breaks are line breaks, the first character is none, and the text is not empty. -/
structure Record.WellFormed (r : Record) : Prop where
  breaks : ∀ b ∈ r.breaks, b = 10 ∨ b = 13
  first : r.first ≠ 10 ∧ r.first ≠ 13
  nonempty : r.text ≠ []
  clean : Clean r.text

/-- The entry number `n` with the given content: it is called `Molecule` and the number. -/
def entry (n : Nat) (text : List UInt8) : ArchiveEntry :=
  ⟨⟨[77, 111, 108, 101, 99, 117, 108, 101] ++ decimal n, text.length, 0, .file⟩, text⟩

/-- The entries with the numbers from `n` on. -/
def entries : Nat → List (List UInt8) → List ArchiveEntry
  | _, [] => []
  | n, t :: l => entry n t :: entries (n + 1) l

/-- A stream that hands out everything that is left if a read has no limit (such as an in-memory stream). -/
def Whole {σ : Type} (P : StreamOps σ UInt8) (c : List UInt8) (F : Failure) (soft : Prop) : Prop :=
  ∀ s lo hi, (∀ l, Behaves P c F soft s lo hi l) → ∀ mn s' n d, 1 ≤ mn → P.read s mn 0 = .ok (s', n, d) → 0 < n →
    P.position s' = c.length

end Strigi.SdfSpec
