import Verif.ArchiveSpec
import Verif.Base64Spec
import Verif.MailSpec
import Verif.SdfSpec
import Verif.SearchSpec

/-!
# Specification of mails with several parts

Independent of any implementation.  CR is 13, LF is 10.
-/

namespace Strigi.Mime

/-! ## Lines -/

/-- White space. -/
def Space (b : UInt8) : Prop := b = 32 ∨ (9 ≤ b.toNat ∧ b.toNat ≤ 13)

/-- After the line break `brk` the character `x` continues the line (it is folded). -/
def Continues (brk : List UInt8) (x : UInt8) : Prop :=
  Space x ∧ ((brk = [13] ∧ x ≠ 10 ∧ x ≠ 13) ∨ (brk = [10] ∧ x ≠ 10) ∨ (brk = [13, 10] ∧ x ≠ 13))

/-- After the line break `brk` the character `x` starts a new line; `l` is what precedes the line break. -/
def Ends (l brk : List UInt8) (x : UInt8) : Prop :=
  (brk = [13] ∧ x ≠ 10 ∧ (x = 13 ∨ ¬ Space x)) ∨
  (brk = [10] ∧ (x = 10 ∨ ¬ Space x)) ∨
  (brk = [13, 10] ∧ (x = 13 ∨ l = [] ∨ ¬ Space x))

/-- A line: all line breaks in it are folds. -/
inductive Text : List UInt8 → Prop
  | nil : Text []
  | char {x : UInt8} {t : List UInt8} : x ≠ 13 → x ≠ 10 → Text t → Text (x :: t)
  | fold {brk : List UInt8} {x : UInt8} {t : List UInt8} : Continues brk x → Text t → Text (brk ++ x :: t)

/-- `Line text l rest`: `text` starts with the line `l`; behind it and its line break comes `rest`, which is not
empty.  (A line break at the very start ends an empty line.)  Lines of 2^20 or more bytes are not meant. -/
def Line (text l rest : List UInt8) : Prop :=
  ∃ brk x t, text = l ++ brk ++ rest ∧ rest = x :: t ∧ Text l ∧ ¬ [13, 10] <+: l ∧ Ends l brk x ∧
    l.length + brk.length < 2 ^ 20

/-- There is no line: what is left is shorter than 2^20 bytes and is not followed by the start of another line. -/
def LastLine (text : List UInt8) : Prop := text.length < 2 ^ 20 ∧ ∀ l rest, ¬ Line text l rest

/-- `Header text lines rest`: `text` starts with the header lines `lines` (without zero bytes) and an empty line;
then comes `rest`. -/
inductive Header : List UInt8 → List (List UInt8) → List UInt8 → Prop
  | blank {text rest : List UInt8} : Line text [] rest → Header text [] rest
  | field {text l r rest : List UInt8} {lines : List (List UInt8)} : Line text l r → l ≠ [] → 0 ∉ l →
      Header r lines rest → Header text (l :: lines) rest

/-- The text ends before an empty line. -/
inductive Headless : List UInt8 → Prop
  | last {text : List UInt8} : LastLine text → Headless text
  | field {text l r : List UInt8} : Line text l r → l ≠ [] → Headless r → Headless text

/-! ## Fields -/

/-- Lower case. -/
def lower (b : UInt8) : UInt8 := if 65 ≤ b.toNat ∧ b.toNat ≤ 90 then b + 32 else b

/-- The texts differ at most in case. -/
def SameCase (a b : List UInt8) : Prop := a.map lower = b.map lower

/-- `Content-Type:` -/
def contentType : List UInt8 := [67, 111, 110, 116, 101, 110, 116, 45, 84, 121, 112, 101, 58]

/-- `Content-Transfer-Encoding:` -/
def transferEncoding : List UInt8 :=
  [67, 111, 110, 116, 101, 110, 116, 45, 84, 114, 97, 110, 115, 102, 101, 114, 45, 69, 110, 99, 111, 100, 105, 110, 103, 58]

/-- `Content-Disposition:` -/
def disposition : List UInt8 :=
  [67, 111, 110, 116, 101, 110, 116, 45, 68, 105, 115, 112, 111, 115, 105, 116, 105, 111, 110, 58]

/-- `Subject:` -/
def subject : List UInt8 := [83, 117, 98, 106, 101, 99, 116, 58]
/-- `To:` -/
def to : List UInt8 := [84, 111, 58]
/-- `From:` -/
def «from» : List UInt8 := [70, 114, 111, 109, 58]
/-- `Cc:` -/
def cc : List UInt8 := [67, 99, 58]
/-- `Bcc:` -/
def bcc : List UInt8 := [66, 99, 99, 58]
/-- `Message-ID:` -/
def messageId : List UInt8 := [77, 101, 115, 115, 97, 103, 101, 45, 73, 68, 58]
/-- `In-Reply-To:` -/
def inReplyTo : List UInt8 := [73, 110, 45, 82, 101, 112, 108, 121, 45, 84, 111, 58]
/-- `References:` -/
def references : List UInt8 := [82, 101, 102, 101, 114, 101, 110, 99, 101, 115, 58]

/-- The line is a field with the given name (which includes the colon).  Lines with less than 8 bytes are ignored
altogether. -/
def IsField (name line : List UInt8) : Prop := 8 ≤ line.length ∧ SameCase (line.take name.length) name ∧ name.length ≤ line.length

/-- `v` is the value of the field: what comes behind the name and white space. -/
def FieldValue (name line v : List UInt8) : Prop :=
  ∃ sp, line.drop name.length = sp ++ v ∧ (∀ b ∈ sp, Space b) ∧ ∀ x t, v = x :: t → ¬ Space x

/-- `o` is the last of the lines with the given name, if there is one. -/
def LastField (name : List UInt8) (lines : List (List UInt8)) : Option (List UInt8) → Prop
  | none => ∀ l ∈ lines, ¬ IsField name l
  | some l => ∃ a b, lines = a ++ l :: b ∧ IsField name l ∧ ∀ l' ∈ b, ¬ IsField name l'

/-! ## Parameters -/

/-- `name` occurs in `h`, whatever the case, behind `a`. -/
def Occurs (name h a : List UInt8) : Prop := ∃ key t, h = a ++ key ++ t ∧ SameCase key name

/-- The characters that may stand between the name and the value of a parameter. -/
def Filler (b : UInt8) : Prop := b = 61 ∨ b = 32 ∨ b = 10 ∨ b = 13

/-- `v` is `w` without quotes: if `w` starts with a quote and has at least three characters, its first and its last
character are left out. -/
def Unquoted (w v : List UInt8) : Prop :=
  (w.head? = some 34 ∧ 2 < w.length ∧ v = w.tail.dropLast) ∨ (¬ (w.head? = some 34 ∧ 2 < w.length) ∧ v = w)

/-- `v` is the value of the parameter `name` in `h`: the name is looked for everywhere; the value starts behind `=`
and blanks, and it ends at the next semicolon.  It is empty if there is no such parameter. -/
def Param (name h v : List UInt8) : Prop :=
  (v = [] ∧ ∀ a, ¬ Occurs name h a) ∨
  ∃ a key fill t w, h = a ++ key ++ fill ++ t ∧ SameCase key name ∧ (∀ a', Occurs name h a' → a.length ≤ a'.length) ∧
    (∀ b ∈ fill, Filler b) ∧ (∀ x u, t = x :: u → ¬ Filler x) ∧ BeforeFirst [59] t w ∧ Unquoted w v

/-- `boundary` -/
def boundaryKey : List UInt8 := [98, 111, 117, 110, 100, 97, 114, 121]
/-- `filename` -/
def filenameKey : List UInt8 := [102, 105, 108, 101, 110, 97, 109, 101]
/-- `name` -/
def nameKey : List UInt8 := [110, 97, 109, 101]
/-- `base64` -/
def base64Key : List UInt8 := [98, 97, 115, 101, 54, 52]

/-- `Boundaries lines bs`: the content type lines among `lines` declare the boundaries `bs` (the last one first). -/
inductive Boundaries : List (List UInt8) → List (List UInt8) → Prop
  | nil : Boundaries [] []
  | other {l : List UInt8} {lines bs : List (List UInt8)} : ¬ IsField contentType l → Boundaries lines bs → Boundaries (l :: lines) bs
  | none {l v : List UInt8} {lines bs : List (List UInt8)} : IsField contentType l → FieldValue contentType l v →
      Param boundaryKey v [] → Boundaries lines bs → Boundaries (l :: lines) bs
  | some {l v b : List UInt8} {lines bs : List (List UInt8)} : IsField contentType l → FieldValue contentType l v →
      Param boundaryKey v b → b ≠ [] → Boundaries lines bs → Boundaries (l :: lines) (bs ++ [b])

/-- The name that the header of a part gives: the parameter `filename` in the content disposition, otherwise the
parameter `name` in the content type; empty if there is neither. -/
def FileName (lines : List (List UInt8)) (name : List UInt8) : Prop :=
  ∃ od oc d t n1 n2, LastField disposition lines od ∧ d = od.getD [] ∧ Param filenameKey d n1 ∧
    LastField contentType lines oc ∧ (oc = none → t = []) ∧ (∀ l, oc = some l → FieldValue contentType l t) ∧
    Param nameKey t n2 ∧ name = if n1 = [] then n2 else n1

/-- The last line about the transfer encoding contains `base64`. -/
def IsBase64 (lines : List (List UInt8)) : Prop :=
  ∃ l, LastField transferEncoding lines (some l) ∧ ∃ a, Occurs base64Key l a

/-! ## Parts -/

/-- `--` and the boundary. -/
def delimiter (b : List UInt8) : List UInt8 := 45 :: 45 :: b

/-- `--`, the boundary, `--`. -/
def closing (b : List UInt8) : List UInt8 := 45 :: 45 :: (b ++ [45, 45])

/-- The terminators that the search handles (see C18). -/
def Searchable (q : List UInt8) : Prop := ¬ Slips q

/-- A header line of a part contains a colon or starts with a blank. -/
def PartLine (l : List UInt8) : Prop := l ≠ [] ∧ (58 ∈ l ∨ l.head? = some 32 ∨ l.head? = some 9)

/-- `PartHeader text lines rest`: `text` starts with the header lines `lines` of a part and a line which is not a header
line (usually an empty one); then comes `rest`. -/
inductive PartHeader : List UInt8 → List (List UInt8) → List UInt8 → Prop
  | last {text l rest : List UInt8} : Line text l rest → ¬ PartLine l → PartHeader text [] rest
  | field {text l r rest : List UInt8} {lines : List (List UInt8)} : Line text l r → PartLine l → 0 ∉ l →
      PartHeader r lines rest → PartHeader text (l :: lines) rest

/-- The text ends within the header of a part. -/
inductive CutHeader : List UInt8 → Prop
  | last {text : List UInt8} : LastLine text → CutHeader text
  | field {text l r : List UInt8} : Line text l r → PartLine l → 0 ∉ l → CutHeader r → CutHeader text

/-- The entry for the `n`-th part with the given header and content. -/
def IsEntry (n : Nat) (lines : List (List UInt8)) (content : List UInt8) (e : ArchiveEntry) : Prop :=
  (∃ name, FileName lines name ∧ e.info = ⟨if name = [] then SdfSpec.decimal n else name, -1, 0, .file⟩) ∧
  (IsBase64 lines → e.content = B64.decoded content) ∧ (¬ IsBase64 lines → e.content = content)

/-- `Body soft stack n text entries`: `text` is the rest of a mail of which `n` parts have been seen, and `stack` are the
boundaries that are in use, the innermost first; `entries` are the entries for the parts in `text`.  (`soft` tells whether the
input tolerates all resets, which is needed if the mail ends within a part.) -/
inductive Body (soft : Prop) : List (List UInt8) → Nat → List UInt8 → List ArchiveEntry → Prop
  /-- Nothing more. -/
  | ended {b : List UInt8} {bs : List (List UInt8)} {n : Nat} {text : List UInt8} : LastLine text → Body soft (b :: bs) n text []
  /-- The end of the outermost multipart: whatever comes behind it is ignored. -/
  | closed {b : List UInt8} {n : Nat} {text rest : List UInt8} : Line text (closing b) rest → Body soft [b] n text []
  /-- A line of a preamble or an epilogue. -/
  | line {b : List UInt8} {bs : List (List UInt8)} {n : Nat} {text l rest : List UInt8} {es : List ArchiveEntry} :
      Line text l rest → l ≠ delimiter b → l ≠ closing b → Body soft (b :: bs) n rest es → Body soft (b :: bs) n text es
  /-- The end of an inner multipart. -/
  | close {b b' : List UInt8} {bs : List (List UInt8)} {n : Nat} {text rest : List UInt8} {es : List ArchiveEntry} :
      Line text (closing b) rest → Body soft (b' :: bs) n rest es → Body soft (b :: b' :: bs) n text es
  /-- A part that consists of several parts. -/
  | nested {b : List UInt8} {bs lines new : List (List UInt8)} {n : Nat} {text r rest : List UInt8} {es : List ArchiveEntry} :
      Line text (delimiter b) r → PartHeader r lines rest → Boundaries lines new → new ≠ [] →
      Body soft (new ++ b :: bs) n rest es → Body soft (b :: bs) n text es
  /-- A part.  Its content extends to the next delimiter and includes the line break in front of it. -/
  | part {b : List UInt8} {bs lines : List (List UInt8)} {n : Nat} {text r content rest l' r' : List UInt8}
      {e : ArchiveEntry} {es : List ArchiveEntry} :
      Line text (delimiter b) r → PartHeader r lines (content ++ delimiter b ++ rest) → Boundaries lines [] →
      (∀ i, i < content.length → ¬ OccursAt (delimiter b) (content ++ delimiter b ++ rest) i) →
      Line (content ++ delimiter b ++ rest) l' r' → Searchable (delimiter b) → IsEntry (n + 1) lines content e →
      Body soft (b :: bs) (n + 1) (delimiter b ++ rest) es → Body soft (b :: bs) n text (e :: es)
  /-- The mail ends within a part (but not in its first line). -/
  | cut {b : List UInt8} {bs lines : List (List UInt8)} {n : Nat} {text r content l' r' : List UInt8} {e : ArchiveEntry} :
      soft → Line text (delimiter b) r → PartHeader r lines content → Boundaries lines [] → (∀ i, ¬ OccursAt (delimiter b) content i) →
      Line content l' r' → content.length + 1 < 2 ^ 20 → Searchable (delimiter b) → IsEntry (n + 1) lines content e →
      Body soft (b :: bs) n text [e]
  /-- The mail ends in the first line of a part: the part is not presented. -/
  | lost {b : List UInt8} {bs lines : List (List UInt8)} {n : Nat} {text r content : List UInt8} :
      Line text (delimiter b) r → PartHeader r lines content → Boundaries lines [] → LastLine content → Body soft (b :: bs) n text []
  /-- The mail ends in the header of a part. -/
  | unfinished {b : List UInt8} {bs : List (List UInt8)} {n : Nat} {text r : List UInt8} :
      Line text (delimiter b) r → CutHeader r → Body soft (b :: bs) n text []

/-! ## How mails are written -/

def crlf : List UInt8 := [13, 10]

/-- A line without line breaks, which does not start with a blank. -/
def PlainLine (l : List UInt8) : Prop := 13 ∉ l ∧ 10 ∉ l ∧ (∀ x t, l = x :: t → ¬ Space x) ∧ l.length + 2 < 2 ^ 20

/-- Lines, each with its line break. -/
def joined (lines : List (List UInt8)) : List UInt8 := lines.flatMap (· ++ crlf)

/-- A part: the lines of its header and its text. -/
structure Part where
  header : List (List UInt8)
  body : List UInt8

/-- How a part is written. -/
def Part.text (p : Part) : List UInt8 := joined p.header ++ crlf ++ p.body ++ crlf

/-- How a multipart body is written (RFC 2046, section 5.1.1). -/
def multipart (b : List UInt8) (preamble : List (List UInt8)) (parts : List Part) (epilogue : List UInt8) : List UInt8 :=
  joined preamble ++ parts.flatMap (fun p => delimiter b ++ crlf ++ p.text) ++ closing b ++ epilogue

/-- How a mail is written. -/
def mail (header : List (List UInt8)) (body : List UInt8) : List UInt8 := joined header ++ crlf ++ body

/-- What may be behind the closing delimiter. -/
def Epilogue (t : List UInt8) : Prop := t = [] ∨ t = crlf ∨ ∃ x u, t = crlf ++ x :: u ∧ (x = 13 ∨ ¬ Space x)

/-- A part within the boundary `b` that is not multipart itself: its header has plain header lines without zero bytes, its text does not contain
the delimiter, and the first line of its text has less than 2^20 bytes. -/
def SimplePart (b : List UInt8) (p : Part) : Prop :=
  (∀ l ∈ p.header, PlainLine l ∧ PartLine l ∧ 0 ∉ l) ∧ Boundaries p.header [] ∧ (∀ i, ¬ OccursAt (delimiter b) p.body i) ∧
    ∃ l r, Line (p.body ++ crlf ++ [45]) l r

/-- The entries for the given parts, of which the first has the number `n + 1`: the content of an entry is the text of the part and a line
break. -/
inductive Entries : Nat → List Part → List ArchiveEntry → Prop
  | nil {n : Nat} : Entries n [] []
  | cons {n : Nat} {p : Part} {ps : List Part} {e : ArchiveEntry} {es : List ArchiveEntry} : IsEntry (n + 1) p.header (p.body ++ crlf) e →
      Entries (n + 1) ps es → Entries n (p :: ps) (e :: es)

end Strigi.Mime
