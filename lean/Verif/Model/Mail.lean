import Verif.Model.MailText
import Verif.Model.StringTerminated
import Verif.SdfSpec

/-!
# Model of `MailInputStream` (lib/mailinputstream.cpp:311-690)
-/

namespace Strigi

namespace Mail

open MailText (toLower)

/-- mailinputstream.cpp:375: the states 0 to 3 of `readHeaderLine`. -/
inductive LineState
  | ok | cr | lf | crlf
deriving DecidableEq, Repr

/-- mailinputstream.cpp:406-439: one character `c` at `linepos`.  `none`: go on in another state; `some k`: the
line is complete, it ends `k` bytes before `linepos`. -/
def lineStep (st : LineState) (linepos : Int) (c : UInt8) : LineState × Option Int :=
  match st with
  | .ok => if c = 13 then (.cr, none) else if c = 10 then (.lf, none) else (.ok, none)
  | .cr =>
    if c = 10 then (.crlf, none)
    else if c = 13 ∨ CLib.isSpace c = false then (.cr, some 1) else (.ok, none)
  | .lf => if c = 10 ∨ CLib.isSpace c = false then (.lf, some 1) else (.ok, none)
  | .crlf => if c = 13 ∨ linepos = 2 ∨ CLib.isSpace c = false then (.crlf, some 2) else (.ok, none)

/-- mailinputstream.cpp:405-441: the loop `while (linepos < nread)` over the bytes `l` from `linepos` on.  Returns
the state, `linepos` and, if the line is complete, `lineend - linestart`. -/
def scanLine : LineState → Int → List UInt8 → LineState × Int × Option Int
  | st, linepos, [] => (st, linepos, none)
  | st, linepos, c :: l =>
    match lineStep st linepos c with
    | (st, none) => scanLine st (linepos + 1) l
    | (st, some k) => (st, linepos, some (linepos - k))

/-- The header fields that are recognised (mailinputstream.cpp:511-521). -/
inductive Field
  | subject | to | from | cc | bcc | messageId | inReplyTo | references | contentType | encoding | disposition
deriving DecidableEq, Repr

/-- mailinputstream.cpp:511-521, in the order of the comparisons of lines 526-570. -/
def fields : List (List UInt8 × Field) :=
  [([83, 117, 98, 106, 101, 99, 116, 58], .subject),
   ([84, 111, 58], .to),
   ([70, 114, 111, 109, 58], .from),
   ([67, 99, 58], .cc),
   ([66, 99, 99, 58], .bcc),
   ([77, 101, 115, 115, 97, 103, 101, 45, 73, 68, 58], .messageId),
   ([73, 110, 45, 82, 101, 112, 108, 121, 45, 84, 111, 58], .inReplyTo),
   ([82, 101, 102, 101, 114, 101, 110, 99, 101, 115, 58], .references),
   ([67, 111, 110, 116, 101, 110, 116, 45, 84, 121, 112, 101, 58], .contentType),
   ([67, 111, 110, 116, 101, 110, 116, 45, 84, 114, 97, 110, 115, 102, 101, 114, 45, 69, 110, 99, 111, 100, 105, 110, 103, 58], .encoding),
   ([67, 111, 110, 116, 101, 110, 116, 45, 68, 105, 115, 112, 111, 115, 105, 116, 105, 111, 110, 58], .disposition)]

/-- The entry streams: `SubInputStream` for a mail that is not multipart, `StringTerminatedSubStream` for a part,
`Base64InputStream` over such a stream for an encoded part. -/
inductive Entry (σ : Type)
  | body (e : SubInputStream σ)
  | plain (e : StringTerminated σ)
  | base64 (e : BufferedStream (Base64.State (StringTerminated σ)) UInt8)

/-- The members of the base class, of `MailInputStream` (include/strigi/mailinputstream.h) and of `Private`
(mailinputstream.cpp:311-342).  `header` are the fields `m_subject`, ..., `m_contenttype`,
`m_contenttransferencoding`, `m_contentdisposition`; `boundary` has the top of the stack first; `line` is the memory
from `linestart` on, `len` is `lineend - linestart`.  `substream` is the stream in `entry` (if any) that is a
`StringTerminatedSubStream`. While there is an entry stream, it holds the state of the shared input. -/
structure State (σ : Type) where
  status : Status
  input : σ
  entry : Option (Entry σ)
  info : EntryInfo
  nextLine : Int
  number : Nat
  header : Field → List UInt8
  boundary : List (List UInt8)
  line : List UInt8
  len : Int

variable {σ : Type}

/-- The entry streams through the virtual interface of `InputStream`; `N` bounds the loops of the base64
decoder. -/
def entryOps (P : StreamOps σ UInt8) (N : Nat) : StreamOps (Entry σ) UInt8 where
  read e mn mx := match e with
    | .body e => do let (e, r) ← (SubInputStream.ops P).read e mn mx; .ok (.body e, r)
    | .plain e => do let (e, r) ← (StringTerminated.ops P).read e mn mx; .ok (.plain e, r)
    | .base64 e => do
      let (e, r) ← (BufferedStream.ops (Base64.producer (StringTerminated.ops P) N)).read e mn mx
      .ok (.base64 e, r)
  skip e k := match e with
    | .body e => do let (e, r) ← (SubInputStream.ops P).skip e k; .ok (.body e, r)
    | .plain e => do let (e, r) ← (StringTerminated.ops P).skip e k; .ok (.plain e, r)
    | .base64 e => do
      let (e, r) ← (BufferedStream.ops (Base64.producer (StringTerminated.ops P) N)).skip e k
      .ok (.base64 e, r)
  reset e q := match e with
    | .body e => do let (e, r) ← (SubInputStream.ops P).reset e q; .ok (.body e, r)
    | .plain e => do let (e, r) ← (StringTerminated.ops P).reset e q; .ok (.plain e, r)
    | .base64 e => do
      let (e, r) ← (BufferedStream.ops (Base64.producer (StringTerminated.ops P) N)).reset e q
      .ok (.base64 e, r)
  position
    | .body e => e.pos
    | .plain e => e.pos
    | .base64 e => e.pos
  size
    | .body e => e.size
    | .plain e => e.size
    | .base64 e => e.size
  status
    | .body e => e.status
    | .plain e => e.status
    | .base64 e => e.status

/-- mailinputstream.cpp:472 -/
def maxLineSize : Int := 2 ^ 20

/-- The loop of mailinputstream.cpp:383-444.  In the two error cases `lineend` keeps its value although the memory
has changed: `len` is the unknown number `stale`.  The returned memory has `nread` bytes. -/
def lineLoop (P : StreamOps σ UInt8) (stale : Int) : Nat → State σ → LineState → Int → Res (State σ)
  | 0, _, _, _ => .diverge
  | fuel + 1, s, st, linepos => do
    let (input, nread, d) ← P.read s.input (linepos + 1) maxLineSize
    if nread < linepos + 1 then .ok { s with input := input, line := d, len := nread, status := .eof }
    else
      let (input, _) ← P.reset input s.nextLine
      let s : State σ := { s with input := input, line := d }
      if P.status input = .error then .ok { s with status := .error, len := stale }
      else if linepos ≥ maxLineSize then .ok { s with status := .error, len := stale }
      else match scanLine st linepos (slice d linepos (nread - linepos)) with
        | (st, linepos, none) => lineLoop P stale fuel s st linepos
        | (_, linepos, some len) => .ok { s with len := len, nextLine := s.nextLine + linepos }

/-- mailinputstream.cpp:373-445 -/
def readHeaderLine (P : StreamOps σ UInt8) (stale : Int) (fuel : Nat) (s : State σ) : Res (State σ) := do
  let (input, _) ← P.reset s.input s.nextLine
  lineLoop P stale fuel { s with input := input } .ok 0

/-- `strncasecmp(line, name, strlen(name)) == 0` -/
def casePrefix : List UInt8 → List UInt8 → Res Bool
  | [], _ => .ok true
  | _ :: _, [] => .fault .outOfBounds
  | n :: name, c :: line => if toLower n = toLower c then casePrefix name line else .ok false

/-- `strncmp(a, b, n) == 0`; the comparison ends behind a zero byte. -/
def strncmp : Nat → List UInt8 → List UInt8 → Res Bool
  | 0, _, _ => .ok true
  | n + 1, a :: as, b :: bs => if a ≠ b then .ok false else if a = 0 then .ok true else strncmp n as bs
  | _ + 1, _, _ => .fault .outOfBounds

/-- The contents of `c_str()` up to the first zero byte. -/
def cstr (h : List UInt8) : List UInt8 := h.takeWhile (· ≠ 0)

/-- `strcasestr`, as an offset. -/
def caseFind (n : List UInt8) : List UInt8 → Option Nat
  | [] => if n = [] then some 0 else none
  | c :: l => if (n.map toLower).isPrefixOf ((c :: l).map toLower) then some 0 else (caseFind n l).map (· + 1)

/-- The offset of the first byte `b`. -/
def findByte (b : UInt8) : List UInt8 → Option Nat
  | [] => none
  | c :: l => if c = b then some 0 else (findByte b l).map (· + 1)

/-- The characters of `"= \n\r"`. -/
def isFiller (b : UInt8) : Bool := b == 61 || b == 32 || b == 10 || b == 13

/-- mailinputstream.cpp:446-469 -/
def value (n h : List UInt8) : List UInt8 :=
  match caseFind n (cstr h) with
  | none => []
  | some i =>
    let v := i + n.length + (((cstr h).drop (i + n.length)).takeWhile isFiller).length
    let vend := match findByte 59 ((cstr h).drop v) with
      | some k => v + k
      | none => h.length
    if ((cstr h).drop v).head? = some 34 ∧ vend - v > 2 then slice h (v + 1) (vend - v - 2)
    else slice h v (vend - v)

/-- `while (offset < len && isspace(linestart[offset])) offset++`, with `n = len - offset` -/
def skipSpaces (line : List UInt8) : Nat → Int → Res Int
  | 0, offset => .ok offset
  | n + 1, offset => do
    let c ← aget line offset
    if CLib.isSpace c then skipSpaces line n (offset + 1) else .ok offset

/-- The first of the given fields whose name the line starts with. -/
def findField (line : List UInt8) : List (List UInt8 × Field) → Res (Option (List UInt8 × Field))
  | [] => .ok none
  | (name, f) :: l => do
    if ← casePrefix name line then .ok (some (name, f)) else findField line l

/-- Assignment to one of the fields (e.g. mailinputstream.cpp:529). -/
def setField (s : State σ) (f : Field) (v : List UInt8) : State σ :=
  { s with header := fun g => if g = f then v else s.header g }

/-- mailinputstream.cpp:509-573.  The chain of comparisons is the search in `fields`; `conv` is the conversion to
UTF-8 that `HeaderDecoder` uses. -/
def handleHeaderLine (conv : List UInt8 → List UInt8 → List UInt8) (s : State σ) : Res (State σ) :=
  if s.len < 8 then .ok s
  else do
    match ← findField s.line fields with
    | none => .ok s
    | some (_, .encoding) => .ok (setField s .encoding (s.line.take s.len.toNat))
    | some (_, .disposition) => .ok (setField s .disposition (s.line.take s.len.toNat))
    | some (name, f) => do
      let offset ← skipSpaces s.line (s.len - name.length).toNat name.length
      if f = .contentType then
        let v := slice s.line offset (s.len - offset)
        let b := value [98, 111, 117, 110, 100, 97, 114, 121] v
        let s := setField s .contentType v
        .ok (if b ≠ [] then { s with boundary := b :: s.boundary } else s)
      else do
        let v ← MailText.decodedHeaderValue conv (s.line.drop offset.toNat) (s.len - offset).toNat
        .ok (setField s f v)

/-- The loop of mailinputstream.cpp:475-478; at most `n` lines. -/
def headerLoop (P : StreamOps σ UInt8) (conv : List UInt8 → List UInt8 → List UInt8) (stale : Int) (fuel : Nat) :
    Nat → State σ → Res (State σ)
  | 0, _ => .diverge
  | n + 1, s =>
    if s.status = .ok ∧ s.len ≠ 0 then do
      let s ← handleHeaderLine conv s
      let s ← readHeaderLine P stale fuel s
      headerLoop P conv stale fuel n s
    else .ok s

/-- mailinputstream.cpp:470-479 -/
def readHeader (P : StreamOps σ UInt8) (conv : List UInt8 → List UInt8 → List UInt8) (stale : Int) (fuel : Nat)
    (s : State σ) : Res (State σ) := do
  let s ← readHeaderLine P stale fuel s
  headerLoop P conv stale fuel fuel s

/-- mailinputstream.cpp:343-361: the constructor. -/
def new (P : StreamOps σ UInt8) (conv : List UInt8 → List UInt8 → List UInt8) (stale : Int) (fuel : Nat) (input : σ) :
    Res (State σ) :=
  readHeader P conv stale fuel ⟨.ok, input, none, {}, 0, 0, fun _ => [], [], [], 0⟩

/-- mailinputstream.cpp:574-584; the line is the first `len` bytes of the memory. -/
def checkHeaderLine (s : State σ) : Bool :=
  decide (0 < s.len) && ((s.line.take s.len.toNat).contains 58 || s.line.head? == some 32 || s.line.head? == some 9)

/-- mailinputstream.cpp:596-602: the header of a part; at most `n` lines. -/
def partHeader (P : StreamOps σ UInt8) (conv : List UInt8 → List UInt8 → List UInt8) (stale : Int) (fuel : Nat) :
    Nat → State σ → Res (State σ)
  | 0, _ => .diverge
  | n + 1, s => do
    let s ← readHeaderLine P stale fuel s
    if s.status = .ok ∧ checkHeaderLine s then do
      let s ← handleHeaderLine conv s
      partHeader P conv stale fuel n s
    else .ok s

/-- mailinputstream.cpp:685-690 -/
def clearHeaders (s : State σ) : State σ :=
  setField (setField (setField s .contentType []) .encoding []) .disposition []

/-- mailinputstream.cpp:611-624: the entry stream. -/
def openPart (P : StreamOps σ UInt8) (s : State σ) : Res (State σ) :=
  match s.boundary with
  | [] => .fault .undefined
  | b :: _ => do
    let name := value [102, 105, 108, 101, 110, 97, 109, 101] (s.header .disposition)
    let name := if name = [] then value [110, 97, 109, 101] (s.header .contentType) else name
    let sub ← StringTerminated.new P s.input (45 :: 45 :: b)
    let e := if (caseFind [98, 97, 115, 101, 54, 52] (cstr (s.header .encoding))).isSome then
        Entry.base64 (BufferedStream.new (Base64.State.new sub))
      else .plain sub
    .ok { s with info := { s.info with filename := name }, entry := some e }

/-- mailinputstream.cpp:588-626 -/
def handleBodyLine (P : StreamOps σ UInt8) (conv : List UInt8 → List UInt8 → List UInt8) (stale : Int) (fuel : Nat)
    (s : State σ) : Res (State σ × Bool) := do
  let n := s.boundary.length
  let s ← partHeader P conv stale fuel fuel (clearHeaders s)
  if s.boundary.length > n then .ok (s, false)
  else
    let s ← readHeaderLine P stale fuel s
    if s.status ≠ .ok then .ok (s, false)
    else
      let s ← openPart P s
      .ok (s, true)

/-- mailinputstream.cpp:491-493 -/
def isClose (s : State σ) (b : List UInt8) : Res Bool :=
  if s.len = b.length + 4 then do
    if ← strncmp 2 (s.line.drop (2 + b.length)) [45, 45] then strncmp b.length (s.line.drop 2) (b ++ [0])
    else .ok false
  else .ok false

/-- mailinputstream.cpp:499-501 -/
def isOpen (s : State σ) (b : List UInt8) : Res Bool :=
  if s.len = b.length + 2 then strncmp b.length (s.line.drop 2) (b ++ [0]) else .ok false

/-- mailinputstream.cpp:489: `len > 2 && strncmp("--", linestart, 2) == 0` -/
def isDashed (s : State σ) : Res Bool :=
  if s.len > 2 then strncmp 2 [45, 45] s.line else .ok false

/-- mailinputstream.cpp:489-506: what is done with a line; the flag tells whether an entry was found. -/
def bodyLine (P : StreamOps σ UInt8) (conv : List UInt8 → List UInt8 → List UInt8) (stale : Int) (fuel : Nat)
    (s : State σ) : Res (State σ × Bool) := do
  if ← isDashed s then
    match s.boundary with
    | [] => .fault .undefined
    | b :: bs =>
      if ← isClose s b then .ok ({ s with boundary := bs, status := if bs = [] then .eof else s.status }, false)
      else if ← isOpen s b then handleBodyLine P conv stale fuel s
      else .ok (s, false)
  else .ok (s, false)

/-- mailinputstream.cpp:484-508; at most `n` lines. -/
def scanBody (P : StreamOps σ UInt8) (conv : List UInt8 → List UInt8 → List UInt8) (stale : Int) (fuel : Nat) :
    Nat → State σ → Res (State σ)
  | 0, _ => .diverge
  | n + 1, s =>
    if s.status = .ok then do
      let s ← readHeaderLine P stale fuel s
      let (s, found) ← bodyLine P conv stale fuel s
      if found then .ok s else scanBody P conv stale fuel n s
    else .ok s

/-- mailinputstream.cpp:657-659: `while (substream->status() == Ok) substream->read(dummy, 1, 0)` -/
def drain (P : StreamOps σ UInt8) : Nat → StringTerminated σ → Res (StringTerminated σ)
  | 0, _ => .diverge
  | fuel + 1, e =>
    if e.status = .ok then do
      let (e', _, _) ← StringTerminated.read P e 1 0
      drain P fuel e'
    else .ok e

/-- mailinputstream.cpp:321: the terminated stream of an entry, `substream`. -/
def substream : Entry σ → Option (StringTerminated σ)
  | .body _ => none
  | .plain e => some e
  | .base64 e => some e.prod.input

/-- mailinputstream.cpp:655-672: read what is left of the previous part. -/
def leave (P : StreamOps σ UInt8) (fuel : Nat) (s : State σ) : Res (State σ) :=
  match s.entry.bind substream with
  | none => .ok s
  | some e => do
    let e ← drain P fuel e
    if e.status = .error then .ok { s with input := e.parent, entry := none, status := .error }
    else .ok { s with input := e.parent, entry := none, nextLine := e.offset + e.size }

/-- mailinputstream.cpp:632-641 -/
def ensureFileName (s : State σ) : State σ :=
  { s with
    number := s.number + 1
    info := { s.info with
      filename := if s.info.filename = [] then SdfSpec.decimal (s.number + 1) else s.info.filename
      type := .file } }

/-- mailinputstream.cpp:679-682: the end of `nextEntry`. -/
def found (s : State σ) : State σ :=
  ensureFileName (match s.entry with
    | none => { s with status := .eof }
    | some _ => s)

/-- mailinputstream.cpp:642-684.  When the status is not `Ok` the code returns 0 (the previous entry stream is kept until the mail is
destroyed, but the client has no entry any more). -/
def nextEntry (P : StreamOps σ UInt8) (conv : List UInt8 → List UInt8 → List UInt8) (stale : Int) (fuel : Nat)
    (s : State σ) : Res (State σ) :=
  if s.status ≠ .ok then .ok { s with entry := none }
  else if s.boundary = [] then do
    let e ← SubInputStream.new P s.input (-1)
    .ok { s with status := .eof, entry := some (.body e), info := { s.info with filename := [98, 111, 100, 121] } }
  else do
    let s ← leave P fuel s
    if s.status ≠ .ok then .ok s
    else
      let s ← scanBody P conv stale fuel fuel s
      .ok (found s)

/-- The provider through the interface of `SubStreamProvider`. -/
def ops (P : StreamOps σ UInt8) (conv : List UInt8 → List UInt8 → List UInt8) (stale : Int) (N fuel : Nat) :
    ProviderOps (State σ) (Entry σ) where
  nextEntry := nextEntry P conv stale fuel
  entry s := s.entry
  setEntry s e := { s with entry := some e }
  info s := s.info
  status s := s.status
  stream := entryOps P N

end Mail
end Strigi
