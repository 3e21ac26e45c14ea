import Verif.SafetySpec
import Verif.CpioSpec
import Verif.ZipSpec
import Verif.DecompressSpec
import Verif.Model.Ar
import Verif.Model.Tar
import Verif.Model.Cpio
import Verif.Model.Sdf
import Verif.Model.Zip
import Verif.Model.LzmaStream
import Verif.Model.LzmaDec
import Verif.LzmaFormat

/-!
# Specification: archives inside of archives

A reader is opened on a stream; it presents further streams (the entries of an archive, or the one decompressed stream),
and on each of those a reader may be opened again, to any depth.  While an inner reader is used, the streams below it
move; when the client is tired of it, it may go on with the outer one, wherever the inner one has left it.
-/

namespace Strigi.Nest

/-- What is used of a stream on which a reader is opened: it has at most `size` bytes; `gives p d` says that the bytes `d` may
be delivered from position `p` on (up to a constant that is added to all positions); `whole`: `reset` may be called with any
position; `back`: no `reset` to an earlier position is refused. -/
structure Facts where
  size : Nat
  gives : Int → List UInt8 → Prop
  whole : Prop
  back : Prop

/-- A kind of reader. -/
structure Reader where
  State : Type → Type
  Entry : Type → Type
  /-- the constructor -/
  new : {σ : Type} → StreamOps σ UInt8 → σ → Res (State σ)
  ops : {σ : Type} → StreamOps σ UInt8 → ProviderOps (State σ) (Entry σ)
  /-- the stream on which it was opened, as it is now -/
  under : {σ : Type} → State σ → σ
  /-- the entry is a part of that stream -/
  stored : {σ : Type} → Entry σ → Prop
  /-- positions to which an entry that is not stored may be reset -/
  limit : {σ : Type} → Entry σ → Int → Prop
  /-- bound for the size of an entry in terms of one for the size of the stream -/
  out : {σ : Type} → Entry σ → Nat → Nat
  /-- what the reader requires -/
  fits : Facts → Prop

/-- `Reached P lim s s'`: the calls `read` (with a positive minimum), `skip` and `reset` (to positions in `lim`) lead from `s` to `s'`. -/
inductive Reached {σ : Type} (P : StreamOps σ UInt8) (lim : Int → Prop) (s : σ) : σ → Prop
  | rest : Reached P lim s s
  | read {s' s'' : σ} {mn mx n : Int} {d : List UInt8} : Reached P lim s s' → 1 ≤ mn → mn < 2 ^ 31 →
      P.read s' mn mx = .ok (s'', n, d) → Reached P lim s s''
  | skip {s' s'' : σ} {k r : Int} : Reached P lim s s' → 0 ≤ k → P.skip s' k = .ok (s'', r) → Reached P lim s s''
  | reset {s' s'' : σ} {q r : Int} : Reached P lim s s' → 0 ≤ q → lim q → P.reset s' q = .ok (s'', r) → Reached P lim s s''

/-- The stream can be made to deliver the bytes `d` from position `p` on. -/
def Delivers {σ : Type} (P : StreamOps σ UInt8) (lim : Int → Prop) (s : σ) (p : Int) (d : List UInt8) : Prop :=
  ∃ s' s'' mn mx n, Reached P lim s s' ∧ 1 ≤ mn ∧ mn < 2 ^ 31 ∧ P.read s' mn mx = .ok (s'', n, d) ∧ 0 ≤ n ∧ P.position s' = p

/-- No `reset` to an earlier position is refused. -/
def GoesBack {σ : Type} (P : StreamOps σ UInt8) (s : σ) : Prop :=
  ∀ s' s'' q r, Reached P (fun _ => True) s s' → P.status s' ≠ .error → 0 ≤ q → q ≤ P.position s' →
    P.reset s' q = .ok (s'', r) → r = q

/-- What is used of a file of at most `T` bytes. -/
def fileFacts {σ : Type} (P : StreamOps σ UInt8) (T : Nat) (s : σ) : Facts :=
  ⟨T, Delivers P (fun _ => True) s, True, GoesBack P s⟩

/-- What is used of an entry: of a stored one what is used of the stream below it, of another one what it can be made to
deliver. -/
def Reader.entryFacts (L : Reader) (C : Facts) {σ : Type} (P : StreamOps σ UInt8) (e : L.Entry σ) : Facts where
  size := L.out e C.size
  gives p d := (L.stored e ∧ C.gives p d) ∨ (¬ L.stored e ∧ Delivers (L.ops P).stream (L.limit e) e p d)
  whole := ¬ L.stored e ∧ ∀ q, L.limit e q
  back := L.stored e ∧ C.back

/-! ## The readers of the library -/

/-- `lib/tarinputstream.cpp`; see C126 for `././@LongLink`. -/
def tar (fuel : Nat) : Reader where
  State := Tar.State
  Entry := SubInputStream
  new _ s := .ok (Tar.new s)
  ops P := Tar.ops P fuel
  under p := match p.entry with | some e => e.parent | none => p.input
  stored _ := True
  limit _ _ := True
  out _ n := n
  fits C := C.size < fuel ∧ ∀ p d, C.gives p d → d.take 13 ≠ [46, 47, 46, 47, 64, 76, 111, 110, 103, 76, 105, 110, 107]

/-- `lib/cpioinputstream.cpp`; see C127 for what is required of the headers. -/
def cpio (fuel : Nat) : Reader where
  State := Cpio.State
  Entry := SubInputStream
  new _ s := .ok (Cpio.new s)
  ops P := Cpio.ops P fuel
  under p := match p.entry with | some e => e.parent | none => p.input
  stored _ := True
  limit _ _ := True
  out _ n := n
  fits C := C.size + 1 < fuel ∧ ∀ p b, C.gives p b → b.length = 110 → b.take 6 = [48, 55, 48, 55, 48, 49] → ∃ size ns : Nat,
    CpioSpec.Field ((b.drop 54).take 8) size ∧ size < 2 ^ 31 ∧ CpioSpec.Field ((b.drop 94).take 8) ns ∧ ns + 3 < 2 ^ 31 ∧
    ∀ b', C.gives (p + 110) b' → ns ≤ b'.length → b'.take 2 = [46, 47] → 0 ∈ (b'.take ns).drop 2

/-- `lib/arinputstream.cpp`; the table of long names is not empty (`C134_empty_table`). -/
def ar (fuel : Nat) : Reader where
  State := Ar.State
  Entry := SubInputStream
  new P s := Ar.new P s
  ops P := Ar.ops P fuel
  under p := match p.entry with | some e => e.parent | none => p.input
  stored _ := True
  limit _ _ := True
  out _ n := n
  fits C := C.size < fuel ∧ ∀ p b, C.gives p b → b.length = 60 → b[0]? = some 32 ∨ b[0]? = some 47 ∨ b[0]? = some 0 →
    b[1]? = some 47 → CLib.atoi ((b ++ [0]).drop 48) ≠ .ok 0

/-- `lib/sdfinputstream.cpp`: files of less than 2 GB, in which one can go back. -/
def sdf (fuel : Nat) : Reader where
  State := Sdf.State
  Entry := SubInputStream
  new _ s := .ok (Sdf.new s)
  ops P := Sdf.ops P fuel
  under p := match p.entry with | some e => e.parent | none => p.input
  stored _ := True
  limit _ _ := True
  out _ n := n
  fits C := C.size + 1 < fuel ∧ C.size < 2 ^ 31 ∧ (C.whole ∨ C.back)

/-- `lib/zipinputstream.cpp` with a decompressor that makes at most `w D.init + g * n` bytes of `n` bytes; see C130
for what is required of the headers. -/
def zip {ζ : Type} (D : Decompressor ζ) (g : Nat) (w : ζ → Nat) (mktime : TextUtils.Tm → Int) (N fuel : Nat) : Reader where
  State σ := Zip.State σ ζ
  Entry σ := Zip.Entry σ ζ
  new _ s := .ok (Zip.new s)
  ops P := Zip.ops P D mktime N fuel
  under p := match p.entry with | some e => e.input | none => p.input
  stored e := match e with | .stored _ => True | _ => False
  limit e q := match e with | .deflated e => q ≤ e.size | _ => True
  out e n := match e with | .stored _ => n | _ => w D.init + g * n
  fits C := 2 * (w D.init + (g + 1) * C.size) < N ∧ C.size + (w D.init + g * C.size) + 1 < fuel ∧ Tidy D g w ∧
    ∀ p b, C.gives p b → b.length = 30 → b.take 4 = [0x50, 0x4b, 0x03, 0x04] →
      Text.leValue ((b.drop 26).take 2) ≠ 0 ∧ Text.leValue ((b.drop 22).take 4) < 2 ^ 31

/-- `lib/gzipinputstream.cpp` (`GZIPFORMAT` or `ZLIBFORMAT`): one entry, which is always there. -/
def gzip {ζ : Type} (D : Decompressor ζ) (g : Nat) (w : ζ → Nat) (format : Bool) (N : Nat) : Reader where
  State σ := BufferedStream (Unpack.State σ ζ) UInt8
  Entry σ := BufferedStream (Unpack.State σ ζ) UInt8
  new P s := GZip.new P D format s
  ops P := ⟨fun p => .ok p, some, fun _ e => e, fun _ => {}, (GZip.ops P D N).status, GZip.ops P D N⟩
  under p := p.prod.input
  stored _ := False
  limit _ _ := True
  out _ n := w D.init + g * n
  fits C := 2 * (w D.init + (g + 1) * C.size) < N ∧ Tidy D g w

/-- `lib/bz2inputstream.cpp`: one entry, which is always there. -/
def bz2 {ζ : Type} (D : Decompressor ζ) (g : Nat) (w : ζ → Nat) (N : Nat) : Reader where
  State σ := BufferedStream (Unpack.State σ ζ) UInt8
  Entry σ := BufferedStream (Unpack.State σ ζ) UInt8
  new P s := BZ2.new P D s
  ops P := ⟨fun p => .ok p, some, fun _ e => e, fun _ => {}, (BZ2.ops P D N).status, BZ2.ops P D N⟩
  under p := p.prod.input
  stored _ := False
  limit _ _ := True
  out _ n := w D.init + g * n
  fits C := 2 * (w D.init + (g + 1) * C.size) < N ∧ Tidy D g w

/-- `lib/lzmainputstream.cpp` with the decoder in lib/lzma: one entry, which is always there.  (`z` is the state of a decoder that was not
initialised.) -/
def lzma (z : LzmaDec.Dec) (N : Nat) : Reader where
  State σ := BufferedStream (LzmaStream.State σ LzmaDec.Dec) UInt8
  Entry σ := BufferedStream (LzmaStream.State σ LzmaDec.Dec) UInt8
  new P s := LzmaStream.new P LzmaDec.decoder z s
  ops P := ⟨fun p => .ok p, some, fun _ e => e, fun _ => {}, (LzmaStream.ops P LzmaDec.decoder N).status, LzmaStream.ops P LzmaDec.decoder N⟩
  under p := p.prod.input
  stored _ := False
  limit _ _ := True
  out _ n := Lzma.most n
  fits C := C.size + Lzma.most C.size + 1 < N

/-- No header in the file is that of an empty table of long names: wherever 60 bytes begin with a blank, a slash or a NUL and a
slash, the field at 48 is not zero. -/
def ArTables (c : List UInt8) : Prop :=
  ∀ p b, b = (c.drop p).take 60 → b.length = 60 → b[0]? = some 32 ∨ b[0]? = some 47 ∨ b[0]? = some 0 → b[1]? = some 47 →
    CLib.atoi ((b ++ [0]).drop 48) ≠ .ok 0

/-- The readers that may be opened. -/
inductive Known : Reader → Prop
  | tar (fuel : Nat) : Known (tar fuel)
  | cpio (fuel : Nat) : Known (cpio fuel)
  | ar (fuel : Nat) : Known (ar fuel)
  | sdf (fuel : Nat) : Known (sdf fuel)
  | zip {ζ : Type} (D : Decompressor ζ) (g : Nat) (w : ζ → Nat) (mktime : TextUtils.Tm → Int) (N fuel : Nat) :
      Known (zip D g w mktime N fuel)
  | gzip {ζ : Type} (D : Decompressor ζ) (g : Nat) (w : ζ → Nat) (format : Bool) (N : Nat) : Known (gzip D g w format N)
  | bz2 {ζ : Type} (D : Decompressor ζ) (g : Nat) (w : ζ → Nat) (N : Nat) : Known (bz2 D g w N)
  | lzma (z : LzmaDec.Dec) (N : Nat) : Known (lzma z N)

/-! ## Clients -/

mutual
/-- `Used C P s s'`: a client that calls `read` with a positive minimum, `skip` forwards and `reset` to the start or to
positions that are not ahead, and opens readers on the stream and uses those in the same way, brings the stream from `s` to `s'`. -/
inductive Used : Facts → {σ : Type} → StreamOps σ UInt8 → σ → σ → Prop
  | rest {C : Facts} {σ : Type} {P : StreamOps σ UInt8} {s : σ} : Used C P s s
  | read {C : Facts} {σ : Type} {P : StreamOps σ UInt8} {s s' s'' : σ} {mn mx n : Int} {d : List UInt8} : Used C P s s' →
      1 ≤ mn → mn < 2 ^ 31 → P.read s' mn mx = .ok (s'', n, d) → Used C P s s''
  | skip {C : Facts} {σ : Type} {P : StreamOps σ UInt8} {s s' s'' : σ} {k r : Int} : Used C P s s' → 0 ≤ k →
      P.skip s' k = .ok (s'', r) → Used C P s s''
  | reset {C : Facts} {σ : Type} {P : StreamOps σ UInt8} {s s' s'' : σ} {q r : Int} : Used C P s s' → 0 ≤ q →
      q = 0 ∨ q ≤ P.position s' → P.reset s' q = .ok (s'', r) → Used C P s s''
  | inside {C : Facts} {σ : Type} {P : StreamOps σ UInt8} {s s' : σ} {L : Reader} {p : L.State σ} : Used C P s s' →
      Session L C P s' p → Used C P s (L.under p)
/-- `Session L C P s p`: the reader `L` that was opened on the stream in state `s` is now in state `p`. -/
inductive Session : (L : Reader) → Facts → {σ : Type} → StreamOps σ UInt8 → σ → L.State σ → Prop
  | start {L : Reader} {C : Facts} {σ : Type} {P : StreamOps σ UInt8} {s : σ} {p : L.State σ} : Known L → L.fits C →
      P.status s ≠ .error → L.new P s = .ok p → Session L C P s p
  | next {L : Reader} {C : Facts} {σ : Type} {P : StreamOps σ UInt8} {s : σ} {p p' : L.State σ} : Session L C P s p →
      (L.ops P).nextEntry p = .ok p' → Session L C P s p'
  | entry {L : Reader} {C : Facts} {σ : Type} {P : StreamOps σ UInt8} {s : σ} {p : L.State σ} {e e' : L.Entry σ} :
      Session L C P s p → (L.ops P).entry p = some e → Used (L.entryFacts C P e) (L.ops P).stream e e' →
      Session L C P s ((L.ops P).setEntry p e')
end

/-- `Open T P₀ s₀ C P s`: the stream `s` may appear when the file `s₀` is used: it is the file itself, or an entry of a
reader that was opened on such a stream. -/
inductive Open (T : Nat) {σ₀ : Type} (P₀ : StreamOps σ₀ UInt8) (s₀ : σ₀) : Facts → {σ : Type} → StreamOps σ UInt8 → σ → Prop
  | file {s : σ₀} : Used (fileFacts P₀ T s₀) P₀ s₀ s → Open T P₀ s₀ (fileFacts P₀ T s₀) P₀ s
  | entry {C : Facts} {σ : Type} {P : StreamOps σ UInt8} {s : σ} {L : Reader} {p : L.State σ} {e : L.Entry σ} :
      Open T P₀ s₀ C P s → Session L C P s p → (L.ops P).entry p = some e →
      Open T P₀ s₀ (L.entryFacts C P e) (L.ops P).stream e

/-- The same with stored entries only. -/
inductive OpenStored (T : Nat) {σ₀ : Type} (P₀ : StreamOps σ₀ UInt8) (s₀ : σ₀) : Facts → {σ : Type} → StreamOps σ UInt8 → σ → Prop
  | file {s : σ₀} : Used (fileFacts P₀ T s₀) P₀ s₀ s → OpenStored T P₀ s₀ (fileFacts P₀ T s₀) P₀ s
  | entry {C : Facts} {σ : Type} {P : StreamOps σ UInt8} {s : σ} {L : Reader} {p : L.State σ} {e : L.Entry σ} :
      OpenStored T P₀ s₀ C P s → Session L C P s p → (L.ops P).entry p = some e → L.stored e →
      OpenStored T P₀ s₀ (L.entryFacts C P e) (L.ops P).stream e

/-- All calls return: nothing outside of objects is touched, no assertion fails, nothing loops for ever.  So do the
constructor of each reader that may be opened on the stream, and `nextEntry()`, however the reader is used. -/
def Safe (C : Facts) {σ : Type} (P : StreamOps σ UInt8) (s : σ) : Prop :=
  (∀ mn mx : Int, 1 ≤ mn → mn < 2 ^ 31 → ∃ r, P.read s mn mx = .ok r) ∧
  (∀ k : Int, 0 ≤ k → ∃ r, P.skip s k = .ok r) ∧
  (∀ q : Int, 0 ≤ q → q = 0 ∨ q ≤ P.position s → ∃ r, P.reset s q = .ok r) ∧
  ∀ L, Known L → L.fits C →
    (P.status s ≠ .error → ∃ p, L.new P s = .ok p) ∧
    ∀ p, Session L C P s p → ∃ p', (L.ops P).nextEntry p = .ok p'

/-! ## Archives that are presented although other readers are opened on their entries -/

/-- What is used of an entry stream over a content `c`. -/
def contentFacts {ε : Type} (Q : StreamOps ε UInt8) (c : List UInt8) (e : ε) : Facts where
  size := c.length
  gives p d := 0 ≤ p ∧ d = slice c p d.length
  whole := False
  back := ∀ s lo hi q s' r, Uses Q c True e s lo hi → 0 ≤ q → q ≤ Q.position s → Q.reset s q = .ok (s', r) → r = q

/-- `Handled Q c e e'`: a client that calls `read`, `skip` and `reset` (to any position of the stream), and opens readers on
the stream and uses those in any way, brings the entry stream from `e` to `e'`. -/
inductive Handled {ε : Type} (Q : StreamOps ε UInt8) (c : List UInt8) (e : ε) : ε → Prop
  | rest : Handled Q c e e
  | read {s s' : ε} {mn mx n : Int} {d : List UInt8} : Handled Q c e s → 1 ≤ mn → mx = 0 ∨ mn ≤ mx →
      Q.read s mn mx = .ok (s', n, d) → Handled Q c e s'
  | skip {s s' : ε} {k r : Int} : Handled Q c e s → 0 ≤ k → k < 2 ^ 31 → Q.skip s k = .ok (s', r) → Handled Q c e s'
  | reset {s s' : ε} {q r : Int} : Handled Q c e s → 0 ≤ q → q ≤ c.length → Q.reset s q = .ok (s', r) → Handled Q c e s'
  | inside {s : ε} {L : Reader} {p : L.State ε} : Handled Q c e s → Session L (contentFacts Q c e) Q s p → Handled Q c e (L.under p)

/-- As `Presents`: iterating the provider presents exactly the entries `l`, whatever readers the client opens on the entry
streams in between and whatever it does with these.  Whenever it turns back to the entry stream itself, that is still a stream
over the content of the entry. -/
def PresentsNested {π ε : Type} (A : ProviderOps π ε) (last : Status) : π → List ArchiveEntry → Prop
  | p, [] => ∃ p', A.nextEntry p = .ok p' ∧ Finished A last p'
  | p, a :: l => ∃ p' e, A.nextEntry p = .ok p' ∧ A.entry p' = some e ∧ A.info p' = a.info ∧
      A.status p' = .ok ∧ A.stream.position e = 0 ∧ A.stream.size e = a.info.size ∧
      ∀ e', Handled A.stream a.content e e' → IsStream A.stream a.content Failure.never True e' ∧
        Safe (contentFacts A.stream a.content e) A.stream e' ∧ PresentsNested A last (A.setEntry p' e') l

end Strigi.Nest
