import Verif.Model.SubStreams
import Verif.Props.Magic
import Verif.Model.MailText
import Verif.MailSpec
import Verif.SdfSpec
import Verif.TarSpec

/-!
# Specification: what an archive holds

`Holds K nested c t`: the bytes `c` (after the layers of gzip and bz2 around them are taken away) are an archive of a format that the
library recognises, in which there are the entries `t`; each entry may be such an archive itself.
-/

namespace Strigi
namespace Walk

open Nest (Reader Facts)
open Props (BZ2Magic LzmaMagic)

/-- What is read at the start of a stream with the content `c` if `mn` bytes are asked for: as many or more, or all. -/
def Start (mn : Nat) (c h : List UInt8) (n : Int) : Prop :=
  (h <+: c ∧ n = h.length ∧ 0 < h.length ∧ (mn ≤ h.length ∨ h = c)) ∨ (c = [] ∧ h = [] ∧ (n = 0 ∨ n = -1))

/-- The check recognises (`b`), or does not recognise, the start of a stream with the content `c`, if `mn` bytes were asked for. -/
def Format.Accepts (F : Format) (mn : Nat) (b : Bool) (c : List UInt8) : Prop := ∀ h n, Start mn c h n → F.check h n = .ok b

/-- `Looks P s s'`: nothing was done with the stream `s` but to read from its start, and to reset it to its start. -/
inductive Looks {σ : Type} (P : StreamOps σ UInt8) (s : σ) : σ → Prop
  | start : Looks P s s
  | read {s' s'' : σ} {mn mx n : Int} {d : List UInt8} : Looks P s s' → P.position s' = 0 → 1 ≤ mn → mn < 2 ^ 31 → (mx = 0 ∨ mn ≤ mx) →
      P.read s' mn mx = .ok (s'', n, d) → Looks P s s''
  | back {s' s'' : σ} {r : Int} : Looks P s s' → P.reset s' 0 = .ok (s'', r) → Looks P s s''

/-- Opened on a stream with the content `c`, the reader finds no entry. -/
def Vain (L : Reader) (c : List UInt8) : Prop :=
  ∀ (σ : Type) (P : StreamOps σ UInt8) (s : σ), IsStream P c Failure.never True s → P.position s = 0 →
    ∃ p p', L.new P s = .ok p ∧ (L.ops P).nextEntry p = .ok p' ∧ (L.ops P).entry p' = none ∧ Looks P s (L.under p')

/-- `Passes c mn l mn'`: none of the formats `l` takes the content `c`.  `mn` bytes of it were asked for at first, `mn'` at the end: after a format
that recognised it and then found no entry, only one byte is asked for. -/
inductive Passes (c : List UInt8) : Nat → List Format → Nat → Prop
  | nil {mn : Nat} : Passes c mn [] mn
  | no {mn mn' : Nat} {F : Format} {l : List Format} : F.Accepts mn false c → Passes c mn l mn' → Passes c mn (F :: l) mn'
  | vain {mn mn' : Nat} {F : Format} {l : List Format} : F.Accepts mn true c → Vain F.reader c → Passes c 1 l mn' → Passes c mn (F :: l) mn'

/-- `F` is the first format of the list that takes `c`. -/
def Takes (subs : List Format) (c : List UInt8) (F : Format) : Prop :=
  ∃ l1 l2 mn, subs = l1 ++ F :: l2 ∧ Passes c 1024 l1 mn ∧ F.Accepts mn true c

/-- All that is known of a stream with the content `c`: these bytes come, and one can not rely on going back. -/
def sliceFacts (c : List UInt8) : Facts := ⟨c.length, fun p d => 0 ≤ p ∧ d = slice c p d.length, False, False⟩

/-- Opened on any stream with the content `c`, the reader presents the entries `l`. -/
def Shows (L : Reader) (c : List UInt8) (l : List ArchiveEntry) : Prop :=
  ∀ (σ : Type) (P : StreamOps σ UInt8) (s : σ), IsStream P c Failure.never True s → P.position s = 0 →
    ∃ p last, L.new P s = .ok p ∧ Presents (L.ops P) Failure.never True last p l

/-- The decompressor makes `y` of `x`. -/
def Makes {ζ : Type} (D : Decompressor ζ) (x y : List UInt8) : Prop := ∃ R, Unpacks D False R ∧ R D.init x y

/-- There is no compressed data that the library recognises. -/
structure Bare (c : List UInt8) : Prop where
  bz2 : ¬ BZ2Magic c
  gzip : ¬ [0x1f, 0x8b] <+: c
  lzma : ¬ LzmaMagic c

/-- `Packed K nested j c z`: `c` is `z` in `j` layers of bz2 and gzip.  (`nested`: the streams below have to be left usable; then it has to
be known how much the decompressor can produce.) -/
inductive Packed (K : Kit) (nested : Bool) : Nat → List UInt8 → List UInt8 → Prop
  | plain {c : List UInt8} : Bare c → Packed K nested 0 c c
  | bz2 {j : Nat} {x rest y z : List UInt8} : Makes K.bz x y → BZ2Magic x → y ≠ [] →
      y.length < 2 ^ 31 → 2 * (x.length + y.length) + 1 < K.N →
      (nested = true → ∃ g w, (Nest.bz2 K.bz g w K.N).fits (sliceFacts (x ++ rest))) → Packed K nested j y z → Packed K nested (j + 1) (x ++ rest) z
  | gzip {j : Nat} {x rest y z : List UInt8} : Makes K.gz x y → [0x1f, 0x8b] <+: x → y ≠ [] →
      y.length < 2 ^ 31 → 2 * (x.length + y.length) + 1 < K.N →
      (nested = true → ∃ g w, (Nest.gzip K.gz g w true K.N).fits (sliceFacts (x ++ rest))) → Packed K nested j y z → Packed K nested (j + 1) (x ++ rest) z

/-- The readers of archives.  `Archive true`: there may be entries of which the size is not told. -/
inductive Archive : Bool → Reader → Prop
  | tar (fuel : Nat) : Archive false (Nest.tar fuel)
  | cpio (fuel : Nat) : Archive false (Nest.cpio fuel)
  | ar (fuel : Nat) : Archive false (Nest.ar fuel)
  | sdf (fuel : Nat) : Archive false (Nest.sdf fuel)
  | zip {ζ : Type} (D : Decompressor ζ) (g : Nat) (w : ζ → Nat) (mktime : TextUtils.Tm → Int) (N fuel : Nat) :
      Archive true (Nest.zip D g w mktime N fuel)

mutual
/-- See above. -/
inductive Holds (K : Kit) : Bool → List UInt8 → Contents → Prop
  /-- not an archive -/
  | leaf {nested : Bool} {j mn : Nat} {c z : List UInt8} : Packed K nested j c z → j ≤ 33 → Passes z 1024 K.subs mn → Holds K nested c .nil
  /-- an archive -/
  | archive {nested : Bool} {j : Nat} {c z : List UInt8} {F : Format} {untold : Bool} {l : List ArchiveEntry} {t : Contents} : Packed K nested j c z → j ≤ 33 →
      Takes K.subs z F → Archive untold F.reader → Shows F.reader z l → l ≠ [] → l.length < K.N → (nested = true → F.reader.fits (sliceFacts z)) →
      HoldsAll K untold l t → Holds K nested c t
/-- The entries of an archive: with each of them the number of its bytes, and what there is in it. -/
inductive HoldsAll (K : Kit) : Bool → List ArchiveEntry → Contents → Prop
  | nil {untold : Bool} : HoldsAll K untold [] .nil
  | cons {untold : Bool} {a : ArchiveEntry} {l : List ArchiveEntry} {sub rest : Contents} : 0 ≤ a.info.size ∨ untold = true → a.content.length < 2 ^ 31 →
      a.content.length < K.N → Holds K true a.content sub → HoldsAll K untold l rest →
      HoldsAll K untold (a :: l) (.entry (attrOf a.info) a.content.length sub rest)
end

/-! ## The formats of the library -/

/-- archivereader.cpp:180-195 -/
inductive Kind
  | mail | rpm | ar | zip | tar | sdf
deriving DecidableEq

/-- The checks. -/
def Kind.check : Kind → List UInt8 → Int → Res Bool
  | .mail => MailText.checkHeader
  | .rpm => Rpm.checkHeader
  | .ar => Ar.checkHeader
  | .zip => Zip.checkHeader
  | .tar => Tar.checkHeader
  | .sdf => Sdf.checkHeader

/-- What the start of a file of the format looks like. -/
def Kind.Like : Kind → List UInt8 → Prop
  | .mail, h => ∃ t, MailSpec.Mail (h ++ t)
  | .rpm, h => [0xed, 0xab, 0xee, 0xdb, 0x03, 0x00] <+: h
  | .ar, h => [0x21, 0x3c, 0x61, 0x72, 0x63, 0x68, 0x3e, 0x0a] <+: h
  | .zip, h => 8 < h.length ∧ [0x50, 0x4b, 0x03, 0x04] <+: h
  | .tar, h => TarSpec.Plausible h
  | .sdf, h => SdfSpec.Mol h

/-- A start of `c` of at least `mn` bytes, or all of it. -/
def Lead (mn : Nat) (c h : List UInt8) : Prop := h <+: c ∧ h ≠ [] ∧ (mn ≤ h.length ∨ h = c)

/-- The formats of the library in some order (it depends on the addresses of functions), with their readers. -/
def Library (subs : List Format) (R : Kind → Reader) : Prop :=
  ∃ order : List Kind, subs = order.map (fun k => ⟨k.check, R k⟩) ∧ ∀ k, k ∈ order

end Walk
end Strigi
