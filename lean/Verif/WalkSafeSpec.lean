import Verif.Model.SubStreams

/-!
# Specification: looking into a file whose bytes may be anything
-/

namespace Strigi
namespace Walk

open Nest

/-- Bounds for what the decompressors of zlib and libbz2 make of their input (see `Tidy`). -/
structure Bounds (K : Kit) where
  gg : Nat
  wg : K.ζg → Nat
  gb : Nat
  wb : K.ζb → Nat

/-- The first bytes of what is read from the stream in state `s` are what the check asks for. -/
def Recognised {σ : Type} (P : StreamOps σ UInt8) (s : σ) (check : List UInt8 → Int → Res Bool) : Prop :=
  ∃ mn s' n d, 1 ≤ mn ∧ mn < 2 ^ 31 ∧ P.read s mn 0 = .ok (s', n, d) ∧ check d n = .ok true

/-- The readers that a listing opens on a stream, if it reads from it in state `s`. -/
inductive Kit.Opens (K : Kit) (B : Bounds K) {σ : Type} (P : StreamOps σ UInt8) (s : σ) : Reader → Prop
  | format {F : Format} : F ∈ K.subs → Recognised P s F.check → K.Opens B P s F.reader
  | gzip : Recognised P s gzipMagic → K.Opens B P s (gzip K.gz B.gg B.wg true K.N)
  | bz2 : Recognised P s BZ2.checkHeader → K.Opens B P s (bz2 K.bz B.gb B.wb K.N)
  | lzma : Recognised P s Lzma.checkHeader → K.Opens B P s (lzma K.lz K.N)

/-- The checks of the headers return for `n` bytes of header, and for a negative `n` (an error or the end), and say nothing about no bytes; the readers
are those that may be nested. -/
def Kit.Sober (K : Kit) : Prop :=
  ∀ F ∈ K.subs, Known F.reader ∧ ∀ (h : List UInt8) (n : Int), n < 0 ∨ n = h.length → ∃ b, F.check h n = .ok b ∧ (b = true → 0 < n)

/-- `Inside K B T P₀ s₀ n C P s`: the stream `s` may appear when one looks into the file `s₀`: it is the file itself, or an entry of a reader that
was opened on such a stream because what was read from it was recognised.  `n` readers are opened on one another; `C` is what the inner ones may use
of the stream. -/
inductive Inside (K : Kit) (B : Bounds K) (T : Nat) {σ₀ : Type} (P₀ : StreamOps σ₀ UInt8) (s₀ : σ₀) :
    Nat → Facts → {σ : Type} → StreamOps σ UInt8 → σ → Prop
  | file {s : σ₀} : Used (fileFacts P₀ T s₀) P₀ s₀ s → Inside K B T P₀ s₀ 0 (fileFacts P₀ T s₀) P₀ s
  | entry {n : Nat} {C : Facts} {σ : Type} {P : StreamOps σ UInt8} {s s' : σ} {L : Reader} {p : L.State σ} {e e' : L.Entry σ} :
      Inside K B T P₀ s₀ n C P s → K.Opens B P s L → Used C P s s' → Session L C P s' p → (L.ops P).entry p = some e →
      Used (L.entryFacts C P e) (L.ops P).stream e e' → Inside K B T P₀ s₀ (n + 1) (L.entryFacts C P e) (L.ops P).stream e'

/-- What is opened (less than `M` readers on one another) is what the reader can cope with. -/
def Fits (K : Kit) (B : Bounds K) (T : Nat) {σ₀ : Type} (P₀ : StreamOps σ₀ UInt8) (s₀ : σ₀) (M : Nat) : Prop :=
  ∀ (n : Nat) (C : Facts) (σ : Type) (P : StreamOps σ UInt8) (s : σ) (L : Reader), n < M → Inside K B T P₀ s₀ n C P s → K.Opens B P s L → L.fits C

end Walk
end Strigi
