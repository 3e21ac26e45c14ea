import Verif.Proofs.Nest
import Verif.Props.Nest
import Verif.Props.LzmaAny

/-!
# C143: `LZMAInputStream` on arbitrary bytes, over any stream
-/

namespace Strigi.Props

variable {σ : Type} {P : StreamOps σ UInt8} {c : List UInt8} {input : σ} {H : σ → Prop} {lo : Int}

/-- **C143**: whatever the bytes of the input are, an `LZMAInputStream` can be constructed on it, and then every call returns, also after an
error; all that it ever delivers are parts of one content. -/
theorem C143_lzma (R : Robust P c lo H) (hlo : lo ≤ 1) (hi : H input) (z : LzmaDec.Dec) (N : Nat) (hN : c.length + Lzma.most c.length + 1 < N) :
    ∃ s G, LzmaStream.new P LzmaDec.decoder z input = .ok s ∧ Growing (LzmaStream.ops P LzmaDec.decoder N) (Lzma.most c.length) G ∧ G [] s := by
  obtain ⟨s, e, h⟩ := LzmaStream.new_any R.sturdy hlo hi z (Nat.le_refl c.length) hN
  exact ⟨s, _, e, LzmaStream.runs_growing R.sturdy hlo N _, h⟩

/-- **C143**, the size: data of `n` bytes, whatever it is, stands for at most `273 * 2 ^ 32 * (n + 1)` bytes. -/
theorem C143_most {b : List UInt8} {Q : Lzma.Params} (hb : Lzma.props b Q) {x y : List UInt8} (h : Lzma.StartsWith Q x y) :
    y.length ≤ 273 * 2 ^ 32 * (x.length + 1) :=
  LzmaDec.startsWith_length (props_ok hb).1 (props_ok hb).2.1 h

open Nest

/-- **C143**, nested: on any stream inside of archives and compressed files, at any depth, an `LZMAInputStream` can be opened, and all calls on
it, and on the readers that are opened on it, return. -/
theorem C143_nested (R : Robust P c lo H) (hlo : lo ≤ 1) (hi : H input) {C : Facts} {τ : Type} {Q : StreamOps τ UInt8} {t : τ}
    (o : Open c.length P input C Q t) (ht : Q.status t ≠ .error) (z : LzmaDec.Dec) (N : Nat) (hN : C.size + Lzma.most C.size + 1 < N) :
    ∃ s, LzmaStream.new Q LzmaDec.decoder z t = .ok s ∧
      Open c.length P input ((lzma z N).entryFacts C Q s) (LzmaStream.ops Q LzmaDec.decoder N) s ∧
      Safe ((lzma z N).entryFacts C Q s) (LzmaStream.ops Q LzmaDec.decoder N) s := by
  have k : Known (lzma z N) := .lzma z N
  obtain ⟨s, e⟩ := ((C134_nested R hlo hi o).2.2.2 (lzma z N) k hN).1 ht
  have o' : Open c.length P input ((lzma z N).entryFacts C Q s) (LzmaStream.ops Q LzmaDec.decoder N) s := Open.entry o (.start k hN ht e) rfl
  exact ⟨s, e, o', C134_nested R hlo hi o'⟩

/-! ## Examples -/

/-- Any file, mapped. -/
example (c : List UInt8) (N : Nat) (hN : c.length + Lzma.most c.length + 1 < N) (z : LzmaDec.Dec) :
    ∃ s G, LzmaStream.new MMapStream.ops LzmaDec.decoder z (MMapStream.new c) = .ok s ∧
      Growing (LzmaStream.ops MMapStream.ops LzmaDec.decoder N) (Lzma.most c.length) G ∧ G [] s := by
  obtain ⟨H, R, hi⟩ := (C128_streams c 0).2.1
  exact C143_lzma R (by omega) hi z N hN

/-- Any file, mapped; an `LZMAInputStream` on it, and a reader for tar archives on that: where that is possible depends only on what the inner
stream can deliver. -/
example (c : List UInt8) (N fuel : Nat) (hN : c.length + Lzma.most c.length + 1 < N) (z : LzmaDec.Dec) : ∃ s C,
    LzmaStream.new MMapStream.ops LzmaDec.decoder z (MMapStream.new c) = .ok s ∧
    Open c.length MMapStream.ops (MMapStream.new c) C (LzmaStream.ops MMapStream.ops LzmaDec.decoder N) s ∧
    ((tar fuel).fits C → s.status ≠ .error → ∃ p, (tar fuel).new (LzmaStream.ops MMapStream.ops LzmaDec.decoder N) s = .ok p) := by
  obtain ⟨H, R, hi⟩ := (C128_streams c 0).2.1
  obtain ⟨s, e, o, h⟩ := C143_nested R (by omega) hi (.file .rest) (by simp [MMapStream.ops, MMapStream.new]) z N hN
  exact ⟨s, _, e, o, fun hf hs => (h.2.2.2 _ (.tar fuel) hf).1 hs⟩

end Strigi.Props
