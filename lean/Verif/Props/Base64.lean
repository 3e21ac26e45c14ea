import Verif.Proofs.Base64
import Verif.Props.BufferedStream

/-!
# Properties C25–C27: base64
-/

namespace Strigi.Props

open Base64

variable {σ : Type}

/-- The bound on the number of loop iterations that the theorems below need. -/
theorem base64_rest {P : StreamOps σ UInt8} {c : List UInt8} {H : σ → Int → Int → Prop} {p : σ}
    {lo hi : Int} (h : H p lo hi) {N : Nat} (hN : c.length + 1 < N) :
    Rest P H N c (State.new p) (B64.decoded (c.drop (P.position p).toNat))
      ((B64.decoded (c.drop (P.position p).toNat)).length + 1) := by
  have hl := run_length (c.drop (P.position p).toNat) 0 0 (by omega)
  rw [run_decoded] at hl
  simp only [List.length_drop] at hl
  refine ⟨⟨by simp [State.new], fun _ => ⟨lo, hi, h⟩, fun _ => ?_, fun _ _ => ⟨by simp [State.new], 0, by
    simp [State.new]⟩⟩, ?_, by simp [State.new], by omega⟩
  · simp only [remaining, State.new, List.nil_append, List.length_drop]; omega
  · simp [restOf, State.new, pending, remaining, run_decoded]

/-- **C26**: whatever the input is and however it is chunked, and whatever sequence of calls is made, the
base64 decoder over a stream with content `c` (positioned anywhere) is a stream over the bytes denoted by
the rest of the content: its output is a function of the input bytes only.  It fails only if the input
fails.  (`N` bounds the iterations of one call; any bound above the size of the input will do: all loops
terminate.) -/
theorem C26_isStream {P : StreamOps σ UInt8} {c : List UInt8} {F : Failure} {soft : Prop} {p : σ}
    (hs : IsStream P c F soft p) {N : Nat} (hN : c.length + 1 < N) :
    IsStream (BufferedStream.ops (producer P N)) (B64.decoded (c.drop (P.position p).toNat))
      ⟨F.onRead, F.onRead⟩ True (BufferedStream.new (State.new p)) := by
  have C := Contract.of_behaves P c F soft
  have := C06_isStream (Base64.produces C N) (base64_rest (P := P) hs hN) (-1)
  simpa using this

/-- **C25**: if the significant characters of the rest of the input are the encoding of `b`, the decoder
delivers exactly `b`, for every chunking of the input and all buffer sizes (over an input that does not
fail). -/
theorem C25_decodes {P : StreamOps σ UInt8} {c : List UInt8} {soft : Prop} {p : σ}
    (hs : IsStream P c .never soft p) {N : Nat} (hN : c.length + 1 < N) {b : List UInt8}
    (hb : (c.drop (P.position p).toNat).filter B64.significant = B64.encode b) :
    IsStream (BufferedStream.ops (producer P N)) b .never True (BufferedStream.new (State.new p)) := by
  have := C26_isStream hs hN
  rw [← decoded_filter, hb, decoded_encode] at this
  exact this

/-- **C25**: in particular, reading it with any sequence of limits yields the bytes in order, and all of them
with enough reads. -/
theorem C25_read_all {P : StreamOps σ UInt8} {c : List UInt8} {soft : Prop} {p : σ}
    (hs : IsStream P c .never soft p) {N : Nat} (hN : c.length + 1 < N) {b : List UInt8}
    (hb : (c.drop (P.position p).toNat).filter B64.significant = B64.encode b)
    (l : List (Int × Int)) (hl : ∀ a ∈ l, 1 ≤ a.1 ∧ (a.2 = 0 ∨ a.1 ≤ a.2)) :
    ∃ s' d, readAll (BufferedStream.ops (producer P N)) (BufferedStream.new (State.new p)) l = .ok (s', d) ∧
      d <+: b ∧ ((b.length : Int) < l.length → d = b) := by
  have C := Contract.of_behaves P c .never soft
  have h := base64_rest (P := P) (H := fun s lo hi => ∀ l, Behaves P c .never soft s lo hi l) hs hN
  rw [← decoded_filter, hb, decoded_encode] at h
  exact C06_read_all (Base64.produces C N) h l hl

/-- Non-vacuity of C25 and C26: `AAEC\n/w==` is the encoding of the bytes 0, 1, 2, 255 with a line break. -/
example : IsStream StringStream.ops [65, 65, 69, 67, 10, 47, 119, 61, 61] .never True
      (StringStream.new [65, 65, 69, 67, 10, 47, 119, 61, 61]) ∧
    ([65, 65, 69, 67, 10, 47, 119, 61, 61] : List UInt8).filter B64.significant = B64.encode [0, 1, 2, 255] ∧
    (readAll (BufferedStream.ops (producer StringStream.ops 20))
      (BufferedStream.new (State.new (StringStream.new [65, 65, 69, 67, 10, 47, 119, 61, 61])))
      [(1, 1), (2, 0), (1, 0), (1, 0)] >>= fun r => .ok r.2) = .ok [0, 1, 2, 255] :=
  ⟨(StringStream.contract _).isStream (fun _ => StringStream.softReset _)
    ⟨StringStream.Inv.new _, by simp [StringStream.ops, StringStream.new]⟩, by decide, by
      decide +kernel⟩

/-- A truncated encoding loses the incomplete group silently: it is not an error. -/
theorem C26_witness_truncated : B64.decoded [65, 65, 69, 67, 47, 119] = [0, 1, 2] := by decide

/-- **C27**: the static function `decode` on any non-empty text: a well-formed text is decoded to the bytes
it denotes, everything else gives the empty string; memory outside the text is not accessed. -/
theorem C27_decode {t : List UInt8} (h : t ≠ []) :
    (B64.IsText t → Base64.decode t = .ok (B64.decoded t)) ∧ (¬ B64.IsText t → Base64.decode t = .ok []) := by
  rcases decode_spec h with ⟨a, b⟩ | ⟨a, b⟩
  · exact ⟨fun _ => b, fun z => absurd a z⟩
  · exact ⟨fun z => absurd z a, fun _ => b⟩

/-- **C27**: decoding inverts encoding. -/
theorem C27_decode_encode {b : List UInt8} (h : b ≠ []) : Base64.decode (B64.encode b) = .ok b := by
  have h0 : B64.encode b ≠ [] := by
    match b, h with
    | [x], _ => simp [B64.encode]
    | [x, y], _ => simp [B64.encode]
    | x :: y :: z :: l, _ => simp [B64.encode]
  rcases decode_spec h0 with ⟨_, k⟩ | ⟨k, _⟩
  · rw [k, decoded_encode]
  · exact absurd (encode_wellFormed b) k

/-- **C27**: for length 0 the byte before the text is read. -/
theorem C27_witness_empty : Base64.decode [] = .fault .outOfBounds := by decide

end Strigi.Props
