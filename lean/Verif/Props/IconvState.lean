import Verif.Props.Iconv
import Verif.Proofs.BufferedStream

/-!
# Property C147: encodings that hold back a character
-/

namespace Strigi

namespace BufferedStream

variable {φ α : Type} {B : Producer φ α} {s : BufferedStream φ α}

/-- The buffer is empty, and nothing has gone wrong. -/
structure Bare (s : BufferedStream φ α) : Prop where
  wf : s.buf.WF
  avail : s.buf.avail = 0
  going : s.finished = false
  status : s.status = .ok
  size : s.size = -1

theorem bare_new (f : φ) : Bare (BufferedStream.new f : BufferedStream φ α) :=
  ⟨⟨Int.le_refl _, Int.le_refl _, Int.le_refl _⟩, rfl, rfl, rfl, rfl⟩

theorem buf_read {b : StreamBuffer α} {n : Int} {d : List α} (h0 : 0 ≤ b.offset) (hn : 1 ≤ n) (ha : b.avail = n)
    (h2 : b.avail + b.offset ≤ b.size) (hs : slice b.mem b.offset n = d.map some) :
    b.read n = .ok ({ b with offset := b.offset + n, avail := b.avail - n }, n, d) := by
  unfold StreamBuffer.read
  rw [Res.assert_of (decide_eq_true (show 0 ≤ b.size by unfold StreamBuffer.size; omega)),
    Res.assert_of (decide_eq_true (show 0 ≤ b.avail by omega)), Res.assert_of (decide_eq_true h0), Res.assert_of (decide_eq_true h2)]
  simp only [Res.bind_ok]
  rw [if_neg (show ¬ (n ≤ 0 ∨ n > b.avail) by omega), hs, StreamBuffer.initialised_map]
  rfl

/-- A read of exactly `n` items that takes one call of `fillBuffer`. -/
theorem read_once (h : Bare s) {n : Int} (hn : 1 ≤ n) {f' : φ} {d : List α} (hf : B.fill s.prod n = .ok (f', ⟨n, d, false⟩))
    (hd : (d.length : Int) = n) (hfuel : 1 ≤ B.fuel s.prod) :
    ∃ s', BufferedStream.read B s n n = .ok (s', n, d) ∧ s'.prod = f' ∧ Bare s' ∧ s'.pos = s.pos + n := by
  obtain ⟨b, sp, e, hsp, wf, hs, ha, -, -, -, -, -⟩ := StreamBuffer.makeSpace_spec h.wf (n - s.buf.avail)
  have hav := h.avail
  have w1 := wf.off; have w3 := wf.fits
  obtain ⟨k, hk⟩ : ∃ k, B.fuel s.prod = k + 1 := ⟨B.fuel s.prod - 1, by omega⟩
  have hspace : (if n ≥ n ∧ sp > n then n else sp) = n := by split <;> omega
  have hst : b.store (b.offset + b.avail) d = .ok { b with mem := b.mem.take b.offset.toNat ++ d.map some ++ b.mem.drop (b.offset.toNat + d.length) } := by
    unfold StreamBuffer.store
    rw [if_pos ⟨by omega, by omega⟩, show b.offset + b.avail = b.offset by omega]
  have hen : BufferedStream.ensure B s n n = .ok { s with prod := f', buf := { b with
      mem := b.mem.take b.offset.toNat ++ d.map some ++ b.mem.drop (b.offset.toNat + d.length), avail := n } } := by
    unfold BufferedStream.ensure
    rw [if_pos ⟨by rw [h.going]; rfl, by omega⟩]
    unfold BufferedStream.writeToBuffer
    rw [hk]
    unfold BufferedStream.writeLoop
    rw [if_pos ⟨by omega, by omega⟩, e]
    simp only [Res.bind_ok]
    rw [hspace, hf]
    simp only [Res.bind_ok]
    rw [hst]
    simp only [Res.bind_ok, Bool.false_eq_true, if_false]
    rw [Res.assert_of (by rw [h.status]; rfl)]
    simp only [Res.bind_ok]
    rw [if_pos (by omega)]
    simp only [show b.avail + n = n by omega, Int.sub_self]
    unfold BufferedStream.writeLoop
    rw [if_neg (by omega)]
    simp only [Res.bind_ok]
    rw [if_neg (by omega)]
  have hlen : (b.mem.take b.offset.toNat ++ d.map some ++ b.mem.drop (b.offset.toNat + d.length)).length = b.mem.length := by
    simp only [StreamBuffer.size] at *
    simp
    omega
  unfold BufferedStream.read
  rw [if_neg (by rw [h.status]; decide), if_neg (by rw [h.status]; decide)]
  simp only [if_neg (show ¬ n > n by omega)]
  rw [hen]
  simp only [Res.bind_ok]
  rw [if_neg (by rw [h.status]; decide)]
  have hz : b.size = b.mem.length := rfl
  have hsl : slice (b.mem.take b.offset.toNat ++ d.map some ++ b.mem.drop (b.offset.toNat + d.length)) b.offset n = d.map some := by
    unfold slice
    rw [List.append_assoc, List.drop_append_of_le_length (by simp; omega), List.drop_take, Nat.sub_self, List.take_zero,
      List.nil_append, List.take_append_of_le_length (by simp; omega), List.take_of_length_le (by simp; omega)]
  rw [buf_read (n := n) (d := d) (by exact w1) hn rfl (by show n + b.offset ≤ ((_ : List (Option α)).length : Int); rw [hlen]; omega) (by exact hsl)]
  simp only [Res.bind_ok]
  rw [if_neg (by rw [h.size]; omega), if_neg (by rw [h.going]; simp)]
  refine ⟨_, rfl, rfl, ⟨⟨?_, ?_, ?_⟩, ?_, h.going, h.status, h.size⟩, rfl⟩
  · simp only; omega
  · simp only; omega
  · simp only [StreamBuffer.size, hlen]; omega
  · simp only; omega

/-- A read of exactly `n` items whose call of `fillBuffer` goes wrong. -/
theorem read_fault (h : Bare s) {n : Int} (hn : 1 ≤ n) {e : Fault} (hf : B.fill s.prod n = .fault e) :
    BufferedStream.read B s n n = .fault e := by
  obtain ⟨b, sp, e', hsp, -⟩ := StreamBuffer.makeSpace_spec h.wf (n - s.buf.avail)
  have hav := h.avail
  have hspace : (if n ≥ n ∧ sp > n then n else sp) = n := by split <;> omega
  unfold BufferedStream.read
  rw [if_neg (by rw [h.status]; decide), if_neg (by rw [h.status]; decide)]
  simp only [if_neg (show ¬ n > n by omega)]
  unfold BufferedStream.ensure
  rw [if_pos ⟨by rw [h.going]; rfl, by omega⟩]
  unfold BufferedStream.writeToBuffer BufferedStream.writeLoop
  rw [if_pos ⟨by omega, by omega⟩, e']
  simp only [Res.bind_ok]
  rw [hspace, hf]
  rfl

/-- A read that finds out that there is nothing left. -/
theorem read_end (h : Bare s) {n : Int} (hn : 1 ≤ n) {f' : φ} (hf : B.fill s.prod n = .ok (f', ⟨-1, [], false⟩))
    (hfuel : 1 ≤ B.fuel s.prod) :
    ∃ s', BufferedStream.read B s n n = .ok (s', -1, []) ∧ s'.status = .eof ∧ s'.size = s.pos ∧ s'.pos = s.pos := by
  obtain ⟨b, sp, e, hsp, wf, hs, ha, -, -, -, -, -⟩ := StreamBuffer.makeSpace_spec h.wf (n - s.buf.avail)
  have hav := h.avail
  have w1 := wf.off; have w3 := wf.fits
  obtain ⟨k, hk⟩ : ∃ k, B.fuel s.prod = k + 1 := ⟨B.fuel s.prod - 1, by omega⟩
  have hspace : (if n ≥ n ∧ sp > n then n else sp) = n := by split <;> omega
  have hst : b.store (b.offset + b.avail) [] = .ok b := by
    unfold StreamBuffer.store
    rw [if_pos ⟨by omega, by simp only [List.length_nil]; omega⟩]
    simp
  have hen : BufferedStream.ensure B s n n = .ok { s with prod := f', buf := b, finished := true } := by
    unfold BufferedStream.ensure
    rw [if_pos ⟨by rw [h.going]; rfl, by omega⟩]
    unfold BufferedStream.writeToBuffer
    rw [hk]
    unfold BufferedStream.writeLoop
    rw [if_pos ⟨by omega, by omega⟩, e]
    simp only [Res.bind_ok]
    rw [hspace, hf]
    simp only [Res.bind_ok]
    rw [hst]
    simp only [Res.bind_ok, Bool.false_eq_true, if_false]
    rw [Res.assert_of (by rw [h.status]; rfl)]
    simp only [Res.bind_ok]
    rw [if_neg (by omega)]
    unfold BufferedStream.writeLoop
    rw [if_neg (by omega)]
    simp only [Res.bind_ok]
    rw [if_pos (by omega)]
  have hrd : b.read n = .ok (b, 0, []) := by
    unfold StreamBuffer.read
    rw [Res.assert_of (decide_eq_true (show 0 ≤ b.size by unfold StreamBuffer.size; omega)),
      Res.assert_of (decide_eq_true (show 0 ≤ b.avail by omega)), Res.assert_of (decide_eq_true w1),
      Res.assert_of (decide_eq_true (show b.avail + b.offset ≤ b.size by omega))]
    simp only [Res.bind_ok]
    rw [if_pos (show n ≤ 0 ∨ n > b.avail by omega), show b.avail = 0 by omega, slice_zero]
    simp only [StreamBuffer.initialised, Res.bind_ok]
    rw [Int.add_zero, Int.sub_zero, show (0 : Int) = b.avail by omega]
  unfold BufferedStream.read
  rw [if_neg (by rw [h.status]; decide), if_neg (by rw [h.status]; decide)]
  simp only [if_neg (show ¬ n > n by omega)]
  rw [hen]
  simp only [Res.bind_ok]
  rw [if_neg (by rw [h.status]; decide), hrd]
  simp only [Res.bind_ok]
  rw [if_neg (by rw [h.size]; omega), if_pos ⟨h.status, by omega, trivial⟩, if_pos h.size, if_pos trivial]
  exact ⟨_, rfl, rfl, Int.add_zero _, Int.add_zero _⟩

end BufferedStream

namespace Props

open Iconv

variable {τ α : Type}

/-- **C147**: what the encoding holds back until it knows what follows is lost if it is the end of the input that follows: the stream
ends without an error and without these items. -/
theorem C147_lost {σ : Type} {P : StreamOps σ UInt8} {c : List UInt8} {soft : Prop} {p : σ}
    (hs : IsStream P c .never soft p) {cs : Charset τ α} (L : cs.Lawful) (S : cs.Single) {t out : List α} {last : τ}
    (hd : cs.Denotes cs.init (c.drop (P.position p).toNat) out last) (ht : t = out ++ cs.flush last) (hh : cs.flush last ≠ [])
    {N : Nat} (hN : 4 * c.length + 2 < N) :
    cs.Text (c.drop (P.position p).toNat) t ∧
    IsStream (BufferedStream.ops (producer P cs N)) out .never True (BufferedStream.new (State.new cs p)) ∧
    out.length < t.length := by
  refine ⟨⟨out, last, hd, ht⟩, C56_converted hs L S hd hN, ?_⟩
  rw [ht, List.length_append]
  have := List.length_pos_iff.2 hh
  omega

/-- `cs` holds back the byte `x`, and writes it (as `a`) as soon as it sees a `y`, before it looks at the `y` closer; `y` alone is the
item `b`.  (CP1258 in glibc, for instance: `x` is a vowel, that may be followed by an accent, `y` is not an accent.) -/
structure HoldsBack (cs : Charset τ α) (x y : UInt8) (a b : α) (held : τ) : Prop where
  hold : ∀ l, cs.next cs.init (x :: l) = .char 1 [] held
  release : ∀ l, cs.next held (y :: l) = .char 0 [a] cs.init
  plain : ∀ l, cs.next cs.init (y :: l) = .char 1 [b] cs.init

theorem iconv_plain {cs : Charset τ α} {x y : UInt8} {a b : α} {held : τ} (H : HoldsBack cs x y a b held) :
    ∀ (n fuel space : Nat), n ≤ space → n + 1 ≤ fuel →
      cs.iconv fuel cs.init (List.replicate n y ++ [x]) space = ([], List.replicate n b, held, .done) := by
  intro n
  induction n with
  | zero =>
    intro fuel space _ hf
    obtain ⟨f, rfl⟩ : ∃ f, fuel = f + 1 := ⟨fuel - 1, by omega⟩
    rw [show List.replicate 0 y ++ [x] = [x] from rfl, Charset.iconv, H.hold]
    simp only [List.length_nil]
    rw [if_neg (by omega), show List.drop 1 [x] = [] from rfl, Charset.iconv]
    · rfl
    · simp
  | succ n ih =>
    intro fuel space hs hf
    obtain ⟨f, rfl⟩ : ∃ f, fuel = f + 1 := ⟨fuel - 1, by omega⟩
    rw [List.replicate_succ, List.cons_append, Charset.iconv, H.plain]
    · simp only [List.length_singleton]
      rw [if_neg (by omega), List.drop_one, List.tail_cons, ih f (space - 1) (by omega) (by omega)]
      simp [List.replicate_succ]
    · simp

theorem iconv_release {cs : Charset τ α} {x y : UInt8} {a b : α} {held : τ} (H : HoldsBack cs x y a b held) (l : List UInt8) (fuel : Nat) :
    cs.iconv (fuel + 2) held (y :: l) 1 = (y :: l, [a], cs.init, .tooBig) := by
  rw [Charset.iconv, H.release]
  · simp only [List.length_singleton]
    rw [if_neg (by omega), List.drop_zero, Charset.iconv, H.plain]
    · simp
    · simp
  · simp

theorem fill_read {σ : Type} {P : StreamOps σ UInt8} {cs : Charset τ α} {st : τ} {p p' : σ} {n : Int} {d : List UInt8} {chars : List UInt8}
    {m : Int} (hm : m = 262 - chars.length)
    (h : P.read p 1 m = .ok (p', n, d)) (h1 : 1 ≤ n) (space : Int) :
    fill P cs ⟨st, p, true, chars, 0⟩ space =
      if chars.length + n > 262 then .fault .outOfBounds else .ok (decode cs ⟨st, p', true, chars ++ d, 0⟩ space) := by
  subst hm
  unfold fill
  simp only [true_and, if_true]
  rw [show P.read p 1 ((bufSize : Int) - chars.length) = _ from h]
  simp only [Res.bind_ok]
  rw [if_neg (by omega), if_neg (by omega)]
  rfl

/-- **C147**: converting from an encoding that holds back a letter writes outside of the buffer of 262 bytes, if the letter is the
last one of 262 bytes that were read at once, the client reads items one by one afterwards, and the input is long enough: when the letter is
written there is no room for the next item, nothing of the buffer is used up, and the full buffer is filled up again. -/
theorem C147_overflow {cs : Charset τ α} {x y : UInt8} {a b : α} {held : τ} (H : HoldsBack cs x y a b held) (rest : List UInt8)
    (hr : rest ≠ []) (N : Nat) (hN : 1 ≤ N) :
    ∃ s1 s2,
      (BufferedStream.ops (producer StringStream.ops cs N)).read (BufferedStream.new (State.new cs (StringStream.new
        (List.replicate 261 y ++ [x] ++ (List.replicate 262 y ++ rest))))) 261 261 = .ok (s1, 261, List.replicate 261 b) ∧
      (BufferedStream.ops (producer StringStream.ops cs N)).read s1 1 1 = .ok (s2, 1, [a]) ∧
      (BufferedStream.ops (producer StringStream.ops cs N)).read s2 1 1 = .fault .outOfBounds := by
  have hrl := List.length_pos_iff.2 hr
  generalize hc : List.replicate 261 y ++ [x] ++ (List.replicate 262 y ++ rest) = c
  have hlen : c.length = 524 + rest.length := by
    rw [← hc, List.length_append, List.length_append, List.length_append, List.length_replicate, List.length_replicate, List.length_singleton]
    omega
  have r1 : StringStream.ops.read (StringStream.new c) 1 262 = .ok (⟨c, 262, .ok⟩, 262, List.replicate 261 y ++ [x]) := by
    show Res.ok _ = _
    unfold StringStream.read StringStream.new
    simp only
    rw [if_neg (by omega), if_neg (by omega), if_neg (by omega)]
    rw [show slice c 0 262 = List.replicate 261 y ++ [x] by
      rw [← hc]; unfold slice; rw [show (0 : Int).toNat = 0 from rfl, List.drop_zero]
      exact List.take_left' (by rw [List.length_append, List.length_replicate]; rfl)]
    rfl
  have r2 : StringStream.ops.read ⟨c, 262, .ok⟩ 1 262 = .ok (⟨c, 524, .ok⟩, 262, List.replicate 262 y) := by
    show Res.ok _ = _
    unfold StringStream.read
    simp only
    rw [if_neg (by omega), if_neg (by omega), if_neg (by omega)]
    rw [show slice c 262 262 = List.replicate 262 y by
      rw [← hc]; unfold slice; rw [show (262 : Int).toNat = 262 from rfl, List.drop_left' (by rw [List.length_append, List.length_replicate]; rfl)]
      exact List.take_left' (by rw [List.length_replicate])]
    rfl
  have r3 : ∃ p d, StringStream.ops.read ⟨c, 524, .ok⟩ 1 0 = .ok (p, (rest.length : Int), d) := by
    refine ⟨(StringStream.read ⟨c, 524, .ok⟩ 1 0).1, (StringStream.read ⟨c, 524, .ok⟩ 1 0).2.2, ?_⟩
    simp only [StringStream.ops]
    unfold StringStream.read
    simp only
    rw [if_neg (by omega), if_pos (Or.inr (by omega))]
    simp only [show (c.length : Int) - 524 = rest.length by omega]
  have f1 : (producer StringStream.ops cs N).fill (State.new cs (StringStream.new c)) 261 =
      .ok (⟨held, ⟨c, 262, .ok⟩, true, [], 0⟩, ⟨261, List.replicate 261 b, false⟩) := by
    simp only [producer]
    unfold State.new
    rw [fill_read (by rfl) r1 (by omega), if_neg (by simp only [List.length_nil]; omega)]
    unfold decode
    simp only [List.nil_append]
    rw [iconv_plain H 261 _ (261 : Int).toNat (Nat.le_refl _) (by rw [List.length_append, List.length_replicate]; omega)]
    simp only [List.length_replicate]
    rfl
  obtain ⟨s1, e1, p1, b1, -⟩ := BufferedStream.read_once (BufferedStream.bare_new (State.new cs (StringStream.new c))) (by omega) f1 (by rw [List.length_replicate]; rfl) hN
  have f2 : (producer StringStream.ops cs N).fill s1.prod 1 =
      .ok (⟨cs.init, ⟨c, 524, .ok⟩, true, List.replicate 262 y, 0⟩, ⟨1, [a], false⟩) := by
    rw [p1]
    simp only [producer]
    rw [fill_read (by rfl) r2 (by omega), if_neg (by simp only [List.length_nil]; omega)]
    unfold decode
    simp only [List.nil_append, List.length_replicate]
    rw [show (1 : Int).toNat = 1 from rfl, show List.replicate 262 y = y :: List.replicate 261 y from rfl, iconv_release H _ (2 * 262)]
    simp only [List.length_cons, List.length_replicate]
  obtain ⟨s2, e2, p2, b2, -⟩ := BufferedStream.read_once b1 (by omega) f2 (by simp) (by exact hN)
  refine ⟨s1, s2, e1, e2, BufferedStream.read_fault b2 (by omega) ?_⟩
  rw [p2]
  obtain ⟨p, d, e3⟩ := r3
  simp only [producer]
  rw [fill_read (by rw [List.length_replicate]; rfl) e3 (by omega), List.length_replicate, if_pos (by omega)]

/-- What a call of `iconv` that converts everything means. -/
theorem denotes_of_iconv {cs : Charset τ α} : ∀ (fuel : Nat) (st : τ) (l : List UInt8) (space : Nat) (out : List α) (last : τ),
    cs.iconv fuel st l space = ([], out, last, .done) → cs.Denotes st l out last := by
  intro fuel
  induction fuel with
  | zero =>
    intro st l space out last h
    cases l with
    | nil => simp [Charset.iconv] at h; obtain ⟨rfl, rfl⟩ := h; exact .nil
    | cons b l => simp [Charset.iconv] at h
  | succ fuel ih =>
    intro st l space out last h
    cases l with
    | nil => simp [Charset.iconv] at h; obtain ⟨rfl, rfl⟩ := h; exact .nil
    | cons b l =>
      rw [Charset.iconv] at h
      · cases hn : cs.next st (b :: l) with
        | incomplete => rw [hn] at h; simp at h
        | invalid => rw [hn] at h; simp at h
        | char k o st' =>
          rw [hn] at h
          simp only at h
          by_cases hs : o.length > space
          · rw [if_pos hs] at h; simp at h
          · rw [if_neg hs] at h
            simp only [Prod.mk.injEq] at h
            obtain ⟨h1, h2, h3, h4⟩ := h
            rw [← h2]
            refine .cons (by simp) hn (ih st' _ (space - o.length) _ _ ?_)
            rw [← h1, ← h3, ← h4]
      · simp

/-- **C147**, for every encoding (also those of `C147_overflow`): a short text of which something is held back at its end.  All that `iconv`
wrote is read, and then the stream is at its end, without an error and without the rest of the text. -/
theorem C147_dropped {cs : Charset τ α} (c : List UInt8) (h1 : c ≠ []) (h2 : c.length ≤ 262) {out : List α} {last : τ}
    (hi : cs.iconv (2 * c.length + 2) cs.init c out.length = ([], out, last, .done)) (ho : out ≠ []) (hh : cs.flush last ≠ [])
    (N : Nat) (hN : 1 ≤ N) :
    cs.Text c (out ++ cs.flush last) ∧
    ∃ s1 s2,
      (BufferedStream.ops (producer StringStream.ops cs N)).read (BufferedStream.new (State.new cs (StringStream.new c))) out.length out.length =
        .ok (s1, out.length, out) ∧
      (BufferedStream.ops (producer StringStream.ops cs N)).read s1 1 1 = .ok (s2, -1, []) ∧ s2.status = .eof ∧ s2.size = out.length ∧
      out.length < (out ++ cs.flush last).length := by
  refine ⟨⟨out, last, denotes_of_iconv _ _ _ _ _ _ hi, rfl⟩, ?_⟩
  have hc := List.length_pos_iff.2 h1
  have hol := List.length_pos_iff.2 ho
  have hfl := List.length_pos_iff.2 hh
  have r1 : StringStream.ops.read (StringStream.new c) 1 262 = .ok (⟨c, c.length, .eof⟩, c.length, c) := by
    simp only [StringStream.ops]
    unfold StringStream.read StringStream.new
    simp only
    rw [if_neg (by omega)]
    have : (if (262 : Int) > c.length - 0 ∨ (262 : Int) < 1 then (c.length : Int) - 0 else 262) = c.length := by split <;> omega
    rw [this, if_pos (by omega), slice_all, Int.zero_add]
  have r2 : StringStream.ops.read ⟨c, c.length, .eof⟩ 1 262 = .ok (⟨c, c.length, .eof⟩, -1, []) := by
    simp only [StringStream.ops]
    unfold StringStream.read
    simp only
    rw [if_pos (by omega)]
  have f1 : (producer StringStream.ops cs N).fill (State.new cs (StringStream.new c)) out.length =
      .ok (⟨last, ⟨c, c.length, .eof⟩, true, [], 0⟩, ⟨out.length, out, false⟩) := by
    simp only [producer]
    unfold State.new
    rw [fill_read (by rfl) r1 (by omega), if_neg (by simp only [List.length_nil]; omega)]
    unfold decode
    simp only [List.nil_append, Int.toNat_natCast]
    rw [hi]
  obtain ⟨s1, e1, p1, b1, q1⟩ := BufferedStream.read_once (BufferedStream.bare_new (State.new cs (StringStream.new c))) (by omega) f1 rfl hN
  have f2 : (producer StringStream.ops cs N).fill s1.prod 1 =
      .ok (⟨last, ⟨c, c.length, .eof⟩, false, [], 0⟩, ⟨-1, [], false⟩) := by
    rw [p1]
    simp only [producer]
    unfold fill
    rw [if_pos ⟨rfl, rfl⟩]
    simp only
    rw [show ((bufSize : Int) - (([] : List UInt8).length : Int)) = 262 from rfl, r2]
    simp
  obtain ⟨s2, e2, g1, g2, -⟩ := BufferedStream.read_end b1 (by omega) f2 hN
  refine ⟨s1, s2, e1, e2, g1, ?_, ?_⟩
  · rw [g2, q1]; exact Int.zero_add _
  · rw [List.length_append]; omega

/-! ## Instances -/

/-- A part of CP1258 (Vietnamese) as glibc converts it: `a` (97) is held back because an acute accent (0xEC) may follow. -/
def vowels : Charset Bool Nat where
  init := false
  flush held := if held then [97] else []
  next
    | _, [] => .incomplete
    | false, b :: _ => if b = 97 then .char 1 [] true else if b = 0xEC then .char 1 [0x301] false else .char 1 [b.toNat] false
    | true, b :: _ => if b = 0xEC then .char 1 [0xE1] false else .char 0 [97] false

/-- `vowels` meets the conditions of `C147_overflow`, with `x` the letter `a` and `y` the letter `b`. -/
theorem vowels_holds : HoldsBack vowels 97 98 97 98 true := ⟨fun _ => rfl, fun _ => rfl, fun _ => rfl⟩

/-- The letter at the end of `ba` is lost; but not that of `bab`. -/
example : (∃ s1 s2, (BufferedStream.ops (producer StringStream.ops vowels 9)).read (BufferedStream.new (State.new vowels (StringStream.new [98, 97]))) 1 1 =
      .ok (s1, 1, [98]) ∧ (BufferedStream.ops (producer StringStream.ops vowels 9)).read s1 1 1 = .ok (s2, -1, []) ∧ s2.status = .eof) ∧
    vowels.Text [98, 97] [98, 97] := by
  obtain ⟨h, s1, s2, e1, e2, g, _⟩ := C147_dropped (cs := vowels) [98, 97] (by simp) (by simp) (out := [98]) (last := true) (by decide +kernel)
    (by simp) (by decide) 9 (by omega)
  exact ⟨⟨s1, s2, e1, e2, g⟩, h⟩

/-- A converter that waits for the next byte before it writes a byte meets the conditions of `C147_lost`. -/
def late : Charset (Option UInt8) UInt8 where
  init := none
  flush h := h.toList
  next
    | _, [] => .incomplete
    | h, b :: _ => .char 1 h.toList (some b)

example : late.Lawful ∧ late.Single ∧ late.Denotes none [1, 2] [1] (some 2) ∧ late.flush (some 2) ≠ [] := by
  refine ⟨⟨?_, ?_, ?_⟩, ?_, ?_, by simp [late]⟩
  · intro st l k out st' hl h
    cases l with
    | nil => exact absurd rfl hl
    | cons b l =>
      simp only [late, Next.char.injEq] at h
      obtain ⟨rfl, rfl, rfl⟩ := h
      exact ⟨by omega, by simp, fun m => rfl⟩
  · intro st l hl h
    cases l with
    | nil => exact absurd rfl hl
    | cons b l => simp [late] at h
  · intro st l hl h
    cases l with
    | nil => exact absurd rfl hl
    | cons b l => simp [late] at h
  · intro st l k out st' h
    cases l with
    | nil => simp [late] at h
    | cons b l =>
      simp only [late, Next.char.injEq] at h
      rw [← h.2.1]
      cases st <;> simp
  · exact .cons (k := 1) (out := []) (st' := some 1) (by simp) rfl (.cons (k := 1) (out := [1]) (st' := some 2) (rest := []) (by simp) rfl .nil)

/-- A number of 16 bits. -/
def unit16 (be : Bool) (a b : UInt8) : Nat := bif be then a.toNat * 256 + b.toNat else b.toNat * 256 + a.toNat

/-- The next character of UTF-16 with a known byte order. -/
def utf16Char (be : Bool) : List UInt8 → Next (Option Bool) Nat
  | a :: b :: l =>
    let u := unit16 be a b
    if u < 0xD800 ∨ 0xE000 ≤ u then .char 2 [u] (some be)
    else if 0xDC00 ≤ u then .invalid
    else match l with
      | c :: d :: _ =>
        let v := unit16 be c d
        if 0xDC00 ≤ v ∧ v < 0xE000 then .char 4 [0x10000 + (u - 0xD800) * 1024 + (v - 0xDC00)] (some be) else .invalid
      | _ => .incomplete
  | _ => .incomplete

/-- UTF-16 with an optional byte order mark (without one: little endian); the state is the byte order, once it is known. -/
def utf16 : Charset (Option Bool) Nat where
  init := none
  flush _ := []
  next
    | some be, l => utf16Char be l
    | none, a :: b :: l =>
      if a = 0xFE ∧ b = 0xFF then .char 2 [] (some true)
      else if a = 0xFF ∧ b = 0xFE then .char 2 [] (some false)
      else utf16Char false (a :: b :: l)
    | none, _ => .incomplete

theorem utf16Char_cases (be : Bool) (l : List UInt8) :
    (∃ k u, utf16Char be l = .char k [u] (some be) ∧ 0 < k ∧ k ≤ l.length ∧ ∀ m, utf16Char be (l ++ m) = .char k [u] (some be)) ∨
    (utf16Char be l = .invalid ∧ ∀ m, utf16Char be (l ++ m) = .invalid) ∨
    (utf16Char be l = .incomplete ∧ l.length < 4) := by
  match l with
  | [] => exact Or.inr (Or.inr ⟨rfl, by simp⟩)
  | [_] => exact Or.inr (Or.inr ⟨rfl, by simp⟩)
  | [a, b] =>
    simp only [utf16Char, List.cons_append, List.nil_append]
    split
    · exact Or.inl ⟨_, _, rfl, by simp, by simp, fun _ => rfl⟩
    · split
      · exact Or.inr (Or.inl ⟨rfl, fun _ => rfl⟩)
      · exact Or.inr (Or.inr ⟨rfl, by simp⟩)
  | [a, b, c] =>
    simp only [utf16Char, List.cons_append, List.nil_append]
    split
    · exact Or.inl ⟨_, _, rfl, by simp, by simp, fun _ => rfl⟩
    · split
      · exact Or.inr (Or.inl ⟨rfl, fun _ => rfl⟩)
      · exact Or.inr (Or.inr ⟨rfl, by simp⟩)
  | a :: b :: c :: d :: l =>
    simp only [utf16Char, List.cons_append]
    split
    · exact Or.inl ⟨_, _, rfl, by simp, by simp, fun _ => rfl⟩
    · split
      · exact Or.inr (Or.inl ⟨rfl, fun _ => rfl⟩)
      · split
        · exact Or.inl ⟨_, _, rfl, by simp, by simp, fun _ => rfl⟩
        · exact Or.inr (Or.inl ⟨rfl, fun _ => rfl⟩)

theorem utf16_cases (st : Option Bool) (l : List UInt8) :
    (∃ k out st', utf16.next st l = .char k out st' ∧ out.length ≤ 1 ∧ 0 < k ∧ k ≤ l.length ∧ ∀ m, utf16.next st (l ++ m) = .char k out st') ∨
    (utf16.next st l = .invalid ∧ ∀ m, utf16.next st (l ++ m) = .invalid) ∨
    (utf16.next st l = .incomplete ∧ l.length < 4) := by
  cases st with
  | some be =>
    rcases utf16Char_cases be l with ⟨k, u, h1, h2, h3, h4⟩ | h | h
    · exact Or.inl ⟨k, [u], some be, h1, by simp, h2, h3, h4⟩
    · exact Or.inr (Or.inl h)
    · exact Or.inr (Or.inr h)
  | none =>
    match l with
    | [] => exact Or.inr (Or.inr ⟨rfl, by simp⟩)
    | [_] => exact Or.inr (Or.inr ⟨rfl, by simp⟩)
    | a :: b :: l =>
      have := utf16Char_cases false (a :: b :: l)
      simp only [utf16, List.cons_append] at this ⊢
      split
      · exact Or.inl ⟨_, _, _, rfl, by simp, by simp, by simp, fun _ => rfl⟩
      · split
        · exact Or.inl ⟨_, _, _, rfl, by simp, by simp, by simp, fun _ => rfl⟩
        · rcases this with ⟨k, u, h1, h2, h3, h4⟩ | h | h
          · exact Or.inl ⟨k, [u], _, h1, by simp, h2, h3, h4⟩
          · exact Or.inr (Or.inl h)
          · exact Or.inr (Or.inr h)

/-- UTF-16 meets the laws of C56, although it has a state. -/
theorem utf16_lawful : utf16.Lawful ∧ utf16.Single ∧ utf16.Prompt := by
  refine ⟨⟨?_, ?_, ?_⟩, ?_, fun _ => rfl⟩
  · intro st l k out st' _ h
    rcases utf16_cases st l with ⟨k', out', st2, e, _, h2, h3, h4⟩ | ⟨e, _⟩ | ⟨e, _⟩
    · rw [e] at h; cases h; exact ⟨h2, h3, h4⟩
    · rw [e] at h; cases h
    · rw [e] at h; cases h
  · intro st l _ h
    rcases utf16_cases st l with ⟨k', out', st2, e, _⟩ | ⟨e, h1⟩ | ⟨e, _⟩
    · rw [e] at h; cases h
    · exact h1
    · rw [e] at h; cases h
  · intro st l _ h
    rcases utf16_cases st l with ⟨k', out', st2, e, _⟩ | ⟨e, _⟩ | ⟨e, h1⟩
    · rw [e] at h; cases h
    · rw [e] at h; cases h
    · omega
  · intro st l k out st' h
    rcases utf16_cases st l with ⟨k', out', st2, e, h1, _⟩ | ⟨e, _⟩ | ⟨e, _⟩
    · rw [e] at h; cases h; exact h1
    · rw [e] at h; cases h
    · rw [e] at h; cases h

/-- Non-vacuity of C56 for an encoding with a state: a byte order mark, `a` and U+1D11E in big endian order. -/
example : utf16.Text [0xFE, 0xFF, 0, 97, 0xD8, 0x34, 0xDD, 0x1E] [97, 0x1D11E] ∧
    (readAll (BufferedStream.ops (producer StringStream.ops utf16 40))
      (BufferedStream.new (State.new utf16 (StringStream.new [0xFE, 0xFF, 0, 97, 0xD8, 0x34, 0xDD, 0x1E])))
      [(1, 1), (1, 1), (1, 0)] >>= fun r => .ok r.2) = .ok [97, 0x1D11E] :=
  ⟨⟨_, some true, denotes_of_iconv 9 none _ 9 [97, 0x1D11E] _ (by decide +kernel), rfl⟩, by decide +kernel⟩

end Props
end Strigi
