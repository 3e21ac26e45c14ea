import Verif.Proofs.Iconv
import Verif.Props.BufferedStream
import Verif.Model.StringStream

/-!
# Property C56: character set conversion (`InputStreamReader`, `EncodingInputStream`)
-/

namespace Strigi.Props

open Iconv

variable {σ τ α : Type}

/-- **C56**: if the rest of the input is converted to the items `t`, and every character to at most one item, the converting stream is
a stream over `t`: for every chunking of the input and every sequence of calls.  It fails only if the input fails.  This holds for
every encoding, also one with a state; what an encoding holds back until the end (`flush`) is not in `t`: see C147. -/
theorem C56_converted {P : StreamOps σ UInt8} {c : List UInt8} {F : Failure} {soft : Prop} {p : σ}
    (hs : IsStream P c F soft p) {cs : Charset τ α} (L : cs.Lawful) (S : cs.Single) {t : List α} {last : τ}
    (ht : cs.Denotes cs.init (c.drop (P.position p).toNat) t last) {N : Nat} (hN : 4 * c.length + 2 < N) :
    IsStream (BufferedStream.ops (producer P cs N)) t ⟨F.onRead, F.onRead⟩ True
      (BufferedStream.new (State.new cs p)) := by
  have C := Contract.of_behaves P c F soft
  have := C06_isStream (Iconv.produces C L S N False) (rest_new (P := P) hs hN (Or.inl ⟨_, ht⟩)) (-1)
  simpa using this

/-- **C56**: if the rest of the input is the text `t` in the input encoding, of which nothing is held back, the converting stream is
a stream over `t`. -/
theorem C56_text {P : StreamOps σ UInt8} {c : List UInt8} {F : Failure} {soft : Prop} {p : σ}
    (hs : IsStream P c F soft p) {cs : Charset τ α} (L : cs.Lawful) (S : cs.Single) (I : cs.Prompt) {t : List α}
    (ht : cs.Text (c.drop (P.position p).toNat) t) {N : Nat} (hN : 4 * c.length + 2 < N) :
    IsStream (BufferedStream.ops (producer P cs N)) t ⟨F.onRead, F.onRead⟩ True
      (BufferedStream.new (State.new cs p)) := by
  obtain ⟨out, last, h, rfl⟩ := ht
  rw [I, List.append_nil]
  exact C56_converted hs L S h hN

/-- **C56**: reading it with any sequence of limits yields the text in order, and all of it with enough
reads. -/
theorem C56_read_all {P : StreamOps σ UInt8} {c : List UInt8} {soft : Prop} {p : σ}
    (hs : IsStream P c .never soft p) {cs : Charset τ α} (L : cs.Lawful) (S : cs.Single) (I : cs.Prompt) {t : List α}
    (ht : cs.Text (c.drop (P.position p).toNat) t) {N : Nat} (hN : 4 * c.length + 2 < N)
    (l : List (Int × Int)) (hl : ∀ a ∈ l, 1 ≤ a.1 ∧ (a.2 = 0 ∨ a.1 ≤ a.2)) :
    ∃ s' d, readAll (BufferedStream.ops (producer P cs N)) (BufferedStream.new (State.new cs p)) l = .ok (s', d) ∧
      d <+: t ∧ ((t.length : Int) < l.length → d = t) := by
  obtain ⟨out, last, h, rfl⟩ := ht
  rw [I, List.append_nil]
  have C := Contract.of_behaves P c .never soft
  have hp := Iconv.produces C L S N False
  simp only [Failure.never, or_self] at hp
  exact C06_read_all hp (rest_new (P := P) (H := fun s lo hi => ∀ l, Behaves P c .never soft s lo hi l) hs hN (Or.inl ⟨_, h⟩)) l hl

/-- **C56**: if the rest of the input is not a text, because it has an invalid sequence or ends inside of a
character, the stream behaves like one over the text `t` before that place *followed by anything*
(`junk` is arbitrary, for instance endless), which fails at some time: it hands out nothing but a
part of `t`, it never reports the end of the stream, and hence reading on ends in an error. -/
theorem C56_broken {P : StreamOps σ UInt8} {c : List UInt8} {F : Failure} {soft : Prop} {p : σ}
    (hs : IsStream P c F soft p) {cs : Charset τ α} (L : cs.Lawful) (S : cs.Single) {t : List α}
    (ht : cs.Breaks cs.init (c.drop (P.position p).toNat) t) {N : Nat} (hN : 4 * c.length + 2 < N) (junk : List α) :
    IsStream (BufferedStream.ops (producer P cs N)) (t ++ junk) ⟨True, True⟩ True
      (BufferedStream.new (State.new cs p)) := by
  have C := Contract.of_behaves P c F soft
  have := C06_isStream (Iconv.produces C L S N True)
    (rest_new (P := P) hs hN (Or.inr ⟨trivial, t, junk, rfl, ht⟩)) (-1)
  simpa using this

/-- **C56**: the end of the stream is never reported for a broken text: whatever calls are made, in no state
reached without an error the status is `Eof`, and what has been passed over is a part of the text before the
broken place. -/
theorem C56_broken_never_ends [Inhabited α] {P : StreamOps σ UInt8} {c : List UInt8} {F : Failure} {soft : Prop} {p : σ}
    (hs : IsStream P c F soft p) {cs : Charset τ α} (L : cs.Lawful) (S : cs.Single) {t : List α}
    (ht : cs.Breaks cs.init (c.drop (P.position p).toNat) t) {N : Nat} (hN : 4 * c.length + 2 < N)
    {s' : BufferedStream (State σ τ) α} {lo hi : Int}
    (h : Reaches (BufferedStream.ops (producer P cs N)) (BufferedStream.new (State.new cs p)) s' lo hi) :
    s'.status ≠ .eof ∧ s'.pos ≤ t.length := by
  have key : ∀ junk, s'.pos ≤ (t ++ junk).length ∧ (s'.status = .eof → s'.pos = (t ++ junk).length) := by
    intro junk
    have C := Contract.of_behaves P c F soft
    have hn := rest_new (P := P) (H := fun s lo hi => ∀ l, Behaves P c F soft s lo hi l) hs hN
      (Or.inr (a := ∃ last, cs.Denotes _ _ _ last) ⟨trivial, t, junk, rfl, ht⟩)
    have B := BufferedStream.contract (Iconv.produces C L S N True) (t ++ junk) (-1)
    have hH := B.reaches (BufferedStream.healthy_new hn (-1)) h
    have h1 := B.range hH
    have h2 := B.status hH
    exact ⟨by have := h1.2.2.1; have := h1.2.2.2; simp only [BufferedStream.ops] at *; omega, h2.2⟩
  have h0 := key []
  refine ⟨fun z => ?_, by simpa using h0.1⟩
  have h1 := (key [default]).2 z
  have h2 := h0.2 z
  simp at h1 h2
  omega

/-- Every sequence of bytes either denotes a text or breaks off, and not both. -/
theorem C56_either {cs : Charset τ α} (L : cs.Lawful) (st : τ) (l : List UInt8) :
    ((∃ t last, cs.Denotes st l t last) ∨ (∃ t, cs.Breaks st l t)) ∧
      ¬ ((∃ t last, cs.Denotes st l t last) ∧ (∃ t, cs.Breaks st l t)) := by
  induction h : l.length using Nat.strongRecOn generalizing l st with
  | _ n ih =>
    by_cases hl : l = []
    · subst hl
      refine ⟨Or.inl ⟨[], st, .nil⟩, ?_⟩
      rintro ⟨_, t, h⟩
      cases h with
      | here h _ => exact absurd rfl h
      | cons h _ _ => exact absurd rfl h
    · cases hn : cs.next st l with
      | incomplete =>
        refine ⟨Or.inr ⟨[], .here hl (Or.inl hn)⟩, ?_⟩
        rintro ⟨⟨t, last, h⟩, _⟩
        cases h with
        | nil => exact absurd rfl hl
        | cons _ h _ => rw [hn] at h; cases h
      | invalid =>
        refine ⟨Or.inr ⟨[], .here hl (Or.inr hn)⟩, ?_⟩
        rintro ⟨⟨t, last, h⟩, _⟩
        cases h with
        | nil => exact absurd rfl hl
        | cons _ h _ => rw [hn] at h; cases h
      | char k out st' =>
        obtain ⟨h1, h2, _⟩ := L.char hl hn
        have := ih (l.drop k).length (by rw [List.length_drop]; omega) st' (l.drop k) rfl
        refine ⟨?_, ?_⟩
        · rcases this.1 with ⟨t, last, h⟩ | ⟨t, h⟩
          · exact Or.inl ⟨_, _, .cons hl hn h⟩
          · exact Or.inr ⟨_, .cons hl hn h⟩
        · rintro ⟨⟨t, last, h⟩, ⟨t', h'⟩⟩
          apply this.2
          constructor
          · cases h with
            | nil => exact absurd rfl hl
            | cons _ h h3 => rw [hn] at h; cases h; exact ⟨_, _, h3⟩
          · cases h' with
            | here _ h => rw [hn] at h; rcases h with h | h <;> cases h
            | cons _ h h3 => rw [hn] at h; cases h; exact ⟨_, h3⟩

/-- **C56** fails for `EncodingInputStream` as soon as a character is converted to two or more bytes (Latin-1
to UTF-8, say): for every encoding, and every input that starts with such a character, the first
`read(1, max)` hands out memory that was never written. -/
theorem C56_witness_long {P : StreamOps σ UInt8} {c : List UInt8} {soft : Prop} {p : σ}
    (hs : IsStream P c .never soft p) (h0 : P.position p = 0) {cs : Charset τ α} (L : cs.Lawful)
    {b : UInt8} {rest : List UInt8} (hc : c = b :: rest)
    {out : List α} {st' : τ} (hn : cs.next cs.init [b] = .char 1 out st') (ho : 2 ≤ out.length) {N : Nat} (hN : 0 < N) {max : Int}
    (hm : max = 0 ∨ 1 ≤ max) :
    (BufferedStream.ops (producer P cs N)).read (BufferedStream.new (State.new cs p)) 1 max = .fault .undefined := by
  have C := Contract.of_behaves P c .never soft
  obtain ⟨p', n, d, e, r, w⟩ := C.read (s := p) hs (min := 1) (max := bufSize) (Int.le_refl _)
    (Or.inr (by simp only [bufSize]; omega))
  have hlen : (c.length : Int) = rest.length + 1 := by rw [hc]; simp
  cases r with
  | failed h _ _ => exact absurd h id
  | ended none nodata atEnd stay st => omega
  | data pos items inside adv limit enough st =>
    have hlim := limit (by simp only [bufSize]; omega)
    have hd : ∃ d', d = b :: d' := by
      refine ⟨(rest.take (n.toNat - 1)), ?_⟩
      rw [items, hc, h0]
      unfold slice
      obtain ⟨k, hk⟩ : ∃ k, n.toNat = k + 1 := ⟨n.toNat - 1, by omega⟩
      rw [hk]; simp
    obtain ⟨d', rfl⟩ := hd
    have hnext : cs.next cs.init (b :: d') = .char 1 out st' := by
      have := (L.char (by simp) hn).2.2 d'
      simpa using this
    have hfill : fill P cs (State.new cs p) 1 = .ok (⟨cs.init, p', true, b :: d', 0⟩, ⟨1, [], false⟩) := by
      unfold fill
      rw [if_pos ⟨rfl, rfl⟩, show ((bufSize : Int) - ((State.new cs p).chars.length : Int)) = bufSize by
        simp [State.new], show P.read (State.new cs p).input 1 bufSize = _ from e]
      simp only [Res.bind_ok]
      rw [if_neg (by omega), if_neg (by omega), if_neg (by simp only [State.new, List.length_nil]; omega)]
      simp only [State.new]
      simp only [List.nil_append, decode, List.length_cons]
      rw [Charset.iconv]
      case x_4 => simp
      rw [hnext]
      simp only [show (1 : Int).toNat = 1 from rfl]
      rw [if_pos (by omega)]
      simp
    have hmax : (if (1 : Int) > max then (0 : Int) else max) = max := by
      split
      · omega
      · rfl
    obtain ⟨N, rfl⟩ : ∃ k, N = k + 1 := ⟨N - 1, by omega⟩
    have hspace : (if max ≥ 1 ∧ (1 : Int) > max then max else 1) = 1 := by
      split
      · omega
      · rfl
    have hw : ∀ M, BufferedStream.writeLoop (producer P cs M) 1 max (N + 1 + 1)
        (⟨State.new cs p, ⟨[], 0, 0⟩, false, 0, -1, .ok⟩ : BufferedStream (State σ τ) α) (1 - 0) 0 =
        .ok (⟨⟨cs.init, p', true, b :: d', 0⟩, ⟨[none], 0, 1⟩, false, 0, -1, .ok⟩, 1) := by
      intro M
      rw [BufferedStream.writeLoop, if_pos (by decide)]
      simp only [StreamBuffer.makeSpace, StreamBuffer.size, StreamBuffer.setSize]
      simp [Res.assert, producer, hspace, hfill, StreamBuffer.store, StreamBuffer.size, BufferedStream.writeLoop]
    have hen : BufferedStream.ensure (producer P cs (N + 1))
        (BufferedStream.new (State.new cs p) : BufferedStream (State σ τ) α) 1 max =
        .ok ⟨⟨cs.init, p', true, b :: d', 0⟩, ⟨[none], 0, 1⟩, false, 0, -1, .ok⟩ := by
      unfold BufferedStream.ensure
      rw [if_pos ⟨rfl, show (1 : Int) > 0 by decide⟩]
      unfold BufferedStream.writeToBuffer
      rw [show BufferedStream.writeLoop (producer P cs (N + 1)) 1 max ((producer P cs (N + 1)).fuel
        (BufferedStream.new (State.new cs p) : BufferedStream (State σ τ) α).prod + 1) (BufferedStream.new (State.new cs p))
        (1 - (BufferedStream.new (State.new cs p) : BufferedStream (State σ τ) α).buf.avail) 0 = _ from hw (N + 1)]
      rfl
    rw [show (BufferedStream.ops (producer P cs (N + 1))).read = BufferedStream.read (producer P cs (N + 1)) from rfl]
    unfold BufferedStream.read
    rw [if_neg (by simp [BufferedStream.new]), if_neg (by simp [BufferedStream.new])]
    simp only [hmax]
    rw [hen]
    simp [StreamBuffer.read, StreamBuffer.size, Res.assert, slice, StreamBuffer.initialised]
    have : max ≤ 0 ∨ 1 < max ∨ max = 1 := by omega
    rcases this with h | h | h
    · simp [h, StreamBuffer.initialised]
    · simp [h, StreamBuffer.initialised]
    · simp [h, StreamBuffer.initialised]

/-! ## Instances -/

/-- A continuation byte of UTF-8. -/
def isCont (b : UInt8) : Bool := 128 ≤ b ∧ b < 192

/-- The next characters of `n` continuation bytes: `none` if there are not enough bytes but those present are
continuation bytes, `some false` if one is not. -/
def contBytes : Nat → List UInt8 → Option Bool
  | 0, _ => some true
  | _ + 1, [] => none
  | n + 1, b :: l => if isCont b then contBytes n l else some false

/-- UTF-8 (without the exclusion of over-long forms and surrogates) to code points. -/
def utf8 : Charset Unit Nat where
  init := ()
  flush _ := []
  next
    | _, [] => .incomplete
    | _, b :: l =>
      let n := if b < 128 then some 0 else if b < 194 then none else if b < 224 then some 1
        else if b < 240 then some 2 else if b < 245 then some 3 else none
      match n with
      | none => .invalid
      | some n =>
        match contBytes n l with
        | none => .incomplete
        | some false => .invalid
        | some true =>
          .char (n + 1) [(l.take n).foldl (fun a x => a * 64 + x.toNat % 64)
            (if n = 0 then b.toNat else if n = 1 then b.toNat % 32 else if n = 2 then b.toNat % 16 else b.toNat % 8)] ()

theorem contBytes_append {n : Nat} {l : List UInt8} {r : Bool} (h : contBytes n l = some r) (m : List UInt8) :
    contBytes n (l ++ m) = some r ∧ (r = true → n ≤ l.length) := by
  induction n generalizing l with
  | zero => simp [contBytes] at h ⊢; exact h
  | succ n ih =>
    cases l with
    | nil => simp [contBytes] at h
    | cons b l =>
      simp only [contBytes, List.cons_append] at h ⊢
      split at h
      · rename_i hb
        rw [if_pos hb]
        have := ih h
        exact ⟨this.1, fun z => by have := this.2 z; simp; omega⟩
      · rename_i hb
        rw [if_neg hb]
        cases h
        exact ⟨rfl, by simp⟩

theorem contBytes_none {n : Nat} {l : List UInt8} (h : contBytes n l = none) : l.length < n := by
  induction n generalizing l with
  | zero => simp [contBytes] at h
  | succ n ih =>
    cases l with
    | nil => simp
    | cons b l =>
      simp only [contBytes] at h
      split at h
      · have := ih h; simp; omega
      · cases h

/-- Non-vacuity of C56: UTF-8 meets the laws. -/
theorem utf8_lawful : utf8.Lawful := by
  have key : ∀ b : UInt8, ∀ n, (if b < 128 then some 0 else if b < 194 then none else if b < 224 then some 1
        else if b < 240 then some 2 else if b < 245 then some 3 else none) = some n → n ≤ 3 := by
    intro b n h
    split at h
    · simp at h; omega
    split at h
    · simp at h
    split at h
    · simp at h; omega
    split at h
    · simp at h; omega
    split at h
    · simp at h; omega
    · simp at h
  constructor
  · intro st l k out st' hl h
    cases l with
    | nil => exact absurd rfl hl
    | cons b l =>
      simp only [utf8] at h
      generalize hx : (if b < 128 then some 0 else if b < 194 then none else if b < 224 then some 1
        else if b < 240 then some 2 else if b < 245 then some 3 else none : Option Nat) = x at h
      rcases x with _ | n
      · simp at h
      · simp only at h
        rcases hc : contBytes n l with _ | r
        · rw [hc] at h; simp at h
        · rw [hc] at h
          cases r with
          | false => simp at h
          | true =>
            simp only [Next.char.injEq] at h
            have := contBytes_append hc
            refine ⟨by omega, by have := (this []).2 rfl; simp; omega, fun m => ?_⟩
            simp only [utf8, List.cons_append]
            rw [hx]
            simp only
            rw [(this m).1]
            simp only [Next.char.injEq]
            refine ⟨h.1, ?_, trivial⟩
            rw [← h.2.1, List.take_append_of_le_length ((this []).2 rfl)]
  · intro st l hl h m
    cases l with
    | nil => exact absurd rfl hl
    | cons b l =>
      simp only [utf8, List.cons_append] at h ⊢
      generalize hx : (if b < 128 then some 0 else if b < 194 then none else if b < 224 then some 1
        else if b < 240 then some 2 else if b < 245 then some 3 else none : Option Nat) = x at h ⊢
      rcases x with _ | n
      · rfl
      · simp only at h ⊢
        rcases hc : contBytes n l with _ | r
        · rw [hc] at h; simp at h
        · rw [hc] at h
          cases r with
          | true => simp at h
          | false => rw [(contBytes_append hc m).1]
  · intro st l hl h
    cases l with
    | nil => exact absurd rfl hl
    | cons b l =>
      simp only [utf8] at h
      generalize hx : (if b < 128 then some 0 else if b < 194 then none else if b < 224 then some 1
        else if b < 240 then some 2 else if b < 245 then some 3 else none : Option Nat) = x at h
      rcases x with _ | n
      · simp at h
      · have hn := key b n hx
        simp only at h
        rcases hc : contBytes n l with _ | r
        · have := contBytes_none hc
          simp; omega
        · rw [hc] at h
          cases r <;> simp at h

theorem utf8_single : utf8.Single := by
  intro st l k out st' h
  cases l with
  | nil => simp [utf8] at h
  | cons b l =>
    simp only [utf8] at h
    split at h
    · cases h
    · split at h
      · cases h
      · cases h
      · simp only [Next.char.injEq] at h
        rw [← h.2.1]; simp

/-- Non-vacuity of C56: the text `a€é` in UTF-8, read with various limits. -/
example : utf8.Denotes () [97, 0xE2, 0x82, 0xAC, 0xC3, 0xA9] ([97] ++ ([0x20AC] ++ ([0xE9] ++ []))) () ∧
    (readAll (BufferedStream.ops (producer StringStream.ops utf8 30))
      (BufferedStream.new (State.new utf8 (StringStream.new [97, 0xE2, 0x82, 0xAC, 0xC3, 0xA9])))
      [(1, 1), (1, 1), (1, 0), (1, 0)] >>= fun r => .ok r.2) = .ok [97, 0x20AC, 0xE9] ∧
    utf8.Breaks () [97, 0xE2, 0x82] ([97] ++ []) := by
  refine ⟨?_, by decide +kernel, ?_⟩
  · refine .cons (k := 1) (st' := ()) (by simp) (by decide +kernel) (.cons (k := 3) (st' := ()) (by simp) (by decide +kernel)
      (.cons (k := 2) (st' := ()) (by simp) (by decide +kernel) .nil))
  · exact .cons (k := 1) (st' := ()) (by simp) (by decide +kernel) (.here (by simp) (Or.inl (by decide +kernel)))

/-- Latin-1 to UTF-8. -/
def latin1 : Charset Unit UInt8 where
  init := ()
  flush _ := []
  next
    | _, [] => .incomplete
    | _, b :: _ => .char 1 (if b < 128 then [b] else [192 + b / 64, 128 + b % 64]) ()

theorem latin1_lawful : latin1.Lawful := by
  constructor
  · intro st l k out st' hl h
    cases l with
    | nil => exact absurd rfl hl
    | cons b l =>
      simp only [latin1, Next.char.injEq] at h
      exact ⟨by omega, by simp; omega, fun m => by simp [latin1, h.2, h.1]⟩
  · intro st l hl h
    cases l with
    | nil => exact absurd rfl hl
    | cons b l => simp [latin1] at h
  · intro st l hl h
    cases l with
    | nil => exact absurd rfl hl
    | cons b l => simp [latin1] at h

/-- Non-vacuity of `C56_witness_long`: reading `é` from Latin-1. -/
example : latin1.next () [0xE9] = .char 1 [0xC3, 0xA9] () ∧
    (BufferedStream.ops (producer StringStream.ops latin1 30)).read
      (BufferedStream.new (State.new latin1 (StringStream.new [0xE9]))) 1 0 = .fault .undefined := by
  decide +kernel

end Strigi.Props
