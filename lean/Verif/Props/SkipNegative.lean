import Verif.Props.FileStreams
import Verif.Props.StringStream
import Verif.Props.SubInputStream
import Verif.Model.BaseSkip
import Verif.Proofs.Archive

/-!
# Property C146: `skip` with a negative number
-/

namespace Strigi.Props

variable {α : Type}

/-- **C146**: the inherited `skip` does nothing (here the claim that nothing is passed over holds). -/
theorem C146_inherited {σ : Type} (read : σ → Int → Int → Res (σ × Int × List α)) (s : σ) (n : Int) (hn : n < 0) :
    baseSkip read s n = .ok (s, 0) := by
  unfold baseSkip baseSkipLoop
  rw [if_neg (show ¬ n > 0 by omega)]

/-- **C146**: an in-memory stream that is not at its end goes to its end, and returns the number of all items that were left. -/
theorem C146_string (s : StringStream α) (n : Int) (h1 : -(2 ^ 31) ≤ n) (hn : n < 0) (hp : s.pos < s.data.length) :
    ∃ s', (StringStream.ops).skip s n = .ok (s', s.data.length - s.pos) ∧ s'.pos = s.data.length ∧ s'.status = .eof := by
  refine ⟨⟨s.data, s.data.length, .eof⟩, ?_, rfl, rfl⟩
  simp only [StringStream.ops]
  unfold StringStream.skip
  rw [if_neg (by omega)]
  simp only
  rw [narrow32_of_range h1 (by omega)]
  unfold StringStream.read
  simp only
  rw [if_neg (by omega), if_pos (Or.inr (by omega : n < 1))]
  simp only [show s.pos + ((s.data.length : Int) - s.pos) = s.data.length by omega, if_true]

/-- A maximum below the minimum is no limit. -/
theorem buffered_read_negative {φ : Type} (B : Producer φ α) (s : BufferedStream φ α) {n : Int} (hn : n < 0) :
    BufferedStream.read B s 1 n = BufferedStream.read B s 1 0 := by
  unfold BufferedStream.read
  rw [if_pos (show (1 : Int) > n by omega), if_pos (show (1 : Int) > 0 by omega)]

theorem buffered_skip_negative {φ : Type} {B : Producer φ α} {c : List α} {soft : Prop} :
    ∀ (k fuel : Nat) (s : BufferedStream φ α) (n skipped : Int), IsStream (BufferedStream.ops B) c Failure.never soft s → n < 0 →
      c.length - s.pos.toNat ≤ k → k + 1 < fuel →
      ∃ s', BufferedStream.skipLoop B fuel s n skipped = .ok (s', skipped + (c.length - s.pos)) ∧ s'.pos = c.length ∧ s'.status = .eof ∧
        IsStream (BufferedStream.ops B) c Failure.never soft s' := by
  intro k
  induction k with
  | zero =>
    intro fuel s n skipped hS hn hk hf
    obtain ⟨f, rfl⟩ : ∃ f, fuel = f + 1 := ⟨fuel - 1, by omega⟩
    have C := Contract.of_behaves (BufferedStream.ops B) c Failure.never soft
    have hr := C.range hS
    have hpp : (BufferedStream.ops B).position s = s.pos := rfl
    obtain ⟨s', m, d, e, ro, kk⟩ := C.read hS (min := 1) (max := 0) (by omega) (Or.inl rfl)
    have e' : BufferedStream.read B s 1 0 = .ok (s', m, d) := e
    unfold BufferedStream.skipLoop
    rw [if_pos (by omega)]
    have hstep : (if n > s.buf.size then s.buf.size else n) = n := by
      rw [if_neg]; unfold StreamBuffer.size; omega
    simp only [hstep]
    rw [buffered_read_negative B s hn, e']
    simp only [Res.bind_ok]
    cases ro with
    | data pos _ inside _ _ _ _ => exfalso; omega
    | ended none nodata atEnd stay st =>
      rw [if_pos (by omega)]
      have st' : s'.status = .eof := st
      have hst : (BufferedStream.ops B).status s' ≠ .error := by rw [st]; decide
      have h1 := kk hst
      have sp : s'.pos = s.pos := stay
      refine ⟨s', ?_, by omega, st', ?_⟩
      · rw [show skipped + ((c.length : Int) - s.pos) = skipped by omega]
      · have := h1; rw [stay] at this; intro l; rw [stay]; exact this l
    | failed a _ _ => exact absurd a id
  | succ k ih =>
    intro fuel s n skipped hS hn hk hf
    obtain ⟨f, rfl⟩ : ∃ f, fuel = f + 1 := ⟨fuel - 1, by omega⟩
    have C := Contract.of_behaves (BufferedStream.ops B) c Failure.never soft
    have hr := C.range hS
    have hpp : (BufferedStream.ops B).position s = s.pos := rfl
    obtain ⟨s', m, d, e, ro, kk⟩ := C.read hS (min := 1) (max := 0) (by omega) (Or.inl rfl)
    have e' : BufferedStream.read B s 1 0 = .ok (s', m, d) := e
    unfold BufferedStream.skipLoop
    rw [if_pos (by omega)]
    have hstep : (if n > s.buf.size then s.buf.size else n) = n := by
      rw [if_neg]; unfold StreamBuffer.size; omega
    simp only [hstep]
    rw [buffered_read_negative B s hn, e']
    simp only [Res.bind_ok]
    cases ro with
    | data pos _ inside adv _ _ st =>
      rw [if_neg (by omega)]
      have ap : s'.pos = s.pos + m := adv
      have h1 := kk st
      have h2 := C.range h1
      have hS' : IsStream (BufferedStream.ops B) c Failure.never soft s' := C.narrow h1 (by omega) (by omega) (by omega) (by omega)
      obtain ⟨s2, e2, x1, x2, x3⟩ := ih f s' (n - m) (skipped + m) hS' (by omega) (by omega) (by omega)
      refine ⟨s2, ?_, x1, x2, x3⟩
      rw [e2, ap, show skipped + m + ((c.length : Int) - (s.pos + m)) = skipped + (c.length - s.pos) by omega]
    | ended none nodata atEnd stay st =>
      rw [if_pos (by omega)]
      have st' : s'.status = .eof := st
      have hst : (BufferedStream.ops B).status s' ≠ .error := by rw [st]; decide
      have h1 := kk hst
      have sp : s'.pos = s.pos := stay
      refine ⟨s', ?_, by omega, st', ?_⟩
      · rw [show skipped + ((c.length : Int) - s.pos) = skipped by omega]
      · have := h1; rw [stay] at this; intro l; rw [stay]; exact this l
    | failed a _ _ => exact absurd a id

/-- **C146**: a buffered stream (of whatever kind) reads to its end, and returns the number of all items that were left; the loop
takes at most as many rounds as items are left, and two. -/
theorem C146_buffered {φ : Type} {B : Producer φ α} {c : List α} {soft : Prop} {s : BufferedStream φ α}
    (hS : IsStream (BufferedStream.ops B) c Failure.never soft s) (n : Int) (hn : n < 0) (fuel : Nat)
    (hf : c.length - s.pos.toNat + 1 < fuel) :
    ∃ s', BufferedStream.skipLoop B fuel s n 0 = .ok (s', c.length - s.pos) ∧ s'.pos = c.length ∧ s'.status = .eof ∧
      IsStream (BufferedStream.ops B) c Failure.never soft s' := by
  obtain ⟨s', e, h⟩ := buffered_skip_negative _ fuel s n 0 hS hn (Nat.le_refl _) hf
  exact ⟨s', by rw [e, Int.zero_add], h⟩

/-- **C146**: a mapped file goes back, also in front of its first byte, and the next read of a client touches memory outside of
the mapping. -/
theorem C146_mmap (s : MMapStream α) (n : Int) (hn : n < 0) (hp : s.pos ≤ s.mem.length) :
    ∃ s', MMapStream.ops.skip s n = .ok (s', n) ∧ s'.pos = s.pos + n ∧ s'.status = s.status ∧
      (s.status = .ok → s.pos + n < 0 → ∀ mn mx : Int, 1 ≤ mn → MMapStream.ops.read s' mn mx = .fault .outOfBounds) := by
  refine ⟨⟨s.mem, s.pos + n, s.status⟩, ?_, rfl, rfl, ?_⟩
  · simp only [MMapStream.ops]
    unfold MMapStream.skip
    simp only
    rw [if_neg (by omega)]
  · intro hs hneg mn mx hmn
    simp only [MMapStream.ops]
    unfold MMapStream.read
    simp only [hs]
    rw [if_neg (by decide), if_neg (by decide)]
    unfold MMapStream.at_
    simp only
    rw [if_neg (by omega)]
    rfl

/-- **C146**: a file read with `fseek` goes back; in front of its first byte it fails, and stays where it is. -/
theorem C146_file (s : SkippingFile α) (f : CFile α) (hs : s.file = some f) (n : Int) (hn : n < 0)
    (hsz : s.size < 0 ∨ s.pos ≤ s.size) :
    (0 ≤ s.pos + n → ∃ s', SkippingFile.ops.skip s n = .ok (s', n) ∧ s'.pos = s.pos + n ∧ s'.status ≠ .error) ∧
    (s.pos + n < 0 → ∃ s', SkippingFile.ops.skip s n = .ok (s', -2) ∧ s'.pos = s.pos ∧ s'.status = .error) := by
  have hq : (if s.size ≥ 0 ∧ s.pos + n > s.size then s.size else s.pos + n) = s.pos + n := by rw [if_neg (by omega)]
  constructor
  · intro h
    refine ⟨⟨some { f with off := s.pos + n }, s.buffersize, s.pos + n, s.size, if s.pos + n = s.size then .eof else .ok⟩, ?_, rfl, ?_⟩
    · simp only [SkippingFile.ops]
      unfold SkippingFile.skip SkippingFile.reset
      simp only [hs, hq]
      unfold CFile.fseek
      simp only [if_neg (show ¬ s.pos + n < 0 by omega)]
      simp only [Bool.false_eq_true, if_false]
      rw [if_neg (by omega)]
      simp only [show s.pos + n - s.pos = n by omega]
    · show (if s.pos + n = s.size then Status.eof else Status.ok) ≠ .error
      split <;> decide
  · intro h
    refine ⟨{ s with status := .error }, ?_, rfl, rfl⟩
    simp only [SkippingFile.ops]
    unfold SkippingFile.skip SkippingFile.reset
    simp only [hs, hq]
    unfold CFile.fseek
    simp only [if_pos h]
    simp

/-- **C146**: an entry of known size of an archive in memory: `skip` with a negative number leaves the entry and goes to the end of
the *archive*; the position is larger than the size. -/
theorem C146_entry (e : SubInputStream (StringStream α)) (n : Int) (h1 : -(2 ^ 31) ≤ n) (hn : n < 0)
    (h0 : 0 ≤ e.size) (hp : e.pos < e.size) (hpar : e.parent.pos = e.offset + e.pos)
    (hin : e.offset + e.size < e.parent.data.length) :
    ∃ e', SubInputStream.skip StringStream.ops e n = .ok (e', e.parent.data.length - e.parent.pos) ∧ e'.pos > e'.size ∧
      e'.size = e.size ∧ e'.parent.pos = e.parent.data.length ∧ e'.status = e.status := by
  obtain ⟨p', ek, kp, kst⟩ := C146_string e.parent n h1 hn (by omega)
  refine ⟨{ e with parent := p', pos := e.pos + (e.parent.data.length - e.parent.pos) }, ?_, ?_, rfl, kp, rfl⟩
  · unfold SubInputStream.skip
    rw [if_neg (by omega), if_neg (by omega), if_pos (by omega)]
    simp only
    rw [if_neg (by omega)]
    unfold SubInputStream.skipParent
    rw [ek]
    simp only [Res.bind_ok]
    rw [if_neg (by rw [show (StringStream.ops).status p' = p'.status from rfl, kst]; decide), if_neg (by omega), if_neg (by omega)]
  · simp only; omega

/-- **C146**: and the next read of an entry that has been left like this, by two bytes or more, ends the process: an assertion
is false. -/
theorem C146_entry_after (e : SubInputStream (StringStream α)) (h0 : 0 ≤ e.size) (hp : e.pos > e.size + 1)
    (h32 : e.pos - e.size < 2 ^ 31) (hpar : e.parent.pos = e.parent.data.length) (mn mx : Int) (hmn : 1 ≤ mn) (hmx : 0 ≤ mx) :
    SubInputStream.read StringStream.ops e mn mx = .fault .assertion := by
  unfold SubInputStream.read
  rw [if_pos (show e.size ≠ -1 by omega)]
  simp only
  rw [if_neg (show ¬ e.size - e.pos = 0 by omega), if_pos (show mn > e.size - e.pos by omega),
    if_pos (show mx < narrow32 (e.size - e.pos) ∨ mx > e.size - e.pos from Or.inr (by omega)),
    narrow32_of_range (by omega) (by omega)]
  unfold SubInputStream.readParent
  simp only [StringStream.ops]
  unfold StringStream.read
  simp only
  rw [if_pos (show (e.parent.data.length : Int) - e.parent.pos = 0 by omega)]
  simp only [Res.bind_ok]
  rw [show decide (e.size - e.pos < e.size - e.pos ∨ (-1 : Int) ≤ e.size - e.pos) = false from decide_eq_false (by omega)]
  rfl

/-- The hypotheses are met: an entry of three bytes in ten, of which one has been read. -/
example : ∃ e e' : SubInputStream (StringStream UInt8),
    (do
      let (i, _) ← StringStream.ops.skip (StringStream.new ([0, 1, 2, 3, 4, 5, 6, 7, 8, 9] : List UInt8)) 4
      let e ← SubInputStream.new StringStream.ops i 3
      let (e, _, _) ← SubInputStream.read StringStream.ops e 1 1
      .ok e) = .ok e ∧ SubInputStream.skip StringStream.ops e (-1) = .ok (e', 5) ∧ e'.pos = 6 ∧ e'.size = 3 :=
  ⟨_, _, rfl, rfl, rfl, rfl⟩

example : ∃ s', MMapStream.ops.skip (MMapStream.new [(1 : UInt8), 2, 3]) (-1) = .ok (s', -1) ∧
    MMapStream.ops.read s' 1 1 = .fault .outOfBounds := by
  obtain ⟨s', e, _, _, h⟩ := C146_mmap (MMapStream.new [(1 : UInt8), 2, 3]) (-1) (by decide) (by decide)
  exact ⟨s', e, h rfl (by decide) 1 1 (by decide)⟩

end Strigi.Props
