import Verif.Proofs.BufferedStream
import Verif.Proofs.BaseSkip
import Verif.Proofs.StringStream

/-!
# Properties C05–C13: inherited `skip` and the buffered stream
-/

namespace Strigi.Props

open BufferedStream

variable {σ φ α : Type}

/-! ## C05 -/

/-- **C05**: on any stream that honours the contract, the inherited `skip(k)` advances by exactly
`min(k, remaining)` and returns that amount, and the stream honours the contract afterwards; or `read`
failed, and the error code is returned. -/
theorem C05_base_skip {ops : StreamOps σ α} {c : List α} {F : Failure} {soft : Prop} {s : σ}
    (h : IsStream ops c F soft s) (k : Int) (hk : 0 ≤ k) :
    ∃ s' r, baseSkip ops.read s k = .ok (s', r) ∧
      ((ops.status s' ≠ .error ∧ ops.position s' = min (ops.position s + k) c.length ∧
          r = ops.position s' - ops.position s ∧ IsStream ops c F soft s') ∨
        (F.onRead ∧ ops.status s' = .error ∧ r < -1)) := by
  obtain ⟨s', r, e, g⟩ := baseSkipLoop_spec (Contract.of_behaves ops c F soft).toRead (k.toNat + 1) s
    (ops.position s) (ops.position s) k 0 h hk (Nat.le_refl _)
  refine ⟨s', r, e, ?_⟩
  rcases g with ⟨g1, g2, g3, g4⟩ | g
  · exact Or.inl ⟨g1, g3, by omega, g2⟩
  · exact Or.inr g

/-- **C05**: it asks for between 1 and 10000000 items at a time: it behaves the same on a stream that
breaks down when asked for any other number. -/
theorem C05_step_limit (read : σ → Int → Int → Res (σ × Int × List α)) (s : σ) (k : Int) :
    baseSkip (fun s mn mx => if 1 ≤ mx ∧ mx ≤ 10000000 then read s mn mx else .fault .undefined) s k =
      baseSkip read s k :=
  baseSkipLoop_steps read _ s k 0

/-- Non-vacuity of C05: the in-memory stream. -/
example : IsStream StringStream.ops [1, 2, 3] .never True (StringStream.new [1, 2, 3]) ∧
    baseSkip StringStream.ops.read (StringStream.new [1, 2, 3]) 2 = .ok (⟨[1, 2, 3], 2, .ok⟩, 2) :=
  ⟨(StringStream.contract [1, 2, 3]).isStream (fun _ => StringStream.softReset _)
    ⟨StringStream.Inv.new _, by simp [StringStream.ops, StringStream.new]⟩, by decide⟩

/-! ## A concrete producer, for examples: it delivers a list of chunks -/

/-- Delivers the chunks one after the other, splitting a chunk if the space is too small. -/
def chunkProducer : Producer (List (List α)) α where
  fill
    | [], _ => .ok ([], ⟨-1, [], false⟩)
    | ch :: cs, space =>
      if (ch.length : Int) ≤ space then .ok (cs, ⟨ch.length, ch, false⟩)
      else .ok (ch.drop space.toNat :: cs, ⟨space, ch.take space.toNat, false⟩)
  fuel cs := cs.flatten.length + cs.length + 1

theorem chunkProducer_produces :
    Produces (chunkProducer (α := α)) False
      (fun cs rest m => rest = cs.flatten ∧ m = cs.flatten.length + cs.length) where
  fuel h := by simp only [chunkProducer]; omega
  step := by
    intro f rest m h space hs
    obtain ⟨h1, h2⟩ := h
    subst h1 h2
    cases f with
    | nil => exact ⟨_, _, rfl, Or.inr (Or.inl ⟨rfl, by simp, rfl, rfl⟩)⟩
    | cons ch cs =>
      simp only [chunkProducer]
      by_cases hc : (ch.length : Int) ≤ space
      · rw [if_pos hc]
        refine ⟨_, _, rfl, Or.inl ⟨rfl, rfl, hc, cs.flatten, _, rfl, ?_, rfl, rfl⟩⟩
        simp; omega
      · rw [if_neg hc]
        refine ⟨_, _, rfl, Or.inl ⟨rfl, ?_, Int.le_refl _, (ch.drop space.toNat :: cs).flatten, _, ?_, ?_,
          rfl, rfl⟩⟩
        · simp; omega
        · simp only [List.flatten_cons, ← List.append_assoc, List.take_append_drop]
        · simp; omega

/-! ## C06–C13 -/

section
variable {P : Producer φ α} {mf : Prop} {R : φ → List α → Nat → Prop}

/-- Calls with admissible arguments.  The upper limit of `read` is unrestricted. -/
def validOp : Op → Prop
  | .read mn _ => 1 ≤ mn
  | .skip k => 0 ≤ k
  | .reset q => 0 ≤ q

/-- What holds in every reachable state. -/
structure Good (R : φ → List α → Nat → Prop) (mf : Prop) (c : List α) (sz : Int)
    (s : BufferedStream φ α) : Prop where
  wf : s.buf.WF
  inv : s.status = .error ∨ (Inv R c s ∧ SizeOk c sz s)
  why : s.status = .error → mf ∨ (0 < sz ∧ sz < c.length)
  eof : s.status = .eof → s.size ≠ -1

theorem Good.read (hP : Produces P mf R) {c : List α} {sz : Int} {s : BufferedStream φ α}
    (h : Good R mf c sz s) {mn : Int} (mx : Int) (h1 : 1 ≤ mn) :
    ∃ s' n d, BufferedStream.read P s mn mx = .ok (s', n, d) ∧ Good R mf c sz s' := by
  by_cases he : s.status = .error
  · refine ⟨s, -2, [], ?_, h⟩
    unfold BufferedStream.read; rw [if_pos he]
  · have hi := h.inv.resolve_left he
    obtain ⟨s', n, d, e, w, g⟩ := read_full hP hi.1 (mx := mx) h1
    refine ⟨s', n, d, e, ?_⟩
    have hz := hi.2; unfold SizeOk at hz
    rcases g with ⟨g1, g2, g3, g4, g5, g6, g7, g8, g9, g10, g11, _⟩ | ⟨g1, g2, g3, g4, g5, g6, g7, g8⟩ |
      ⟨g1, g2, g3, g4⟩
    · refine ⟨w, Or.inr ⟨g7, ?_⟩, fun z => absurd z g7.st, g11⟩
      unfold SizeOk; rcases g10 with g | ⟨g, g', _⟩ <;> omega
    · refine ⟨w, Or.inr ⟨g6, ?_⟩, fun z => absurd z g6.st, ?_⟩
      · unfold SizeOk; omega
      · intro _
        by_cases hs : s.status = .ok
        · exact g8 hs
        · have he2 : s.status = .eof := by cases hh : s.status <;> simp_all
          have := h.eof he2
          omega
    · refine ⟨w, Or.inl g2, fun _ => ?_, fun z => by rw [g2] at z; cases z⟩
      rcases g4 with g | g
      · exact Or.inl g
      · right; omega

theorem Good.skipLoop (hP : Produces P mf R) {c : List α} {sz : Int} :
    ∀ (fuel : Nat) (s : BufferedStream φ α) (k sk : Int), Good R mf c sz s →
      ∀ s' r, BufferedStream.skipLoop P fuel s k sk = .ok (s', r) → Good R mf c sz s' := by
  intro fuel
  induction fuel with
  | zero => intro s k sk _ s' r h; simp [BufferedStream.skipLoop] at h
  | succ fuel ih =>
    intro s k sk h s' r e
    unfold BufferedStream.skipLoop at e
    by_cases hk : k ≠ 0
    · rw [if_pos hk] at e
      obtain ⟨s1, n, d, e1, h1⟩ := h.read hP (if k > s.buf.size then s.buf.size else k)
        (mn := 1) (Int.le_refl _)
      simp only [e1, Res.bind_ok] at e
      by_cases hn : n ≤ 0
      · rw [if_pos hn] at e; cases e; exact h1
      · rw [if_neg hn] at e; exact ih _ _ _ h1 _ _ e
    · rw [if_neg hk] at e; cases e; exact h

theorem skip_error {s : BufferedStream φ α} (he : s.status = .error) (k : Int) (hk : 0 ≤ k) :
    BufferedStream.skip P s k = .ok (s, 0) := by
  unfold BufferedStream.skip BufferedStream.skipLoop
  by_cases h : k ≠ 0
  · rw [if_pos h]; simp only; unfold BufferedStream.read; rw [if_pos he]; simp
  · rw [if_neg h]

theorem Good.skip (hP : Produces P mf R) {c : List α} {sz : Int} {s : BufferedStream φ α}
    (h : Good R mf c sz s) {k : Int} (hk : 0 ≤ k) :
    ∃ s' r, BufferedStream.skip P s k = .ok (s', r) ∧ Good R mf c sz s' := by
  by_cases he : s.status = .error
  · exact ⟨s, 0, skip_error he k hk, h⟩
  · have hi := h.inv.resolve_left he
    obtain ⟨s', r, e, _⟩ := skip_spec hP hi.1 hi.2 hk
    exact ⟨s', r, e, Good.skipLoop hP _ _ _ _ h _ _ e⟩

theorem Good.reset {c : List α} {sz : Int} {s : BufferedStream φ α}
    (h : Good R mf c sz s) {q : Int} (hq : 0 ≤ q) :
    ∃ s' r, BufferedStream.reset s q = .ok (s', r) ∧ Good R mf c sz s' := by
  by_cases he : s.status = .error
  · refine ⟨s, -2, ?_, h⟩
    unfold BufferedStream.reset
    rw [Res.assert_of (by simpa using hq)]
    simp only [Res.bind_ok]; rw [if_pos he]
  · have hi := h.inv.resolve_left he
    obtain ⟨s', r, e, a1, a2, a3, a4, a5, a6, a7, a8⟩ := reset_spec hi.1 hi.2 (q := q) hq
    refine ⟨s', r, e, a3.win.wf, Or.inr ⟨a3, a4⟩, fun z => absurd z a2, ?_⟩
    split at a8
    · intro z; rw [a8.2] at z; cases z
    · rw [a8.2]; exact h.eof

/-- Every sequence of admissible calls runs without fault and ends in a good state. -/
theorem buffered_run (hP : Produces P mf R) {c : List α} {sz : Int} :
    ∀ (l : List Op) {s : BufferedStream φ α}, Good R mf c sz s → (∀ op ∈ l, validOp op) →
      ∃ s', run (ops P) s l = .ok s' ∧ Good R mf c sz s' := by
  intro l
  induction l with
  | nil => intro s h _; exact ⟨s, rfl, h⟩
  | cons op l ih =>
    intro s h hv
    have hv1 := hv op (by simp)
    have hv2 : ∀ op ∈ l, validOp op := fun o ho => hv o (by simp [ho])
    cases op with
    | read mn mx =>
      obtain ⟨s', n, d, e, g⟩ := h.read hP mx hv1
      obtain ⟨s2, e2, g2⟩ := ih g hv2
      refine ⟨s2, ?_, g2⟩
      rw [run, show (ops P).read s mn mx = _ from e]; exact e2
    | skip k =>
      obtain ⟨s', r, e, g⟩ := h.skip hP hv1
      obtain ⟨s2, e2, g2⟩ := ih g hv2
      refine ⟨s2, ?_, g2⟩
      rw [run, show (ops P).skip s k = _ from e]; exact e2
    | reset q =>
      obtain ⟨s', r, e, g⟩ := h.reset hv1
      obtain ⟨s2, e2, g2⟩ := ih g hv2
      refine ⟨s2, ?_, g2⟩
      rw [run, show (ops P).reset s q = _ from e]; exact e2

theorem good_new {c : List α} {f : φ} {m : Nat} (h : R f c m) (sz : Int) :
    Good R mf c sz (BufferedStream.new f sz) :=
  ⟨StreamBuffer.WF.empty, Or.inr ⟨Inv.new h sz, Or.inl rfl⟩, by simp [BufferedStream.new],
    by simp [BufferedStream.new]⟩

/-- **C06**: a buffered stream over any producer of content `c` is a stream over `c`, for every
interleaving of `read`, `skip` and `reset`; it can only fail if the producer may fail or a wrong size was
declared.  (`sz = -1`: no declared size.) -/
theorem C06_isStream (hP : Produces P mf R) {c : List α} {f : φ} {m : Nat} (h : R f c m) (sz : Int) :
    IsStream (ops P) c
      ⟨mf ∨ (sz ≠ -1 ∧ sz ≠ c.length), mf ∨ (sz ≠ -1 ∧ sz ≠ c.length)⟩ True
      (BufferedStream.new f sz) :=
  (contract hP c sz).isStream (fun _ => softReset R P c sz) (healthy_new h sz)

/-- **C06**: reading with any sequence of limits delivers the produced items in order, none lost and
none duplicated; enough reads deliver all of them. -/
theorem C06_read_all (hP : Produces P False R) {c : List α} {f : φ} {m : Nat} (h : R f c m)
    (l : List (Int × Int)) (hl : ∀ a ∈ l, 1 ≤ a.1 ∧ (a.2 = 0 ∨ a.1 ≤ a.2)) :
    ∃ s' d, readAll (ops P) (BufferedStream.new f) l = .ok (s', d) ∧ d <+: c ∧
      ((c.length : Int) < l.length → d = c) := by
  obtain ⟨s', d, e, h1, h2, h3, h4⟩ :=
    (contract hP c (-1)).readAll (by simp [fails]) l (healthy_new h (-1)) hl
  simp only [ops, BufferedStream.new, slice, Int.toNat_zero, List.drop_zero, Int.toNat_natCast] at h1 h2 h3 h4
  refine ⟨s', d, e, ?_, ?_⟩
  · rw [h1]; exact List.take_prefix _ _
  · intro z
    have := h4 (by omega)
    rw [h1]; apply List.take_of_length_le; omega

/-- **C06**: the claim is about the stored memory too: after any admissible calls every `read` that
returns `n > 0` points at `n` items of the content, starting at the position before the call. -/
theorem C06_read_exact (hP : Produces P mf R) {c : List α} {f : φ} {m : Nat} (h : R f c m) (sz : Int)
    (l : List Op) (hl : ∀ op ∈ l, validOp op) (mn mx : Int) (h1 : 1 ≤ mn) :
    ∃ s s' n d, run (ops P) (BufferedStream.new f sz) l = .ok s ∧
      (ops P).read s mn mx = .ok (s', n, d) ∧
      (0 < n → d = (c.drop s.pos.toNat).take n.toNat ∧ (d.length : Int) = n ∧
        0 ≤ s.pos ∧ s.pos + n ≤ c.length ∧ s'.pos = s.pos + n) := by
  obtain ⟨s, e, g⟩ := buffered_run hP l (good_new (mf := mf) h sz) hl
  by_cases he : s.status = .error
  · refine ⟨s, s, -2, [], e, ?_, by omega⟩
    simp only [ops]; unfold BufferedStream.read; rw [if_pos he]
  · have hi := g.inv.resolve_left he
    obtain ⟨s', n, d, e2, w, k⟩ := read_full hP hi.1 (mx := mx) h1
    refine ⟨s, s', n, d, e, e2, ?_⟩
    intro hn
    have w1 := hi.1.win.base; have w2 := hi.1.win.wf.off
    rcases k with ⟨g1, g2, g3, g4, _⟩ | ⟨g1, _⟩ | ⟨g1, _⟩
    · refine ⟨g2, ?_, by omega, g3, g4⟩
      rw [g2]; exact slice_length (by omega) (by omega) g3
    · omega
    · omega

/-- **C07**: `read(min, max)` with `1 ≤ min ≤ max` returns at most `max` items and at least `min` unless
the stream ends or fails; `-1` only when no items are left.  With `max < min` there is no limit, but the
rest of the claim holds. -/
theorem C07_read_limits (hP : Produces P mf R) {c : List α} {f : φ} {m : Nat} (h : R f c m) (sz : Int)
    (l : List Op) (hl : ∀ op ∈ l, validOp op) (mn mx : Int) (h1 : 1 ≤ mn) :
    ∃ s s' n d, run (ops P) (BufferedStream.new f sz) l = .ok s ∧
      (ops P).read s mn mx = .ok (s', n, d) ∧
      (mn ≤ mx → n ≤ mx) ∧
      (mn ≤ n ∨ ((ops P).position s' = c.length ∧ (ops P).status s' ≠ .error) ∨ n = -2) ∧
      n ≠ 0 ∧ -2 ≤ n ∧
      (n = -1 → (ops P).position s = c.length ∧ (ops P).status s' = .eof) ∧
      (n = -2 ↔ (ops P).status s' = .error) := by
  obtain ⟨s, e, g⟩ := buffered_run hP l (good_new (mf := mf) h sz) hl
  by_cases he : s.status = .error
  · refine ⟨s, s, -2, [], e, ?_, by omega, by simp, by omega, by omega, by omega, by simp [ops, he]⟩
    simp only [ops]; unfold BufferedStream.read; rw [if_pos he]
  · have hi := g.inv.resolve_left he
    obtain ⟨s', n, d, e2, w, k⟩ := read_full hP hi.1 (mx := mx) h1
    refine ⟨s, s', n, d, e, e2, ?_⟩
    simp only [ops]
    rcases k with ⟨g1, g2, g3, g4, g5, g6, g7, _⟩ | ⟨g1, g2, g3, g4, g5, g6, _⟩ | ⟨g1, g2, _⟩
    · refine ⟨g5, ?_, by omega, by omega, by omega, ?_⟩
      · rcases g6 with g6 | g6
        · exact Or.inl g6
        · exact Or.inr (Or.inl ⟨by omega, g7.st⟩)
      · exact ⟨fun z => by omega, fun z => absurd z g7.st⟩
    · refine ⟨by omega, Or.inr (Or.inl ⟨by omega, g6.st⟩), by omega, by omega, fun _ => ⟨g3, g5⟩, ?_⟩
      exact ⟨fun z => by omega, fun z => absurd z g6.st⟩
    · exact ⟨by omega, Or.inr (Or.inr g1), by omega, by omega, by omega, fun _ => g2, fun _ => g1⟩

/-- **C08**: after a `read` at position `p` that returned `n > 0`, `reset(q)` for every `p ≤ q ≤ p + n`
succeeds and sets the status to `Ok`; the memory is not touched, so the pointer obtained from `read`
(index `s'.buf.offset - n` of the buffer) still refers to the same items; and the next read returns the
items from `q` on. -/
theorem C08_rewind (hP : Produces P mf R) {c : List α} {f : φ} {m : Nat} (h : R f c m) (sz : Int)
    (l : List Op) (hl : ∀ op ∈ l, validOp op) (mn mx : Int) (h1 : 1 ≤ mn) :
    ∃ s s' n d, run (ops P) (BufferedStream.new f sz) l = .ok s ∧
      (ops P).read s mn mx = .ok (s', n, d) ∧
      (0 < n → ∀ q, (ops P).position s ≤ q → q ≤ (ops P).position s + n →
        ∃ s'', (ops P).reset s' q = .ok (s'', q) ∧ (ops P).position s'' = q ∧
          (ops P).status s'' = .ok ∧ s''.buf.mem = s'.buf.mem ∧
          slice s''.buf.mem (s'.buf.offset - n) n = d.map some ∧
          ∀ mn' mx', 1 ≤ mn' → ∃ s3 n' d', (ops P).read s'' mn' mx' = .ok (s3, n', d') ∧
            (0 < n' → d' = slice c q n')) := by
  obtain ⟨s, e, g⟩ := buffered_run hP l (good_new (mf := mf) h sz) hl
  by_cases he : s.status = .error
  · refine ⟨s, s, -2, [], e, ?_, by omega⟩
    simp only [ops]; unfold BufferedStream.read; rw [if_pos he]
  · have hi := g.inv.resolve_left he
    obtain ⟨s', n, d, e2, w, k⟩ := read_full hP hi.1 (mx := mx) h1
    refine ⟨s, s', n, d, e, e2, ?_⟩
    intro hn q q1 q2
    have hp1 := hi.1.win.base; have hp2 := hi.1.win.wf.off
    simp only [ops] at q1 q2 ⊢
    rcases k with ⟨g1, g2, g3, g4, g5, g6, g7, g8, _⟩ | ⟨g1, _⟩ | ⟨g1, _⟩
    · have w1 := g7.win.wf.off; have w2 := g7.win.wf.av
      obtain ⟨s2, r, e3, a1, a2, a3, a4, a5, a6, a7, a8⟩ :=
        reset_spec g7 (sz0 := s'.size) (Or.inl rfl) (q := q) (by omega)
      rw [if_pos (by omega)] at a8
      obtain ⟨rfl, a9⟩ := a8
      refine ⟨s2, e3, a1, a9, a5, ?_, ?_⟩
      · rw [a5]
        have e1 : slice s'.buf.mem (s'.buf.offset - n) n =
            slice (slice s'.buf.mem 0 (s'.buf.offset + s'.buf.avail)) (s'.buf.offset - n) n := by
          rw [slice_slice (by omega) (by omega) (by omega) (by omega)]; simp
        rw [e1, g7.win.items]
        unfold slice
        rw [← List.map_drop, ← List.map_take]
        have := slice_slice (c := c) (o := s'.pos - s'.buf.offset) (l := s'.buf.offset + s'.buf.avail)
          (p := s'.buf.offset - n) (n := n) (by have := g7.win.base; omega) (by omega) (by omega)
          (by omega)
        unfold slice at this
        rw [this, g2]
        unfold slice
        congr 3
        omega
      · intro mn' mx' hm
        obtain ⟨s3, n', d', e4, _, k2⟩ := read_full hP a3 (mx := mx') hm
        refine ⟨s3, n', d', e4, ?_⟩
        intro hn'
        rcases k2 with ⟨_, b2, _⟩ | ⟨b1, _⟩ | ⟨b1, _⟩
        · rw [b2, a1]
        · omega
        · omega
    · omega
    · omega

/-- **C09**: no admissible sequence of calls fails an assertion, reads uninitialised or foreign memory,
writes outside of the buffer, or loops for ever; and in every reachable state the buffer bookkeeping is
consistent. -/
theorem C09_no_fault (hP : Produces P mf R) {c : List α} {f : φ} {m : Nat} (h : R f c m) (sz : Int)
    (l : List Op) (hl : ∀ op ∈ l, validOp op) :
    ∃ s, run (ops P) (BufferedStream.new f sz) l = .ok s ∧
      0 ≤ s.buf.offset ∧ 0 ≤ s.buf.avail ∧ s.buf.offset + s.buf.avail ≤ s.buf.mem.length := by
  obtain ⟨s, e, g⟩ := buffered_run hP l (good_new (mf := mf) h sz) hl
  exact ⟨s, e, g.wf.off, g.wf.av, g.wf.fits⟩

/-- **C09**: `makeSpace(needed)` on a consistent buffer returns at least `needed`, and exactly the number
of items that can be written behind the available ones; it keeps the available items. -/
theorem C09_makeSpace (b : StreamBuffer α) (needed : Int) (h0 : 0 ≤ b.offset) (h1 : 0 ≤ b.avail)
    (h2 : b.offset + b.avail ≤ b.mem.length) :
    ∃ b' space, b.makeSpace needed = .ok (b', space) ∧ needed ≤ space ∧
      b'.offset + b'.avail + space = b'.mem.length ∧ 0 ≤ b'.offset ∧ b'.avail = b.avail ∧
      slice b'.mem b'.offset b'.avail = slice b.mem b.offset b.avail := by
  obtain ⟨b', sp, e, a1, w, a2, a3, a4, a5, a6, _⟩ :=
    StreamBuffer.makeSpace_spec (b := b) ⟨h0, h1, h2⟩ needed
  have w1 := w.off; have w2 := w.av
  simp only [StreamBuffer.size] at a2
  refine ⟨b', sp, e, a1, by omega, w1, a3, ?_⟩
  have e1 : slice b'.mem b'.offset b'.avail =
      slice (slice b'.mem 0 (b'.offset + b'.avail)) b'.offset b'.avail := by
    rw [slice_slice (by omega) (by omega) (by omega) (by omega)]; simp
  rw [e1, a6, slice_slice (by omega) (by omega) (by omega) (by omega), a3]
  congr 1; omega

/-- **C10**: no read ever returns data past a declared size, and when a read is refused for that reason
the result is `-2` and the status `Error`. -/
theorem C10_declared_size (hP : Produces P mf R) {c : List α} {f : φ} {m : Nat} (h : R f c m) (sz : Int)
    (hsz : 0 < sz) (l : List Op) (hl : ∀ op ∈ l, validOp op) (mn mx : Int) (h1 : 1 ≤ mn) :
    ∃ s s' n d, run (ops P) (BufferedStream.new f sz) l = .ok s ∧
      (ops P).read s mn mx = .ok (s', n, d) ∧ (ops P).size s = sz ∧
      (0 < n → (ops P).position s + n ≤ sz) ∧ (n < -1 → n = -2 ∧ (ops P).status s' = .error) := by
  obtain ⟨s, e, g⟩ := buffered_run hP l (good_new (mf := mf) h sz) hl
  have hsize : s.size = sz := by
    have key : ∀ (l : List Op) (s s' : BufferedStream φ α), run (ops P) s l = .ok s' →
        Good R mf c sz s → (∀ op ∈ l, validOp op) → s.size = sz → s'.size = sz := by
      intro l
      induction l with
      | nil => intro s s' e _ _ hz; cases e; exact hz
      | cons op l ih =>
        intro s s' e gs hv hz
        have hv1 := hv op (by simp)
        have hv2 : ∀ op ∈ l, validOp op := fun o ho => hv o (by simp [ho])
        by_cases he : s.status = .error
        · cases op with
          | read mn mx =>
            have : (ops P).read s mn mx = .ok (s, -2, []) := by
              simp only [ops]; unfold BufferedStream.read; rw [if_pos he]
            rw [run, this] at e; exact ih _ _ e gs hv2 hz
          | skip k => rw [run, show (ops P).skip s k = _ from skip_error he k hv1] at e; exact ih _ _ e gs hv2 hz
          | reset q =>
            have : (ops P).reset s q = .ok (s, -2) := by
              simp only [ops]; unfold BufferedStream.reset
              rw [Res.assert_of (by simpa [validOp] using hv1)]; simp only [Res.bind_ok]; rw [if_pos he]
            rw [run, this] at e; exact ih _ _ e gs hv2 hz
        · cases op with
          | read mn mx =>
            obtain ⟨s1, n, d, e1, g1⟩ := gs.read hP mx hv1
            rw [run, show (ops P).read s mn mx = _ from e1] at e
            refine ih _ _ e g1 hv2 ?_
            obtain ⟨s2, n2, d2, e2, _, k⟩ := read_full hP (gs.inv.resolve_left he).1 (mx := mx) hv1
            rw [e1] at e2; cases e2
            rcases k with ⟨_, _, _, _, _, _, _, _, _, k, _⟩ | ⟨_, _, _, _, _, _, k, _⟩ | ⟨_, _, k, _⟩
            · rcases k with k | ⟨k, _⟩ <;> omega
            · omega
            · omega
          | skip k =>
            obtain ⟨s1, r, e1, g1⟩ := gs.skip hP hv1
            rw [run, show (ops P).skip s k = _ from e1] at e
            refine ih _ _ e g1 hv2 ?_
            have hloop : ∀ (fuel : Nat) (s : BufferedStream φ α) (k sk : Int), Good R mf c sz s →
                s.size = sz → ∀ s' r, BufferedStream.skipLoop P fuel s k sk = .ok (s', r) → s'.size = sz := by
              intro fuel
              induction fuel with
              | zero => intro s k sk _ _ s' r h; simp [BufferedStream.skipLoop] at h
              | succ fuel ih2 =>
                intro s k sk hg hz s' r e
                unfold BufferedStream.skipLoop at e
                by_cases hk : k ≠ 0
                · rw [if_pos hk] at e
                  simp only at e
                  generalize (if k > s.buf.size then s.buf.size else k) = st at e
                  obtain ⟨s1, n, d, e1, g1⟩ := hg.read hP st (mn := 1) (Int.le_refl _)
                  have hz1 : s1.size = sz := by
                    by_cases he : s.status = .error
                    · have : BufferedStream.read P s 1 st = .ok (s, -2, []) := by
                        unfold BufferedStream.read; rw [if_pos he]
                      rw [e1] at this; cases this; exact hz
                    · obtain ⟨s2, n2, d2, e2, _, k⟩ :=
                        read_full hP (hg.inv.resolve_left he).1 (mn := 1) (mx := st) (Int.le_refl _)
                      rw [e1] at e2; cases e2
                      rcases k with ⟨_, _, _, _, _, _, _, _, _, k, _⟩ | ⟨_, _, _, _, _, _, k, _⟩ |
                        ⟨_, _, k, _⟩
                      · rcases k with k | ⟨k, _⟩ <;> omega
                      · omega
                      · omega
                  simp only [e1, Res.bind_ok] at e
                  by_cases hn : n ≤ 0
                  · rw [if_pos hn] at e; cases e; exact hz1
                  · rw [if_neg hn] at e; exact ih2 _ _ _ g1 hz1 _ _ e
                · rw [if_neg hk] at e; cases e; exact hz
            exact hloop _ _ _ _ gs hz _ _ e1
          | reset q =>
            obtain ⟨s1, r, e1, g1⟩ := gs.reset hv1
            rw [run, show (ops P).reset s q = _ from e1] at e
            refine ih _ _ e g1 hv2 ?_
            have : s1.size = s.size := by
              unfold BufferedStream.reset at e1
              rw [Res.assert_of (by simpa [validOp] using hv1)] at e1
              simp only [Res.bind_ok] at e1
              rw [if_neg he] at e1
              split at e1 <;> cases e1 <;> rfl
            omega
    exact key l _ _ e (good_new h sz) hl rfl
  by_cases he : s.status = .error
  · refine ⟨s, s, -2, [], e, ?_, hsize, by omega, fun _ => ⟨rfl, he⟩⟩
    simp only [ops]; unfold BufferedStream.read; rw [if_pos he]
  · have hi := g.inv.resolve_left he
    obtain ⟨s', n, d, e2, w, k⟩ := read_full hP hi.1 (mx := mx) h1
    refine ⟨s, s', n, d, e, e2, hsize, ?_⟩
    simp only [ops]
    rcases k with ⟨g1, g2, g3, g4, g5, g6, g7, g8, g9, _⟩ | ⟨g1, _⟩ | ⟨g1, g2, _⟩
    · exact ⟨fun _ => by have := g9 (by omega); omega, by omega⟩
    · exact ⟨by omega, by omega⟩
    · exact ⟨by omega, fun _ => ⟨g1, g2⟩⟩

/-- **C10**: if the producer emits more than the declared size, then reading on is answered with an
error at the latest by read number `sz + 1`, whatever the limits of the reads. -/
theorem C10_longer_is_error (hP : Produces P False R) {c : List α} {f : φ} {m : Nat} (h : R f c m)
    (sz : Int) (hsz : 0 < sz) (hlong : sz < c.length) (l : List (Int × Int))
    (hl : ∀ a ∈ l, 1 ≤ a.1) (hlen : sz < l.length) :
    ∃ s, run (ops P) (BufferedStream.new f sz) (l.map fun a => .read a.1 a.2) = .ok s ∧
      (ops P).status s = .error := by
  have herr : ∀ (l : List (Int × Int)) (s : BufferedStream φ α), s.status = .error →
      run (ops P) s (l.map fun a => .read a.1 a.2) = .ok s := by
    intro l
    induction l with
    | nil => intro s _; rfl
    | cons a l ih =>
      intro s he
      have : (ops P).read s a.1 a.2 = .ok (s, -2, []) := by
        simp only [ops]; unfold BufferedStream.read; rw [if_pos he]
      rw [List.map_cons, run, this]; exact ih s he
  suffices H : ∀ (l : List (Int × Int)) (s : BufferedStream φ α), Inv R c s → s.size = sz → s.pos ≤ sz →
      (∀ a ∈ l, 1 ≤ a.1) → sz - s.pos < l.length →
      ∃ s', run (ops P) s (l.map fun a => .read a.1 a.2) = .ok s' ∧ s'.status = .error by
    exact H l _ (Inv.new h sz) rfl (by simp [BufferedStream.new]; omega) hl
      (by simp [BufferedStream.new]; omega)
  intro l
  induction l with
  | nil => intro s _ _ h1 _ h2; simp at h2; omega
  | cons a l ih =>
    intro s hi hz hp ha hlen
    obtain ⟨s', n, d, e, _, k⟩ := read_full hP hi (mx := a.2) (ha a (by simp))
    rw [List.map_cons, run, show (ops P).read s a.1 a.2 = _ from e]
    simp only [Res.bind_ok]
    simp only [List.length_cons] at hlen
    rcases k with ⟨g1, g2, g3, g4, g5, g6, g7, g8, g9, g10, _⟩ | ⟨g1, g2, g3, _⟩ | ⟨g1, g2, _⟩
    · have := g9 (by omega)
      exact ih s' g7 (by omega) (by omega) (fun b hb => ha b (by simp [hb])) (by omega)
    · omega
    · exact ⟨s', herr l s' g2, g2⟩

/-- **C11**: when the status is `Eof` and no size was declared, then `size()` and `position()` are the
number of items produced; and once the size is known no further calls change it. -/
theorem C11_size_at_eof (hP : Produces P mf R) {c : List α} {f : φ} {m : Nat} (h : R f c m)
    (l : List Op) (hl : ∀ op ∈ l, validOp op) :
    ∃ s, run (ops P) (BufferedStream.new f) l = .ok s ∧
      ((ops P).status s = .eof → (ops P).size s = c.length ∧ (ops P).position s = c.length) ∧
      ((ops P).status s ≠ .error → (ops P).size s = -1 ∨ (ops P).size s = c.length) := by
  obtain ⟨s, e, g⟩ := buffered_run hP l (good_new (mf := mf) h (-1)) hl
  refine ⟨s, e, fun z => ?_, fun z => ?_⟩
  · have hi := g.inv.resolve_left (by rw [show s.status = _ from z]; simp)
    have h1 := g.eof z
    have h2 := hi.2
    unfold SizeOk at h2
    exact ⟨by simp only [ops]; omega, hi.1.eof_pos z⟩
  · have hi := g.inv.resolve_left z
    have h2 := hi.2
    unfold SizeOk at h2
    simp only [ops]; omega

/-- **C11**: the size stays constant once it is known: no later calls change it. -/
theorem C11_size_constant (hP : Produces P mf R) {c : List α} {f : φ} {m : Nat} (h : R f c m)
    (l l' : List Op) (hl : ∀ op ∈ l, validOp op) (hl' : ∀ op ∈ l', validOp op) :
    ∃ s s', run (ops P) (BufferedStream.new f) l = .ok s ∧ run (ops P) s l' = .ok s' ∧
      ((ops P).size s ≠ -1 → (ops P).size s' = (ops P).size s) := by
  obtain ⟨s, e, g⟩ := buffered_run hP l (good_new (mf := mf) h (-1)) hl
  obtain ⟨s', e', g'⟩ := buffered_run hP l' g hl'
  refine ⟨s, s', e, e', ?_⟩
  -- one step
  have hread : ∀ (s : BufferedStream φ α), Good R mf c (-1) s → ∀ mn mx, 1 ≤ mn → ∀ s' n d,
      BufferedStream.read P s mn mx = .ok (s', n, d) → s.size ≠ -1 → s'.size = s.size := by
    intro s gs mn mx hm s' n d e1 hne
    by_cases he : s.status = .error
    · have : BufferedStream.read P s mn mx = .ok (s, -2, []) := by
        unfold BufferedStream.read; rw [if_pos he]
      rw [e1] at this; cases this; rfl
    · obtain ⟨s2, n2, d2, e2, _, k⟩ := read_full hP (gs.inv.resolve_left he).1 (mx := mx) hm
      rw [e1] at e2; cases e2
      rcases k with ⟨_, _, _, _, _, _, _, _, _, k, _⟩ | ⟨_, _, _, _, _, _, k, _⟩ | ⟨_, _, k, _⟩
      · rcases k with k | ⟨k, _⟩ <;> omega
      · omega
      · omega
  have hloop : ∀ (fuel : Nat) (s : BufferedStream φ α) (k sk : Int), Good R mf c (-1) s →
      s.size ≠ -1 → ∀ s' r, BufferedStream.skipLoop P fuel s k sk = .ok (s', r) → s'.size = s.size := by
    intro fuel
    induction fuel with
    | zero => intro s k sk _ _ s' r h; simp [BufferedStream.skipLoop] at h
    | succ fuel ih2 =>
      intro s k sk hg hz s' r e
      unfold BufferedStream.skipLoop at e
      by_cases hk : k ≠ 0
      · rw [if_pos hk] at e
        simp only at e
        generalize (if k > s.buf.size then s.buf.size else k) = st at e
        obtain ⟨s1, n, d, e1, g1⟩ := hg.read hP st (mn := 1) (Int.le_refl _)
        have hz1 := hread s hg 1 st (Int.le_refl _) _ _ _ e1 hz
        simp only [e1, Res.bind_ok] at e
        by_cases hn : n ≤ 0
        · rw [if_pos hn] at e; cases e; exact hz1
        · rw [if_neg hn] at e; rw [← hz1]; exact ih2 _ _ _ g1 (by omega) _ _ e
      · rw [if_neg hk] at e; cases e; rfl
  have key : ∀ (l : List Op) (s s' : BufferedStream φ α), run (ops P) s l = .ok s' →
      Good R mf c (-1) s → (∀ op ∈ l, validOp op) → s.size ≠ -1 → s'.size = s.size := by
    intro l
    induction l with
    | nil => intro s s' e _ _ _; cases e; rfl
    | cons op l ih =>
      intro s s' e gs hv hz
      have hv1 := hv op (by simp)
      have hv2 : ∀ op ∈ l, validOp op := fun o ho => hv o (by simp [ho])
      cases op with
      | read mn mx =>
        obtain ⟨s1, n, d, e1, g1⟩ := gs.read hP mx hv1
        rw [run, show (ops P).read s mn mx = _ from e1] at e
        have := hread s gs mn mx hv1 _ _ _ e1 hz
        rw [← this]; exact ih _ _ e g1 hv2 (by omega)
      | skip k =>
        obtain ⟨s1, r, e1, g1⟩ := gs.skip hP hv1
        rw [run, show (ops P).skip s k = _ from e1] at e
        have := hloop _ _ _ _ gs hz _ _ e1
        rw [← this]; exact ih _ _ e g1 hv2 (by omega)
      | reset q =>
        obtain ⟨s1, r, e1, g1⟩ := gs.reset hv1
        rw [run, show (ops P).reset s q = _ from e1] at e
        have : s1.size = s.size := by
          unfold BufferedStream.reset at e1
          rw [Res.assert_of (by simpa [validOp] using hv1)] at e1
          simp only [Res.bind_ok] at e1
          split at e1
          · cases e1; rfl
          · split at e1 <;> cases e1 <;> rfl
        rw [← this]; exact ih _ _ e g1 hv2 (by omega)
  exact key l' s s' e' g hl'

/-- **C12**: after an error every later call leaves the stream as it is: `read` and `reset` return `-2`,
`skip` skips nothing, the status stays `Error`. -/
theorem C12_error_sticky (s : BufferedStream φ α) (he : (ops P).status s = .error) :
    (∀ l : List Op, (∀ op ∈ l, validOp op) → run (ops P) s l = .ok s) ∧
    (∀ mn mx, (ops P).read s mn mx = .ok (s, -2, [])) ∧
    (∀ q, 0 ≤ q → (ops P).reset s q = .ok (s, -2)) ∧
    (∀ k, 0 ≤ k → (ops P).skip s k = .ok (s, 0)) := by
  have he' : s.status = .error := he
  have hr : ∀ mn mx, (ops P).read s mn mx = .ok (s, -2, []) := by
    intro mn mx; simp only [ops]; unfold BufferedStream.read; rw [if_pos he']
  have hq : ∀ q, 0 ≤ q → (ops P).reset s q = .ok (s, -2) := by
    intro q hq
    simp only [ops]; unfold BufferedStream.reset
    rw [Res.assert_of (by simpa using hq)]; simp only [Res.bind_ok]; rw [if_pos he']
  have hk : ∀ k, 0 ≤ k → (ops P).skip s k = .ok (s, 0) := fun k hk => skip_error he' k hk
  refine ⟨?_, hr, hq, hk⟩
  intro l
  induction l with
  | nil => intro _; rfl
  | cons op l ih =>
    intro hv
    have hv1 := hv op (by simp)
    have hv2 : ∀ op ∈ l, validOp op := fun o ho => hv o (by simp [ho])
    cases op with
    | read mn mx => rw [run, hr]; exact ih hv2
    | skip k => rw [run, hk k hv1]; exact ih hv2
    | reset q => rw [run, hq q hv1]; exact ih hv2

/-- **C13**: `skip(k)`, `k ≥ 0`, advances by exactly `min(k, remaining)` and returns that amount,
whatever the state of the buffer (in particular if none is allocated yet), provided that the producer
does not fail and no wrong size was declared. -/
theorem C13_skip (hP : Produces P False R) {c : List α} {f : φ} {m : Nat} (h : R f c m) (sz : Int)
    (hsz : sz = -1 ∨ sz = c.length) (l : List Op) (hl : ∀ op ∈ l, validOp op) (k : Int) (hk : 0 ≤ k) :
    ∃ s s' r, run (ops P) (BufferedStream.new f sz) l = .ok s ∧ (ops P).skip s k = .ok (s', r) ∧
      (ops P).position s' = min ((ops P).position s + k) c.length ∧
      r = (ops P).position s' - (ops P).position s := by
  obtain ⟨s, e, g⟩ := buffered_run hP l (good_new (mf := False) h sz) hl
  have he : s.status ≠ .error := by
    intro z
    rcases g.why z with g | g
    · exact g
    · omega
  have hi := g.inv.resolve_left he
  obtain ⟨s', r, e2, k2⟩ := skip_spec hP hi.1 hi.2 hk
  refine ⟨s, s', r, e, e2, ?_⟩
  rcases k2 with ⟨_, _, _, g4, g5⟩ | ⟨g1, _⟩
  · exact ⟨g4, g5⟩
  · simp only [fails, false_or] at g1; omega

end

/-- Non-vacuity of C06–C13: a producer of chunks (one of them empty), with calls that split and rejoin
them; and a stream that is longer than declared. -/
example : (do
    let s ← run (ops chunkProducer) (BufferedStream.new [[1, 2], [], [3, 4, 5], [6]])
      [.read 1 1, .read 3 0, .reset 2, .skip 1]
    let (s', n, d) ← (ops chunkProducer).read s 2 2
    pure ((ops chunkProducer).position s, n, d, (ops chunkProducer).position s')) =
      Res.ok (3, 2, [4, 5], 5) := by decide

example : (do
    let s ← run (ops chunkProducer) (BufferedStream.new [[1, 2], [], [3, 4, 5], [6]] 4)
      [.read 1 1, .read 3 0]
    let (s', n, _) ← (ops chunkProducer).read s 2 2
    pure (s.status, n, s'.status)) = Res.ok (.ok, -2, .error) := by decide

end Strigi.Props
