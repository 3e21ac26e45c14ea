import Verif.PointerSpec
import Verif.Model.SubInputStream
import Verif.Model.DataEvent
import Verif.Model.Signature
import Verif.Model.StringTerminated
import Verif.Proofs.Decompress
import Verif.Props.Kmp
import Verif.Props.BufferedStream

/-!
# Property C158: the pointer that `read` returned can be used after `reset`
-/

namespace Strigi.Props

open BufferedStream (bind_eq_ok assert_eq_ok)

section Buffered

variable {φ α : Type}

/-- A `BufferedStream` together with what its last call of `read` returned: the position, the index in the memory of the
buffer that the pointer points to (`readPos` before the items were taken), and the items. -/
def withPointer (P : Producer φ α) : StreamOps (BufferedStream φ α × Option (Int × Int × List α)) α where
  read x mn mx := do
    let r ← BufferedStream.read P x.1 mn mx
    .ok ((r.1, if r.2.1 > 0 then some (x.1.pos, r.1.buf.offset - r.2.1, r.2.2) else none), r.2.1, r.2.2)
  skip x k := do
    let r ← BufferedStream.skip P x.1 k
    .ok ((r.1, x.2), r.2)
  reset x q := do
    let r ← BufferedStream.reset x.1 q
    .ok ((r.1, x.2), r.2)
  position x := x.1.pos
  size x := x.1.size
  status x := x.1.status

/-- The memory still has the items where the last call of `read` said that they are. -/
def StillThere (x : BufferedStream φ α × Option (Int × Int × List α)) (a b : Int) : Prop :=
  ∃ p i d, x.2 = some (p, i, d) ∧ p ≤ a ∧ b ≤ p + d.length ∧ 0 ≤ i ∧ slice x.1.buf.mem i d.length = d.map some

theorem initialised_inv : ∀ {l : List (Option α)} {d : List α}, StreamBuffer.initialised l = .ok d → l = d.map some := by
  intro l
  induction l with
  | nil => intro d h; cases h; rfl
  | cons x l ih =>
    intro d h
    cases x with
    | none => cases h
    | some a =>
      simp only [StreamBuffer.initialised] at h
      obtain ⟨r, h1, h2⟩ := bind_eq_ok h
      cases h2
      rw [ih h1]
      rfl

theorem buffer_read_inv {b b' : StreamBuffer α} {mx n : Int} {d : List α} (h : b.read mx = .ok (b', n, d)) :
    b'.mem = b.mem ∧ b'.offset = b.offset + n ∧ 0 ≤ b.offset ∧ (0 ≤ n → (d.length : Int) = n) ∧ slice b.mem b.offset n = d.map some := by
  unfold StreamBuffer.read at h
  obtain ⟨h1, h⟩ := assert_eq_ok h
  obtain ⟨h2, h⟩ := assert_eq_ok h
  obtain ⟨h3, h⟩ := assert_eq_ok h
  obtain ⟨h4, h⟩ := assert_eq_ok h
  obtain ⟨d', h5, h⟩ := bind_eq_ok h
  cases h
  have h5 := initialised_inv h5
  simp only [decide_eq_true_eq] at h1 h2 h3 h4
  refine ⟨rfl, rfl, h3, ?_, h5⟩
  intro hn
  have hl : (if mx ≤ 0 ∨ mx > b.avail then b.avail else mx) ≤ b.avail := by split <;> omega
  have := congrArg List.length h5
  rw [List.length_map] at this
  rw [← this]
  unfold StreamBuffer.size at h4
  exact slice_length h3 (by omega) (by omega)

/-- **C158**: a `BufferedStream` (a file, decompressed or decoded data, ...) does not touch the items that it returned when it is
reset. -/
theorem C158_buffered (P : Producer φ α) : Pointers (withPointer P) (fun _ => True) StillThere := by
  constructor
  · intro x x' mn mx n d _ h1 h2 h hn
    obtain ⟨r, hr, h⟩ := bind_eq_ok h
    obtain ⟨s', n', d'⟩ := r
    simp only [Res.ok.injEq, Prod.mk.injEq] at h
    obtain ⟨rfl, rfl, rfl⟩ := h
    change BufferedStream.read P x.1 mn mx = _ at hr
    unfold BufferedStream.read at hr
    split at hr
    · cases hr; omega
    · split at hr
      · cases hr; omega
      · obtain ⟨s1, _, hr⟩ := bind_eq_ok hr
        split at hr
        · cases hr; omega
        · obtain ⟨⟨b, m, e⟩, hb, hr⟩ := bind_eq_ok hr
          obtain ⟨k1, k2, k3, k4, k5⟩ := buffer_read_inv hb
          have fin : s'.buf = b ∧ n' = m ∧ d' = e := by
            dsimp only at hr
            split at hr
            · cases hr; omega
            · split at hr
              · cases hr
                refine ⟨rfl, ?_, rfl⟩
                split
                · rename_i hm; simp only [hm, if_true] at hn; omega
                · rfl
              · cases hr; exact ⟨rfl, rfl, rfl⟩
          obtain ⟨rfl, rfl, rfl⟩ := fin
          have hd := k4 hn
          refine ⟨hd, fun hn => ?_⟩
          rw [if_pos hn]
          refine ⟨x.1.pos, _, _, rfl, Int.le_refl _, ?_, ?_, ?_⟩
          · change x.1.pos + n' ≤ _; omega
          · omega
          · have ei : s'.buf.offset - n' = s1.buf.offset := by omega
            dsimp only
            rw [ei, hd, k1]; exact k5
  · intro x x' a b q r h _ _ e
    obtain ⟨y, hy, e⟩ := bind_eq_ok e
    cases e
    obtain ⟨p, i, d, h1, h2, h3, h4, h5⟩ := h
    refine ⟨p, i, d, h1, h2, h3, h4, ?_⟩
    have : y.1.buf.mem = x.1.buf.mem := by
      obtain ⟨s', r'⟩ := y
      unfold BufferedStream.reset at hy
      obtain ⟨_, hy⟩ := assert_eq_ok hy
      split at hy
      · cases hy; rfl
      · dsimp only at hy
        split at hy
        · cases hy; rfl
        · cases hy; rfl
    dsimp only
    rw [this]
    exact h5
  · rintro x a b a' b' ⟨p, i, d, h1, h2, h3, h4⟩ ha hb
    exact ⟨p, i, d, h1, by omega, by omega, h4⟩

end Buffered

variable {σ α : Type}

/-- **C158**: a `SubInputStream` passes on pointers that can be used as documented if those of its input can.  The states are
those where the input is where the substream left it, at most 2^31 - 1 items before the end. -/
theorem C158_subInputStream {P : StreamOps σ α} {I : σ → Prop} {V : σ → Int → Int → Prop} (h : Pointers P I V) :
    Pointers (SubInputStream.ops P)
      (fun s => I s.parent ∧ P.position s.parent = s.offset + s.pos ∧
        (s.size = -1 ∨ (s.pos ≤ s.size ∧ s.size - s.pos < 2 ^ 31)))
      (fun s a b => V s.parent (s.offset + a) (s.offset + b)) := by
  have key : ∀ {s s' : SubInputStream σ} {mn mx n d}, I s.parent → P.position s.parent = s.offset + s.pos → 1 ≤ mn →
      (mx = 0 ∨ mn ≤ mx) → SubInputStream.readParent P s mn mx = .ok (s', n, d) → 0 ≤ n →
      (d.length : Int) = n ∧ (0 < n → V s'.parent (s'.offset + s.pos) (s'.offset + (s.pos + n))) := by
    intro s s' mn mx n d hi hp h1 h2 e hn
    unfold SubInputStream.readParent at e
    obtain ⟨⟨p', m, d'⟩, e1, e⟩ := bind_eq_ok e
    obtain ⟨_, e⟩ := assert_eq_ok e
    dsimp only at e
    have fin : 0 ≤ m → ((d'.length : Int) = m ∧ (0 < m → V p' (s.offset + s.pos) (s.offset + (s.pos + m)))) := by
      intro hm
      obtain ⟨k1, k2⟩ := h.read hi h1 h2 e1 hm
      rw [hp] at k2
      exact ⟨k1, fun hm => by rw [← Int.add_assoc]; exact k2 hm⟩
    split at e
    · cases e; omega
    · split at e
      · split at e
        · split at e
          · rename_i hm
            cases e
            exact fin (by omega)
          · cases e; omega
        · cases e; omega
      · cases e
        exact fin hn
  constructor
  · rintro s s' mn mx n d ⟨hi, hp, hsz⟩ h1 h2 e hn
    change SubInputStream.read P s mn mx = _ at e
    unfold SubInputStream.read at e
    split at e
    · rename_i hs
      dsimp only at e
      split at e
      · cases e; omega
      · rename_i hl
        rcases hsz with hsz | ⟨hs1, hs2⟩
        · exact absurd hsz hs
        · have hn32 : narrow32 (s.size - s.pos) = s.size - s.pos := narrow32_of_range (by omega) (by omega)
          rw [hn32] at e
          exact key hi hp (by split <;> omega) (by repeat' split <;> omega) e hn
    · exact key hi hp h1 h2 e hn
  · intro s s' a b q r hv ha hb e
    change SubInputStream.reset P s q = _ at e
    unfold SubInputStream.reset at e
    obtain ⟨_, e⟩ := assert_eq_ok e
    obtain ⟨⟨p', r'⟩, e1, e⟩ := bind_eq_ok e
    have := h.reset (q := q + s.offset) hv (by omega) (by omega) e1
    dsimp only at e
    split at e
    · cases e; exact this
    · cases e; exact this
  · intro s a b a' b' hv ha hb
    exact h.part hv (by omega) (by omega)

/-- **C158**: so does a `SignatureInputStream`. -/
theorem C158_signature {P : StreamOps σ UInt8} {I : σ → Prop} {V : σ → Int → Int → Prop} (h : Pointers P I V) :
    Pointers (SignatureStream.ops P) (fun s => I s.input ∧ s.pos = P.position s.input) (fun s a b => V s.input a b) := by
  constructor
  · rintro s s' mn mx n d ⟨hi, hp⟩ h1 h2 e hn
    obtain ⟨⟨p', m, d'⟩, e1, e⟩ := bind_eq_ok e
    cases e
    obtain ⟨k1, k2⟩ := h.read hi h1 h2 e1 hn
    refine ⟨k1, fun hn => ?_⟩
    change V p' s.pos (s.pos + n)
    rw [hp]
    exact k2 hn
  · intro s s' a b q r hv ha hb e
    obtain ⟨⟨p', r'⟩, e1, e⟩ := bind_eq_ok e
    cases e
    exact h.reset hv ha hb e1
  · intro s a b a' b' hv ha hb
    exact h.part hv ha hb

/-- **C158**: a `StringTerminatedSubStream` reads more than it returns, and then resets its input; the pointer that it returns
can be used in spite of this, and after it is reset itself. -/
theorem C158_stringTerminated {P : StreamOps σ UInt8} {I : σ → Prop} {V : σ → Int → Int → Prop} (h : Pointers P I V) :
    Pointers (StringTerminated.ops P)
      (fun s => I s.parent ∧ s.searcher.query ≠ [] ∧ Kmp.setQuery s.searcher.query = .ok s.searcher ∧
        (s.status = .ok → P.position s.parent = s.offset + s.pos))
      (fun s a b => V s.parent (s.offset + a) (s.offset + b)) := by
  constructor
  · rintro s s' mn mx n d ⟨hi, hq, hb, hp⟩ h1 h2 e hn
    change StringTerminated.read P s mn mx = _ at e
    unfold StringTerminated.read at e
    split at e
    · cases e; omega
    · split at e
      · cases e; omega
      · rename_i hne hner
        have hst : s.status = .ok := by
          cases hs : s.status with
          | ok => rfl
          | eof => exact absurd hs hne
          | error => exact absurd hs hner
        have hp := hp hst
        have hpos : (StringTerminated.ops P).position s = s.pos := rfl
        rw [hpos]
        dsimp only at e
        split at e
        · rename_i hle
          unfold StringTerminated.readAgain at e
          obtain ⟨⟨p', m, d'⟩, e1, e⟩ := bind_eq_ok e
          obtain ⟨_, e⟩ := assert_eq_ok e
          split at e
          · rename_i hm
            cases e
            obtain ⟨k1, k2⟩ := h.read hi h1 (by split <;> omega) e1 (by omega)
            rw [hp] at k2
            exact ⟨k1, fun hm => by rw [← Int.add_assoc]; exact k2 hm⟩
          · rename_i hm
            cases e
            exact ⟨(h.read hi h1 (by split <;> omega) e1 hn).1, fun h0 => absurd h0 hm⟩
        · have htl : 0 < (s.searcher.query.length : Int) := by
            have := List.length_pos_iff.2 hq
            omega
          have hmn : (if mn = 0 then 1 + (s.searcher.query.length : Int) else mn + s.searcher.query.length) =
              mn + s.searcher.query.length := if_neg (by omega)
          rw [hmn] at e
          obtain ⟨⟨p', m, d'⟩, e1, e⟩ := bind_eq_ok e
          dsimp only at e
          split at e
          · cases e; omega
          · split at e
            · cases e; omega
            · obtain ⟨sr, hsr, hbuilt⟩ := Kmp.setQuery_spec hq
              rw [hb] at hsr
              cases hsr
              obtain ⟨f, hf, hocc, _⟩ := search_spec (hay := d') hq hbuilt
              rw [hf] at e
              have hm : 0 ≤ m := by omega
              obtain ⟨k1, k2⟩ := h.read hi (by omega) (by split <;> omega) e1 hm
              rw [hp] at k2 e
              have fin : ∀ {p2 : σ} {furthest : Int} {st : Status} {x : Int},
                  (0 < m → V p2 (s.offset + s.pos) (s.offset + s.pos + m)) → x ≤ m →
                  (s', n, d) = StringTerminated.finish s p2 furthest st x d' →
                  (d.length : Int) = n ∧ (0 < n → V s'.parent (s'.offset + s.pos) (s'.offset + (s.pos + n))) := by
                intro p2 furthest st x hv hx e
                unfold StringTerminated.finish at e
                simp only [Prod.mk.injEq] at e
                obtain ⟨rfl, rfl, rfl⟩ := e
                refine ⟨by rw [List.length_take]; omega, fun hn => h.part (hv (by omega)) (Int.le_refl _) (by dsimp only; omega)⟩
              cases f with
              | some k =>
                obtain ⟨o1, o2, _⟩ := hocc k rfl
                simp only [Res.bind_ok] at e
                obtain ⟨⟨p2, r2⟩, e2, e⟩ := bind_eq_ok e
                exact fin (fun hm => h.reset (k2 hm) (by omega) (by omega) e2) (by omega) (Res.ok.inj e).symm
              | none =>
                simp only [Res.bind_ok] at e
                split at e
                · obtain ⟨⟨p2, r2⟩, e2, e⟩ := bind_eq_ok e
                  exact fin (fun hm => h.reset (k2 hm) (by omega) (by omega) e2) (by omega) (Res.ok.inj e).symm
                · split at e
                  · obtain ⟨⟨p2, r2⟩, e2, e⟩ := bind_eq_ok e
                    exact fin (fun hm => h.reset (k2 hm) (by omega) (by omega) e2) (by omega) (Res.ok.inj e).symm
                  · exact fin k2 (Int.le_refl _) (Res.ok.inj e).symm
  · intro s s' a b q r hv ha hb e
    obtain ⟨⟨p', r'⟩, e1, e⟩ := bind_eq_ok e
    have := h.reset (q := q + s.offset) hv (by omega) (by omega) e1
    dsimp only at e
    split at e
    · cases e; exact this
    · cases e; exact this
  · intro s a b a' b' hv ha hb
    exact h.part hv (by omega) (by omega)

theorem narrow32_le {x : Int} (h : 0 ≤ x) : narrow32 x ≤ x := by
  unfold narrow32
  rw [Int.bmod_def]
  split <;> omega

/-- **C158**: a `DataEventInputStream` passes the pointers of its input on, and resets backwards leave them alone.  A reset
forwards is a call of `skip` (dataeventinputstream.cpp:101-106), which may invalidate the pointer by its documentation. -/
theorem C158_dataEvent {P : StreamOps σ α} {I : σ → Prop} {V : σ → Int → Int → Prop} (h : Pointers P I V)
    (handler : Handler α) :
    PointersBack (DataEvent.ops P handler)
      (fun s => I s.input ∧ s.pos = P.position s.input ∧ (s.size = -1 ∨ s.pos ≤ s.size)) (fun s a b => V s.input a b) := by
  constructor
  · rintro s s' mn mx n d ⟨hi, hp, hsz⟩ h1 h2 e hn
    change DataEvent.read P handler s mn mx = _ at e
    change _ ∧ (_ → V s'.input s.pos (s.pos + n))
    unfold DataEvent.read at e
    obtain ⟨⟨p, m, d'⟩, e1, e⟩ := bind_eq_ok e
    dsimp only at e
    split at e
    · cases e; omega
    · have k : ∃ s1 m1, ((0 ≤ m1 → 0 ≤ m) ∧ m1 ≤ m ∧ s1.input = p) ∧
          (if m1 < mn then do
            let s2 ← DataEvent.atEnd s1
            Res.ok (s2, m1, List.take m1.toNat d')
          else Res.ok (s1, m1, List.take m1.toNat d')) = Res.ok (s', n, d) := by
        split at e
        · obtain ⟨⟨s1, m1⟩, e2, e⟩ := bind_eq_ok e
          refine ⟨s1, m1, ?_, e⟩
          unfold DataEvent.report at e2
          have hm1 : (if s.size ≠ -1 ∧ s.pos + m > s.size then narrow32 (s.size - s.pos) else m) ≤ m := by
            split
            · have := narrow32_le (x := s.size - s.pos) (by omega)
              omega
            · exact Int.le_refl _
          dsimp only at e2
          generalize (if s.size ≠ -1 ∧ s.pos + m > s.size then narrow32 (s.size - s.pos) else m) = x at e2 hm1
          split at e2
          · split at e2
            · cases e2; exact ⟨fun _ => by omega, hm1, rfl⟩
            · cases e2
          · cases e2; exact ⟨fun _ => by omega, hm1, rfl⟩
        · exact ⟨_, m, ⟨id, Int.le_refl _, rfl⟩, e⟩
      obtain ⟨s1, m1, k, e⟩ := k
      obtain ⟨k1, k2, k3⟩ := k
      have fin : s'.input = p ∧ n = m1 ∧ d = d'.take n.toNat := by
        split at e
        · obtain ⟨s2, e3, e⟩ := bind_eq_ok e
          cases e
          refine ⟨?_, rfl, rfl⟩
          unfold DataEvent.atEnd at e3
          obtain ⟨_, e3⟩ := assert_eq_ok e3
          obtain ⟨_, e3⟩ := assert_eq_ok e3
          cases e3
          exact k3
        · cases e; exact ⟨k3, rfl, rfl⟩
      obtain ⟨f1, f2, f3⟩ := fin
      obtain ⟨g1, g2⟩ := h.read hi h1 h2 e1 (k1 (by omega))
      rw [f1]
      refine ⟨by rw [f3, List.length_take]; omega, fun h0 => ?_⟩
      rw [hp]
      exact h.part (g2 (by omega)) (Int.le_refl _) (by omega)
  · intro s s' a b q r hv ha hb hq e
    change DataEvent.reset P handler s q = _ at e
    change q ≤ s.pos at hq
    unfold DataEvent.reset at e
    rw [if_neg (by omega)] at e
    obtain ⟨⟨p, np⟩, e1, e⟩ := bind_eq_ok e
    cases e
    exact h.reset hv ha hb e1
  · intro s a b a' b' hv ha hb
    exact h.part hv ha hb

/-- What a pointer to `n` items at the index `i` of the memory shows. -/
def pointee {φ : Type} (x : BufferedStream φ α × Option (Int × Int × List α)) (i : Int) (n : Nat) : List (Option α) :=
  slice x.1.buf.mem i n

/-- The theorems can be put together: the part of an archive entry in a decompressed file that ends at a terminator. -/
example {φ : Type} (P : Producer φ UInt8) : ∃ I V,
    Pointers (StringTerminated.ops (SubInputStream.ops (withPointer P))) I V :=
  ⟨_, _, C158_stringTerminated (C158_subInputStream (C158_buffered P))⟩

/-- Non-vacuity of C158: after 3 items were read the stream is reset twice; the pointer still shows these items.  After two more
calls of `read` it shows others. -/
example : (do
    let O := withPointer (chunkProducer (α := Nat))
    let (x, n, d) ← O.read (BufferedStream.new [[1, 2], [], [3, 4, 5], [6, 7]], none) 3 3
    let (y, _) ← O.reset x 1
    let (z, _) ← O.reset y 0
    let (v, _, _) ← O.read z 4 4
    let (w, _, e) ← O.read v 3 3
    pure (n, d, x.2, O.position z, pointee z 0 3, e, pointee w 0 3)) =
    Res.ok (3, [1, 2, 3], some (0, 0, [1, 2, 3]), 0, [some 1, some 2, some 3], [5, 6, 7], [some 5, some 6, some 7]) := by rfl

set_option maxRecDepth 20000 in
/-- Non-vacuity of C158 for a `StringTerminatedSubStream`: it asks its input for at least 3 bytes, which returns 3, finds no
terminator, resets its input to 1, and returns 1 byte; after it was reset to 0, the pointer shows the byte. -/
example : (do
    let P := withPointer (chunkProducer (α := UInt8))
    let O := StringTerminated.ops P
    let s ← StringTerminated.new P (BufferedStream.new [[1, 2], [], [3, 4, 5], [6, 7]], none) [9, 9]
    let (s1, n, d) ← O.read s 1 0
    let (s2, r) ← O.reset s1 0
    pure (n, d, P.position s1.parent, r, s2.parent.2, pointee s2.parent 0 1)) =
      Res.ok (1, [1], 1, 0, some (0, 0, [1, 2, 3]), [some 1]) := by rfl

/-- Non-vacuity of C158 for a `DataEventInputStream`: 3 items are read and reported, the stream is reset to 1, and the pointer
shows the items. -/
example : (do
    let P := withPointer (chunkProducer (α := Nat))
    let O := DataEvent.ops P (fun _ _ => true)
    let s ← DataEvent.new P (BufferedStream.new [[1, 2], [], [3, 4, 5], [6, 7]], none)
    let (s1, n, d) ← O.read s 3 3
    let (s2, r) ← O.reset s1 1
    pure (n, d, s1.log, r, s2.input.2, pointee s2.input 0 3)) =
      Res.ok (3, [1, 2, 3], [.data [1, 2, 3]], 1, some (0, 0, [1, 2, 3]), [some 1, some 2, some 3]) := by rfl

end Strigi.Props
