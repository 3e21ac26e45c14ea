import Verif.Contract
import Verif.ProducerSpec

namespace Strigi

variable {φ α : Type}

namespace StreamBuffer

/-- The bookkeeping invariant of the buffer (the assertions of streambuffer.h:145-148). -/
structure WF (b : StreamBuffer α) : Prop where
  off : 0 ≤ b.offset
  av : 0 ≤ b.avail
  fits : b.offset + b.avail ≤ b.size

theorem WF.empty : WF (empty : StreamBuffer α) := by
  constructor <;> simp [StreamBuffer.empty, size]

theorem setSize_spec {b : StreamBuffer α} (h : WF b) {n : Int} (hn : b.size ≤ n) :
    ∃ b', b.setSize n = .ok b' ∧ b'.offset = b.offset ∧ b'.avail = b.avail ∧ b'.size = n ∧
      ∀ k ≤ b.size, slice b'.mem 0 k = slice b.mem 0 k := by
  have h1 := h.off; have h2 := h.av; have h3 := h.fits
  have hs : 0 ≤ b.size := by simp [size]
  refine ⟨{ b with mem := b.mem.take n.toNat ++ List.replicate (n.toNat - b.mem.length) none },
    ?_, rfl, rfl, ?_, ?_⟩
  · unfold setSize
    rw [Res.assert_of (by simp; omega), Res.assert_of (by simp; omega),
      Res.assert_of (by simp; omega), Res.assert_of (by simp; omega)]
    rfl
  · simp [size] at *; omega
  · intro k hk
    simp only [slice, size] at *
    have : b.mem.take n.toNat = b.mem := List.take_of_length_le (by omega)
    rw [this]
    simp only [Int.toNat_zero, List.drop_zero]
    rw [List.take_append_of_le_length (by omega)]

theorem makeSpace_spec {b : StreamBuffer α} (h : WF b) (needed : Int) :
    ∃ b' space, b.makeSpace needed = .ok (b', space) ∧ needed ≤ space ∧ WF b' ∧
      space = b'.size - b'.offset - b'.avail ∧ b'.avail = b.avail ∧ b'.offset ≤ b.offset ∧
      b.size ≤ b'.size ∧
      slice b'.mem 0 (b'.offset + b'.avail) = slice b.mem (b.offset - b'.offset) (b'.offset + b.avail) ∧
      (needed ≤ b.size - b.offset - b.avail → b' = b) ∧
      (b.size = 0 → 0 < needed → b'.size = needed) := by
  have h1 := h.off; have h2 := h.av; have h3 := h.fits
  have hs : 0 ≤ b.size := by simp [size]
  unfold makeSpace
  rw [Res.assert_of (by simp; omega), Res.assert_of (by simp; omega),
    Res.assert_of (by simp; omega), Res.assert_of (by simp; omega)]
  simp only [Res.bind_ok, ge_iff_le]
  by_cases hc : needed ≤ b.size - b.offset - b.avail
  · rw [if_pos hc]
    refine ⟨b, _, rfl, hc, h, rfl, rfl, by omega, by omega, ?_, fun _ => rfl, by omega⟩
    rw [Int.sub_self]
  · rw [if_neg hc]
    -- the state after moving the data
    have key : ∃ b1 sp1, (if b.avail ≠ 0 then
        if b.offset ≠ 0 then
          ({ b with mem := slice b.mem b.offset b.avail ++ b.mem.drop b.avail.toNat, offset := 0 },
            b.size - b.offset - b.avail + b.offset)
        else (b, b.size - b.offset - b.avail)
      else ({ b with offset := 0 }, b.size)) = (b1, sp1) ∧ WF b1 ∧ b1.offset = 0 ∧
        b1.avail = b.avail ∧ b1.size = b.size ∧ sp1 = b1.size - b1.offset - b1.avail ∧
        slice b1.mem 0 b1.avail = slice b.mem b.offset b.avail := by
      by_cases ha : b.avail ≠ 0
      · rw [if_pos ha]
        by_cases ho : b.offset ≠ 0
        · rw [if_pos ho]
          have hl : ((slice b.mem b.offset b.avail).length : Int) = b.avail :=
            slice_length h1 h2 (by simpa [size] using h3)
          have hsz : size { b with mem := slice b.mem b.offset b.avail ++ b.mem.drop b.avail.toNat,
                                   offset := 0 } = b.size := by
            simp only [size, List.length_append, List.length_drop] at *
            omega
          refine ⟨_, _, rfl, ⟨by simp, h2, ?_⟩, rfl, rfl, hsz, ?_, ?_⟩
          · rw [hsz]; simp only; omega
          · rw [hsz]; simp only; omega
          · simp only
            unfold slice at hl ⊢
            simp only [Int.toNat_zero, List.drop_zero]
            rw [List.take_append_of_le_length (by omega), List.take_of_length_le (by omega)]
        · rw [if_neg ho]
          have ho : b.offset = 0 := by omega
          exact ⟨_, _, rfl, h, ho, rfl, rfl, rfl, by rw [ho]⟩
      · rw [if_neg ha]
        have ha : b.avail = 0 := by omega
        refine ⟨_, _, rfl, ⟨by simp, by simpa using h2, ?_⟩, rfl, rfl, rfl, ?_, ?_⟩
        · simp only [size] at *; omega
        · simp only [size] at *; omega
        · simp only [ha, slice_zero]
    obtain ⟨b1, sp1, e1, w1, o1, a1, s1, sp, sl⟩ := key
    rw [e1]
    simp only
    have hz : slice b.mem (b.offset - 0) (0 + b.avail) = slice b.mem b.offset b.avail := by
      rw [Int.sub_zero, Int.zero_add]
    by_cases hc2 : needed ≤ sp1
    · rw [if_pos hc2]
      refine ⟨b1, sp1, rfl, hc2, w1, sp, a1, by omega, by omega, ?_, by omega, by
        intro z z2; have := w1.off; have := w1.av; omega⟩
      rw [o1, Int.zero_add, sl, hz]
    · rw [if_neg hc2]
      have hw := w1.fits
      by_cases hc3 : b1.size > needed - sp1
      · rw [if_pos hc3]
        obtain ⟨b2, e2, o2, a2, s2, m2⟩ := setSize_spec w1 (n := 2 * b1.size) (by omega)
        rw [e2]
        refine ⟨b2, _, rfl, by omega, ⟨by omega, by omega, by omega⟩, by omega, by omega, by omega,
          by omega, ?_, by omega, by have := w1.av; omega⟩
        rw [o2, a2, o1, Int.zero_add, m2 _ (by omega), sl, hz]
      · rw [if_neg hc3]
        obtain ⟨b2, e2, o2, a2, s2, m2⟩ := setSize_spec w1 (n := b1.size + needed - sp1) (by omega)
        rw [e2]
        refine ⟨b2, _, rfl, by omega, ⟨by omega, by omega, by omega⟩, by omega, by omega, by omega,
          by omega, ?_, by omega, by have := w1.av; omega⟩
        rw [o2, a2, o1, Int.zero_add, m2 _ (by omega), sl, hz]

theorem initialised_map (l : List α) : initialised (l.map some) = .ok l := by
  induction l with
  | nil => rfl
  | cons a l ih => simp [initialised, ih]

/-- The buffer holds the items of `c` around position `p`: `offset` items before it and `avail` items
from it on. -/
structure Win (b : StreamBuffer α) (c : List α) (p : Int) : Prop where
  wf : WF b
  base : b.offset ≤ p
  top : p + b.avail ≤ c.length
  items : slice b.mem 0 (b.offset + b.avail) = (slice c (p - b.offset) (b.offset + b.avail)).map some

theorem Win.empty (c : List α) : Win (StreamBuffer.empty) c 0 := by
  refine ⟨WF.empty, ?_, ?_, ?_⟩ <;> simp [StreamBuffer.empty, slice]

theorem Win.makeSpace {b : StreamBuffer α} {c : List α} {p : Int} (h : Win b c p) (needed : Int) :
    ∃ b' space, b.makeSpace needed = .ok (b', space) ∧ needed ≤ space ∧ Win b' c p ∧
      space = b'.size - b'.offset - b'.avail ∧ b'.avail = b.avail ∧ b'.offset ≤ b.offset ∧
      b.size ≤ b'.size ∧ (needed ≤ b.size - b.offset - b.avail → b' = b) ∧
      (b.size = 0 → 0 < needed → b'.size = needed) := by
  obtain ⟨b', sp, e, hn, w, hs, ha, ho, hz, hm, hx, hy⟩ := makeSpace_spec h.wf needed
  refine ⟨b', sp, e, hn, ⟨w, ?_, ?_, ?_⟩, hs, ha, ho, hz, hx, hy⟩
  · have := h.base; omega
  · have := h.top; omega
  · have w1 := w.off; have w2 := w.av
    rw [hm]
    have e1 : slice b.mem (b.offset - b'.offset) (b'.offset + b.avail) =
        slice (slice b.mem 0 (b.offset + b.avail)) (b.offset - b'.offset) (b'.offset + b.avail) := by
      rw [slice_slice (by omega) (by omega) (by omega) (by omega)]; simp
    rw [e1, h.items]
    unfold slice
    rw [← List.map_drop, ← List.map_take]
    congr 1
    have := slice_slice (c := c) (o := p - b.offset) (l := b.offset + b.avail)
      (p := b.offset - b'.offset) (n := b'.offset + b.avail) (by have := h.base; omega) (by omega)
      (by omega) (by omega)
    unfold slice at this
    rw [this]
    congr 2
    · omega
    · omega

theorem Win.store {b : StreamBuffer α} {c : List α} {p : Int} (h : Win b c p) {d : List α}
    (hf : b.offset + b.avail + d.length ≤ b.size) (hc : p + b.avail + d.length ≤ c.length)
    (hd : slice c (p + b.avail) d.length = d) :
    ∃ b', b.store (b.offset + b.avail) d = .ok b' ∧ b'.offset = b.offset ∧ b'.avail = b.avail ∧
      b'.size = b.size ∧ Win { b' with avail := b'.avail + d.length } c p := by
  have h1 := h.wf.off; have h2 := h.wf.av; have h3 := h.wf.fits
  have hsz : ((b.mem.take (b.offset + b.avail).toNat ++ d.map some ++
      b.mem.drop ((b.offset + b.avail).toNat + d.length)).length : Int) = b.size := by
    simp only [size, List.length_append, List.length_take, List.length_drop, List.length_map] at *
    omega
  refine ⟨⟨b.mem.take (b.offset + b.avail).toNat ++ d.map some ++
      b.mem.drop ((b.offset + b.avail).toNat + d.length), b.offset, b.avail⟩, ?_, rfl, rfl, hsz, ?_, ?_, ?_, ?_⟩
  · unfold StreamBuffer.store; rw [if_pos (by omega)]
  · refine ⟨by simpa using h1, by simp only; omega, ?_⟩
    simp only [size] at hsz ⊢; rw [hsz]; simp only [size] at hf; omega
  · simpa using h.base
  · simp only; omega
  · simp only
    have e1 : b.offset + (b.avail + (d.length : Int)) = (b.offset + b.avail) + d.length := by omega
    rw [e1, ← slice_append (c := c) (n := b.offset + b.avail) (by have := h.base; omega) (by omega)
      (by omega)]
    have e2 : p - b.offset + (b.offset + b.avail) = p + b.avail := by omega
    rw [e2, hd, List.map_append, ← h.items]
    unfold slice
    simp only [Int.toNat_zero, List.drop_zero]
    have e3 : (b.offset + b.avail + (d.length : Int)).toNat = (b.offset + b.avail).toNat + d.length := by
      omega
    rw [e3]
    have e4 : (b.mem.take (b.offset + b.avail).toNat ++ d.map some).length =
        (b.offset + b.avail).toNat + d.length := by
      simp only [List.length_append, List.length_take, List.length_map, size] at *; omega
    rw [List.take_append_of_le_length (by omega), List.take_of_length_le (by omega)]

theorem Win.read {b : StreamBuffer α} {c : List α} {p : Int} (h : Win b c p) (mx : Int) :
    ∃ b' n, b.read mx = .ok (b', n, slice c p n) ∧
      n = (if mx ≤ 0 ∨ mx > b.avail then b.avail else mx) ∧ 0 ≤ n ∧
      b'.offset = b.offset + n ∧ b'.avail = b.avail - n ∧ b'.mem = b.mem ∧ Win b' c (p + n) := by
  have h1 := h.wf.off; have h2 := h.wf.av; have h3 := h.wf.fits; have h4 := h.base
  have hs : 0 ≤ b.size := by simp [size]
  have hn : 0 ≤ (if mx ≤ 0 ∨ mx > b.avail then b.avail else mx) ∧
      (if mx ≤ 0 ∨ mx > b.avail then b.avail else mx) ≤ b.avail := by split <;> omega
  unfold StreamBuffer.read
  rw [Res.assert_of (by simp; omega), Res.assert_of (by simp; omega),
    Res.assert_of (by simp; omega), Res.assert_of (by simp; omega)]
  simp only [Res.bind_ok]
  generalize (if mx ≤ 0 ∨ mx > b.avail then b.avail else mx) = n at *
  have hd : slice b.mem b.offset n = (slice c p n).map some := by
    have e1 : slice b.mem b.offset n = slice (slice b.mem 0 (b.offset + b.avail)) b.offset n := by
      rw [slice_slice (by omega) (by omega) (by omega) (by omega)]; simp
    rw [e1, h.items]
    unfold slice
    rw [← List.map_drop, ← List.map_take]
    have := slice_slice (c := c) (o := p - b.offset) (l := b.offset + b.avail)
      (p := b.offset) (n := n) (by omega) (by omega) (by omega) (by omega)
    unfold slice at this
    rw [this]
    congr 3
    omega
  rw [hd, initialised_map]
  refine ⟨_, n, rfl, rfl, hn.1, rfl, rfl, rfl, ⟨⟨?_, ?_, ?_⟩, ?_, ?_, ?_⟩⟩
  · simp only; omega
  · simp only; omega
  · simp only [size] at *; omega
  · simp only; omega
  · have := h.top; simp only; omega
  · simp only
    have e1 : b.offset + n + (b.avail - n) = b.offset + b.avail := by omega
    have e2 : p + n - (b.offset + n) = p - b.offset := by omega
    rw [e1, e2, h.items]

end StreamBuffer

namespace BufferedStream

open StreamBuffer

/-- A slice that starts where the remaining items start is a prefix of them. -/
theorem slice_of_rest {c d rest : List α} {p : Int} (hp : 0 ≤ p) (h : c.drop p.toNat = d ++ rest) :
    slice c p d.length = d ∧ (p ≤ c.length → p + d.length ≤ c.length) ∧
      c.drop (p + d.length).toNat = rest := by
  refine ⟨?_, ?_, ?_⟩
  · unfold slice; rw [h]; simp
  · intro hle
    have := congrArg List.length h
    simp at this; omega
  · have e : (p + (d.length : Int)).toNat = p.toNat + d.length := by omega
    rw [e, ← List.drop_drop, h]; simp

/-- Specification of the filling loop. -/
theorem writeLoop_spec {P : Producer φ α} {mf : Prop} {R : φ → List α → Nat → Prop}
    (hP : Produces P mf R) {c : List α} (ntoread maxread : Int) :
    ∀ (fuel : Nat) (s : BufferedStream φ α) (missing nw : Int) (m : Nat),
      Win s.buf c s.pos → s.status = .ok → R s.prod (c.drop (s.pos + s.buf.avail).toNat) m →
      m + 2 ≤ fuel → missing = ntoread - s.buf.avail → 0 ≤ nw →
      ∃ s' nw', writeLoop P ntoread maxread fuel s missing nw = .ok (s', nw') ∧
        s'.pos = s.pos ∧ s'.size = s.size ∧ s'.finished = s.finished ∧
        s'.buf.offset ≤ s.buf.offset ∧ s.buf.avail ≤ s'.buf.avail ∧ s.buf.size ≤ s'.buf.size ∧
        WF s'.buf ∧
        (s.buf.offset = 0 → s.buf.size = 0 ∨ s.buf.size = ntoread →
          s'.buf.size = 0 ∨ s'.buf.size = ntoread) ∧
        ((s'.status = .ok ∧ Win s'.buf c s.pos ∧ 0 ≤ nw' ∧ ntoread ≤ s'.buf.avail ∧
            ∃ m', R s'.prod (c.drop (s.pos + s'.buf.avail).toNat) m') ∨
          (s'.status = .ok ∧ Win s'.buf c s.pos ∧ nw' < 0 ∧ s.pos + s'.buf.avail = c.length) ∨
          (mf ∧ s'.status = .error)) := by
  intro fuel
  induction fuel with
  | zero => intro s missing nw m _ _ _ h; omega
  | succ fuel ih =>
    intro s missing nw m hw hst hR hfu hmis hnw
    have hwf := hw.wf
    have hb1 := hwf.off; have hb2 := hwf.av; have hb3 := hw.base; have hb4 := hw.top
    unfold writeLoop
    by_cases hc : missing > 0 ∧ nw ≥ 0
    · rw [if_pos hc]
      obtain ⟨b, sp, e, hsp, hw', hspe, hav, hoff, hsz, hx, hy⟩ := hw.makeSpace missing
      have hq : s.buf.offset = 0 → s.buf.size = 0 ∨ s.buf.size = ntoread →
          b.offset = 0 ∧ b.size = ntoread := by
        have := hwf.fits; have h1 := hw'.wf.off
        intro z0 z
        rcases z with z | z
        · have := hy z (by omega); omega
        · rw [hx (by omega)]; exact ⟨z0, z⟩
      rw [e]
      simp only [Res.bind_ok]
      have hspos : 0 < (if maxread ≥ ntoread ∧ sp > maxread then maxread else sp) ∧
          (if maxread ≥ ntoread ∧ sp > maxread then maxread else sp) ≤ sp ∧
          missing ≤ (if maxread ≥ ntoread ∧ sp > maxread then maxread else sp) := by
        split <;> omega
      generalize (if maxread ≥ ntoread ∧ sp > maxread then maxread else sp) = space at *
      obtain ⟨f', r, ef, hr⟩ := hP.step hR hspos.1
      rw [ef]
      simp only [Res.bind_ok]
      rcases hr with ⟨he, hn, hle, rest', m', hrest, hm', hR'⟩ | ⟨he, hn, hd, hrest⟩ |
          ⟨hmf, he, hn, hle⟩ | ⟨hmf, he, hn, hle, hm0, ⟨rest', hrest⟩, hdead⟩
      · -- data
        have hsl := slice_of_rest (by omega) hrest
        rw [← hav] at hsl
        obtain ⟨b2, e2, o2, a2, s2, w2⟩ := hw'.store (d := r.data) (by omega)
          (hsl.2.1 (by omega)) hsl.1
        rw [e2]
        simp only [Res.bind_ok, he, Bool.false_eq_true, if_false]
        rw [Res.assert_of (by simp [hst])]
        simp only [Res.bind_ok]
        by_cases hpos : r.n > 0
        · rw [if_pos hpos]
          have hnn : r.n = r.data.length := hn
          rw [hnn]
          obtain ⟨s3, nw3, e3, g⟩ := ih
            { s with prod := f', buf := { b2 with avail := b2.avail + r.data.length } }
            (ntoread - (b2.avail + r.data.length)) r.data.length m' w2 hst
            (by
              simp only
              have e5 : s.pos + (b2.avail + (r.data.length : Int)) = s.pos + b.avail + r.data.length := by
                omega
              rw [e5, hsl.2.2]; exact hR') (by omega) rfl (by omega)
          refine ⟨s3, nw3, e3, ?_⟩
          simp only [StreamBuffer.size] at g s2 hsz ⊢
          obtain ⟨g1, g2, g3, g4, g5, g6, g7, g9, g8⟩ := g
          refine ⟨g1, g2, g3, by omega, by omega, by omega, g7, ?_, g8⟩
          intro z0 z
          have := hq z0 z
          simp only [StreamBuffer.size] at this
          exact g9 (by omega) (by omega)
        · rw [if_neg hpos]
          have hz : (r.data.length : Int) = 0 := by omega
          have hz' : r.data = [] := List.length_eq_zero_iff.mp (by omega)
          have w3 : Win b2 c s.pos := by
            have := w2; rw [hz, Int.add_zero] at this; exact this
          obtain ⟨s3, nw3, e3, g⟩ := ih { s with prod := f', buf := b2 } missing r.n m' w3 hst
            (by
              simp only
              have e5 : s.pos + b2.avail = s.pos + b.avail + r.data.length := by omega
              rw [e5, hsl.2.2]; exact hR') (by omega) (by simp only; omega) (by omega)
          refine ⟨s3, nw3, e3, ?_⟩
          simp only [StreamBuffer.size] at g s2 hsz ⊢
          obtain ⟨g1, g2, g3, g4, g5, g6, g7, g9, g8⟩ := g
          refine ⟨g1, g2, g3, by omega, by omega, by omega, g7, ?_, g8⟩
          intro z0 z
          have := hq z0 z
          simp only [StreamBuffer.size] at this
          exact g9 (by omega) (by omega)
      · -- end
        obtain ⟨b2, e2, o2, a2, s2, w2⟩ := hw'.store (d := r.data)
          (by rw [hd]; have := hw'.wf.fits; simp; omega)
          (by rw [hd]; have := hw'.top; simp; omega) (by rw [hd]; exact slice_zero _ _)
        have w3 : Win b2 c s.pos := by
          have hz : (r.data.length : Int) = 0 := by rw [hd]; rfl
          have := w2; rw [hz, Int.add_zero] at this; exact this
        rw [e2]
        simp only [Res.bind_ok, he, Bool.false_eq_true, if_false]
        rw [Res.assert_of (by simp [hst])]
        simp only [Res.bind_ok]
        rw [if_neg (by omega)]
        cases fuel with
        | zero => omega
        | succ fuel =>
          unfold writeLoop
          rw [if_neg (by omega)]
          refine ⟨_, _, rfl, rfl, rfl, rfl, by simp only; omega, by simp only; omega, ?_, w3.wf,
            fun z0 z => Or.inr (by have := (hq z0 z).2; simp only; omega), Or.inr (Or.inl ⟨hst, w3, hn, ?_⟩)⟩
          · simp only [StreamBuffer.size] at *; omega
          · simp only
            have := congrArg List.length hrest
            simp at this; omega
      · -- failure
        have hin : b.offset + b.avail + r.data.length ≤ b.size := by omega
        have h1 := hw'.wf.off; have h2 := hw'.wf.av
        have e2 : b.store (b.offset + b.avail) r.data = .ok ⟨b.mem.take (b.offset + b.avail).toNat ++
            r.data.map some ++ b.mem.drop ((b.offset + b.avail).toNat + r.data.length), b.offset,
            b.avail⟩ := by
          unfold StreamBuffer.store; rw [if_pos (by omega)]
        have hs2 : ((b.mem.take (b.offset + b.avail).toNat ++
            r.data.map some ++ b.mem.drop ((b.offset + b.avail).toNat + r.data.length)).length : Int) =
            b.size := by
          simp only [StreamBuffer.size, List.length_append, List.length_take, List.length_drop,
            List.length_map] at *
          omega
        rw [e2]
        simp only [Res.bind_ok, he, if_true]
        rw [Res.assert_of (by simp)]
        simp only [Res.bind_ok]
        rw [if_neg (by omega)]
        cases fuel with
        | zero => omega
        | succ fuel =>
          unfold writeLoop
          rw [if_neg (by omega)]
          refine ⟨_, _, rfl, rfl, rfl, rfl, by simpa using hoff, by simp only; omega, ?_, ?_,
            fun z0 z => Or.inr (by
              have := (hq z0 z).2; simp only [StreamBuffer.size] at hs2 this ⊢; rw [hs2]; exact this),
            Or.inr (Or.inr ⟨hmf, rfl⟩)⟩
          · simp only [StreamBuffer.size] at hs2 hsz ⊢; rw [hs2]; exact hsz
          · have := hw'.wf.fits
            refine ⟨h1, h2, ?_⟩
            simp only [StreamBuffer.size] at hs2 this ⊢; rw [hs2]; exact this
      · -- failure after some data
        have hsl := slice_of_rest (by omega) hrest
        rw [← hav] at hsl
        obtain ⟨b2, e2, o2, a2, s2, w2⟩ := hw'.store (d := r.data) (by omega)
          (hsl.2.1 (by omega)) hsl.1
        rw [e2]
        simp only [Res.bind_ok, he, if_true]
        rw [Res.assert_of (by simp)]
        simp only [Res.bind_ok]
        -- the state after the data, whether or not there was any
        have hb3 : ∀ b3 : StreamBuffer α, b3 = { b2 with avail := b2.avail + r.data.length } →
            ∃ s' nw', writeLoop P ntoread maxread fuel
              ⟨f', b3, s.finished, s.pos, s.size, .error⟩ (ntoread - b3.avail) r.n = .ok (s', nw') ∧
              s'.pos = s.pos ∧ s'.size = s.size ∧ s'.finished = s.finished ∧
              s'.buf.offset ≤ b3.offset ∧ b3.avail ≤ s'.buf.avail ∧ b3.size ≤ s'.buf.size ∧ WF s'.buf ∧
              (b3.offset = 0 → b3.size = ntoread → s'.buf.size = ntoread) ∧ s'.status = .error := by
          intro b3 hb
          have w3 : Win b3 c s.pos := by rw [hb]; exact w2
          have ha3 : b3.avail = b2.avail + r.data.length := by rw [hb]
          cases fuel with
          | zero => omega
          | succ fuel =>
            unfold writeLoop
            by_cases hc2 : ntoread - b3.avail > 0 ∧ r.n ≥ 0
            · rw [if_pos hc2]
              obtain ⟨b4, sp4, e4, hsp4, hw4, hspe4, hav4, hoff4, hsz4, hx4, hy4⟩ :=
                w3.makeSpace (ntoread - b3.avail)
              simp only [e4, Res.bind_ok]
              have hspos4 : 0 < (if maxread ≥ ntoread ∧ sp4 > maxread then maxread else sp4) := by
                split <;> omega
              obtain ⟨f5, r5, e5, hn5, hd5⟩ := hdead (by omega) _ hspos4
              rw [e5]
              simp only [Res.bind_ok]
              have e6 : b4.store (b4.offset + b4.avail) r5.data = .ok b4 := by
                have := hw4.wf.fits; have := hw4.wf.off; have := hw4.wf.av
                unfold StreamBuffer.store
                rw [hd5, if_pos (by simp; omega)]
                simp
              rw [e6]
              simp only [Res.bind_ok]
              rw [Res.assert_of (by split <;> simp)]
              simp only [Res.bind_ok]
              rw [if_neg (by omega)]
              cases fuel with
              | zero => omega
              | succ fuel =>
                unfold writeLoop
                rw [if_neg (by omega)]
                refine ⟨_, _, rfl, rfl, rfl, rfl, by simpa using hoff4, by simp only; omega,
                  by simpa using hsz4, hw4.wf, ?_, by simp⟩
                intro z0 z
                simp only
                rw [hx4 (by have := w3.wf.av; omega)]; exact z
            · rw [if_neg hc2]
              exact ⟨_, _, rfl, rfl, rfl, rfl, Int.le_refl _, Int.le_refl _, Int.le_refl _, w3.wf,
                fun _ z => z, rfl⟩
        have key : ∃ s' nw', writeLoop P ntoread maxread fuel
              ⟨f', { b2 with avail := b2.avail + r.data.length }, s.finished, s.pos, s.size, .error⟩
              (ntoread - (b2.avail + r.data.length)) r.n = .ok (s', nw') ∧
              s'.pos = s.pos ∧ s'.size = s.size ∧ s'.finished = s.finished ∧
              s'.buf.offset ≤ s.buf.offset ∧ s.buf.avail ≤ s'.buf.avail ∧ s.buf.size ≤ s'.buf.size ∧
              WF s'.buf ∧
              (s.buf.offset = 0 → s.buf.size = 0 ∨ s.buf.size = ntoread →
                s'.buf.size = 0 ∨ s'.buf.size = ntoread) ∧ s'.status = .error := by
          obtain ⟨s', nw', g0, g1, g2, g3, g4, g5, g6, g7, g8, g9⟩ := hb3 _ rfl
          simp only [StreamBuffer.size] at g4 g5 g6 g8 s2 hsz hq ⊢
          refine ⟨s', nw', g0, g1, g2, g3, by omega, by omega, by omega, g7, ?_, g9⟩
          intro z0 z
          have := hq z0 z
          exact Or.inr (g8 (by omega) (by omega))
        obtain ⟨s', nw', g0, g1, g2, g3, g4, g5, g6, g7, g8, g9⟩ := key
        refine ⟨s', nw', ?_, g1, g2, g3, g4, g5, g6, g7, g8, Or.inr (Or.inr ⟨hmf, g9⟩)⟩
        by_cases hpos : r.n > 0
        · rw [if_pos hpos, ← g0, hn]
        · rw [if_neg hpos, ← g0]
          have hz : (r.data.length : Int) = 0 := by omega
          rw [hz]
          congr 1 <;> simp <;> omega
    · rw [if_neg hc]
      exact ⟨s, nw, rfl, rfl, rfl, rfl, Int.le_refl _, Int.le_refl _, Int.le_refl _, hwf, fun _ z => z,
        Or.inl ⟨hst, hw, hnw, by omega, m, hR⟩⟩

/-- Invariant of a healthy `BufferedStream` over content `c`. -/
structure Inv (R : φ → List α → Nat → Prop) (c : List α) (s : BufferedStream φ α) : Prop where
  win : Win s.buf c s.pos
  rest : if s.finished then s.pos + s.buf.avail = c.length
    else ∃ m, R s.prod (c.drop (s.pos + s.buf.avail).toNat) m
  st : s.status ≠ .error
  eof : s.status = .eof → s.buf.avail = 0 ∧ s.finished = true

theorem Inv.new {R : φ → List α → Nat → Prop} {c : List α} {f : φ} {m : Nat} (h : R f c m) (sz : Int) :
    Inv R c (new f sz) := by
  refine ⟨Win.empty c, ?_, by simp [BufferedStream.new], by simp [BufferedStream.new]⟩
  simp [BufferedStream.new, StreamBuffer.empty]
  exact ⟨m, h⟩

theorem Inv.eof_pos {R : φ → List α → Nat → Prop} {c : List α} {s : BufferedStream φ α}
    (h : Inv R c s) (he : s.status = .eof) : s.pos = c.length := by
  have h1 := h.eof he
  have h2 := h.rest
  rw [if_pos h1.2] at h2
  omega

/-- Filling the buffer: nothing observable changes, the window only grows downwards in memory, and
afterwards either enough is available, or the producer is at its end, or it failed. -/
theorem ensure_spec {P : Producer φ α} {mf : Prop} {R : φ → List α → Nat → Prop}
    (hP : Produces P mf R) {c : List α} {s : BufferedStream φ α} (h : Inv R c s)
    (hst : s.status = .ok) (mn mx : Int) :
    ∃ s', ensure P s mn mx = .ok s' ∧ s'.pos = s.pos ∧ s'.size = s.size ∧
      s'.buf.offset ≤ s.buf.offset ∧ s.buf.avail ≤ s'.buf.avail ∧ s.buf.size ≤ s'.buf.size ∧
      WF s'.buf ∧ (s.buf.size = 0 → 1 ≤ mn → s'.buf.size = 0 ∨ s'.buf.size = mn) ∧
      ((Inv R c s' ∧ s'.status = .ok ∧ (mn ≤ s'.buf.avail ∨ s'.finished = true)) ∨
        (mf ∧ s'.status = .error)) := by
  unfold ensure
  by_cases hc : (!s.finished) = true ∧ mn > s.buf.avail
  · rw [if_pos hc]
    have hfin : s.finished = false := by simpa using hc.1
    have hrest := h.rest
    rw [hfin] at hrest
    simp only [Bool.false_eq_true, if_false] at hrest
    obtain ⟨m, hm⟩ := hrest
    obtain ⟨s', nw', e, h1, h2, h3, h4, h5, h6, h7, h9, h8⟩ :=
      writeLoop_spec hP mn mx (P.fuel s.prod + 1) s (mn - s.buf.avail) 0 m h.win hst hm
        (by have := hP.fuel hm; omega) rfl (Int.le_refl _)
    have h10 : s.buf.size = 0 → 1 ≤ mn → s'.buf.size = 0 ∨ s'.buf.size = mn := by
      intro z _
      have := h.win.wf.off; have := h.win.wf.av; have := h.win.wf.fits
      exact h9 (by omega) (Or.inl z)
    unfold writeToBuffer
    rw [e]
    simp only [Res.bind_ok]
    rcases h8 with ⟨g1, g2, g3, g4, m', g5⟩ | ⟨g1, g2, g3, g4⟩ | ⟨g1, g2⟩
    · rw [if_neg (by omega)]
      refine ⟨s', rfl, h1, h2, h4, h5, h6, h7, h10, Or.inl ⟨⟨by rw [h1]; exact g2, ?_, ?_, ?_⟩, g1, Or.inl g4⟩⟩
      · rw [h3, hfin]; simp only [Bool.false_eq_true, if_false]; rw [h1]; exact ⟨m', g5⟩
      · rw [g1]; simp
      · rw [g1]; simp
    · rw [if_pos g3]
      refine ⟨_, rfl, h1, h2, h4, h5, h6, h7, h10, Or.inl ⟨⟨by simp only; rw [h1]; exact g2, ?_, ?_, ?_⟩, g1, Or.inr rfl⟩⟩
      · simp only [if_true]; rw [h1]; exact g4
      · simp only; rw [g1]; simp
      · simp only; rw [g1]; simp
    · split
      · exact ⟨_, rfl, h1, h2, h4, h5, h6, h7, h10, Or.inr ⟨g1, g2⟩⟩
      · exact ⟨_, rfl, h1, h2, h4, h5, h6, h7, h10, Or.inr ⟨g1, g2⟩⟩
  · rw [if_neg hc]
    refine ⟨s, rfl, rfl, rfl, Int.le_refl _, Int.le_refl _, Int.le_refl _, h.win.wf,
      fun z _ => Or.inl z, Or.inl ⟨h, hst, ?_⟩⟩
    by_cases hf : s.finished = true
    · exact Or.inr hf
    · left
      have : (!s.finished) = true := by simpa using hf
      by_cases hgt : mn > s.buf.avail
      · exact absurd ⟨this, hgt⟩ hc
      · omega

/-- Everything that is guaranteed about a call of `read` on a healthy stream. -/
theorem read_full {P : Producer φ α} {mf : Prop} {R : φ → List α → Nat → Prop}
    (hP : Produces P mf R) {c : List α} {s : BufferedStream φ α} (h : Inv R c s)
    {mn mx : Int} (h1 : 1 ≤ mn) :
    ∃ s' n d, read P s mn mx = .ok (s', n, d) ∧ WF s'.buf ∧
      (-- data
        (0 < n ∧ d = slice c s.pos n ∧ s.pos + n ≤ c.length ∧ s'.pos = s.pos + n ∧
          (mn ≤ mx → n ≤ mx) ∧ (mn ≤ n ∨ s.pos + n = c.length) ∧ Inv R c s' ∧
          s'.pos - s'.buf.offset ≤ s.pos ∧ (0 < s.size → s'.pos ≤ s.size) ∧
          (s'.size = s.size ∨ (s.size = -1 ∧ s'.size = c.length ∧ s'.status = .eof)) ∧
          (s'.status = .eof → s'.size ≠ -1) ∧ (s.buf.size = 0 → n ≤ mn) ∧ (mn ≤ n ∨ s'.status = .eof)) ∨
        -- at the end
        (n = -1 ∧ d = [] ∧ s.pos = c.length ∧ s'.pos = s.pos ∧ s'.status = .eof ∧ Inv R c s' ∧
          (s'.size = s.size ∨ (s.size = -1 ∧ s'.size = c.length)) ∧
          (s.status = .ok → s'.size ≠ -1)) ∨
        -- failure
        (n = -2 ∧ s'.status = .error ∧ s'.size = s.size ∧
          (mf ∨ (0 < s.size ∧ s.size < c.length)))) := by
  unfold BufferedStream.read
  rw [if_neg h.st]
  by_cases he : s.status = .eof
  · rw [if_pos he]
    exact ⟨_, _, _, rfl, h.win.wf, Or.inr (Or.inl ⟨rfl, rfl, h.eof_pos he, rfl, he, h, Or.inl rfl,
      fun z => by rw [he] at z; cases z⟩)⟩
  · rw [if_neg he]
    have hok : s.status = .ok := by
      have := h.st; cases hs : s.status <;> simp_all
    simp only
    have hmx : mn ≤ mx → (if mn > mx then 0 else mx) = mx := fun z => by rw [if_neg (by omega)]
    have hmx0 : (if mn > mx then 0 else mx) = 0 ∨ mn ≤ (if mn > mx then 0 else mx) := by
      split <;> omega
    generalize (if mn > mx then 0 else mx) = mx' at *
    obtain ⟨s1, e1, p1, z1, o1, a1, sz1, wf1, hs0, hs1⟩ := ensure_spec hP h hok mn mx'
    rw [e1]
    simp only [Res.bind_ok]
    rcases hs1 with ⟨i1, st1, en1⟩ | ⟨hmf, st1⟩
    · rw [if_neg i1.st]
      obtain ⟨b, n, eb, hn, hn0, ho, ha, hm, hwin⟩ := i1.win.read mx'
      rw [eb]
      simp only [Res.bind_ok]
      have hav := i1.win.wf.av
      have hoff0 := i1.win.wf.off
      have hlim : mn ≤ mx → n ≤ mx := by
        intro z
        have h2 := hmx z
        subst h2
        by_cases hq : mx' ≤ 0 ∨ mx' > s1.buf.avail
        · rw [if_pos hq] at hn; omega
        · rw [if_neg hq] at hn; omega
      have hzero : s.buf.size = 0 → n ≤ mn := by
        intro z
        have := hs0 z h1
        have := i1.win.wf.fits
        have hle : n ≤ s1.buf.avail := by rw [hn]; split <;> omega
        omega
      have hbase := i1.win.base
      have htop := i1.win.top
      have hinv : Inv R c { s1 with buf := b, pos := s1.pos + n } := by
        refine ⟨hwin, ?_, i1.st, ?_⟩
        · have := i1.rest
          simp only
          have e5 : s1.pos + n + b.avail = s1.pos + s1.buf.avail := by omega
          rw [e5]; exact this
        · simp only; rw [st1]; intro z; cases z
      by_cases hlong : s1.pos + n > s1.size ∧ s1.size > 0
      · rw [if_pos hlong]
        exact ⟨_, _, _, rfl, hwin.wf, Or.inr (Or.inr ⟨rfl, rfl, z1, Or.inr (by omega)⟩)⟩
      · rw [if_neg hlong]
        by_cases heof : s1.status = .ok ∧ b.avail = 0 ∧ s1.finished = true
        · rw [if_pos heof]
          have hend : s1.pos + n = c.length := by
            have := hinv.rest
            simp only [heof.2.2, if_true] at this
            omega
          have hinv2 : Inv R c (BufferedStream.mk s1.prod b s1.finished (s1.pos + n)
              (if s1.size = -1 then s1.pos + n else s1.size) .eof) := by
            refine ⟨hwin, ?_, by simp, fun _ => heof.2⟩
            have := hinv.rest
            exact this
          by_cases hz : n = 0
          · rw [if_pos hz]
            refine ⟨_, _, _, rfl, hwin.wf, Or.inr (Or.inl ⟨rfl, ?_, by omega, ?_, rfl, hinv2, ?_, ?_⟩)⟩
            · rw [hz, slice_zero]
            · simp only; omega
            · simp only; split <;> omega
            · intro _; simp only; split <;> omega
          · rw [if_neg hz]
            refine ⟨_, _, _, rfl, hwin.wf, Or.inl ⟨by omega, by rw [p1], by omega, by simp only; omega,
              ?_, Or.inr (by omega), hinv2, by simp only; omega, ?_, ?_, ?_, hzero, Or.inr rfl⟩⟩
            · exact hlim
            · intro z; simp only; omega
            · simp only
              by_cases hm1 : s1.size = -1
              · right; rw [if_pos hm1]; exact ⟨by omega, hend, trivial⟩
              · left; rw [if_neg hm1]; exact z1
            · intro _; simp only; split <;> omega
        · rw [if_neg heof]
          -- n > 0, because otherwise the end would have been detected
          have hge : mn ≤ n := by
            rcases en1 with g | g
            · rw [hn]; split <;> omega
            · by_cases hb : b.avail = 0
              · exact absurd ⟨st1, hb, g⟩ heof
              · rw [hn] at ha ⊢; split at ha <;> split <;> omega
          have hpos : 0 < n := by
            rcases en1 with g | g
            · rw [hn]; split <;> omega
            · by_cases hb : b.avail = 0
              · exact absurd ⟨st1, hb, g⟩ heof
              · rw [hn] at ha ⊢; split at ha <;> split <;> omega
          refine ⟨_, _, _, rfl, hwin.wf, Or.inl ⟨hpos, by rw [p1], by omega, by simp only; omega,
              ?_, Or.inl hge, hinv, by simp only; omega, ?_, Or.inl z1, ?_, hzero, Or.inl hge⟩⟩
          · exact hlim
          · intro z; simp only; omega
          · simp only; rw [st1]; intro z; cases z
    · rw [if_pos st1]
      exact ⟨_, _, _, rfl, wf1, Or.inr (Or.inr ⟨rfl, st1, z1, Or.inl hmf⟩)⟩

/-- The size of the stream: as declared, or found out at the end. -/
def SizeOk (c : List α) (sz0 : Int) (s : BufferedStream φ α) : Prop :=
  s.size = sz0 ∨ (sz0 = -1 ∧ s.size = c.length)

/-- The ways in which a buffered stream may fail: its producer may fail, or the declared size is
wrong. -/
def fails (mf : Prop) (c : List α) (sz0 : Int) : Failure :=
  ⟨mf ∨ (sz0 ≠ -1 ∧ sz0 ≠ c.length), mf ∨ (sz0 ≠ -1 ∧ sz0 ≠ c.length)⟩

theorem read_spec {P : Producer φ α} {mf : Prop} {R : φ → List α → Nat → Prop}
    (hP : Produces P mf R) {c : List α} {sz0 : Int} {s : BufferedStream φ α} (h : Inv R c s)
    (hz : SizeOk c sz0 s) {mn mx : Int} (h1 : 1 ≤ mn) (h2 : mx = 0 ∨ mn ≤ mx) :
    ∃ s' n d, read P s mn mx = .ok (s', n, d) ∧
      ReadOk c (fails mf c sz0) s.pos mn mx n d s'.pos s'.status ∧
      (s.buf.size = 0 → n ≤ mn) ∧
      (s'.status ≠ .error → Inv R c s' ∧ SizeOk c sz0 s' ∧ s.pos ≤ s'.pos ∧
        s'.pos - s'.buf.offset ≤ s.pos) := by
  obtain ⟨s', n, d, e, _, g⟩ := read_full hP h (mx := mx) h1
  refine ⟨s', n, d, e, ?_⟩
  have hpos := h.win.wf.off
  rcases g with ⟨g1, g2, g3, g4, g5, g6, g7, g8, _, g9, _, g10, _⟩ | ⟨g1, g2, g3, g4, g5, g6, g7, _⟩ |
      ⟨g1, g2, _, g3⟩
  · refine ⟨.data g1 g2 g3 g4 ?_ g6 g7.st, g10, fun _ => ⟨g7, ?_, by omega, g8⟩⟩
    · intro z; exact g5 (by omega)
    · unfold SizeOk at *; rcases g9 with g9 | ⟨g9, g11, _⟩ <;> omega
  · refine ⟨.ended (Or.inl g1) g2 g3 g4 g5, by omega, fun _ => ⟨g6, ?_, by omega, ?_⟩⟩
    · unfold SizeOk at *; omega
    · have := g6.win.wf.off; omega
  · refine ⟨.failed ?_ (by omega) g2, by omega, fun z => absurd g2 z⟩
    unfold SizeOk at hz; simp only [fails]
    rcases g3 with g3 | g3
    · exact Or.inl g3
    · right; omega

theorem skipLoop_spec {P : Producer φ α} {mf : Prop} {R : φ → List α → Nat → Prop}
    (hP : Produces P mf R) {c : List α} {sz0 : Int} :
    ∀ (fuel : Nat) (s : BufferedStream φ α) (k sk : Int), Inv R c s → SizeOk c sz0 s → 0 ≤ k →
      k.toNat + 1 ≤ fuel →
      ∃ s' r, skipLoop P fuel s k sk = .ok (s', r) ∧
        ((s'.status ≠ .error ∧ Inv R c s' ∧ SizeOk c sz0 s' ∧ s'.pos = min (s.pos + k) c.length ∧
            r = sk + (s'.pos - s.pos)) ∨
          ((fails mf c sz0).onSkip ∧ s'.status = .error)) := by
  intro fuel
  induction fuel with
  | zero => intro s k sk _ _ _ h; omega
  | succ fuel ih =>
    intro s k sk h hz hk hfu
    have htop := h.win.top; have hav := h.win.wf.av
    unfold skipLoop
    by_cases hk0 : k ≠ 0
    · rw [if_pos hk0]
      simp only
      have hstep : ((if k > s.buf.size then s.buf.size else k) = 0 ∧ s.buf.size = 0) ∨
          (1 ≤ (if k > s.buf.size then s.buf.size else k) ∧
            (if k > s.buf.size then s.buf.size else k) ≤ k) := by
        have : 0 ≤ s.buf.size := by simp [StreamBuffer.size]
        split <;> omega
      generalize (if k > s.buf.size then s.buf.size else k) = step at *
      obtain ⟨s1, n, d, e, hr, hn0, hs⟩ := read_spec hP h hz (mn := 1) (mx := step) (Int.le_refl _)
        (by omega)
      rw [e]
      simp only [Res.bind_ok]
      cases hr with
      | data pos items inside adv limit enough st =>
        rw [if_neg (by omega)]
        obtain ⟨i1, z1, _, _⟩ := hs st
        have hnk : n ≤ k := by
          rcases hstep with ⟨_, z⟩ | ⟨z, z'⟩
          · have := hn0 z; omega
          · have := limit (by omega); omega
        obtain ⟨s2, r2, e2, g⟩ := ih s1 (k - n) (sk + n) i1 z1 (by omega) (by omega)
        refine ⟨s2, r2, e2, ?_⟩
        rcases g with ⟨g1, g2, g3, g4, g5⟩ | g
        · left; refine ⟨g1, g2, g3, by omega, by omega⟩
        · exact Or.inr g
      | ended none nodata atEnd stay st =>
        rw [if_pos (by omega)]
        have hne : s1.status ≠ .error := by rw [st]; simp
        obtain ⟨i1, z1, _, _⟩ := hs hne
        exact ⟨_, _, rfl, Or.inl ⟨hne, i1, z1, by omega, by omega⟩⟩
      | failed allowed code st =>
        rw [if_pos (by omega)]
        exact ⟨_, _, rfl, Or.inr ⟨allowed, st⟩⟩
    · rw [if_neg hk0]
      exact ⟨_, _, rfl, Or.inl ⟨h.st, h, hz, by omega, by omega⟩⟩

theorem skip_spec {P : Producer φ α} {mf : Prop} {R : φ → List α → Nat → Prop}
    (hP : Produces P mf R) {c : List α} {sz0 : Int} {s : BufferedStream φ α} (h : Inv R c s)
    (hz : SizeOk c sz0 s) {k : Int} (hk : 0 ≤ k) :
    ∃ s' r, skip P s k = .ok (s', r) ∧
      ((s'.status ≠ .error ∧ Inv R c s' ∧ SizeOk c sz0 s' ∧ s'.pos = min (s.pos + k) c.length ∧
          r = s'.pos - s.pos) ∨
        ((fails mf c sz0).onSkip ∧ s'.status = .error)) := by
  obtain ⟨s', r, e, g⟩ := skipLoop_spec hP (k.toNat + 1) s k 0 h hz hk (Nat.le_refl _)
  refine ⟨s', r, e, ?_⟩
  rcases g with ⟨g1, g2, g3, g4, g5⟩ | g
  · exact Or.inl ⟨g1, g2, g3, g4, by omega⟩
  · exact Or.inr g

/-- `reset` never fails on a healthy stream: it moves if the position is buffered. -/
theorem reset_spec {R : φ → List α → Nat → Prop} {c : List α} {sz0 : Int} {s : BufferedStream φ α}
    (h : Inv R c s) (hz : SizeOk c sz0 s) {q : Int} (hq : 0 ≤ q) :
    ∃ s' r, reset s q = .ok (s', r) ∧ s'.pos = r ∧ s'.status ≠ .error ∧ Inv R c s' ∧
      SizeOk c sz0 s' ∧ s'.buf.mem = s.buf.mem ∧ s'.pos - s'.buf.offset = s.pos - s.buf.offset ∧
      s'.pos + s'.buf.avail = s.pos + s.buf.avail ∧
      (if s.pos - s.buf.offset ≤ q ∧ q ≤ s.pos + s.buf.avail then r = q ∧ s'.status = .ok
        else r = s.pos ∧ s' = s) := by
  unfold BufferedStream.reset
  rw [Res.assert_of (by simpa using hq)]
  simp only [Res.bind_ok]
  rw [if_neg h.st]
  have w1 := h.win.wf.off; have w2 := h.win.wf.av; have w3 := h.win.wf.fits
  by_cases hc : s.buf.offset ≥ s.pos - q ∧ -(s.pos - q) ≤ s.buf.avail
  · rw [if_pos hc]
    have hw : Win (StreamBuffer.mk s.buf.mem (s.buf.offset - (s.pos - q)) (s.buf.avail + (s.pos - q)))
        c (s.pos - (s.pos - q)) := by
      have hi := h.win.items; have hb := h.win.base; have ht := h.win.top
      have e1 : s.buf.offset - (s.pos - q) + (s.buf.avail + (s.pos - q)) = s.buf.offset + s.buf.avail := by
        omega
      have e2 : s.pos - (s.pos - q) - (s.buf.offset - (s.pos - q)) = s.pos - s.buf.offset := by omega
      refine ⟨⟨by simp only; omega, by simp only; omega, ?_⟩, by simp only; omega, by simp only; omega, ?_⟩
      · simp only [StreamBuffer.size] at *; omega
      · simp only; rw [e1, e2]; exact hi
    refine ⟨_, _, rfl, rfl, by simp, ⟨hw, ?_, by simp, by simp⟩, hz, rfl, by simp only; omega,
      by simp only; omega, ?_⟩
    · have := h.rest
      simp only
      have e5 : s.pos - (s.pos - q) + (s.buf.avail + (s.pos - q)) = s.pos + s.buf.avail := by omega
      rw [e5]; exact this
    · rw [if_pos (by omega)]; exact ⟨by omega, rfl⟩
  · rw [if_neg hc]
    refine ⟨_, _, rfl, rfl, h.st, h, hz, rfl, rfl, rfl, ?_⟩
    rw [if_neg (by omega)]
    exact ⟨rfl, rfl⟩

/-- The invariant of the contract. -/
def Healthy (R : φ → List α → Nat → Prop) (c : List α) (sz0 : Int) (s : BufferedStream φ α)
    (lo hi : Int) : Prop :=
  Inv R c s ∧ SizeOk c sz0 s ∧ s.pos - s.buf.offset ≤ lo ∧ hi ≤ s.pos + s.buf.avail ∧
    lo ≤ s.pos ∧ s.pos ≤ hi

theorem contract {P : Producer φ α} {mf : Prop} {R : φ → List α → Nat → Prop}
    (hP : Produces P mf R) (c : List α) (sz0 : Int) :
    Contract (ops P) c (fails mf c sz0) (Healthy R c sz0) where
  range h := by
    obtain ⟨h1, _, h2, h3, h4, h5⟩ := h
    have := h1.win.base; have := h1.win.top
    simp only [ops]; omega
  status h := ⟨h.1.st, h.1.eof_pos⟩
  narrow h h1 h2 h3 h4 := by
    obtain ⟨g1, g2, g3, g4, g5, g6⟩ := h
    simp only [ops] at h2 h3
    exact ⟨g1, g2, by omega, by omega, h2, h3⟩
  size h := by
    have := h.2.1
    unfold SizeOk at this
    simp only [ops, fails]
    omega
  read := by
    intro s lo hi h mn mx h1 h2
    obtain ⟨s', n, d, e, hr, _, hs⟩ := read_spec hP h.1 h.2.1 h1 h2
    refine ⟨s', n, d, e, hr, fun z => ?_⟩
    obtain ⟨g1, g2, g3, g4⟩ := hs z
    have := g1.win.wf.av
    exact ⟨g1, g2, g4, by simp only [ops]; omega, g3, Int.le_refl _⟩
  skip := by
    intro s lo hi h k h1 h2
    obtain ⟨s', r, e, hs⟩ := skip_spec hP h.1 h.2.1 h1
    refine ⟨s', r, e, ?_, ?_⟩
    · rcases hs with ⟨g1, g2, g3, g4, g5⟩ | ⟨g1, g2⟩
      · exact .skipped g4 (Or.inl g5) g1
      · exact .failed g1 g2
    · intro z
      rcases hs with ⟨g1, g2, g3, g4, g5⟩ | ⟨g1, g2⟩
      · have := g2.win.wf.av; have := g2.win.wf.off
        exact ⟨g2, g3, by simp only [ops]; omega, by simp only [ops]; omega, Int.le_refl _, Int.le_refl _⟩
      · exact absurd g2 z
  reset := by
    intro s lo hi h q h1 h2
    obtain ⟨hI, hS, g1, g2, g3, g4⟩ := h
    have := hI.win.base
    obtain ⟨s', r, e, a1, a2, a3, a4, a5, a6, a7, a8⟩ := reset_spec hI hS (q := q) (by omega)
    rw [if_pos (by omega)] at a8
    obtain ⟨a8, a9⟩ := a8
    subst a8
    refine ⟨s', e, a1, a2, fun _ => ⟨a3, a4, ?_, ?_, ?_, ?_⟩, ⟨a3, a4, ?_, ?_, ?_, ?_⟩⟩ <;> omega

theorem softReset (R : φ → List α → Nat → Prop) (P : Producer φ α) (c : List α) (sz0 : Int) :
    SoftReset (ops P) c (Healthy R c sz0) := by
  constructor
  intro s lo hi h q h1 h2
  obtain ⟨hI, hS, g1, g2, g3, g4⟩ := h
  obtain ⟨s', r, e, a1, a2, a3, a4, a5, a6, a7, a8⟩ := reset_spec hI hS (q := q) (by omega)
  have := a3.win.wf.off; have := a3.win.wf.av
  refine ⟨s', r, e, a1, ?_, a2, ⟨a3, a4, ?_, ?_, ?_, ?_⟩⟩
  · split at a8
    · exact Or.inl a8.1
    · exact Or.inr a8.1
  all_goals omega

theorem healthy_new {R : φ → List α → Nat → Prop} {c : List α} {f : φ} {m : Nat} (h : R f c m)
    (sz0 : Int) : Healthy R c sz0 (new f sz0) 0 0 := by
  refine ⟨Inv.new h sz0, Or.inl rfl, ?_, ?_, ?_, ?_⟩ <;> simp [BufferedStream.new, StreamBuffer.empty]

end BufferedStream

end Strigi
