import Verif.Proofs.StringTerminated
import Verif.Props.Kmp
import Verif.Props.StringStream
import Verif.Props.BufferedStream

/-!
# Properties C20–C22, C61, C64: `StringTerminatedSubStream`
-/

namespace Strigi.Props

open StringTerminated Kmp

variable {σ : Type}

theorem occursAt_drop {α : Type} {q c : List α} {o j : Nat} (ho : o ≤ c.length) :
    OccursAt q (c.drop o) j ↔ OccursAt q c (o + j) := by
  constructor
  · rintro ⟨pre, post, e, h⟩
    refine ⟨c.take o ++ pre, post, ?_, by simp; omega⟩
    have h2 := List.take_append_drop o c
    rw [e] at h2
    exact h2.symm.trans (by simp [List.append_assoc])
  · rintro ⟨pre, post, e, h⟩
    refine ⟨pre.drop o, post, ?_, by simp; omega⟩
    rw [e, List.append_assoc, List.drop_append_of_le_length (by omega), List.append_assoc]

/-- The specification `BeforeFirst` has a solution for all data and every terminator. -/
theorem beforeFirst_exists {α : Type} (q d : List α) : ∃ w, BeforeFirst q d w := by
  by_cases h : ∃ p, OccursAt q d p
  · have hmin : ∀ p, OccursAt q d p → ∃ p, OccursAt q d p ∧ ∀ p', p' < p → ¬ OccursAt q d p' := by
      intro p
      induction p using Nat.strongRecOn with
      | _ p ih =>
        intro hp
        by_cases hx : ∃ p', p' < p ∧ OccursAt q d p'
        · obtain ⟨p', h1, h2⟩ := hx; exact ih p' h1 h2
        · exact ⟨p, hp, fun p' h1 h2 => hx ⟨p', h1, h2⟩⟩
    obtain ⟨p, hp⟩ := h
    obtain ⟨p, ⟨pre, post, e, hl⟩, hm⟩ := hmin p hp
    exact ⟨pre, Or.inl ⟨post, e, fun p' hp' => hm p' (by omega)⟩⟩
  · exact ⟨d, Or.inr ⟨rfl, fun p hp => h ⟨p, hp⟩⟩⟩

/-- … and only one. -/
theorem beforeFirst_unique {α : Type} {q d w w' : List α} (h : BeforeFirst q d w)
    (h' : BeforeFirst q d w') : w = w' := by
  rcases h with ⟨r, e, hn⟩ | ⟨e, hn⟩ <;> rcases h' with ⟨r', e', hn'⟩ | ⟨e', hn'⟩
  · have h1 : ¬ w.length < w'.length := fun z => hn' _ z ⟨w, r, e, rfl⟩
    have h2 : ¬ w'.length < w.length := fun z => hn _ z ⟨w', r', e', rfl⟩
    have : w.length = w'.length := by omega
    have e3 : w ++ (q ++ r) = w' ++ (q ++ r') := by
      rw [← List.append_assoc, ← List.append_assoc, ← e, e']
    exact (List.append_inj e3 this).1
  · exact absurd ⟨w, r, e, rfl⟩ (hn' w.length)
  · exact absurd ⟨w', r', e', rfl⟩ (hn w'.length)
  · rw [e, e']

theorem cut_of_beforeFirst {q c w : List UInt8} {o : Nat} (ho : o ≤ c.length)
    (h : BeforeFirst q (c.drop o) w) :
    Cut q c o w.length ∧ slice c o w.length = w ∧
      (OccursAt q (c.drop o) w.length → Occ q c (o + w.length)) := by
  have key : ∀ j : Int, 0 ≤ j → Occ q c (o + j) → OccursAt q (c.drop o) j.toNat := by
    intro j j0 hj
    rw [occursAt_drop ho, ← occ_iff]
    rw [show ((o + j.toNat : Nat) : Int) = o + j by omega]; exact hj
  have key2 : OccursAt q (c.drop o) w.length → Occ q c (o + w.length) := by
    intro z
    have := (occ_iff _).mpr ((occursAt_drop ho).mp z)
    rw [show ((o + w.length : Nat) : Int) = o + w.length by omega] at this
    exact this
  refine ⟨?_, ?_, key2⟩
  · rcases h with ⟨r, e, hn⟩ | ⟨e, hn⟩
    · have hl : (c.drop o).length = (w ++ q ++ r).length := by rw [e]
      simp only [List.length_drop, List.length_append] at hl
      refine ⟨by omega, by omega, by omega, ?_, Or.inl (key2 ⟨w, r, e, rfl⟩)⟩
      intro j j0 j1 hj
      exact hn _ (by omega) (key j j0 hj)
    · have hl : w.length = (c.drop o).length := by rw [e]
      rw [List.length_drop] at hl
      refine ⟨by omega, by omega, by omega, ?_, Or.inr ⟨by omega, ?_⟩⟩
      · intro j j0 _ hj; exact hn _ (key j j0 hj)
      · intro j j0 hj; exact hn _ (key j j0 hj)
  · unfold slice
    rcases h with ⟨r, e, hn⟩ | ⟨e, hn⟩
    · simp [e, List.append_assoc]
    · subst e; exact List.take_of_length_le (by simp)

/-- The queries for which the search is right (C18). -/
def GoodQuery (q : List UInt8) : Prop := q ≠ [] ∧ ¬ Slips q

theorem searchOk_of_good {q : List UInt8} (h : GoodQuery q) :
    ∃ k, Kmp.setQuery q = .ok k ∧ SearchOk k q := by
  obtain ⟨k, e, hb⟩ := setQuery_spec h.1
  have hq := hb.query
  refine ⟨k, e, hq, h.1, fun hay => ?_⟩
  obtain ⟨r, e2, h1, h2⟩ := search_spec (hay := hay) h.1 hb
  obtain ⟨h3, h4⟩ := h2 (fun z => h.2 ((slip_iff q).1 z))
  exact ⟨r, e2, fun p hp => ⟨h1 p hp, h3 p hp⟩, h4⟩

/-- **C20**: a terminated substream, created on any stream with content `c` (shorter than 2^31 bytes, not
failing while reading) at its position, with a terminator `q` that `KmpSearcher` handles (`GoodQuery`,
see C18), is a stream over exactly the part of the rest of the parent that precedes the first
occurrence of `q` — all of the rest if `q` does not occur.  This covers every sequence of reads (with
`min ≥ 1`), skips, and resets into the range of the last read, for every parent, hence for every way in
which the parent's reads split the terminator. -/
theorem C20_isStream {P : StreamOps σ UInt8} {c : List UInt8} {F : Failure} {soft : Prop} {p : σ}
    (h : IsStream P c F soft p) (hF : ¬ F.onRead) (hlen : c.length < 2 ^ 31) {q : List UInt8}
    (hq : GoodQuery q) {w : List UInt8} (hw : BeforeFirst q (c.drop (P.position p).toNat) w) :
    ∃ s, StringTerminated.new P p q = .ok s ∧ s.parent = p ∧ IsStream (ops P) w .never False s := by
  have C := Contract.of_behaves P c F soft
  have hr := C.range h
  obtain ⟨k, e, hk⟩ := searchOk_of_good hq
  obtain ⟨hc, hsl, _⟩ := cut_of_beforeFirst (o := (P.position p).toNat) (by omega) hw
  rw [show (((P.position p).toNat : Nat) : Int) = P.position p by omega] at hc hsl
  refine ⟨⟨p, k, P.position p, 0, 0, -1, .ok⟩, by unfold StringTerminated.new; rw [e]; rfl, rfl, ?_⟩
  have C' := StringTerminated.contract C hF hk hc (by omega)
  rw [hsl] at C'
  exact C'.isStream (fun z => z.elim) (inv_new C h hc)

/-- **C20**: reading it with enough reads gives exactly that part. -/
theorem C20_read_all {P : StreamOps σ UInt8} {c : List UInt8} {F : Failure} {soft : Prop} {p : σ}
    (h : IsStream P c F soft p) (hF : ¬ F.onRead) (hlen : c.length < 2 ^ 31) {q : List UInt8}
    (hq : GoodQuery q) {w : List UInt8} (hw : BeforeFirst q (c.drop (P.position p).toNat) w)
    (l : List (Int × Int)) (hl : ∀ a ∈ l, 1 ≤ a.1 ∧ (a.2 = 0 ∨ a.1 ≤ a.2)) (hn : w.length < l.length) :
    ∃ s s', StringTerminated.new P p q = .ok s ∧ readAll (ops P) s l = .ok (s', w) := by
  obtain ⟨s, e, hp, hs⟩ := C20_isStream h hF hlen hq hw
  have C := Contract.of_behaves (ops P) w .never False
  have hs0 : (ops P).position s = 0 := by
    unfold StringTerminated.new at e
    cases hk : Kmp.setQuery q with
    | ok k => rw [hk] at e; cases e; rfl
    | fault f => rw [hk] at e; cases e
    | diverge => rw [hk] at e; cases e
  obtain ⟨s', d, e2, h1, h2, h3, h4⟩ := C.readAll (by simp [Failure.never]) l hs hl
  rw [hs0] at h1 h2 h4
  have h5 := h4 (by omega)
  have h6 : d = w := by
    rw [h1]
    rw [show (d.length : Int) = w.length by omega]
    exact slice_all w
  subst h6
  exact ⟨s, s', e, e2⟩

/-- **C21**: whenever a read turns the status to `Eof` and the terminator occurs, the parent is positioned
exactly after the terminator and `size()` is the number of bytes before it. -/
theorem C21_parent_after_terminator {P : StreamOps σ UInt8} {c : List UInt8} {F : Failure} {soft : Prop}
    {p : σ} (h : IsStream P c F soft p) (hF : ¬ F.onRead) (hlen : c.length < 2 ^ 31) {q : List UInt8}
    (hq : GoodQuery q) {w rest : List UInt8} (hc : c.drop (P.position p).toNat = w ++ q ++ rest)
    (hfirst : ∀ i, i < w.length → ¬ OccursAt q (w ++ q ++ rest) i)
    {s₀ s s' : StringTerminated σ} (h0 : StringTerminated.new P p q = .ok s₀) {lo hi : Int}
    (hs : Reaches (ops P) s₀ s lo hi) (hne : (ops P).status s ≠ .eof)
    {mn mx n : Int} {d : List UInt8} (h1 : 1 ≤ mn) (h2 : mx = 0 ∨ mn ≤ mx)
    (hr : (ops P).read s mn mx = .ok (s', n, d)) (he : (ops P).status s' = .eof) :
    P.position s'.parent = P.position p + w.length + q.length ∧ (ops P).size s' = w.length ∧
      (ops P).position s' = w.length := by
  have C := Contract.of_behaves P c F soft
  have hrg := C.range h
  obtain ⟨k, e, hk⟩ := searchOk_of_good hq
  have hbf : BeforeFirst q (c.drop (P.position p).toNat) w :=
    Or.inl ⟨rest, hc, fun i hi => by rw [hc]; exact hfirst i hi⟩
  obtain ⟨hcut, hsl, hocc⟩ := cut_of_beforeFirst (o := (P.position p).toNat) (by omega) hbf
  have ho := hocc ⟨w, rest, hc, rfl⟩
  rw [show (((P.position p).toNat : Nat) : Int) = P.position p by omega] at hcut hsl ho
  unfold StringTerminated.new at h0
  rw [e] at h0
  cases h0
  have C' := StringTerminated.contract C hF hk hcut (by omega)
  have hi := C'.reaches (inv_new C h hcut) hs
  obtain ⟨s2, n2, d2, e2, r2, i2, g⟩ := StringTerminated.read_spec C hF hk hcut (by omega) hi h1 h2
  simp only [StringTerminated.ops] at hr he hne
  rw [e2] at hr
  cases hr
  obtain ⟨g1, g2⟩ := (g hne he).1 ho
  exact ⟨g1, g2, i2.eof he⟩

/-- **C21**, limit of the claim: a reset to its end after `Eof` leaves the status `Eof` but moves the
parent back before the terminator. -/
theorem C21_reset_at_end :
    ∃ s s' : StringTerminated (StringStream UInt8),
      StringTerminated.new StringStream.ops (StringStream.new [1, 2, 3, 4]) [3] = .ok s ∧
      run (ops StringStream.ops) s [.read 1 0, .reset 2] = .ok s' ∧
      (ops StringStream.ops).status s' = .eof ∧ StringStream.ops.position s'.parent = 2 :=
  ⟨_, _, rfl, rfl, by decide +kernel, by decide +kernel⟩

/-- **C22**: with the declared default arguments `min = 0, max = 0` the first read of a substream at
position 0 hands out whatever the parent returns for `read(0, 0)`, without looking for the
terminator, for every parent and every terminator. -/
theorem C22_default_arguments (P : StreamOps σ UInt8) (p p' : σ) (q : List UInt8)
    (s : StringTerminated σ) (h0 : P.position p = 0) (hs : StringTerminated.new P p q = .ok s)
    (n : Int) (d : List UInt8) (hn : 0 < n) (hr : P.read p 0 0 = .ok (p', n, d)) :
    ∃ s', (ops P).read s 0 0 = .ok (s', n, d) := by
  unfold StringTerminated.new at hs
  cases hk : Kmp.setQuery q with
  | fault f => rw [hk] at hs; cases hs
  | diverge => rw [hk] at hs; cases hs
  | ok k =>
    rw [hk] at hs
    cases hs
    simp only [StringTerminated.ops, StringTerminated.read]
    rw [if_neg (by simp), if_neg (by simp), h0]
    simp only [readAgain]
    have hz : narrow32 (0 - 0) = 0 := by decide
    simp only [hz, Int.le_refl, true_or, if_true]
    rw [hr]
    simp only [Res.bind_ok]
    rw [Res.assert_of (by simp; omega)]
    simp only [Res.bind_ok]
    rw [if_pos hn]
    exact ⟨_, rfl⟩

/-- … for instance an in-memory stream hands out everything, including the terminator. -/
theorem C22_witness :
    ∃ s s' : StringTerminated (StringStream UInt8),
      StringTerminated.new StringStream.ops (StringStream.new [1, 2, 3, 4]) [3] = .ok s ∧
      (ops StringStream.ops).read s 0 0 = .ok (s', 4, [1, 2, 3, 4]) :=
  ⟨_, _, rfl, rfl⟩

/-- **C61** for terminated substreams: when the end is found by a parent that returns `-1`, the status
becomes `Eof` and the size stays unknown. -/
theorem C61_terminated_size_unknown_at_eof :
    ∃ s s' : StringTerminated (StringStream UInt8),
      StringTerminated.new StringStream.ops (StringStream.new []) [3] = .ok s ∧
      run (ops StringStream.ops) s [.read 1 0] = .ok s' ∧
      (ops StringStream.ops).status s' = .eof ∧ (ops StringStream.ops).size s' = -1 :=
  ⟨_, _, rfl, rfl, by decide +kernel, by decide +kernel⟩

/-- **C64**: on a parent at a position between 2^31 and 2^32 the first read of a terminated substream takes
the "already searched" branch (the 32-bit narrowing of a negative difference is positive) and hands out
whatever the parent returns, without looking for the terminator: for every parent, terminator,
position and arguments with `min ≤ 2^32 - position`. -/
theorem C64_large_offset (P : StreamOps σ UInt8) (p p' : σ) (q : List UInt8) (s : StringTerminated σ)
    (hs : StringTerminated.new P p q = .ok s) (mn mx n : Int) (d : List UInt8)
    (h1 : 2 ^ 31 < P.position p) (h2 : P.position p < 2 ^ 32) (h3 : mn ≤ 2 ^ 32 - P.position p)
    (h4 : 1 ≤ mx) (h5 : mx ≤ 2 ^ 32 - P.position p) (hn : 0 < n)
    (hr : P.read p mn mx = .ok (p', n, d)) :
    ∃ s', (ops P).read s mn mx = .ok (s', n, d) := by
  unfold StringTerminated.new at hs
  cases hk : Kmp.setQuery q with
  | fault f => rw [hk] at hs; cases hs
  | diverge => rw [hk] at hs; cases hs
  | ok k =>
    rw [hk] at hs
    cases hs
    have hnw : narrow32 (0 - P.position p) = 2 ^ 32 - P.position p := by
      unfold narrow32
      rw [← Int.add_bmod_right, Int.bmod_eq_of_le] <;> omega
    simp only [StringTerminated.ops, StringTerminated.read]
    rw [if_neg (by simp), if_neg (by simp), hnw, if_pos h3]
    simp only [readAgain]
    rw [if_neg (by omega), hr]
    simp only [Res.bind_ok]
    rw [Res.assert_of (by simp; omega)]
    simp only [Res.bind_ok]
    rw [if_pos hn]
    exact ⟨_, rfl⟩

/-- … so the terminator is delivered as data: an in-memory stream of 2^31 + 4 bytes. -/
theorem C64_witness :
    ∃ (c : List UInt8) (s s' : StringTerminated (StringStream UInt8)),
      StringTerminated.new StringStream.ops ⟨c, 2 ^ 31 + 1, .ok⟩ [3] = .ok s ∧
      c.drop (2 ^ 31 + 1) = [1, 3, 4] ∧
      (ops StringStream.ops).read s 1 3 = .ok (s', 3, [1, 3, 4]) := by
  have hk : ∃ k, Kmp.setQuery [3] = .ok k := ⟨_, rfl⟩
  obtain ⟨k, hk⟩ := hk
  have hd : (List.replicate (2 ^ 31 + 1) (0 : UInt8) ++ [1, 3, 4]).drop (2 ^ 31 + 1) = [1, 3, 4] := by
    rw [List.drop_left' (by rw [List.length_replicate])]
  have hl : ((List.replicate (2 ^ 31 + 1) (0 : UInt8) ++ [1, 3, 4]).length : Int) = 2 ^ 31 + 4 := by
    rw [List.length_append, List.length_replicate]; simp
  have hs : StringTerminated.new StringStream.ops
      ⟨List.replicate (2 ^ 31 + 1) (0 : UInt8) ++ [1, 3, 4], 2 ^ 31 + 1, .ok⟩ [3] =
      .ok ⟨⟨List.replicate (2 ^ 31 + 1) (0 : UInt8) ++ [1, 3, 4], 2 ^ 31 + 1, .ok⟩, k, 2 ^ 31 + 1, 0, 0,
        -1, .ok⟩ := by
    unfold StringTerminated.new; rw [hk]; rfl
  generalize List.replicate (2 ^ 31 + 1) (0 : UInt8) ++ [1, 3, 4] = c at *
  obtain ⟨s', e⟩ := C64_large_offset StringStream.ops ⟨c, 2 ^ 31 + 1, .ok⟩
    (StringStream.read ⟨c, 2 ^ 31 + 1, .ok⟩ 1 3).1 [3] _ hs 1 3 3 [1, 3, 4]
    (by simp [StringStream.ops]) (by simp [StringStream.ops]) (by simp [StringStream.ops]) (by omega)
    (by simp [StringStream.ops]) (by omega)
    (by
      have hd' : c.drop ((2 ^ 31 + 1 : Int)).toNat = [1, 3, 4] := hd
      simp only [StringStream.ops, StringStream.read, hl]
      rw [if_neg (by omega), if_neg (by omega)]
      simp only [slice, hd']
      rfl)
  exact ⟨c, _, s', hs, hd, e⟩

/-- Non-vacuity of C20 and C21: a buffered parent that delivers chunks of two bytes, which split the
terminator. -/
example : (do
    let s ← StringTerminated.new (BufferedStream.ops chunkProducer)
      (BufferedStream.new [[1, 13], [10, 7], [13, 10], [13, 10], [8, 9]]) [13, 10, 13, 10]
    let (s1, d) ← readAll (ops (BufferedStream.ops chunkProducer)) s [(1, 1), (2, 0), (1, 0), (1, 0), (1, 0), (1, 0)]
    pure (d, s1.status, s1.size, s1.parent.pos)) = Res.ok ([1, 13, 10, 7], .eof, 4, 8) := by
  decide +kernel

example : GoodQuery [13, 10, 13, 10] := ⟨by simp, by decide +kernel⟩

example : BeforeFirst [13, 10] [1, 13, 13, 10, 2] [1, 13] := Or.inl ⟨[2], rfl, fun i hi ho => by
  obtain ⟨pre, post, e, hl⟩ := ho
  match i, hi, pre, hl with
  | 0, _, [], _ => simp at e
  | 1, _, [a], _ => simp at e⟩

end Strigi.Props
