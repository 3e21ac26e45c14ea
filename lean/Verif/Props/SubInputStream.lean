import Verif.Proofs.SubInputStream
import Verif.Proofs.StringStream
import Verif.Props.BufferedStream

/-!
# Properties C14–C17, C61, C62: `SubInputStream`
-/

namespace Strigi.Props

open SubInputStream

variable {σ α : Type}

theorem sub_fails_eq (F : Failure) {c : List α} {o l : Int} (ho : 0 ≤ o) (hl : 0 ≤ l)
    (hfit : o + l ≤ c.length) : fails F c o l = F := by
  have hw := window_length (c := c) (o := o) (l := l) ho (by omega) (by omega)
  rw [if_neg (by omega)] at hw
  have h1 : ¬ ((window c o l).length < l) := by omega
  have h2 : ¬ (l = -1) := by omega
  unfold fails
  simp only [h1, h2, or_false]

/-- **C14**: a substream of size `l`, created on any stream over `c` at its position `o`, where the
parent has at least `l` more items, is a stream over exactly the items `o, …, o+l-1` of the parent; it
fails only if the parent may fail, and it tolerates resets inside the window if the parent does. -/
theorem C14_window {P : StreamOps σ α} {c : List α} {F : Failure} {soft : Prop} {p : σ}
    (h : IsStream P c F soft p) (l : Int) (hl : 0 ≤ l) (hl2 : l < 2 ^ 31)
    (hfit : P.position p + l ≤ c.length) :
    ∃ s, SubInputStream.new P p l = .ok s ∧ s.size = l ∧ s.pos = 0 ∧
      IsStream (ops P) (slice c (P.position p) l) F soft s := by
  have C := Contract.of_behaves P c F soft
  have hr := C.range h
  obtain ⟨s, e, hi, hp⟩ := inv_new C h (l := l) (by omega)
  have hw : slice c (P.position p) l = window c (P.position p) l := by
    unfold window; rw [if_neg (by omega)]
  refine ⟨s, e, ?_, hp, ?_⟩
  · unfold SubInputStream.new at e
    rw [Res.assert_of (by simp; omega)] at e
    cases e; rfl
  · have C' := contract C (o := P.position p) (l := l) (by omega) (by omega) (by omega) hl2 (by omega)
      (by omega)
    rw [sub_fails_eq F (by omega) hl hfit, ← hw] at C'
    refine C'.isStream (fun hs => ?_) ?_
    · have := softReset C (SoftReset.of_behaves P c F soft hs) (o := P.position p) (l := l) (by omega)
        (by omega) (by omega)
      rw [← hw] at this; exact this
    · simp only [ops, hp]; exact hi

/-- **C14**: throughout any admissible use, the position of the substream is the position of the parent
minus the offset, so that the substream never moves the parent out of `[o, o+l]`. -/
theorem C14_position {P : StreamOps σ α} {c : List α} {F : Failure} {p : σ}
    (h : IsStream P c F True p) (l : Int) (hl : 0 ≤ l) (hl2 : l < 2 ^ 31)
    (hfit : P.position p + l ≤ c.length) (calls : List Op)
    (hcalls : ∀ op ∈ calls, Admissible (slice c (P.position p) l) op) :
    ∃ s s', SubInputStream.new P p l = .ok s ∧ runUntilError (ops P) s calls = .ok s' ∧
      ((ops P).status s' = .error ∨
        (P.position s'.parent = (ops P).position s' + P.position p ∧
          0 ≤ (ops P).position s' ∧ (ops P).position s' ≤ l)) := by
  have C := Contract.of_behaves P c F True
  have hr := C.range h
  obtain ⟨s, e, hi, hp⟩ := inv_new C h (l := l) (by omega)
  have hw : slice c (P.position p) l = window c (P.position p) l := by
    unfold window; rw [if_neg (by omega)]
  rw [hw] at hcalls
  have C' := contract C (o := P.position p) (l := l) (by omega) (by omega) (by omega) hl2 (by omega)
    (by omega)
  have S' := softReset C (SoftReset.of_behaves P c F True trivial) (o := P.position p) (l := l) (by omega)
    (by omega) (by omega)
  obtain ⟨s', e', g⟩ := C'.run S' calls hi hcalls
  refine ⟨s, s', e, e', ?_⟩
  rcases g with g | ⟨lo, hi', g⟩
  · exact Or.inl g
  · right
    have hwl := window_length (c := c) (o := P.position p) (l := l) (by omega) (by omega) (by omega)
    rw [if_neg (by omega)] at hwl
    have := g.lo0; have := g.lop; have := g.hip; have := g.hil
    exact ⟨g.ppos, by simp only [ops]; omega, by simp only [ops]; omega⟩

/-- **C14** without a declared size: the substream is a stream over the rest of the (non-empty) parent.
(An attempt to skip at its end is reported as an error; see C62 for an empty rest.) -/
theorem C14_rest {P : StreamOps σ α} {c : List α} {F : Failure} {soft : Prop} {p : σ}
    (h : IsStream P c F soft p) (hc : c.length < 2 ^ 31) (hne : P.position p < c.length) :
    ∃ s, SubInputStream.new P p (-1) = .ok s ∧
      IsStream (ops P) (c.drop (P.position p).toNat) ⟨F.onRead, True⟩ soft s := by
  have C := Contract.of_behaves P c F soft
  have hr := C.range h
  obtain ⟨s, e, hi, hp⟩ := inv_new C h (l := -1) (by omega)
  have hw : window c (P.position p) (-1) = c.drop (P.position p).toNat := by
    unfold window; rw [if_pos rfl]
  have hf : fails F c (P.position p) (-1) = ⟨F.onRead, True⟩ := by
    have h1 : ¬ (((window c (P.position p) (-1)).length : Int) < -1) := by omega
    unfold fails
    simp only [h1, or_false, or_true]
  refine ⟨s, e, ?_⟩
  have C' := contract C (o := P.position p) (l := -1) (by omega) (by omega) (by omega) (by omega)
    (fun _ => hc) (fun _ => hne)
  rw [hf, hw] at C'
  refine C'.isStream (fun hs => ?_) ?_
  · have := softReset C (SoftReset.of_behaves P c F soft hs) (o := P.position p) (l := -1) (by omega)
      (by omega) (by omega)
    rw [hw] at this; exact this
  · simp only [ops, hp]; exact hi

/-- **C15**: if a size was declared, then a read that is not at the end of the substream either returns
at least `min` items (or all items up to the declared size), or it reports an error with a code below
`-1` and status `Error`: never a short success.  This holds for *any* parent. -/
theorem C15_no_short_success (P : StreamOps σ α) (s s' : SubInputStream σ) (mn mx n : Int) (d : List α)
    (hs : s.size ≠ -1) (hpos : s.pos < s.size) (hsize : s.size - s.pos < 2 ^ 31)
    (e : (ops P).read s mn mx = .ok (s', n, d)) :
    min mn (s.size - s.pos) ≤ n ∨ (n < -1 ∧ (ops P).status s' = .error) := by
  simp only [ops, SubInputStream.read] at e
  rw [if_pos hs, if_neg (by omega), narrow32_of_range (by omega) hsize] at e
  have hmn : min mn (s.size - s.pos) ≤ (if mn > s.size - s.pos then s.size - s.pos else mn) := by
    split <;> omega
  generalize (if mn > s.size - s.pos then s.size - s.pos else mn) = mn' at *
  generalize (if mx < mn' ∨ mx > s.size - s.pos then s.size - s.pos else mx) = mx' at *
  unfold readParent at e
  cases hr : P.read s.parent mn' mx' with
  | fault f => rw [hr] at e; cases e
  | diverge => rw [hr] at e; cases e
  | ok x =>
    obtain ⟨p', n', d'⟩ := x
    rw [hr] at e
    simp only [Res.bind_ok] at e
    by_cases ha : mx' < mn' ∨ n' ≤ mx'
    · rw [Res.assert_of (by simpa using ha)] at e
      simp only [Res.bind_ok] at e
      by_cases h1 : n' < -1
      · rw [if_pos h1] at e; cases e; exact Or.inr ⟨h1, rfl⟩
      · rw [if_neg h1] at e
        by_cases h2 : n' < mn'
        · rw [if_pos h2, if_neg hs] at e; cases e; exact Or.inr ⟨by omega, rfl⟩
        · rw [if_neg h2] at e; cases e; left; omega
    · have : Res.assert (decide (mx' < mn' ∨ n' ≤ mx')) = .fault .assertion := by
        rw [show decide (mx' < mn' ∨ n' ≤ mx') = false by simpa using ha]; rfl
      rw [this] at e; cases e

/-- **C15**: a substream whose declared size exceeds the parent's rest still behaves like a stream over
that rest, up to an error. -/
theorem C15_short_parent {P : StreamOps σ α} {c : List α} {F : Failure} {soft : Prop} {p : σ}
    (h : IsStream P c F soft p) (l : Int) (hl : 0 ≤ l) (hl2 : l < 2 ^ 31)
    (hshort : c.length < P.position p + l) :
    ∃ s, SubInputStream.new P p l = .ok s ∧
      IsStream (ops P) (c.drop (P.position p).toNat) .always soft s := by
  have C := Contract.of_behaves P c F soft
  have hr := C.range h
  obtain ⟨s, e, hi, hp⟩ := inv_new C h (l := l) (by omega)
  have hw : window c (P.position p) l = c.drop (P.position p).toNat := by
    unfold window; rw [if_neg (by omega)]; unfold slice; apply List.take_of_length_le; simp; omega
  have hwl := window_length (c := c) (o := P.position p) (l := l) (by omega) (by omega) (by omega)
  rw [if_neg (by omega)] at hwl
  have hf : fails F c (P.position p) l = .always := by
    have h1 : ((window c (P.position p) l).length < l) := by omega
    unfold fails Failure.always
    simp only [h1, or_true, true_or]
  refine ⟨s, e, ?_⟩
  have C' := contract C (o := P.position p) (l := l) (by omega) (by omega) (by omega) hl2 (by omega)
    (by omega)
  rw [hf, hw] at C'
  refine C'.isStream (fun hs => ?_) ?_
  · have := softReset C (SoftReset.of_behaves P c F soft hs) (o := P.position p) (l := l) (by omega)
      (by omega) (by omega)
    rw [hw] at this; exact this
  · simp only [ops, hp]; exact hi

/-- **C16**: after a reset past its end the window is not enforced: the substream asks its parent for a
negative number of items, the parent hands out items outside of the window, and the only thing that
stops them is an assertion (in a build without assertions they are returned). -/
theorem C16_reset_past_end :
    ∃ (c : List Nat) (s s' : SubInputStream (StringStream Nat)) (p' : StringStream Nat) (d : List Nat),
      SubInputStream.new StringStream.ops (StringStream.new c) 2 = .ok s ∧
      (ops StringStream.ops).reset s 3 = .ok (s', 3) ∧
      -- the call that `read` makes on the parent
      StringStream.ops.read s'.parent (-1) (-1) = .ok (p', 2, d) ∧ d = [3, 4] ∧
      (ops StringStream.ops).read s' 1 1 = .fault .assertion :=
  ⟨[0, 1, 2, 3, 4], _, _, _, _, rfl, rfl, rfl, by decide, by decide⟩

/-- **C17**: a substream of a substream is the substream with the added offset: if the outer substream
(of any stream over `c`, at offset `o`, of length `l`) is at position `o'`, then an inner substream of
length `l'` on it is a stream over the items `o+o', …, o+o'+l'-1` of `c`. -/
theorem C17_nested {P : StreamOps σ α} {c : List α} {F : Failure} {soft : Prop}
    (o l l' : Int) {s : SubInputStream σ} (ho : 0 ≤ o) (hl2 : l < 2 ^ 31)
    (hfit : o + l ≤ c.length)
    (h : IsStream (ops P) (slice c o l) F soft s) (hl' : 0 ≤ l') (hfit' : s.pos + l' ≤ l) :
    ∃ s', SubInputStream.new (ops P) s l' = .ok s' ∧
      IsStream (ops (ops P)) (slice c (o + s.pos) l') F soft s' := by
  have hr := (Contract.of_behaves (ops P) (slice c o l) F soft).range h
  have hlen : ((slice c o l).length : Int) = max 0 l := by
    by_cases hl0 : 0 ≤ l
    · rw [slice_length ho hl0 hfit]; omega
    · simp [slice]; omega
  simp only [ops] at hr
  have hfit2 : (ops P).position s + l' ≤ (slice c o l).length := by
    simp only [ops]; omega
  obtain ⟨s', e, _, _, hs⟩ := C14_window h l' hl' (by omega) hfit2
  refine ⟨s', e, ?_⟩
  have : slice (slice c o l) ((ops P).position s) l' = slice c (o + s.pos) l' :=
    slice_slice ho (by simp only [ops]; omega) hl' (by simp only [ops]; omega)
  rw [this] at hs; exact hs

/-- **C61**: "The size of the stream is always known if the end of the stream has been reached" is false
for a substream without declared size. -/
theorem C61_sub_size_unknown_at_eof :
    ∃ (s s' : SubInputStream (StringStream Nat)),
      SubInputStream.new StringStream.ops (StringStream.new [1, 2]) = .ok s ∧
      run (ops StringStream.ops) s [.read 1 0, .read 1 0] = .ok s' ∧
      (ops StringStream.ops).status s' = .eof ∧ (ops StringStream.ops).size s' = -1 :=
  ⟨_, _, rfl, rfl, by decide, by decide⟩

/-- **C62**: skipping in an empty substream without declared size moves it to position `-1` and reports
a normal end of stream. -/
theorem C62_skip_empty_substream :
    ∃ (s s' : SubInputStream (StringStream Nat)),
      SubInputStream.new StringStream.ops (StringStream.new []) = .ok s ∧
      (ops StringStream.ops).skip s 1 = .ok (s', -1) ∧
      (ops StringStream.ops).status s' = .eof ∧ (ops StringStream.ops).position s' = -1 :=
  ⟨_, _, rfl, rfl, by decide, by decide⟩

/-- Non-vacuity: a substream of a buffered stream whose producer delivers small chunks. -/
example : (do
    let (p, _) ← (BufferedStream.ops chunkProducer).skip (BufferedStream.new [[1, 2], [3, 4], [5, 6, 7]]) 1
    let s ← SubInputStream.new (BufferedStream.ops chunkProducer) p 4
    let (s1, n1, d1) ← (ops (BufferedStream.ops chunkProducer)).read s 3 0
    let (s2, n2, d2) ← (ops (BufferedStream.ops chunkProducer)).read s1 3 0
    pure (n1, d1, n2, d2, s2.status)) = Res.ok (3, [2, 3, 4], 1, [5], .eof) := by decide

/-- Non-vacuity of C14: the hypotheses hold for that parent. -/
example : ∃ p r, (BufferedStream.ops chunkProducer).skip (BufferedStream.new [[1, 2], [3, 4], [5, 6, 7]]) 1
      = .ok (p, r) ∧
    IsStream (BufferedStream.ops chunkProducer) [1, 2, 3, 4, 5, 6, 7]
      ⟨False ∨ ((-1 : Int) ≠ -1 ∧ (-1 : Int) ≠ 7), False ∨ ((-1 : Int) ≠ -1 ∧ (-1 : Int) ≠ 7)⟩ True p ∧
    (BufferedStream.ops chunkProducer).position p + 4 ≤ 7 := by
  have C := BufferedStream.contract (chunkProducer_produces (α := Nat)) [1, 2, 3, 4, 5, 6, 7] (-1)
  have h0 := BufferedStream.healthy_new (R := fun cs rest m => rest = cs.flatten ∧
    m = cs.flatten.length + cs.length) (c := [1, 2, 3, 4, 5, 6, 7]) (f := [[1, 2], [3, 4], [5, 6, 7]])
    (m := 10) ⟨rfl, rfl⟩ (-1)
  obtain ⟨s', r, e, ok, hs⟩ := C.skip h0 (k := 1) (by omega) (by omega)
  have hv : (BufferedStream.ops chunkProducer).skip (BufferedStream.new [[1, 2], [3, 4], [5, 6, 7]]) 1
      = .ok (s', r) := e
  have : (BufferedStream.ops chunkProducer).status s' ≠ .error ∧
      (BufferedStream.ops chunkProducer).position s' + 4 ≤ 7 := by
    revert hv
    cases hq : (BufferedStream.ops chunkProducer).skip
        (BufferedStream.new [[1, 2], [3, 4], [5, 6, 7]]) 1 with
    | ok x =>
      intro hv; cases hv
      have : (match (BufferedStream.ops chunkProducer).skip
          (BufferedStream.new [[1, 2], [3, 4], [5, 6, 7]]) 1 with
        | .ok x => decide ((BufferedStream.ops chunkProducer).status x.1 ≠ .error ∧
            (BufferedStream.ops chunkProducer).position x.1 + 4 ≤ 7)
        | _ => false) = true := by decide
      rw [hq] at this
      simpa using this
    | fault f => intro hv; cases hv
    | diverge => intro hv; cases hv
  refine ⟨s', r, hv, ?_, this.2⟩
  exact C.isStream (fun _ => BufferedStream.softReset _ _ _ _) (hs this.1)

end Strigi.Props
