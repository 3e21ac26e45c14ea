import Verif.Model.StringMemory
import Verif.Props.StringStream

/-!
# Property C157: the memory of an in-memory stream
-/

namespace Strigi.Props

open StringMemory

variable {α : Type}

/-- What the calls of a `StringStream` return that are among the actions: the number, and the items that were read. -/
def resultsWith : List (Act α) → StringStream α → StringStream α × List (Int × List α)
  | [], s => (s, [])
  | .read mn mx :: l, s => ((resultsWith l (s.read mn mx).1).1, (s.read mn mx).2 :: (resultsWith l (s.read mn mx).1).2)
  | .skip n :: l, s => ((resultsWith l (s.skip n).1).1, ((s.skip n).2, []) :: (resultsWith l (s.skip n).1).2)
  | .reset q :: l, s => ((resultsWith l (s.reset q).1).1, ((s.reset q).2, []) :: (resultsWith l (s.reset q).1).2)
  | .others _ :: l, s => resultsWith l s

/-- What others do among the actions leaves the block `b` as it is. -/
def LeaveAlone (b : Nat) (acts : List (Act α)) : Prop :=
  ∀ f, .others f ∈ acts → ∀ m : Memory α, (f m)[b]? = m[b]?

/-- At the pointer in the block are the items `c`. -/
def ItemsAt (m : Memory α) (p : Ptr) (c : List α) : Prop :=
  ∃ before behind : List α, m[p.1]? = some (some (before ++ c ++ behind)) ∧ p.2 = before.length

theorem ItemsAt.load {m : Memory α} {p : Ptr} {c : List α} (h : ItemsAt m p c) {i n : Int} (hi : 0 ≤ i) (hn : 0 ≤ n)
    (hl : i + n ≤ c.length) : load m (p.1, p.2 + i) n = .ok (slice c i n) := by
  obtain ⟨before, behind, h1, h2⟩ := h
  unfold StringMemory.load
  simp only [h1, h2]
  rw [if_pos (by simp only [List.length_append]; omega)]
  congr 1
  unfold slice
  have e : ((before.length : Int) + i).toNat = before.length + i.toNat := by omega
  rw [e, ← List.drop_drop, List.append_assoc, List.drop_left, List.drop_append_of_le_length (by omega),
    List.take_append_of_le_length (by rw [List.length_drop]; omega)]

/-- The stream in memory and the plain one are in the same state. -/
structure Same (m : Memory α) (s : Stream) (c : List α) (t : StringStream α) : Prop where
  items : ItemsAt m s.data c
  data : t.data = c
  size : s.size = c.length
  position : s.position = t.pos
  status : s.status = t.status
  low : 0 ≤ t.pos
  high : t.pos ≤ c.length

theorem Same.read {m : Memory α} {s : Stream} {c : List α} {t : StringStream α} (h : Same m s c t) (mn mx : Int) :
    Same m (StringMemory.read s mn mx).1 c (t.read mn mx).1 ∧ (StringMemory.read s mn mx).1.data = s.data ∧
      (StringMemory.read s mn mx).1.dataowner = s.dataowner ∧
      (StringMemory.read s mn mx).2.1 = (t.read mn mx).2.1 ∧
      (∀ p, (StringMemory.read s mn mx).2.2 = some p → ∃ i, 0 ≤ i ∧ 0 ≤ (t.read mn mx).2.1 ∧ i + (t.read mn mx).2.1 ≤ c.length ∧
        p = (s.data.1, s.data.2 + i) ∧ (t.read mn mx).2.2 = slice c i (t.read mn mx).2.1) ∧
      ((StringMemory.read s mn mx).2.2 = none → (t.read mn mx).2.2 = []) := by
  obtain ⟨h1, h2, h3, h4, h5, h6, h7⟩ := h
  subst h2
  unfold StringMemory.read StringStream.read
  simp only [h3, h4]
  by_cases hl : (t.data.length : Int) - t.pos = 0
  · rw [if_pos hl, if_pos hl]
    exact ⟨⟨h1, rfl, rfl, rfl, rfl, h6, h7⟩, rfl, rfl, rfl, by simp, by simp⟩
  · rw [if_neg hl, if_neg hl]
    have hr : (if mx > (t.data.length : Int) - t.pos ∨ mx < 1 then (t.data.length : Int) - t.pos else mx) ≤ t.data.length - t.pos ∧
        0 < (if mx > (t.data.length : Int) - t.pos ∨ mx < 1 then (t.data.length : Int) - t.pos else mx) := by
      split <;> omega
    generalize (if mx > (t.data.length : Int) - t.pos ∨ mx < 1 then (t.data.length : Int) - t.pos else mx) = n at hr ⊢
    dsimp only
    refine ⟨⟨h1, rfl, rfl, rfl, by rw [h5], by dsimp only; omega, by dsimp only; omega⟩, rfl, rfl, rfl, ?_, ?_⟩
    · intro p hp
      cases hp
      exact ⟨t.pos, h6, by omega, by omega, rfl, rfl⟩
    · intro z; cases z

theorem Same.skip {m : Memory α} {s : Stream} {c : List α} {t : StringStream α} (h : Same m s c t) (n : Int) :
    Same m (StringMemory.skip s n).1 c (t.skip n).1 ∧ (StringMemory.skip s n).1.data = s.data ∧
      (StringMemory.skip s n).1.dataowner = s.dataowner ∧ (StringMemory.skip s n).2 = (t.skip n).2 := by
  unfold StringMemory.skip StringStream.skip
  split
  · exact ⟨h, rfl, rfl, rfl⟩
  · obtain ⟨h1, h2, h3, h4, _⟩ := h.read (narrow32 n) (narrow32 n)
    exact ⟨h1, h2, h3, h4⟩

theorem Same.reset {m : Memory α} {s : Stream} {c : List α} {t : StringStream α} (h : Same m s c t) (q : Int) :
    Same m (StringMemory.reset s q).1 c (t.reset q).1 ∧ (StringMemory.reset s q).1.data = s.data ∧
      (StringMemory.reset s q).1.dataowner = s.dataowner ∧ (StringMemory.reset s q).2 = (t.reset q).2 := by
  obtain ⟨h1, h2, h3, h4, h5, h6, h7⟩ := h
  subst h2
  unfold StringMemory.reset StringStream.reset
  rw [h3]
  split
  · exact ⟨⟨h1, rfl, rfl, rfl, rfl, by dsimp only; omega, by dsimp only; omega⟩, rfl, rfl, rfl⟩
  · split
    · exact ⟨⟨h1, rfl, rfl, rfl, rfl, by dsimp only; omega, by dsimp only; omega⟩, rfl, rfl, rfl⟩
    · exact ⟨⟨h1, rfl, rfl, rfl, rfl, by dsimp only; omega, by dsimp only; omega⟩, rfl, rfl, rfl⟩

/-- **C157**: from where a stream is on the items `c`, whatever is called, and whatever others do to other blocks of the
memory: the calls return the numbers that C01 to C04 tell of the stream of `c`, and every pointer that `read` ever
returned still leads to the items that were read, until the end.  The state at the end is that of the stream of `c`,
and the stream did not write to the memory. -/
theorem C157_run : ∀ (acts : List (Act α)) {m : Memory α} {s : Stream} {c : List α} {t : StringStream α}, Same m s c t →
    LeaveAlone s.data.1 acts →
    ∃ m' s', ∃ views, history acts (m, s) = ((m', s'), views) ∧ Same m' s' c (resultsWith acts t).1 ∧ s'.data = s.data ∧
      s'.dataowner = s.dataowner ∧ m'[s.data.1]? = m[s.data.1]? ∧
      views.length = (resultsWith acts t).2.length ∧
      ∀ (i : Nat) v w, views[i]? = some v → (resultsWith acts t).2[i]? = some w → v.1 = w.1 ∧
        (∀ p, v.2 = some p → load m' p v.1 = .ok w.2) ∧ (v.2 = none → w.2 = []) := by
  intro acts
  induction acts with
  | nil =>
    intro m s c t h _
    exact ⟨m, s, [], rfl, h, rfl, rfl, rfl, rfl, by simp⟩
  | cons a acts ih =>
    intro m s c t h hl
    have hl' : LeaveAlone s.data.1 acts := fun f hf => hl f (by simp [hf])
    cases a with
    | read mn mx =>
      obtain ⟨k1, k2, k3, k4, k5, k6⟩ := h.read mn mx
      obtain ⟨m', s', views, e, e1, e2, e3, e4, e5, e6⟩ := ih k1 (by rw [k2]; exact hl')
      rw [k2] at e2 e4
      refine ⟨m', s', (StringMemory.read s mn mx).2 :: views, by rw [history, e], e1, e2, e3.trans k3, e4, by simp [resultsWith, e5], ?_⟩
      intro i v w hv hw
      cases i with
      | zero =>
        simp only [List.getElem?_cons_zero, Option.some.injEq, resultsWith] at hv hw
        subst hv
        subst hw
        refine ⟨k4, ?_, k6⟩
        intro p hp
        obtain ⟨i, i1, i2, i3, i4, i5⟩ := k5 p hp
        have := e1.items.load i1 i2 i3
        rw [e2] at this
        rw [k4, i4, i5]
        exact this
      | succ i => exact e6 i v w (by simpa using hv) (by simpa [resultsWith] using hw)
    | skip n =>
      obtain ⟨k1, k2, k3, k4⟩ := h.skip n
      obtain ⟨m', s', views, e, e1, e2, e3, e4, e5, e6⟩ := ih k1 (by rw [k2]; exact hl')
      rw [k2] at e2 e4
      refine ⟨m', s', ((StringMemory.skip s n).2, none) :: views, by rw [history, e], e1, e2, e3.trans k3, e4,
        by simp [resultsWith, e5], ?_⟩
      intro i v w hv hw
      cases i with
      | zero =>
        simp only [List.getElem?_cons_zero, Option.some.injEq, resultsWith] at hv hw
        subst hv
        subst hw
        exact ⟨k4, (by intro p hp; cases hp), fun _ => rfl⟩
      | succ i => exact e6 i v w (by simpa using hv) (by simpa [resultsWith] using hw)
    | reset q =>
      obtain ⟨k1, k2, k3, k4⟩ := h.reset q
      obtain ⟨m', s', views, e, e1, e2, e3, e4, e5, e6⟩ := ih k1 (by rw [k2]; exact hl')
      rw [k2] at e2 e4
      refine ⟨m', s', ((StringMemory.reset s q).2, none) :: views, by rw [history, e], e1, e2, e3.trans k3, e4,
        by simp [resultsWith, e5], ?_⟩
      intro i v w hv hw
      cases i with
      | zero =>
        simp only [List.getElem?_cons_zero, Option.some.injEq, resultsWith] at hv hw
        subst hv
        subst hw
        exact ⟨k4, (by intro p hp; cases hp), fun _ => rfl⟩
      | succ i => exact e6 i v w (by simpa using hv) (by simpa [resultsWith] using hw)
    | others f =>
      have hf := hl f (by simp) m
      obtain ⟨i1, i2, i3, i4, i5, i6, i7⟩ := h
      have k1 : Same (f m) s c t := by
        refine ⟨?_, i2, i3, i4, i5, i6, i7⟩
        obtain ⟨b, b', j1, j2⟩ := i1
        exact ⟨b, b', by rw [hf]; exact j1, j2⟩
      obtain ⟨m', s', views, e, e1, e2, e3, e4, e5, e6⟩ := ih k1 hl'
      exact ⟨m', s', views, by rw [history, e], e1, e2, e3, e4.trans hf, e5, e6⟩

theorem take_one_drop : ∀ (l : List α) (k : Nat), (l.drop k).take 1 = (l[k]?).toList := by
  intro l
  induction l with
  | nil => intro k; simp
  | cons x l ih =>
    intro k
    cases k with
    | zero => simp
    | succ k => simpa using ih k

variable [DecidableEq α]

theorem scan_spec {nul : α} {m : Memory α} {value : Ptr} {text : List α} (h : ItemsAt m value (text ++ [nul])) (hn : nul ∉ text)
    (hl : text.length < 2 ^ 31) : ∀ (k fuel : Nat), k ≤ text.length → text.length - k < fuel →
      scan nul m value fuel k = .ok (text.length : Int) := by
  intro k fuel
  induction fuel generalizing k with
  | zero => intro _ h; omega
  | succ fuel ih =>
    intro hk hf
    rw [scan, h.load (by omega) (by omega) (by simp only [List.length_append, List.length_singleton]; omega)]
    simp only [Res.bind_ok]
    have hs : slice (text ++ [nul]) k 1 = ((text ++ [nul])[k]?).toList := by
      unfold slice
      simp only [Int.toNat_natCast, show (1 : Int).toNat = 1 from rfl]
      exact take_one_drop _ _
    rw [hs]
    by_cases hc : k = text.length
    · subst hc
      rw [List.getElem?_append_right (Nat.le_refl _)]
      simp
    · have hlt : k < text.length := by omega
      rw [List.getElem?_append_left hlt, List.getElem?_eq_getElem hlt]
      have hne : text[k] ≠ nul := fun z => hn (z ▸ List.getElem_mem hlt)
      simp only [Option.toList_some, List.cons.injEq, and_true]
      rw [if_neg hne, if_neg (by omega)]
      exact ih (k + 1) (by omega) (by omega)

/-- **C157**: the constructor without a copy takes the pointer that it is given: the stream is on the items there. -/
theorem C157_shared {nul : α} (fuel : Nat) {m : Memory α} {value : Ptr} {c : List α} (h : ItemsAt m value c) :
    ∃ s, construct nul fuel m value c.length false = .ok (m, s) ∧ Same m s c (StringStream.new c) ∧ s.data = value ∧
      s.dataowner = false := by
  refine ⟨⟨c.length, 0, .ok, value, false⟩, ?_, ?_, rfl, rfl⟩
  · unfold construct
    rw [if_neg (by omega)]
    rfl
  · exact ⟨h, rfl, rfl, rfl, rfl, by simp [StringStream.new], by simp [StringStream.new]⟩

/-- **C157**: the constructor with a copy makes one block, which no one else knows; the stream is on the items that
were at the pointer. -/
theorem C157_copied {nul : α} (fuel : Nat) {m : Memory α} {value : Ptr} {c : List α} (h : ItemsAt m value c)
    (hl : c.length + 1 < 2 ^ 31) :
    ∃ s block, construct nul fuel m value c.length true = .ok (m ++ [some block], s) ∧
      Same (m ++ [some block]) s c (StringStream.new c) ∧ s.data = (m.length, 0) ∧ s.dataowner = true := by
  refine ⟨⟨c.length, 0, .ok, (m.length, 0), true⟩, c ++ [nul], ?_, ?_, rfl, rfl⟩
  · unfold construct
    rw [if_neg (by omega)]
    have := h.load (i := 0) (n := c.length) (by omega) (by omega) (by omega)
    rw [Int.add_zero, slice_all] at this
    simp only [Res.bind_ok, if_true]
    rw [if_neg (by omega), this]
    rfl
  · exact ⟨⟨[], [nul], by simp, rfl⟩, rfl, rfl, rfl, rfl, by simp [StringStream.new], by simp [StringStream.new]⟩

/-- **C157**: without a length the items are those before the first null character. -/
theorem C157_no_length {nul : α} {m : Memory α} {value : Ptr} {text : List α} (h : ItemsAt m value (text ++ [nul])) (hn : nul ∉ text)
    (hl : text.length < 2 ^ 31) {length : Int} (hneg : length < 0) (copy : Bool) {fuel : Nat} (hf : text.length < fuel) :
    construct nul fuel m value length copy = construct nul fuel m value text.length copy := by
  unfold construct
  rw [if_pos hneg, if_neg (by omega), show (0 : Int) = ((0 : Nat) : Int) from rfl, scan_spec h hn hl 0 fuel (by omega) (by omega)]

/-- **C157**: let a stream be made with a copy of the items `c`, and let others write to and free the memory that they know,
the original too, or get new memory: all that the calls returned is as C01 to C04 say for `c`, and what was read is there to the
end.  The destructor frees the block of the stream, and changes nothing else. -/
theorem C157_copy {nul : α} (fuel : Nat) {m : Memory α} {value : Ptr} {c : List α} (h : ItemsAt m value c)
    (hl : c.length + 1 < 2 ^ 31) {acts : List (Act α)} (ha : LeaveAlone m.length acts) :
    ∃ m0 s0 m' s' views, construct nul fuel m value c.length true = .ok (m0, s0) ∧
      (∀ b, b ≠ m.length → m0[b]? = m[b]?) ∧
      history acts (m0, s0) = ((m', s'), views) ∧ views.length = (resultsWith acts (StringStream.new c)).2.length ∧
      (∀ (i : Nat) v w, views[i]? = some v → (resultsWith acts (StringStream.new c)).2[i]? = some w → v.1 = w.1 ∧
        (∀ p, v.2 = some p → load m' p v.1 = .ok w.2) ∧ (v.2 = none → w.2 = [])) ∧
      destroy m' s' = .ok (m'.set m.length none) := by
  obtain ⟨s0, block, h1, h2, h3, h4⟩ := C157_copied (nul := nul) fuel h hl
  have hd : s0.data.1 = m.length := by rw [h3]
  obtain ⟨m', s', views, e, e1, e2, e3, e4, e5, e6⟩ := C157_run acts h2 (by rw [hd]; exact ha)
  refine ⟨_, s0, m', s', views, h1, ?_, e, e5, e6, ?_⟩
  · intro b hb
    by_cases hlt : b < m.length
    · rw [List.getElem?_append_left hlt]
    · rw [List.getElem?_eq_none (by simp; omega), List.getElem?_eq_none (by omega)]
  · rw [hd, List.getElem?_append_right (Nat.le_refl _)] at e4
    unfold destroy
    rw [e3, h4, e2, h3, e4]
    simp

/-- **C157**: without a copy this holds as long as others leave the block of the original alone; the stream writes nothing,
and the destructor frees nothing. -/
theorem C157_share {nul : α} (fuel : Nat) {m : Memory α} {value : Ptr} {c : List α} (h : ItemsAt m value c)
    {acts : List (Act α)} (ha : LeaveAlone value.1 acts) :
    ∃ s0 m' s' views, construct nul fuel m value c.length false = .ok (m, s0) ∧
      history acts (m, s0) = ((m', s'), views) ∧ views.length = (resultsWith acts (StringStream.new c)).2.length ∧
      (∀ (i : Nat) v w, views[i]? = some v → (resultsWith acts (StringStream.new c)).2[i]? = some w → v.1 = w.1 ∧
        (∀ p, v.2 = some p → load m' p v.1 = .ok w.2) ∧ (v.2 = none → w.2 = [])) ∧
      ((∀ f, .others f ∉ acts) → m' = m) ∧ destroy m' s' = .ok m' := by
  obtain ⟨s0, h1, h2, h3, h4⟩ := C157_shared (nul := nul) fuel h
  obtain ⟨m', s', views, e, e1, e2, e3, e4, e5, e6⟩ := C157_run acts h2 (by rw [h3]; exact ha)
  refine ⟨s0, m', s', views, h1, e, e5, e6, ?_, ?_⟩
  · intro hno
    have key : ∀ (acts : List (Act α)) (x : Memory α × Stream), (∀ f, .others f ∉ acts) → (history acts x).1.1 = x.1 := by
      intro acts
      induction acts with
      | nil => intro x _; rfl
      | cons a acts ih =>
        intro x hx
        have hx' : ∀ f, Act.others f ∉ acts := fun f z => hx f (by simp [z])
        cases a with
        | read mn mx => exact ih _ hx'
        | skip n => exact ih _ hx'
        | reset q => exact ih _ hx'
        | others f => exact absurd (by simp) (hx f)
    have := key acts (m, s0) hno
    rw [e] at this
    exact this
  · unfold destroy
    rw [e3, h4]
    simp

/-- **C157** (found while proving): a copy of 2^31 - 1 items cannot be made: the length of the block overflows. -/
theorem C157_witness_too_long {nul : α} (fuel : Nat) (m : Memory α) (value : Ptr) :
    construct nul fuel m value (2 ^ 31 - 1) true = .fault .undefined := by
  unfold construct
  rw [if_neg (by omega)]
  simp

/-- **C157** (found while proving): the length of a text without a null character in the first 2^31 items overflows. -/
theorem C157_witness_endless {nul : α} {m : Memory α} {value : Ptr} {text : List α} (h : ItemsAt m value text) (hn : nul ∉ text)
    (hl : text.length = 2 ^ 31) (copy : Bool) {fuel : Nat} (hf : 2 ^ 31 ≤ fuel) :
    construct nul fuel m value (-1) copy = .fault .undefined := by
  have key : ∀ (fuel k : Nat), k < text.length → text.length - k ≤ fuel → scan nul m value fuel k = .fault .undefined := by
    intro fuel
    induction fuel with
    | zero => intro k h1 h2; omega
    | succ fuel ih =>
      intro k h1 h2
      rw [scan, h.load (by omega) (by omega) (by omega)]
      simp only [Res.bind_ok]
      have hs : slice text k 1 = (text[k]?).toList := by
        unfold slice
        simp only [Int.toNat_natCast, show (1 : Int).toNat = 1 from rfl]
        exact take_one_drop _ _
      have hne : text[k] ≠ nul := fun z => hn (z ▸ List.getElem_mem h1)
      rw [hs, List.getElem?_eq_getElem h1]
      simp only [Option.toList_some, List.cons.injEq, and_true]
      rw [if_neg hne]
      by_cases hc : (k : Int) + 1 ≥ 2 ^ 31
      · rw [if_pos hc]
      · rw [if_neg hc]
        exact ih (k + 1) (by omega) (by omega)
  unfold construct
  rw [if_pos (by omega), show (0 : Int) = ((0 : Nat) : Int) from rfl, key fuel 0 (by omega) (by omega)]
  rfl

example : ItemsAt [some (List.replicate (2 ^ 31) 1)] (0, 0) (List.replicate (2 ^ 31) 1) ∧ 0 ∉ List.replicate (2 ^ 31) 1 :=
  ⟨⟨[], [], by simp only [List.getElem?_cons_zero, List.nil_append, List.append_nil], rfl⟩,
    fun h => absurd (List.eq_of_mem_replicate h) (by decide)⟩

/-- Others change the original and then free it: the copy is not changed. -/
example : (do
    let x ← construct 0 9 [some [1, 2, 3, 0, 7]] (0, 0) (-1) true
    let r := history [.read 1 2, .others fun m => m.set 0 (some [9, 9, 9, 9, 9]), .read 1 0, .others fun m => m.set 0 none, .reset 0] x
    let a ← load r.1.1 (1, 0) 2
    let b ← load r.1.1 (1, 2) 1
    let m ← destroy r.1.1 r.1.2
    pure (r.2, a, b, m)) = .ok ([(2, some (1, 0)), (1, some (1, 2)), (0, none)], [1, 2], [3], [none, none]) := rfl

example : LeaveAlone 1 [.read 1 2, .others fun m : Memory Nat => m.set 0 none, .reset 0] := by
  intro f hf m
  simp only [List.mem_cons, reduceCtorEq, Act.others.injEq, List.not_mem_nil, or_false, false_or] at hf
  subst hf
  rw [List.getElem?_set_ne (by decide)]

example : ItemsAt [some [1, 2, 3, 0, 7]] (0, 1) [2, 3] := ⟨[1], [0, 7], rfl, rfl⟩

/-- Without a copy a change of the original changes what was read. -/
example : (do
    let x ← construct 0 9 [some [1, 2, 3]] (0, 0) 3 false
    let r := history [.read 1 2, .others fun m => m.set 0 (some [9, 9, 9])] x
    let a ← load r.1.1 (0, 0) 2
    pure (r.2, a)) = .ok ([(2, some (0, 0))], [9, 9]) := rfl

end Strigi.Props
