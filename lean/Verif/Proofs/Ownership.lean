import Verif.Model.Ownership

/-!
# Streams of an `ArchiveReader` are deleted once
-/

namespace Strigi
namespace Owner

/-- What is deleted with the list `S`. -/
def Own (live : Nat → Option Obj) (S : List Nat) (i : Nat) : Prop := i ∈ S ∨ ∃ p ∈ S, ∃ o, live p = some o ∧ o.entry = some i

structure Frees (live : Nat → Option Obj) (S : List Nat) : Prop where
  nodup : S.Nodup
  exist : ∀ p ∈ S, ∃ o, live p = some o ∧ ∀ e, o.entry = some e → e ∉ S ∧ ∃ oe, live e = some oe ∧ oe.entry = none
  uniq : ∀ p ∈ S, ∀ q ∈ S, ∀ o o' e, live p = some o → live q = some o' → o.entry = some e → o'.entry = some e → p = q

structure Seg (live : Nat → Option Obj) (S : List Nat) : Prop extends Frees live S where
  deps : ∀ i o j, Own live S i → live i = some o → o.input = some j → Own live S j ∧ j < i

theorem Frees.own_live {live : Nat → Option Obj} {S : List Nat} (F : Frees live S) {i : Nat} (h : Own live S i) : ∃ o, live i = some o := by
  rcases h with h | ⟨p, hp, o, ho, he⟩
  · obtain ⟨o, ho, _⟩ := F.exist i h
    exact ⟨o, ho⟩
  · obtain ⟨o', ho', hx⟩ := F.exist p hp
    rw [ho] at ho'; cases ho'
    obtain ⟨_, oe, h1, _⟩ := hx i he
    exact ⟨oe, h1⟩

theorem own_congr {live live' : Nat → Option Obj} {S : List Nat} (h : ∀ p ∈ S, live' p = live p) (i : Nat) : Own live' S i ↔ Own live S i := by
  unfold Own
  constructor
  · rintro (z | ⟨p, hp, o, ho, he⟩)
    · exact Or.inl z
    · exact Or.inr ⟨p, hp, o, by rw [← h p hp]; exact ho, he⟩
  · rintro (z | ⟨p, hp, o, ho, he⟩)
    · exact Or.inl z
    · exact Or.inr ⟨p, hp, o, by rw [h p hp]; exact ho, he⟩

theorem Frees.congr {live live' : Nat → Option Obj} {S : List Nat} (F : Frees live S) (h : ∀ i, Own live S i → live' i = live i) : Frees live' S where
  nodup := F.nodup
  exist p hp := by
    obtain ⟨o, ho, hx⟩ := F.exist p hp
    refine ⟨o, by rw [h p (Or.inl hp)]; exact ho, fun e he => ?_⟩
    obtain ⟨h1, oe, h2, h3⟩ := hx e he
    exact ⟨h1, oe, by rw [h e (Or.inr ⟨p, hp, o, ho, he⟩)]; exact h2, h3⟩
  uniq p hp q hq o o' e h1 h2 := by
    rw [h p (Or.inl hp)] at h1
    rw [h q (Or.inl hq)] at h2
    exact F.uniq p hp q hq o o' e h1 h2

theorem Seg.congr {live live' : Nat → Option Obj} {S : List Nat} (F : Seg live S) (h : ∀ i, Own live S i → live' i = live i) : Seg live' S where
  toFrees := F.toFrees.congr h
  deps i o j hi ho hj := by
    have c := own_congr (fun p hp => h p (Or.inl hp))
    rw [c] at hi ⊢
    rw [h i hi] at ho
    exact F.deps i o j hi ho hj

theorem touch_ok {h : Heap} {S : List Nat} (F : Seg h.live S) : ∀ n i, i < n → Own h.live S i → touchLoop h n i = .ok ()
  | 0, _, z, _ => by omega
  | n + 1, i, hn, hi => by
    obtain ⟨o, ho⟩ := F.own_live hi
    unfold touchLoop
    rw [ho]
    dsimp only
    cases hj : o.input with
    | none => rfl
    | some j =>
      obtain ⟨h1, h2⟩ := F.deps i o j hi ho hj
      exact touch_ok F n j (by omega) h1

theorem delete_ok {h : Heap} {p : Nat} {o : Obj} (ho : h.live p = some o) (he : ∀ e, o.entry = some e → ∃ oe, h.live e = some oe) :
    ∃ h', delete h p = .ok h' ∧ h'.next = h.next ∧ ∀ i, h'.live i = if i = p ∨ o.entry = some i then none else h.live i := by
  unfold delete
  rw [ho]
  dsimp only
  cases hx : o.entry with
  | none =>
    refine ⟨_, rfl, rfl, fun i => ?_⟩
    by_cases z : i = p
    · rw [if_pos (Or.inl z)]; simp [Heap.set, z]
    · rw [if_neg (by simp [z])]; simp [Heap.set, z]
  | some e =>
    obtain ⟨oe, h1⟩ := he e hx
    dsimp only
    rw [h1]
    refine ⟨_, rfl, rfl, fun i => ?_⟩
    by_cases z : i = e
    · subst z
      rw [if_pos (Or.inr rfl)]; simp [Heap.set]
    · by_cases z' : i = p
      · rw [if_pos (Or.inl z')]; simp [Heap.set, z']
      · rw [if_neg (by rintro (w | w); exact z' w; injection w with w; exact z w.symm)]; simp [Heap.set, z, z']

theorem free_ok : ∀ (S : List Nat) (h : Heap), Frees h.live S →
    ∃ h', free h S = .ok h' ∧ h'.next = h.next ∧ (∀ i, Own h.live S i → h'.live i = none) ∧ ∀ i, ¬ Own h.live S i → h'.live i = h.live i
  | [], h, _ => ⟨h, rfl, rfl, fun i hi => (by rcases hi with z | ⟨p, z, _⟩ <;> cases z), fun i _ => rfl⟩
  | p :: S, h, F => by
    obtain ⟨o, ho, hx⟩ := F.exist p (by simp)
    obtain ⟨h1, e1, n1, l1⟩ := delete_ok ho (fun e he => by obtain ⟨_, oe, z, _⟩ := hx e he; exact ⟨oe, z⟩)
    have nd := List.nodup_cons.1 F.nodup
    have same : ∀ q ∈ S, h1.live q = h.live q := by
      intro q hq
      rw [l1, if_neg]
      rintro (z | z)
      · subst z; exact nd.1 hq
      · exact (hx q z).1 (by simp [hq])
    have F' : Frees h1.live S := by
      refine ⟨nd.2, fun q hq => ?_, fun q hq r hr o o' e z1 z2 => ?_⟩
      · obtain ⟨oq, hoq, hxq⟩ := F.exist q (by simp [hq])
        refine ⟨oq, by rw [same q hq]; exact hoq, fun e he => ?_⟩
        obtain ⟨z1, oe, z2, z3⟩ := hxq e he
        refine ⟨fun w => z1 (by simp [w]), oe, ?_, z3⟩
        rw [l1, if_neg]
        · exact z2
        · rintro (w | w)
          · subst w; exact z1 (by simp)
          · have := F.uniq p (by simp) q (by simp [hq]) o oq e ho hoq w he
            subst this; exact nd.1 hq
      · rw [same q hq] at z1; rw [same r hr] at z2
        exact F.uniq q (by simp [hq]) r (by simp [hr]) o o' e z1 z2
    obtain ⟨h2, e2, n2, l2, k2⟩ := free_ok S h1 F'
    have c := own_congr same
    refine ⟨h2, by unfold free; rw [e1, Res.bind_ok]; exact e2, by rw [n2, n1], fun i hi => ?_, fun i hi => ?_⟩
    · by_cases z : Own h1.live S i
      · exact l2 i z
      · rw [k2 i z, l1, if_pos]
        rcases hi with w | ⟨q, hq, oq, w1, w2⟩
        · rcases List.mem_cons.1 w with w | w
          · exact Or.inl w
          · exact absurd (Or.inl w) z
        · rcases List.mem_cons.1 hq with hq | hq
          · subst hq
            rw [ho] at w1; cases w1
            exact Or.inr w2
          · exact absurd ((c i).2 (Or.inr ⟨q, hq, oq, w1, w2⟩)) z
    · have z : ¬ Own h1.live S i := by
        rw [c]
        rintro (w | ⟨q, hq, w⟩)
        · exact hi (Or.inl (by simp [w]))
        · exact hi (Or.inr ⟨q, by simp [hq], w⟩)
      rw [k2 i z, l1, if_neg]
      rintro (w | w)
      · exact hi (Or.inl (by simp [w]))
      · exact hi (Or.inr ⟨p, by simp, o, ho, w⟩)

/-! ## What is built behind the objects of `h0` -/

structure Grow (h0 h : Heap) (S : List Nat) : Prop where
  next : h0.next ≤ h.next
  old : ∀ i, i < h0.next → h.live i = h0.live i
  fresh : ∀ i, h.next ≤ i → h.live i = none
  seg : Seg h.live S
  new : ∀ i, Own h.live S i → h0.next ≤ i
  cover : ∀ i, h0.next ≤ i → h.live i ≠ none → Own h.live S i

variable {h0 h : Heap} {S : List Nat}

theorem Grow.lt (G : Grow h0 h S) {i : Nat} (hi : Own h.live S i) : i < h.next := by
  obtain ⟨o, ho⟩ := G.seg.own_live hi
  rcases Nat.lt_or_ge i h.next with z | z
  · exact z
  · rw [G.fresh i z] at ho; cases ho

theorem Grow.touch (G : Grow h0 h S) {i : Nat} (hi : Own h.live S i) : touch h i = .ok () := touch_ok G.seg _ i (by omega) hi

theorem Grow.bump (G : Grow h0 h S) : Grow h0 { h with next := h.next + 1 } S :=
  ⟨by have := G.next; show _ ≤ h.next + 1; omega, G.old, fun i z => G.fresh i (by have z : h.next + 1 ≤ i := z; omega), G.seg, G.new, G.cover⟩

/-- The heap with one more object. -/
theorem alloc_live (h : Heap) (o : Obj) (i : Nat) : (alloc h o).1.live i = if i = h.next then some o else h.live i := rfl

theorem Grow.push (G : Grow h0 h S) {s : Nat} (hs : Own h.live S s) :
    Grow h0 (alloc h ⟨some s, none⟩).1 (S ++ [h.next]) ∧ ∀ i, Own (alloc h ⟨some s, none⟩).1.live (S ++ [h.next]) i ↔ Own h.live S i ∨ i = h.next := by
  have lt : ∀ i, Own h.live S i → i < h.next := fun i hi => G.lt hi
  have same : ∀ i, Own h.live S i → (alloc h ⟨some s, none⟩).1.live i = h.live i := fun i hi => by
    rw [alloc_live, if_neg (by have := lt i hi; omega)]
  have top : (alloc h ⟨some s, none⟩).1.live h.next = some ⟨some s, none⟩ := by rw [alloc_live, if_pos rfl]
  have c : ∀ i, Own (alloc h ⟨some s, none⟩).1.live (S ++ [h.next]) i ↔ Own h.live S i ∨ i = h.next := by
    intro i
    constructor
    · rintro (z | ⟨p, hp, o, ho, he⟩)
      · rcases List.mem_append.1 z with z | z
        · exact Or.inl (Or.inl z)
        · exact Or.inr (List.mem_singleton.1 z)
      · rcases List.mem_append.1 hp with hp | hp
        · rw [same p (Or.inl hp)] at ho
          exact Or.inl (Or.inr ⟨p, hp, o, ho, he⟩)
        · rw [List.mem_singleton.1 hp, top] at ho; cases ho; cases he
    · rintro (z | z)
      · rcases z with z | ⟨p, hp, o, ho, he⟩
        · exact Or.inl (List.mem_append_left _ z)
        · exact Or.inr ⟨p, List.mem_append_left _ hp, o, by rw [same p (Or.inl hp)]; exact ho, he⟩
      · exact Or.inl (by simp [z])
  refine ⟨⟨by have := G.next; show _ ≤ h.next + 1; omega, fun i hi => ?_, fun i hi => ?_, ⟨⟨?_, fun p hp => ?_, fun p hp q hq o o' e h1 h2 h3 h4 => ?_⟩,
    fun i o j hi ho hj => ?_⟩, fun i hi => ?_, fun i hi hl => ?_⟩, c⟩
  · have := G.next
    rw [alloc_live, if_neg (by omega)]; exact G.old i hi
  · have hi : h.next + 1 ≤ i := hi
    rw [alloc_live, if_neg (by omega)]; exact G.fresh i (by omega)
  · refine List.nodup_append.2 ⟨G.seg.nodup, by simp, fun a ha b hb => ?_⟩
    rw [List.mem_singleton] at hb
    have := lt a (Or.inl ha)
    omega
  · rcases List.mem_append.1 hp with hp | hp
    · obtain ⟨o, ho, hx⟩ := G.seg.exist p hp
      refine ⟨o, by rw [same p (Or.inl hp)]; exact ho, fun e he => ?_⟩
      obtain ⟨h1, oe, h2, h3⟩ := hx e he
      have oe' : Own h.live S e := Or.inr ⟨p, hp, o, ho, he⟩
      refine ⟨fun z => ?_, oe, by rw [same e oe']; exact h2, h3⟩
      rcases List.mem_append.1 z with z | z
      · exact h1 z
      · rw [List.mem_singleton] at z
        have := lt e oe'
        omega
    · rw [List.mem_singleton.1 hp]
      exact ⟨_, top, fun e he => (by cases he)⟩
  · rcases List.mem_append.1 hp with hp | hp
    · rcases List.mem_append.1 hq with hq | hq
      · rw [same p (Or.inl hp)] at h1
        rw [same q (Or.inl hq)] at h2
        exact G.seg.uniq p hp q hq o o' e h1 h2 h3 h4
      · rw [List.mem_singleton.1 hq, top] at h2; cases h2; cases h4
    · rw [List.mem_singleton.1 hp, top] at h1; cases h1; cases h3
  · rw [c]
    rcases (c i).1 hi with hi | hi
    · rw [same i hi] at ho
      obtain ⟨z1, z2⟩ := G.seg.deps i o j hi ho hj
      exact ⟨Or.inl z1, z2⟩
    · rw [hi, top] at ho; cases ho; cases hj
      exact ⟨Or.inl hs, by rw [hi]; exact lt s hs⟩
  · rcases (c i).1 hi with hi | hi
    · exact G.new i hi
    · rw [hi]; exact G.next
  · rw [c]
    by_cases z : i = h.next
    · exact Or.inr z
    · rw [alloc_live, if_neg z] at hl
      exact Or.inl (G.cover i hi hl)

/-- A decompressor that does not work is deleted at once. -/
theorem Grow.vanish (G : Grow h0 h S) (s : Nat) : delete (alloc h ⟨some s, none⟩).1 h.next = .ok { h with next := h.next + 1 } := by
  obtain ⟨h', e, n, l⟩ := delete_ok (h := (alloc h ⟨some s, none⟩).1) (p := h.next) (o := ⟨some s, none⟩) (by rw [alloc_live, if_pos rfl]) (fun e he => by cases he)
  rw [e]
  congr 1
  cases h' with
  | mk n' l' =>
    have : n' = h.next + 1 := n
    subst this
    congr 1
    funext i
    have := l i
    simp only at this
    rw [this]
    by_cases z : i = h.next
    · rw [if_pos (Or.inl z), z, G.fresh _ (Nat.le_refl _)]
    · rw [if_neg (by simp [z]), alloc_live, if_neg z]

theorem layers_ok : ∀ (l : List Bool) (h : Heap) (s : Nat) (S : List Nat), Grow h0 h S → Own h.live S s →
    ∃ h' s' S', layers h s S l = .ok (h', s', S') ∧ Grow h0 h' S' ∧ Own h'.live S' s'
  | [], h, s, S, G, hs => ⟨h, s, S, rfl, G, hs⟩
  | good :: l, h, s, S, G, hs => by
    unfold layers
    obtain ⟨G', c⟩ := G.push hs
    rw [G.touch hs, Res.bind_ok]
    dsimp only
    have hn := (c h.next).2 (Or.inr rfl)
    rw [show Owner.touch (alloc h ⟨some s, none⟩).1 (alloc h ⟨some s, none⟩).2 = .ok () from G'.touch hn, Res.bind_ok]
    cases good with
    | true =>
      rw [if_pos rfl]
      exact layers_ok l _ _ _ G' hn
    | false =>
      rw [if_neg (by simp), show delete (alloc h ⟨some s, none⟩).1 (alloc h ⟨some s, none⟩).2 = _ from G.vanish s, Res.bind_ok, G.bump.touch hs, Res.bind_ok]
      exact layers_ok l _ _ _ G.bump hs

/-- `nextEntry` of a provider on whose entry nothing else was opened. -/
theorem Grow.nextEntry (G : Grow h0 h S) {p : Nat} (hp : p ∈ S)
    (hfree : ∀ o e, h.live p = some o → o.entry = some e → ∀ i x, Own h.live S i → h.live i = some x → x.input ≠ some e) (more : Bool) :
    ∃ h' e, nextEntry h p more = .ok (h', e) ∧ Grow h0 h' S ∧ (more = true → ∃ k, e = some k ∧ Own h'.live S k) ∧
      (∀ o e, h'.live p = some o → o.entry = some e → ∀ i x, Own h'.live S i → h'.live i = some x → x.input ≠ some e) ∧
      ∀ o, h.live p = some o → ∃ o', h'.live p = some o' ∧ (more = false → o'.entry = none) := by
  obtain ⟨o, ho, hx⟩ := G.seg.exist p hp
  have ltp := G.lt (Or.inl hp)
  unfold Owner.nextEntry
  rw [G.touch (Or.inl hp), Res.bind_ok, ho]
  dsimp only
  -- the old entry is gone
  obtain ⟨h1, e1, n1, l1⟩ : ∃ h1, deleteEntry h o = .ok h1 ∧ h1.next = h.next ∧
      ∀ i, h1.live i = if o.entry = some i then none else h.live i := by
    unfold deleteEntry
    cases he : o.entry with
    | none => exact ⟨h, rfl, rfl, fun i => by simp⟩
    | some e =>
      obtain ⟨_, oe, h2, h3⟩ := hx e he
      obtain ⟨h1, e1, n1, l1⟩ := delete_ok h2 (fun x hx => by rw [h3] at hx; cases hx)
      refine ⟨h1, e1, n1, fun i => ?_⟩
      rw [l1 i, h3]
      by_cases z : i = e
      · subst z; simp
      · rw [if_neg (by simp [z]), if_neg (by simp; exact fun w => z w.symm)]
  rw [e1, Res.bind_ok]
  have notin : ∀ q ∈ S, o.entry ≠ some q := fun q hq z => (hx q z).1 hq
  have keep : ∀ q ∈ S, h1.live q = h.live q := fun q hq => by rw [l1, if_neg (notin q hq)]
  -- what the entries of the others are
  have other : ∀ q ∈ S, q ≠ p → ∀ oq e, h.live q = some oq → oq.entry = some e → o.entry ≠ some e := fun q hq hqp oq e h1 h2 h3 =>
    hqp (G.seg.uniq q hq p hp oq o e h1 ho h2 h3)
  have input : ∀ j, o.input = some j → Own h.live S j ∧ j < p := fun j hj => G.seg.deps p o j (Or.inl hp) ho hj
  -- a heap in which `p` has the entry `y`
  have build : ∀ (h' : Heap) (y : Option Nat), h.next ≤ h'.next → h'.live p = some ⟨o.input, y⟩ →
      (∀ i, i ≠ p → y ≠ some i → h'.live i = h1.live i) → (∀ k, y = some k → k = h.next ∧ h.next < h'.next ∧ h'.live k = some ⟨o.input, none⟩) →
      Grow h0 h' S ∧ (∀ k, y = some k → Own h'.live S k) ∧
      (∀ o e, h'.live p = some o → o.entry = some e → ∀ i x, Own h'.live S i → h'.live i = some x → x.input ≠ some e) := by
    intro h' y hn hpl hl hy
    have hyS : ∀ k, y = some k → k ∉ S := fun k hk hk' => by
      have := G.lt (Or.inl hk')
      have := (hy k hk).1
      omega
    have keep' : ∀ q ∈ S, q ≠ p → h'.live q = h.live q := fun q hq hqp => by
      rw [hl q hqp (fun z => hyS q z hq), keep q hq]
    have c : ∀ i, Own h'.live S i ↔ (Own h.live S i ∧ o.entry ≠ some i) ∨ y = some i := by
      intro i
      constructor
      · rintro (z | ⟨q, hq, oq, h2, h3⟩)
        · exact Or.inl ⟨Or.inl z, notin i z⟩
        · by_cases hqp : q = p
          · subst hqp
            rw [hpl] at h2; cases h2
            exact Or.inr h3
          · rw [keep' q hq hqp] at h2
            exact Or.inl ⟨Or.inr ⟨q, hq, oq, h2, h3⟩, other q hq hqp oq i h2 h3⟩
      · rintro (⟨z, hne⟩ | z)
        · rcases z with z | ⟨q, hq, oq, h2, h3⟩
          · exact Or.inl z
          · by_cases hqp : q = p
            · subst hqp
              rw [ho] at h2; cases h2
              exact absurd h3 hne
            · exact Or.inr ⟨q, hq, oq, by rw [keep' q hq hqp]; exact h2, h3⟩
        · exact Or.inr ⟨p, hp, _, hpl, z⟩
    have liv : ∀ i, Own h.live S i → o.entry ≠ some i → i ≠ p → h'.live i = h.live i := by
      intro i hi hne hip
      rw [hl i hip (fun z => by have := G.lt hi; have := (hy i z).1; omega), l1, if_neg hne]
    refine ⟨⟨by have := G.next; omega, fun i hi => ?_, fun i hi => ?_, ⟨⟨G.seg.nodup, fun q hq => ?_, fun q hq r hr oq or' e z1 z2 z3 z4 => ?_⟩,
      fun i x j hi hxi hj => ?_⟩, fun i hi => ?_, fun i hi hne => ?_⟩, fun k hk => (c k).2 (Or.inr hk), fun o' e ho' he i x hi hxi hin => ?_⟩
    · have np : i ≠ p := by
        have := G.new p (Or.inl hp); omega
      have ny : y ≠ some i := fun z => by have := (hy i z).1; have := G.next; omega
      have ne : o.entry ≠ some i := fun z => by
        have := G.new i (Or.inr ⟨p, hp, o, ho, z⟩); omega
      rw [hl i np ny, l1, if_neg ne]; exact G.old i hi
    · have np : i ≠ p := by omega
      have ny : y ≠ some i := fun z => by have := (hy i z); omega
      rw [hl i np ny, l1]
      split
      · rfl
      · exact G.fresh i (by omega)
    · by_cases hqp : q = p
      · subst hqp
        refine ⟨_, hpl, fun e he => ?_⟩
        exact ⟨hyS e he, _, (hy e he).2.2, rfl⟩
      · obtain ⟨oq, h2, h3⟩ := G.seg.exist q hq
        refine ⟨oq, by rw [keep' q hq hqp]; exact h2, fun e he => ?_⟩
        obtain ⟨h4, oe, h5, h6⟩ := h3 e he
        have oe' : Own h.live S e := Or.inr ⟨q, hq, oq, h2, he⟩
        exact ⟨h4, oe, by rw [liv e oe' (other q hq hqp oq e h2 he) (fun z => h4 (by rw [z]; exact hp))]; exact h5, h6⟩
    · by_cases hqp : q = p
      · subst hqp
        by_cases hrp : r = q
        · exact hrp.symm
        · rw [hpl] at z1; cases z1
          rw [keep' r hr hrp] at z2
          have := G.lt (i := e) (Or.inr ⟨r, hr, or', z2, z4⟩)
          have := (hy e z3).1
          omega
      · by_cases hrp : r = p
        · subst hrp
          rw [hpl] at z2; cases z2
          rw [keep' q hq hqp] at z1
          have := G.lt (i := e) (Or.inr ⟨q, hq, oq, z1, z3⟩)
          have := (hy e z4).1
          omega
        · rw [keep' q hq hqp] at z1
          rw [keep' r hr hrp] at z2
          exact G.seg.uniq q hq r hr oq or' e z1 z2 z3 z4
    · rw [c]
      have fromp : o.input = some j → (Own h.live S j ∧ o.entry ≠ some j) ∧ j < p := fun hj' =>
        ⟨⟨(input j hj').1, fun z => hfree o j ho z p o (Or.inl hp) ho hj'⟩, (input j hj').2⟩
      rcases (c i).1 hi with ⟨h2, h3⟩ | h2
      · by_cases hip : i = p
        · subst hip
          rw [hpl] at hxi; cases hxi
          obtain ⟨z1, z2⟩ := fromp hj
          exact ⟨Or.inl z1, z2⟩
        · rw [liv i h2 h3 hip] at hxi
          obtain ⟨z1, z2⟩ := G.seg.deps i x j h2 hxi hj
          exact ⟨Or.inl ⟨z1, fun z => hfree o j ho z i x h2 hxi hj⟩, z2⟩
      · obtain ⟨k1, _, k3⟩ := hy i h2
        rw [k3] at hxi; cases hxi
        obtain ⟨z1, z2⟩ := fromp hj
        exact ⟨Or.inl z1, by omega⟩
    · rcases (c i).1 hi with ⟨h2, _⟩ | h2
      · exact G.new i h2
      · have := (hy i h2).1; have := G.next; omega
    · rw [c]
      by_cases z : y = some i
      · exact Or.inr z
      · refine Or.inl ?_
        by_cases hip : i = p
        · subst hip; exact ⟨Or.inl hp, notin i hp⟩
        · rw [hl i hip z, l1] at hne
          by_cases w : o.entry = some i
          · rw [if_pos w] at hne; exact absurd rfl hne
          · rw [if_neg w] at hne
            exact ⟨G.cover i hi hne, w⟩
    · rw [hpl] at ho'; cases ho'
      have he : y = some e := he
      have ke := (hy e he).1
      have small : ∀ j, o.input = some j → j < h.next := fun j hj => by have := (input j hj).2; omega
      rcases (c i).1 hi with ⟨h2, h3⟩ | h2
      · by_cases hip : i = p
        · subst hip
          rw [hpl] at hxi; cases hxi
          have := small e hin; omega
        · rw [liv i h2 h3 hip] at hxi
          have := (G.seg.deps i x e h2 hxi hin).2
          have := G.lt h2
          omega
      · obtain ⟨_, _, k3⟩ := hy i h2
        rw [k3] at hxi; cases hxi
        have := small e hin; omega
  cases more with
  | true =>
    rw [if_pos rfl]
    have hpn : p ≠ h1.next := by omega
    obtain ⟨b1, b2, b3⟩ := build ((alloc h1 ⟨o.input, none⟩).1.set p (some ⟨o.input, some h1.next⟩)) (some h1.next) (by show _ ≤ h1.next + 1; omega)
      (by simp [Heap.set]) (fun i z1 z2 => by
        simp only [Heap.set, if_neg z1, alloc_live]
        rw [if_neg (fun w => z2 (by rw [w]))])
      (fun k hk => by
        injection hk with hk
        subst hk
        refine ⟨n1, by show _ < h1.next + 1; omega, ?_⟩
        simp only [Heap.set, if_neg (Ne.symm hpn), alloc_live, if_true])
    exact ⟨_, _, rfl, b1, fun _ => ⟨_, rfl, b2 _ rfl⟩, b3, fun _ _ => ⟨⟨o.input, some h1.next⟩, by simp [Heap.set, alloc], fun z => (by cases z)⟩⟩
  | false =>
    rw [if_neg (by simp)]
    obtain ⟨b1, b2, b3⟩ := build (h1.set p (some ⟨o.input, none⟩)) none (by show _ ≤ h1.next; omega) (by simp [Heap.set])
      (fun i z1 _ => by simp only [Heap.set, if_neg z1]) (fun k hk => by cases hk)
    exact ⟨_, _, rfl, b1, fun z => (by cases z), b3, fun _ _ => ⟨⟨o.input, none⟩, by simp [Heap.set], fun _ => rfl⟩⟩

/-- A format that is tried in vain. -/
theorem Grow.vain (G : Grow h0 h S) {s : Nat} (hs : Own h.live S s) :
    ∃ r, Owner.nextEntry (alloc h ⟨some s, none⟩).1 h.next false = .ok r ∧ delete r.1 h.next = .ok { h with next := h.next + 1 } := by
  obtain ⟨G', c⟩ := G.push hs
  have top : (alloc h ⟨some s, none⟩).1.live h.next = some ⟨some s, none⟩ := by rw [alloc_live, if_pos rfl]
  refine ⟨((alloc h ⟨some s, none⟩).1, none), ?_, G.vanish s⟩
  unfold Owner.nextEntry
  rw [G'.touch ((c _).2 (Or.inr rfl)), Res.bind_ok, top]
  dsimp only [deleteEntry]
  rw [Res.bind_ok, if_neg (by simp)]
  have : ((alloc h ⟨some s, none⟩).1.set h.next (some ⟨some s, none⟩)) = (alloc h ⟨some s, none⟩).1 := by
    unfold Heap.set
    congr 1
    funext i
    by_cases z : i = h.next
    · subst z
      rw [if_pos rfl]; exact top.symm
    · rw [if_neg z]; rfl
  rw [this]

theorem formats_ok : ∀ (n : Nat) (h : Heap) (s : Nat) (S : List Nat), Grow h0 h S → Own h.live S s →
    ∃ h', formats h s n = .ok h' ∧ Grow h0 h' S ∧ Own h'.live S s
  | 0, h, s, S, G, hs => ⟨h, rfl, G, hs⟩
  | n + 1, h, s, S, G, hs => by
    unfold formats
    obtain ⟨r, e1, e2⟩ := G.vain hs
    dsimp only
    rw [show Owner.nextEntry (alloc h ⟨some s, none⟩).1 (alloc h ⟨some s, none⟩).2 false = _ from e1, Res.bind_ok,
      show delete r.1 (alloc h ⟨some s, none⟩).2 = _ from e2, Res.bind_ok, G.bump.touch hs, Res.bind_ok]
    exact formats_ok n _ s S G.bump hs

/-- Everything behind `h0` is gone. -/
def Gone (h0 h : Heap) : Prop := h0.next ≤ h.next ∧ ∀ i, h.live i = h0.live i

theorem Grow.gone (G : Grow h0 h S) (f : ∀ i, h0.next ≤ i → h0.live i = none) : ∃ h', free h S = .ok h' ∧ Gone h0 h' := by
  obtain ⟨h', e, n, l, k⟩ := free_ok S h G.seg.toFrees
  refine ⟨h', e, by rw [n]; exact G.next, fun i => ?_⟩
  by_cases z : Own h.live S i
  · rw [l i z, f i (G.new i z)]
  · rw [k i z]
    rcases Nat.lt_or_ge i h0.next with w | w
    · exact G.old i w
    · rw [f i w]
      cases hx : h.live i with
      | none => rfl
      | some o => exact absurd (G.cover i w (by rw [hx]; simp)) z

/-- No stream reads from the entry of `p`. -/
def Leaf (h : Heap) (S : List Nat) (p : Nat) : Prop :=
  ∀ o e, h.live p = some o → o.entry = some e → ∀ i x, Own h.live S i → h.live i = some x → x.input ≠ some e

theorem subStreamProvider_ok (f : ∀ i, h0.next ≤ i → h0.live i = none) (q : Probe) {s : Nat} (G : Grow h0 h S) (hs : Own h.live S s) :
    ∃ h' r S', subStreamProvider h q (some s) S = .ok (h', r, S') ∧
      match (generalizing := false) r with
      | none => S' = [] ∧ Gone h0 h'
      | some (p, e) => Grow h0 h' S' ∧ p ∈ S' ∧ Leaf h' S' p ∧ ∃ k, e = some k ∧ Own h'.live S' k := by
  unfold subStreamProvider
  dsimp only
  obtain ⟨h1, s1, S1, e1, G1, o1⟩ := layers_ok q.layers h s S G hs
  rw [e1, Res.bind_ok]
  dsimp only
  rw [G1.touch o1, Res.bind_ok]
  obtain ⟨h2, e2, G2, o2⟩ := formats_ok q.vain h1 s1 S1 G1 o1
  rw [e2, Res.bind_ok]
  cases q.found with
  | false =>
    rw [if_neg (by simp)]
    obtain ⟨h3, e3, g3⟩ := G2.gone f
    rw [e3, Res.bind_ok]
    exact ⟨_, _, _, rfl, rfl, g3⟩
  | true =>
    rw [if_pos rfl]
    obtain ⟨G3, c⟩ := G2.push o2
    have top : (alloc h2 ⟨some s1, none⟩).1.live h2.next = some ⟨some s1, none⟩ := by rw [alloc_live, if_pos rfl]
    obtain ⟨h4, e, e4, G4, en, lf, _⟩ := G3.nextEntry (p := h2.next) (by simp) (fun o e h1 h2 => by rw [top] at h1; cases h1; cases h2) true
    rw [show Owner.nextEntry (alloc h2 ⟨some s1, none⟩).1 (alloc h2 ⟨some s1, none⟩).2 true = _ from e4, Res.bind_ok]
    exact ⟨_, _, _, rfl, G4, (by simp [alloc]), lf, en rfl⟩

theorem skipEntries_ok : ∀ (n : Nat) (h : Heap) (p : Nat) (e : Option Nat), Grow h0 h S → p ∈ S → Leaf h S p → (∃ k, e = some k ∧ Own h.live S k) →
    ∃ h' e', skipEntries h p e n = .ok (h', e') ∧ Grow h0 h' S ∧ Leaf h' S p ∧ ∃ k, e' = some k ∧ Own h'.live S k
  | 0, h, p, e, G, hp, L, z => ⟨h, e, rfl, G, L, z⟩
  | n + 1, h, p, e, G, hp, L, z => by
    unfold skipEntries
    obtain ⟨h', e', e1, G', en, L', _⟩ := G.nextEntry hp L true
    rw [e1, Res.bind_ok]
    exact skipEntries_ok n h' p e' G' hp L' (en rfl)

/-- What `openStream` leaves: nothing, or streams that are registered. -/
def Outcome (h0 : Heap) (m : Open) (h' : Heap) (m' : Open) (r : Option Nat) (last : Prop) : Prop :=
  (m' = m ∧ r = none ∧ Gone h0 h') ∨ ∃ k S', m' = register m k S' ∧ Grow h0 h' S' ∧ Own h'.live S' k ∧ (r = some k ∨ (r = none ∧ last))

theorem rounds_none (f : ∀ i, h0.next ≤ i → h0.live i = none) (m : Open) (l : List Round) (G : Grow h0 h S) :
    ∃ h', rounds h m none S l = .ok (h', m, none) ∧ Gone h0 h' := by
  obtain ⟨h3, e3, g3⟩ := G.gone f
  unfold rounds
  cases l with
  | nil =>
    dsimp only
    rw [e3, Res.bind_ok]
    exact ⟨_, rfl, g3⟩
  | cons r l =>
    unfold subStreamProvider
    dsimp only
    rw [Res.bind_ok]
    dsimp only
    rw [e3, Res.bind_ok]
    exact ⟨_, rfl, g3⟩

theorem rounds_ok (f : ∀ i, h0.next ≤ i → h0.live i = none) (m : Open) : ∀ (l : List Round) (h : Heap) (k : Nat) (S : List Nat),
    Grow h0 h S → Own h.live S k → ∃ h' m' r, rounds h m (some k) S l = .ok (h', m', r) ∧ Outcome h0 m h' m' r (l = [])
  | [], h, k, S, G, hs => ⟨_, _, _, rfl, Or.inr ⟨k, S, rfl, G, hs, Or.inr ⟨rfl, rfl⟩⟩⟩
  | r :: l, h, k, S, G, hs => by
    unfold rounds
    obtain ⟨h1, r1, S1, e1, z⟩ := subStreamProvider_ok f r.probe G hs
    rw [e1, Res.bind_ok]
    cases r1 with
    | none =>
      obtain ⟨z1, z2⟩ := z
      subst z1
      dsimp only
      unfold free
      rw [Res.bind_ok]
      exact ⟨_, _, _, rfl, Or.inl ⟨rfl, rfl, z2⟩⟩
    | some pe =>
      obtain ⟨p, e⟩ := pe
      obtain ⟨G1, hp, L1, en⟩ := z
      dsimp only
      obtain ⟨h2, e2, e3, G2, L2, k2, z1, z2⟩ := skipEntries_ok r.skipped h1 p e G1 hp L1 en
      rw [e3, Res.bind_ok]
      dsimp only
      subst z1
      split
      · dsimp only
        cases l with
        | nil => exact ⟨_, _, _, rfl, Or.inr ⟨k2, S1, rfl, G2, z2, Or.inl rfl⟩⟩
        | cons r' l =>
          obtain ⟨h', m', r, e, o⟩ := rounds_ok f m (r' :: l) h2 k2 S1 G2 z2
          refine ⟨h', m', r, e, ?_⟩
          rcases o with o | ⟨k, S', o1, o2, o3, o4 | o4⟩
          · exact Or.inl o
          · exact Or.inr ⟨k, S', o1, o2, o3, Or.inl o4⟩
          · cases o4.2
      · obtain ⟨h3, e3, e4, G3, _⟩ := G2.nextEntry hp L2 false
        rw [e4, Res.bind_ok]
        obtain ⟨h4, e5, g⟩ := rounds_none f m l G3
        exact ⟨_, _, _, e5, Or.inl ⟨rfl, rfl, g⟩⟩

/-- A file that is opened is the first of the streams. -/
theorem grow_root (f : ∀ i, h0.next ≤ i → h0.live i = none) (S : List Nat) (hS : S = [h0.next]) : Grow h0 (alloc h0 ⟨none, none⟩).1 S := by
  subst hS
  have top : (alloc h0 ⟨none, none⟩).1.live h0.next = some ⟨none, none⟩ := by rw [alloc_live, if_pos rfl]
  have c : ∀ i, Own (alloc h0 ⟨none, none⟩).1.live [h0.next] i ↔ i = h0.next := by
    intro i
    constructor
    · rintro (z | ⟨p, hp, o, ho, he⟩)
      · exact List.mem_singleton.1 z
      · rw [List.mem_singleton.1 hp, top] at ho; cases ho; cases he
    · intro z; exact Or.inl (by simp [z])
  refine ⟨Nat.le_succ _, fun i hi => ?_, fun i hi => ?_, ⟨⟨by simp, fun p hp => ?_, fun p hp q hq _ _ _ _ _ _ _ => ?_⟩, fun i o j hi ho hj => ?_⟩, fun i hi => ?_,
    fun i hi hl => ?_⟩
  · rw [alloc_live, if_neg (by omega)]
  · have hi : h0.next + 1 ≤ i := hi
    rw [alloc_live, if_neg (by omega)]; exact f i (by omega)
  · rw [List.mem_singleton.1 hp]
    exact ⟨_, top, fun e he => (by cases he)⟩
  · rw [List.mem_singleton.1 hp, List.mem_singleton.1 hq]
  · rw [(c i).1 hi, top] at ho; cases ho; cases hj
  · rw [(c i).1 hi]; exact Nat.le_refl _
  · rw [c]
    rcases Nat.lt_or_ge h0.next i with z | z
    · rw [alloc_live, if_neg (by omega), f i (by omega)] at hl; exact absurd rfl hl
    · omega

theorem bind_ok_inv {α β : Type} {x : Res α} {f : α → Res β} {b : β} (h : (x >>= f) = .ok b) : ∃ a, x = .ok a ∧ f a = .ok b := by
  cases x with
  | ok a => exact ⟨a, rfl, h⟩
  | fault e => cases h
  | diverge => cases h

/-- The list of streams goes on at its end. -/
theorem layers_append : ∀ (l : List Bool) (h : Heap) (s : Nat) (S : List Nat),
    layers h s S l = (layers h s [] l).bind fun r => .ok (r.1, r.2.1, S ++ r.2.2)
  | [], h, s, S => by unfold layers; simp [Res.bind]
  | good :: l, h, s, S => by
    unfold layers
    cases touch h s with
    | fault _ => rfl
    | diverge => rfl
    | ok u =>
      rw [Res.bind_ok, Res.bind_ok]
      dsimp only
      cases Owner.touch (alloc h ⟨some s, none⟩).1 (alloc h ⟨some s, none⟩).2 with
      | fault _ => rfl
      | diverge => rfl
      | ok u =>
        rw [Res.bind_ok, Res.bind_ok]
        cases good with
        | true =>
          rw [if_pos rfl, if_pos rfl, layers_append l _ _ (S ++ _), layers_append l _ _ ([] ++ _)]
          cases layers (alloc h ⟨some s, none⟩).1 (alloc h ⟨some s, none⟩).2 [] l with
          | fault _ => rfl
          | diverge => rfl
          | ok r => simp [Res.bind]
        | false =>
          rw [if_neg (by simp), if_neg (by simp)]
          cases delete (alloc h ⟨some s, none⟩).1 (alloc h ⟨some s, none⟩).2 with
          | fault _ => rfl
          | diverge => rfl
          | ok h1 =>
            rw [Res.bind_ok, Res.bind_ok]
            cases touch h1 s with
            | fault _ => rfl
            | diverge => rfl
            | ok u =>
              rw [Res.bind_ok, Res.bind_ok]
              exact layers_append l h1 s S

/-- The file is deleted last. -/
theorem free_tail {h : Heap} {r : Nat} {T : List Nat} (F : Frees h.live (r :: T)) :
    ∃ h1 h2, free h T = .ok h1 ∧ delete h1 r = .ok h2 ∧ h2.next = h.next ∧ (∀ i, Own h.live (r :: T) i → h2.live i = none) ∧
      ∀ i, ¬ Own h.live (r :: T) i → h2.live i = h.live i := by
  have nd := List.nodup_cons.1 F.nodup
  obtain ⟨o, ho, hx⟩ := F.exist r (by simp)
  have F' : Frees h.live T := ⟨nd.2, fun p hp => (by
      obtain ⟨o, ho, hx⟩ := F.exist p (by simp [hp])
      exact ⟨o, ho, fun e he => ⟨fun z => (hx e he).1 (by simp [z]), (hx e he).2⟩⟩),
    fun p hp q hq => F.uniq p (by simp [hp]) q (by simp [hq])⟩
  obtain ⟨h1, e1, n1, l1, k1⟩ := free_ok T h F'
  have nr : ¬ Own h.live T r := by
    rintro (z | ⟨p, hp, o', ho', he⟩)
    · exact nd.1 z
    · obtain ⟨o2, ho2, hx2⟩ := F.exist p (by simp [hp])
      rw [ho'] at ho2; cases ho2
      exact (hx2 r he).1 (by simp)
  have ne : ∀ e, o.entry = some e → ¬ Own h.live T e := by
    rintro e he (z | ⟨p, hp, o', ho', he'⟩)
    · exact (hx e he).1 (by simp [z])
    · have := F.uniq r (by simp) p (by simp [hp]) o o' e ho ho' he he'
      subst this; exact nd.1 hp
  obtain ⟨h2, e2, n2, l2⟩ := delete_ok (h := h1) (p := r) (o := o) (by rw [k1 r nr]; exact ho) (fun e he => by
    obtain ⟨_, oe, z, _⟩ := hx e he
    exact ⟨oe, by rw [k1 e (ne e he)]; exact z⟩)
  refine ⟨h1, h2, e1, e2, by rw [n2, n1], fun i hi => ?_, fun i hi => ?_⟩
  · rw [l2]
    by_cases z : i = r ∨ o.entry = some i
    · rw [if_pos z]
    · rw [if_neg z]
      apply l1
      rcases hi with w | ⟨p, hp, o', ho', he⟩
      · rcases List.mem_cons.1 w with w | w
        · exact absurd (Or.inl w) z
        · exact Or.inl w
      · rcases List.mem_cons.1 hp with w | w
        · subst w
          rw [ho] at ho'; cases ho'
          exact absurd (Or.inr he) z
        · exact Or.inr ⟨p, w, o', ho', he⟩
  · rw [l2, if_neg, k1]
    · rintro (w | ⟨p, hp, w⟩)
      · exact hi (Or.inl (by simp [w]))
      · exact hi (Or.inr ⟨p, by simp [hp], w⟩)
    · rintro (w | w)
      · exact hi (Or.inl (by simp [w]))
      · exact hi (Or.inr ⟨r, by simp, o, ho, w⟩)

theorem Grow.gone_tail {r : Nat} {T : List Nat} (G : Grow h0 h (r :: T)) (f : ∀ i, h0.next ≤ i → h0.live i = none) :
    ∃ h1 h2, free h T = .ok h1 ∧ delete h1 r = .ok h2 ∧ Gone h0 h2 := by
  obtain ⟨h1, h2, e1, e2, n, l, k⟩ := free_tail G.seg.toFrees
  refine ⟨h1, h2, e1, e2, by rw [n]; exact G.next, fun i => ?_⟩
  by_cases z : Own h.live (r :: T) i
  · rw [l i z, f i (G.new i z)]
  · rw [k i z]
    rcases Nat.lt_or_ge i h0.next with w | w
    · exact G.old i w
    · rw [f i w]
      cases hx : h.live i with
      | none => rfl
      | some o => exact absurd (G.cover i w (by rw [hx]; simp)) z

theorem probeFile_ok (f : ∀ i, h0.next ≤ i → h0.live i = none) (q : Option Probe) : ∃ h', probeFile h0 q = .ok h' ∧ Gone h0 h' := by
  unfold probeFile
  cases q with
  | none => exact ⟨h0, rfl, Nat.le_refl _, fun _ => rfl⟩
  | some q =>
    dsimp only [alloc]
    have G := grow_root f [h0.next] rfl
    unfold subStreamProvider
    dsimp only
    obtain ⟨h1, s1, S1, e1, G1, o1⟩ := layers_ok q.layers (alloc h0 ⟨none, none⟩).1 h0.next [h0.next] G (Or.inl (by simp))
    rw [layers_append] at e1
    obtain ⟨⟨h1', s1', T⟩, e1', e1⟩ := bind_ok_inv e1
    injection e1 with e1
    injection e1 with q1 e1
    injection e1 with q2 q3
    dsimp only at q1 q2 q3
    subst q1; subst q2; subst q3
    change layers { next := h0.next + 1, live := fun k => if k = h0.next then some ⟨none, none⟩ else h0.live k } h0.next [] q.layers = _ at e1'
    rw [e1', Res.bind_ok]
    dsimp only
    rw [G1.touch o1, Res.bind_ok]
    obtain ⟨h2, e2, G2, o2⟩ := formats_ok q.vain h1' s1' _ G1 o1
    rw [e2, Res.bind_ok]
    cases q.found with
    | false =>
      rw [if_neg (by simp)]
      obtain ⟨h3, h4, e3, e4, g⟩ := G2.gone_tail f
      rw [show free h2 T = _ from e3, Res.bind_ok, Res.bind_ok]
      dsimp only
      rw [Res.bind_ok]
      exact ⟨h4, e4, g⟩
    | true =>
      rw [if_pos rfl]
      obtain ⟨G3, c⟩ := G2.push o2
      have top : (Owner.alloc h2 ⟨some s1', none⟩).1.live h2.next = some ⟨some s1', none⟩ := by rw [alloc_live, if_pos rfl]
      obtain ⟨h4, e, e4, G4, _⟩ := G3.nextEntry (p := h2.next) (by simp) (fun o e h1 h2 => by rw [top] at h1; cases h1; cases h2) true
      obtain ⟨h5, h6, e5, e6, g⟩ := Grow.gone_tail (r := h0.next) (T := T ++ [h2.next]) G4 f
      rw [show Owner.nextEntry (Owner.alloc h2 ⟨some s1', none⟩).1 (Owner.alloc h2 ⟨some s1', none⟩).2 true = _ from e4, Res.bind_ok, Res.bind_ok]
      dsimp only
      rw [show free h4 (T ++ [(Owner.alloc h2 ⟨some s1', none⟩).2]) = _ from e5, Res.bind_ok]
      exact ⟨h6, e6, g⟩

/-! ## The streams that a client has -/

structure Inv (s : State) : Prop where
  fresh : ∀ i, s.heap.next ≤ i → s.heap.live i = none
  segs : ∀ x ∈ s.opened, Seg s.heap.live x.2 ∧ Own s.heap.live x.2 x.1
  apart : s.opened.Pairwise fun x y => ∀ i, Own s.heap.live x.2 i → ¬ Own s.heap.live y.2 i
  nodup : s.mine.Nodup
  have_ : ∀ i ∈ s.mine, (∃ x ∈ s.opened, x.1 = i) ∨ (s.heap.live i = some ⟨none, none⟩ ∧ ∀ x ∈ s.opened, ¬ Own s.heap.live x.2 i)
  cover : ∀ i, s.heap.live i ≠ none → (i ∈ s.mine ∧ ∀ x ∈ s.opened, ¬ Own s.heap.live x.2 i) ∨ ∃ x ∈ s.opened, Own s.heap.live x.2 i

theorem Inv.new : Inv State.new :=
  ⟨fun _ _ => rfl, fun x hx => (by cases hx), List.Pairwise.nil, List.nodup_nil, fun i hi => (by cases hi), fun i hi => absurd rfl hi⟩

variable {s : State}

theorem Inv.lt (I : Inv s) {i : Nat} (hi : s.heap.live i ≠ none) : i < s.heap.next := by
  rcases Nat.lt_or_ge i s.heap.next with z | z
  · exact z
  · exact absurd (I.fresh i z) hi

theorem Inv.own_lt (I : Inv s) {x : Nat × List Nat} (hx : x ∈ s.opened) {i : Nat} (hi : Own s.heap.live x.2 i) : i < s.heap.next := by
  obtain ⟨o, ho⟩ := (I.segs x hx).1.own_live hi
  exact I.lt (by rw [ho]; simp)

theorem Inv.mine_lt (I : Inv s) {i : Nat} (hi : i ∈ s.mine) : i < s.heap.next := by
  rcases I.have_ i hi with ⟨x, hx, e⟩ | ⟨e, _⟩
  · subst e
    exact I.own_lt hx (I.segs x hx).2
  · exact I.lt (by rw [e]; simp)

theorem Inv.apart' (I : Inv s) {x y : Nat × List Nat} (hx : x ∈ s.opened) (hy : y ∈ s.opened) (hne : x ≠ y) {i : Nat} (hi : Own s.heap.live x.2 i) :
    ¬ Own s.heap.live y.2 i := by
  intro hj
  have sym : s.opened.Pairwise fun x y => (∀ i, Own s.heap.live x.2 i → ¬ Own s.heap.live y.2 i) := I.apart
  have : ∀ a ∈ s.opened, ∀ b ∈ s.opened, a ≠ b → ∀ i, Own s.heap.live a.2 i → ¬ Own s.heap.live b.2 i := by
    intro a ha b hb hab
    revert a b
    generalize s.opened = L at sym
    induction L with
    | nil => intro a ha; cases ha
    | cons z L ih =>
      have z1 := List.pairwise_cons.1 sym
      intro a ha b hb hab
      rcases List.mem_cons.1 ha with va | va <;> rcases List.mem_cons.1 hb with vb | vb
      · exact absurd (va.trans vb.symm) hab
      · subst va; exact z1.1 b vb
      · subst vb; exact fun i h1 h2 => z1.1 a va i h2 h1
      · exact ih z1.2 a va b vb hab
  exact this x hx y hy hne i hi hj

/-- Nothing has changed. -/
theorem Inv.same (I : Inv s) {h : Heap} (g : Gone s.heap h) : Inv { s with heap := h } := by
  have e : h.live = s.heap.live := funext g.2
  refine ⟨fun i hi => ?_, fun x hx => ?_, ?_, I.nodup, fun i hi => ?_, fun i hi => ?_⟩
  · show h.live i = none
    have hi : h.next ≤ i := hi
    rw [e]; exact I.fresh i (Nat.le_trans g.1 hi)
  · show Seg h.live x.2 ∧ _
    dsimp only
    rw [e]; exact I.segs x hx
  · dsimp only
    rw [e]; exact I.apart
  · dsimp only
    rw [e]; exact I.have_ i hi
  · dsimp only at hi ⊢
    rw [e] at hi ⊢; exact I.cover i hi

/-- Streams have been added. -/
theorem Inv.add (I : Inv s) {h : Heap} {k : Nat} {T : List Nat} (G : Grow s.heap h T) (hk : Own h.live T k) (r : Option Nat) (hr : r = none ∨ r = some k) :
    Inv ⟨h, (k, T) :: s.opened, r.toList ++ s.mine⟩ := by
  have same : ∀ x ∈ s.opened, ∀ i, Own s.heap.live x.2 i → h.live i = s.heap.live i := fun x hx i hi => G.old i (I.own_lt hx hi)
  have c : ∀ x ∈ s.opened, ∀ i, Own h.live x.2 i ↔ Own s.heap.live x.2 i := fun x hx i => own_congr (fun p hp => same x hx p (Or.inl hp)) i
  have new : ∀ x ∈ s.opened, ∀ i, Own h.live T i → ¬ Own h.live x.2 i := fun x hx i h1 h2 => by
    have := G.new i h1
    have := I.own_lt hx ((c x hx i).1 h2)
    omega
  refine ⟨G.fresh, fun x hx => ?_, List.pairwise_cons.2 ⟨fun x hx => new x hx, ?_⟩, ?_, fun i hi => ?_, fun i hi => ?_⟩
  · rcases List.mem_cons.1 hx with hx | hx
    · subst hx; exact ⟨G.seg, hk⟩
    · exact ⟨(I.segs x hx).1.congr (same x hx), (c x hx _).2 (I.segs x hx).2⟩
  · have := I.apart
    refine List.Pairwise.imp_of_mem ?_ this
    intro a b ha hb hab i h1 h2
    exact hab i ((c a ha i).1 h1) ((c b hb i).1 h2)
  · rcases hr with hr | hr <;> subst hr
    · exact I.nodup
    · refine List.nodup_cons.2 ⟨fun z => ?_, I.nodup⟩
      have := I.mine_lt z
      have := G.new k hk
      omega
  · have old : i ∈ s.mine → (∃ x ∈ (k, T) :: s.opened, x.1 = i) ∨ (h.live i = some ⟨none, none⟩ ∧ ∀ x ∈ (k, T) :: s.opened, ¬ Own h.live x.2 i) := by
      intro hi
      rcases I.have_ i hi with ⟨x, hx, e⟩ | ⟨e, z⟩
      · exact Or.inl ⟨x, List.mem_cons_of_mem _ hx, e⟩
      · refine Or.inr ⟨by rw [G.old i (I.mine_lt hi)]; exact e, fun x hx => ?_⟩
        rcases List.mem_cons.1 hx with hx | hx
        · subst hx
          intro w
          have := G.new i w
          have := I.mine_lt hi
          omega
        · rw [c x hx]; exact z x hx
    rcases hr with hr | hr <;> subst hr
    · exact old hi
    · rcases List.mem_cons.1 hi with hi | hi
      · exact Or.inl ⟨_, List.mem_cons_self .., hi.symm⟩
      · exact old hi
  · dsimp only at hi ⊢
    rcases Nat.lt_or_ge i s.heap.next with z | z
    · rw [G.old i z] at hi
      rcases I.cover i hi with ⟨w1, w2⟩ | ⟨x, hx, w⟩
      · refine Or.inl ⟨List.mem_append_right _ w1, fun x hx => ?_⟩
        rcases List.mem_cons.1 hx with hx | hx
        · subst hx
          intro w
          have := G.new i w
          omega
        · rw [c x hx]; exact w2 x hx
      · exact Or.inr ⟨x, List.mem_cons_of_mem _ hx, (c x hx i).2 w⟩
    · exact Or.inr ⟨_, List.mem_cons_self .., G.cover i z hi⟩

theorem Inv.open_ (I : Inv s) (f : Finds) : ∃ s', s.call (.openStream f) = .ok s' ∧ Inv s' ∧ (f ≠ .inside [] → (∀ x ∈ s.opened, x.1 ∈ s.mine) → ∀ x ∈ s'.opened, x.1 ∈ s'.mine) := by
  unfold State.call openStream
  cases f with
  | nothing => exact ⟨s, rfl, I, fun _ z => z⟩
  | direct =>
    dsimp only
    rw [Res.bind_ok]
    dsimp only
    refine ⟨_, rfl, ?_, fun _ z x hx => List.mem_cons_of_mem _ (z x hx)⟩
    have same : ∀ i, i < s.heap.next → (alloc s.heap ⟨none, none⟩).1.live i = s.heap.live i := fun i hi => by rw [alloc_live, if_neg (by omega)]
    have top : (alloc s.heap ⟨none, none⟩).1.live s.heap.next = some ⟨none, none⟩ := by rw [alloc_live, if_pos rfl]
    have c : ∀ x ∈ s.opened, ∀ i, Own (alloc s.heap ⟨none, none⟩).1.live x.2 i ↔ Own s.heap.live x.2 i := fun x hx i =>
      own_congr (fun p hp => same p (I.own_lt hx (Or.inl hp))) i
    refine ⟨fun i hi => ?_, fun x hx => ?_, ?_, List.nodup_cons.2 ⟨fun z => ?_, I.nodup⟩, fun i hi => ?_, fun i hi => ?_⟩
    · have hi : s.heap.next + 1 ≤ i := hi
      show (alloc s.heap ⟨none, none⟩).1.live i = none
      rw [alloc_live, if_neg (by omega)]; exact I.fresh i (by omega)
    · exact ⟨(I.segs x hx).1.congr (fun i hi => same i (I.own_lt hx hi)), (c x hx _).2 (I.segs x hx).2⟩
    · refine List.Pairwise.imp_of_mem ?_ I.apart
      intro a b ha hb hab i h1 h2
      exact hab i ((c a ha i).1 h1) ((c b hb i).1 h2)
    · have : s.heap.next < s.heap.next := I.mine_lt z
      omega
    · rcases List.mem_cons.1 hi with hi | hi
      · have hi : i = s.heap.next := hi
        subst hi
        refine Or.inr ⟨top, fun x hx w => ?_⟩
        have := I.own_lt hx ((c x hx _).1 w)
        omega
      · rcases I.have_ i hi with w | ⟨w1, w2⟩
        · exact Or.inl w
        · exact Or.inr ⟨by rw [← w1]; exact same i (I.mine_lt hi), fun x hx w => w2 x hx ((c x hx _).1 w)⟩
    · by_cases z : i = s.heap.next
      · subst z
        refine Or.inl ⟨List.mem_cons_self .., fun x hx w => ?_⟩
        have := I.own_lt hx ((c x hx _).1 w)
        omega
      · have hi : s.heap.live i ≠ none := by
          have hi : (alloc s.heap ⟨none, none⟩).1.live i ≠ none := hi
          rw [alloc_live, if_neg z] at hi; exact hi
        rcases I.cover i hi with ⟨w1, w2⟩ | ⟨x, hx, w⟩
        · exact Or.inl ⟨List.mem_cons_of_mem _ w1, fun x hx w => w2 x hx ((c x hx _).1 w)⟩
        · exact Or.inr ⟨x, hx, (c x hx i).2 w⟩
  | inside l =>
    dsimp only
    have G := grow_root I.fresh [s.heap.next] rfl
    obtain ⟨h', m', r, e, o⟩ := rounds_ok I.fresh s.opened l (alloc s.heap ⟨none, none⟩).1 s.heap.next [s.heap.next] G (Or.inl (by simp))
    rw [show rounds _ s.opened (some (alloc s.heap ⟨none, none⟩).2) [(alloc s.heap ⟨none, none⟩).2] l = _ from e, Res.bind_ok]
    dsimp only
    rcases o with ⟨o1, o2, o3⟩ | ⟨k, T, o1, o2, o3, o4⟩
    · subst o1; subst o2
      exact ⟨_, rfl, I.same o3, fun _ z => z⟩
    · have keys : register s.opened k T = (k, T) :: s.opened := by
        unfold register
        congr 1
        refine List.filter_eq_self.2 fun x hx => ?_
        have := I.own_lt hx (I.segs x hx).2
        have := o2.new k o3
        simp only [ne_eq, decide_eq_true_eq]
        omega
      rw [keys] at o1
      subst o1
      rcases o4 with o4 | ⟨o4, o5⟩
      · subst o4
        refine ⟨_, rfl, I.add o2 o3 (some k) (Or.inr rfl), fun _ z x hx => ?_⟩
        rcases List.mem_cons.1 hx with hx | hx
        · subst hx; exact List.mem_cons_self ..
        · exact List.mem_cons_of_mem _ (z x hx)
      · subst o4; subst o5
        exact ⟨_, rfl, I.add o2 o3 none (Or.inl rfl), fun z => absurd rfl z⟩

/-- A stream that the client has can be used. -/
theorem Inv.use (I : Inv s) {i : Nat} (hi : i ∈ s.mine) : touch s.heap i = .ok () := by
  rcases I.have_ i hi with ⟨x, hx, e⟩ | ⟨e, _⟩
  · subst e
    obtain ⟨F, o⟩ := I.segs x hx
    exact touch_ok F _ _ (by omega) o
  · unfold touch touchLoop
    rw [e]

/-- Objects are deleted that no other stream needs. -/
theorem Inv.drop (I : Inv s) {h : Heap} {k : Nat} (n : h.next = s.heap.next) (gone : h.live k = none)
    (same : ∀ x ∈ s.opened, x.1 ≠ k → ∀ i, Own s.heap.live x.2 i → h.live i = s.heap.live i)
    (rest : ∀ i, h.live i ≠ none → h.live i = s.heap.live i ∧ ∀ x ∈ s.opened, x.1 = k → ¬ Own s.heap.live x.2 i)
    (mine : ∀ i ∈ s.mine, i ≠ k → (∀ x ∈ s.opened, ¬ Own s.heap.live x.2 i) → h.live i = s.heap.live i) :
    Inv ⟨h, s.opened.filter fun y => y.1 ≠ k, s.mine.erase k⟩ := by
  have mem : ∀ x, x ∈ s.opened.filter (fun y => y.1 ≠ k) ↔ x ∈ s.opened ∧ x.1 ≠ k := fun x => by simp
  have merase : ∀ i, i ∈ s.mine.erase k ↔ i ≠ k ∧ i ∈ s.mine := fun i => I.nodup.mem_erase_iff
  have c : ∀ x ∈ s.opened, x.1 ≠ k → ∀ i, Own h.live x.2 i ↔ Own s.heap.live x.2 i := fun x hx hne i =>
    own_congr (fun p hp => same x hx hne p (Or.inl hp)) i
  refine ⟨fun i hi => ?_, fun x hx => ?_, ?_, I.nodup.erase _, fun i hi => ?_, fun i hi => ?_⟩
  · cases e : h.live i with
    | none => rfl
    | some o =>
      have := (rest i (by rw [e]; simp)).1
      have hi : h.next ≤ i := hi
      rw [I.fresh i (by omega), e] at this
      cases this
  · obtain ⟨h1, h2⟩ := (mem x).1 hx
    exact ⟨(I.segs x h1).1.congr (same x h1 h2), (c x h1 h2 _).2 (I.segs x h1).2⟩
  · refine List.Pairwise.imp_of_mem ?_ (I.apart.filter _)
    intro a b ha hb hab i h1 h2
    obtain ⟨ha1, ha2⟩ := (mem a).1 ha
    obtain ⟨hb1, hb2⟩ := (mem b).1 hb
    exact hab i ((c a ha1 ha2 i).1 h1) ((c b hb1 hb2 i).1 h2)
  · obtain ⟨h1, h2⟩ := (merase i).1 hi
    rcases I.have_ i h2 with ⟨x, hx, e⟩ | ⟨w1, w2⟩
    · exact Or.inl ⟨x, (mem x).2 ⟨hx, by rw [e]; exact h1⟩, e⟩
    · refine Or.inr ⟨by rw [← w1]; exact mine i h2 h1 w2, fun x hx => ?_⟩
      obtain ⟨z1, z2⟩ := (mem x).1 hx
      rw [c x z1 z2]; exact w2 x z1
  · have hi : h.live i ≠ none := hi
    obtain ⟨r1, r2⟩ := rest i hi
    rcases I.cover i (by rw [← r1]; exact hi) with ⟨w1, w2⟩ | ⟨x, hx, w⟩
    · refine Or.inl ⟨(merase i).2 ⟨fun z => hi (by rw [z]; exact gone), w1⟩, fun x hx => ?_⟩
      obtain ⟨z1, z2⟩ := (mem x).1 hx
      rw [c x z1 z2]; exact w2 x z1
    · have hne : x.1 ≠ k := fun z => r2 x hx z w
      exact Or.inr ⟨x, (mem x).2 ⟨hx, hne⟩, (c x hx hne i).2 w⟩

theorem Inv.close (I : Inv s) {k : Nat} (hk : k ∈ s.mine) :
    ∃ h m, closeStream s.heap s.opened k = .ok (h, m) ∧ Inv ⟨h, m, s.mine.erase k⟩ ∧ ∀ x ∈ m, x ∈ s.opened ∧ x.1 ≠ k := by
  unfold closeStream
  cases e : s.opened.find? fun x => x.1 = k with
  | none =>
    have nokey : ∀ x ∈ s.opened, x.1 ≠ k := fun x hx z => by
      have := List.find?_eq_none.1 e x hx
      simp [z] at this
    have full : (s.opened.filter fun y => y.1 ≠ k) = s.opened := List.filter_eq_self.2 fun x hx => by simpa using nokey x hx
    dsimp only
    rcases I.have_ k hk with ⟨x, hx, z⟩ | ⟨w1, w2⟩
    · exact absurd z (nokey x hx)
    · obtain ⟨h, e1, n1, l1⟩ := delete_ok (h := s.heap) w1 (fun e he => by cases he)
      have l2 : ∀ i, h.live i = if i = k then none else s.heap.live i := fun i => by rw [l1]; simp
      rw [e1, Res.bind_ok]
      refine ⟨_, _, rfl, ?_, fun x hx => ⟨hx, nokey x hx⟩⟩
      have := I.drop (h := h) (k := k) n1 (by rw [l2, if_pos rfl]) (fun x hx _ i hi => by
          rw [l2, if_neg]
          intro z; subst z; exact w2 x hx hi)
        (fun i hi => ⟨by
          rw [l2] at hi ⊢
          split at hi
          · exact absurd rfl hi
          · rename_i z; rw [if_neg z], fun x hx z => absurd z (nokey x hx)⟩)
        (fun i hi hne _ => by rw [l2, if_neg hne])
      rw [full] at this
      exact this
  | some x =>
    have hx := List.mem_of_find?_eq_some e
    have xk : x.1 = k := by simpa using List.find?_some e
    have only : ∀ y ∈ s.opened, y.1 = k → y = x := fun y hy hyk => by
      by_cases z : y = x
      · exact z
      · have := I.apart' hy hx z (I.segs y hy).2
        rw [hyk, ← xk] at this
        exact absurd (I.segs x hx).2 this
    dsimp only
    obtain ⟨h, e1, n1, l1, k1⟩ := free_ok x.2 s.heap (I.segs x hx).1.toFrees
    rw [e1, Res.bind_ok]
    refine ⟨_, _, rfl, ?_, fun y hy => by simpa using hy⟩
    refine I.drop (h := h) (k := k) n1 (by rw [← xk]; exact l1 _ (I.segs x hx).2) (fun y hy hne i hi => ?_) (fun i hi => ⟨?_, fun y hy hyk => ?_⟩) (fun i hi hne hno => k1 i (hno x hx))
    · exact k1 i (I.apart' hy hx (fun z => hne (by rw [z]; exact xk)) hi)
    · apply k1
      intro z
      exact hi (l1 i z)
    · rw [only y hy hyk]
      intro z
      exact hi (l1 i z)

theorem Inv.call (I : Inv s) (c : Call) : ∃ s', s.call c = .ok s' ∧ Inv s' ∧
    (c ≠ .openStream (.inside []) → (∀ x ∈ s.opened, x.1 ∈ s.mine) → ∀ x ∈ s'.opened, x.1 ∈ s'.mine) := by
  cases c with
  | openStream f =>
    obtain ⟨s', e, I', z⟩ := I.open_ f
    exact ⟨s', e, I', fun hne => z (fun w => hne (by rw [w]))⟩
  | use k =>
    unfold State.call
    dsimp only
    cases e : s.mine[k]? with
    | none => exact ⟨s, rfl, I, fun _ z => z⟩
    | some x =>
      dsimp only
      rw [I.use (List.mem_of_getElem? e), Res.bind_ok]
      exact ⟨s, rfl, I, fun _ z => z⟩
  | closeStream k =>
    unfold State.call
    dsimp only
    cases e : s.mine[k]? with
    | none => exact ⟨s, rfl, I, fun _ z => z⟩
    | some x =>
      dsimp only
      obtain ⟨h, m, e1, I', z⟩ := I.close (List.mem_of_getElem? e)
      rw [e1, Res.bind_ok]
      refine ⟨_, rfl, I', fun _ w y hy => ?_⟩
      obtain ⟨y1, y2⟩ := z y hy
      exact I.nodup.mem_erase_iff.2 ⟨y2, w y y1⟩
  | stat q =>
    unfold State.call
    dsimp only
    obtain ⟨h, e, g⟩ := probeFile_ok I.fresh q
    rw [e, Res.bind_ok]
    exact ⟨_, rfl, I.same g, fun _ z => z⟩

theorem Inv.run : ∀ (l : List Call) (s : State), Inv s → ∃ s', s.run l = .ok s' ∧ Inv s' ∧
    ((∀ c ∈ l, c ≠ .openStream (.inside [])) → (∀ x ∈ s.opened, x.1 ∈ s.mine) → ∀ x ∈ s'.opened, x.1 ∈ s'.mine)
  | [], s, I => ⟨s, rfl, I, fun _ z => z⟩
  | c :: l, s, I => by
    obtain ⟨s1, e1, I1, z1⟩ := I.call c
    obtain ⟨s2, e2, I2, z2⟩ := Inv.run l s1 I1
    refine ⟨s2, ?_, I2, fun h w => z2 (fun c hc => h c (List.mem_cons_of_mem _ hc)) (z1 (h c (List.mem_cons_self ..)) w)⟩
    unfold State.run
    rw [e1, Res.bind_ok]
    exact e2

theorem destroy_ok : ∀ (m : Open) (h : Heap), (∀ x ∈ m, Frees h.live x.2) → (m.Pairwise fun x y => ∀ i, Own h.live x.2 i → ¬ Own h.live y.2 i) →
    ∃ h', destroy h m = .ok h' ∧ (∀ i, (∃ x ∈ m, Own h.live x.2 i) → h'.live i = none) ∧ ∀ i, (∀ x ∈ m, ¬ Own h.live x.2 i) → h'.live i = h.live i
  | [], h, _, _ => ⟨h, rfl, fun i ⟨x, hx, _⟩ => (by cases hx), fun _ _ => rfl⟩
  | x :: m, h, F, P => by
    obtain ⟨P1, P2⟩ := List.pairwise_cons.1 P
    obtain ⟨h1, e1, n1, l1, k1⟩ := free_ok x.2 h (F x (List.mem_cons_self ..))
    have same : ∀ y ∈ m, ∀ i, Own h.live y.2 i → h1.live i = h.live i := fun y hy i hi => k1 i (fun z => P1 y hy i z hi)
    have c : ∀ y ∈ m, ∀ i, Own h1.live y.2 i ↔ Own h.live y.2 i := fun y hy i => own_congr (fun p hp => same y hy p (Or.inl hp)) i
    obtain ⟨h2, e2, l2, k2⟩ := destroy_ok m h1 (fun y hy => (F y (List.mem_cons_of_mem _ hy)).congr (same y hy))
      (List.Pairwise.imp_of_mem (fun {a b} ha hb hab i h1 h2 => hab i ((c a ha i).1 h1) ((c b hb i).1 h2)) P2)
    refine ⟨h2, by unfold destroy; rw [e1, Res.bind_ok]; exact e2, fun i hi => ?_, fun i hi => ?_⟩
    · by_cases z : ∃ y ∈ m, Own h.live y.2 i
      · obtain ⟨y, hy, z⟩ := z
        exact l2 i ⟨y, hy, (c y hy i).2 z⟩
      · rw [k2 i (fun y hy w => z ⟨y, hy, (c y hy i).1 w⟩)]
        obtain ⟨y, hy, w⟩ := hi
        rcases List.mem_cons.1 hy with hy | hy
        · subst hy; exact l1 i w
        · exact absurd ⟨y, hy, w⟩ z
    · rw [k2 i (fun y hy w => hi y (List.mem_cons_of_mem _ hy) ((c y hy i).1 w)), k1 i (hi x (List.mem_cons_self ..))]

end Owner
end Strigi
