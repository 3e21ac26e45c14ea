import Verif.Model.ReaderHistory
import Verif.Proofs.ArchiveReader
import Verif.Proofs.Decompress

/-!
# Proofs about the history of an `ArchiveReader`
-/

namespace Strigi
namespace Listing

open BufferedStream (bind_eq_ok)

/-- `nextEntry()` called `k` times. -/
def iter (N : Nat) : Nat → State → Res State
  | 0, s => .ok s
  | k + 1, s => do
    let r ← nextEntry N s
    iter N k r.1

/-- The listing gets from one state to another by calls of `nextEntry()`, which are counted. -/
def Reaches (N : Nat) (s s' : State) : Prop := ∃ k, iter N k s = .ok s' ∧ s'.steps = s.steps + k

theorem nextEntry_ok {N : Nat} {s s' : State} {b : Bool} (h : nextEntry N s = .ok (s', b)) :
    ∃ stack d, s' = ⟨stack, d, if d < 0 then false else s.streamOpen, s.steps + 1⟩ ∧
      (s.currentdepth < 0 → d = s.currentdepth) := by
  unfold nextEntry at h
  by_cases hd : s.currentdepth ≥ 0
  · rw [if_pos hd] at h
    obtain ⟨x, h1, h⟩ := bind_eq_ok h
    obtain ⟨stack, d⟩ := x
    simp only [Res.ok.injEq, Prod.mk.injEq] at h
    exact ⟨stack, d, h.1.symm, fun z => absurd z (by omega)⟩
  · rw [if_neg hd] at h
    simp only [Res.bind_ok, Res.ok.injEq, Prod.mk.injEq] at h
    exact ⟨s.stack, s.currentdepth, h.1.symm, fun _ => rfl⟩

theorem nextEntry_steps {N : Nat} {s s' : State} {b : Bool} (h : nextEntry N s = .ok (s', b)) :
    s'.steps = s.steps + 1 := by
  obtain ⟨_, _, rfl, _⟩ := nextEntry_ok h
  rfl

theorem Reaches.refl (N : Nat) (s : State) : Reaches N s s := ⟨0, rfl, rfl⟩

theorem Reaches.cons {N : Nat} {s s1 s2 : State} {b : Bool} (h : nextEntry N s = .ok (s1, b)) (h2 : Reaches N s1 s2) :
    Reaches N s s2 := by
  obtain ⟨k, h3, h4⟩ := h2
  refine ⟨k + 1, ?_, by rw [h4, nextEntry_steps h]; omega⟩
  rw [iter, h]
  exact h3

theorem Reaches.one {N : Nat} {s s1 : State} {b : Bool} (h : nextEntry N s = .ok (s1, b)) : Reaches N s s1 :=
  .cons h (.refl N s1)

theorem growLoop_reaches {N size : Nat} : ∀ (n : Nat) {s s' : State} {p p' : Ptr} {b : Bool},
    growLoop N size n s p = .ok (s', p', b) → Reaches N s s' := by
  intro n
  induction n with
  | zero => intro s s' p p' b h; cases h
  | succ n ih =>
    intro s s' p p' b h
    unfold growLoop at h
    obtain ⟨r, h1, h⟩ := bind_eq_ok h
    unfold advance at h1
    obtain ⟨q, h2, h1⟩ := bind_eq_ok h1
    simp only [Res.ok.injEq] at h1
    have e1 : r.1 = q.1 := by rw [← h1]
    by_cases hc : r.2.2 = true ∧ size = (r.2.1.kids r.1.root).length
    · rw [if_pos hc, e1] at h
      exact .cons h2 (ih h)
    · rw [if_neg hc] at h
      simp only [Res.ok.injEq, Prod.mk.injEq] at h
      rw [← h.1, e1]
      exact .one h2

theorem grow_reaches {N n : Nat} {s s' : State} {p p' : Ptr} {b : Bool} (h : grow N n s p = .ok (s', p', b)) :
    Reaches N s s' := by
  unfold grow at h
  split at h
  · cases h; exact .refl _ _
  · exact growLoop_reaches n h

theorem seekLoop_reaches {N : Nat} {lurl url : List UInt8} : ∀ (n : Nat) {s s' : State} {ok : Bool} {p p' : Option Ptr},
    seekLoop N lurl url n s ok p = .ok (s', p') → Reaches N s s' := by
  intro n
  induction n with
  | zero => intro s s' ok p p' h; cases h
  | succ n ih =>
    intro s s' ok p p' h
    unfold seekLoop at h
    split at h
    · obtain ⟨r, h1, h⟩ := bind_eq_ok h
      obtain ⟨q, h2, h⟩ := bind_eq_ok h
      exact .cons h1 (ih h)
    · cases h; exact .refl _ _

theorem seek_reaches {N n : Nat} {lurl url : List UInt8} {s s' : State} {p' : Option Ptr}
    (h : seek N n lurl url s = .ok (s', p')) : Reaches N s s' := by
  unfold seek at h
  split at h
  · split at h
    · cases h; exact .refl _ _
    · obtain ⟨r, h1, h⟩ := bind_eq_ok h
      cases h
      exact grow_reaches h1
  · obtain ⟨r, h1, h⟩ := bind_eq_ok h
    exact seekLoop_reaches n h

theorem next_reaches {N n : Nat} {lurl url : List UInt8} {l l' : Lister} {s s' : State} {o : Option Attr}
    (h : l.next N n lurl url s = .ok (l', s', o)) : Reaches N s s' := by
  unfold Lister.next at h
  split at h
  · cases h; exact .refl _ _
  · split at h
    · obtain ⟨r, h1, h⟩ := bind_eq_ok h
      have hr := seek_reaches (s' := r.1) (p' := r.2) h1
      split at h
      · cases h; exact hr
      · split at h
        · obtain ⟨t, h2, h⟩ := bind_eq_ok h
          cases h; exact hr
        · cases h; exact hr
    · split at h
      · obtain ⟨t, h2, h⟩ := bind_eq_ok h
        cases h; exact .refl _ _
      · obtain ⟨r, h1, h⟩ := bind_eq_ok h
        have hr := grow_reaches (s' := r.1) (p' := r.2.1) (b := r.2.2) h1
        split at h
        · obtain ⟨t, h2, h⟩ := bind_eq_ok h
          cases h; exact hr
        · cases h; exact hr

/-- A listing whose stream is closed is at its end. -/
def Closed (s : State) : Prop := s.streamOpen = false → s.currentdepth < 0

theorem Closed.next {N : Nat} {s s' : State} {b : Bool} (hc : Closed s) (h : nextEntry N s = .ok (s', b)) :
    Closed s' := by
  obtain ⟨stack, d, rfl, h1⟩ := nextEntry_ok h
  intro z
  simp only at z ⊢
  apply Classical.byContradiction
  intro hd
  rw [if_neg hd] at z
  have hn := hc z
  rw [h1 hn] at hd
  exact hd hn

theorem Closed.reaches {N : Nat} : ∀ (k : Nat) {s s' : State}, Closed s → iter N k s = .ok s' → Closed s' := by
  intro k
  induction k with
  | zero => intro s s' hc h; cases h; exact hc
  | succ k ih =>
    intro s s' hc h
    unfold iter at h
    obtain ⟨r, h1, h⟩ := bind_eq_ok h
    exact ih (hc.next (s' := r.1) (b := r.2) h1) h

/-- Once closed, the stream stays closed. -/
theorem closed_stays {N : Nat} : ∀ (k : Nat) {s s' : State}, s.streamOpen = false → Closed s → iter N k s = .ok s' →
    s'.streamOpen = false := by
  intro k
  induction k with
  | zero => intro s s' hs hc h; cases h; exact hs
  | succ k ih =>
    intro s s' hs hc h
    unfold iter at h
    obtain ⟨r, h1, h⟩ := bind_eq_ok h
    refine ih ?_ (hc.next (s' := r.1) (b := r.2) h1) h
    obtain ⟨stack, d, e, -⟩ := nextEntry_ok (s' := r.1) (b := r.2) h1
    rw [e]
    simp only
    split
    · rfl
    · exact hs

end Listing

namespace Reader

open Listing BufferedStream

variable {T : Tree} {all : List (List Name)}

theorem watch_spec {N : Nat} : ∀ (k : Nat) {κ : Nat} {s s' : Listing.State} (l : Lister), Good T all κ s → κ < N →
    iter N k s = .ok s' →
    ∃ l', watch N k s l = .ok l' ∧ l'.done = l.done ∧ l'.pos = l.pos ∧ l'.entry.isNone = l.entry.isNone ∧
      ∀ path, LInv T all path l s → LInv T all path l' s' := by
  intro k
  induction k with
  | zero =>
    intro κ s s' l _ _ h
    cases h
    exact ⟨l, rfl, rfl, rfl, rfl, fun _ h => h⟩
  | succ k ih =>
    intro κ s s' l h hf hi
    unfold iter at hi
    obtain ⟨r, h1, hi⟩ := bind_eq_ok hi
    obtain ⟨s1, b⟩ := r
    obtain ⟨s1', b', g1, g2⟩ := h.next hf
    rw [h1] at g1
    cases g1
    have hg : ∃ κ', κ' ≤ κ ∧ Good T all κ' s1 := by
      rcases g2 with ⟨_, k', hk, hg⟩ | ⟨_, _, _, hg⟩
      · exact ⟨k', by omega, hg⟩
      · exact ⟨0, by omega, hg⟩
    obtain ⟨κ', hκ, hg⟩ := hg
    obtain ⟨pre, post, hpp, hinv⟩ := h.inv
    obtain ⟨l', j1, j2, j3, j4, j5⟩ := ih { l with entry := l.entry.map fun p => p.moved s s1 } hg (by omega) hi
    refine ⟨l', ?_, j2, j3, ?_, ?_⟩
    · unfold watch
      rw [h1]
      simp only [Res.bind_ok]
      exact j1
    · rw [j4]; cases l.entry <;> rfl
    · intro path hl
      apply j5
      refine ⟨hl.nodup, hl.final, ?_⟩
      rcases hl.cases with ⟨c1, c2⟩ | ⟨c1, c2, c3⟩ | ⟨p, c1, c2, c3, c4⟩
      · exact Or.inl ⟨c1, c2⟩
      · exact Or.inr (Or.inl ⟨c1, by simp [c2], c3⟩)
      · obtain ⟨d1, d2⟩ := PtrOf.moved hpp hinv h1 c2
        exact Or.inr (Or.inr ⟨p.moved s s1, by simp [c1], d1, c3, fun m hm => d2 m (c4 m hm)⟩)

/-- What `watchAll` does to a handle. -/
def WatchedBy (T : Tree) (all : List (List Name)) (id : Nat) (s s' : Listing.State) : Handle → Handle → Prop
  | .known es p, h' => h' = .known es p
  | .listing id' url l, h' => ∃ l', h' = .listing id' url l' ∧ l'.done = l.done ∧ l'.pos = l.pos ∧
      l'.entry.isNone = l.entry.isNone ∧ (id' ≠ id → l' = l) ∧
      ∀ path, LInv T all path l s → id' = id → LInv T all path l' s'

theorem watchAll_spec {N id k κ : Nat} {s s' : Listing.State} (h : Good T all κ s) (hf : κ < N)
    (hi : iter N k s = .ok s') : ∀ hs : List Handle,
    ∃ hs', watchAll N id k s hs = .ok hs' ∧ hs'.length = hs.length ∧
      ∀ (j : Nat) x, hs[j]? = some x → ∃ x', hs'[j]? = some x' ∧ WatchedBy T all id s s' x x' := by
  intro hs
  induction hs with
  | nil => exact ⟨[], rfl, rfl, by simp⟩
  | cons x hs ih =>
    obtain ⟨hs', i1, i2, i3⟩ := ih
    have key : ∀ x', WatchedBy T all id s s' x x' → ∀ (j : Nat) y, (x :: hs)[j]? = some y →
        ∃ y', (x' :: hs')[j]? = some y' ∧ WatchedBy T all id s s' y y' := by
      intro x' hx j y hy
      cases j with
      | zero => simp only [List.getElem?_cons_zero, Option.some.injEq] at hy ⊢; subst hy; exact ⟨x', rfl, hx⟩
      | succ j => simp only [List.getElem?_cons_succ] at hy ⊢; exact i3 j y hy
    cases x with
    | known es p =>
      refine ⟨.known es p :: hs', ?_, by simp [i2], key _ rfl⟩
      simp only [watchAll, i1, Res.bind_ok]
    | listing id' url l =>
      by_cases hid : id' = id
      · obtain ⟨l', j1, j2, j3, j4, j5⟩ := watch_spec k l h hf hi
        refine ⟨.listing id' url l' :: hs', ?_, by simp [i2], key _ ⟨l', rfl, j2, j3, j4, fun z => absurd hid z, fun path hl _ => j5 path hl⟩⟩
        simp only [watchAll, i1]
        rw [if_pos hid, j1]
        simp only [Res.bind_ok]
      · refine ⟨.listing id' url l :: hs', ?_, by simp [i2], key _ ⟨l, rfl, rfl, rfl, rfl, fun _ => rfl, fun _ _ z => absurd z hid⟩⟩
        simp only [watchAll, i1]
        rw [if_neg hid]
        simp only [Res.bind_ok]

end Reader
end Strigi
