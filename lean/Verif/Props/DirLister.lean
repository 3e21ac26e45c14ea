import Verif.Proofs.DirLister

/-!
# Property C47: `ArchiveReader::DirLister`
-/

namespace Strigi.Props

open Listing

theorem tops_eq (c : Contents) : tops c = topPaths c := by
  induction c with
  | nil => rfl
  | entry a len sub rest _ ih => rw [tops, topPaths, ih]

/-- The top of an archive is always in order. -/
theorem orderly_root (c : Contents) : Orderly c [] := by
  intro t1 x t2 e hx
  exact absurd (List.prefix_nil.1 hx) (tops_ne c x (by rw [tops_eq, e]; simp))

/-- **C47**: let a `DirLister` of a directory (or nested archive, or file) of an archive be called at any
times, while other users advance the listing of the archive at any times.
1. No call fails, and the names of the entries that are returned are all different.
2. After a call has returned false all later calls return false.
3. When a call has returned false, the names that were returned are exactly those of the entries that the complete
   listing of the archive shows in the directory, if the archive is orderly.
4. This happens: with more calls than there are entries in the directory one has returned false. -/
theorem C47_lister (a : Attr) (c : Contents) (hd : c.depth ≤ 9) {lurl url : List UInt8} {path : List Name}
    (hu : UrlOf lurl url path) {fuel n : Nat} (hf : c.count < fuel) (hn : c.count + 1 < n) (ev : List Event) :
    ∃ l s outs, Lister.run fuel n lurl url ev {} (State.new a c) = .ok (l, s, outs) ∧
      outs.length = ev.count .call ∧
      (names outs).Nodup ∧
      (∀ o1 o2, outs = o1 ++ none :: o2 → ∀ o ∈ o2, o = none) ∧
      (Orderly c path →
        (∀ k ∈ names outs, shownAt (c.entries []).reverse (path ++ [k]) ≠ none) ∧
        (none ∈ outs → ∀ k, shownAt (c.entries []).reverse (path ++ [k]) ≠ none → k ∈ names outs) ∧
        ∀ ks : List Name, (∀ k, shownAt (c.entries []).reverse (path ++ [k]) ≠ none → k ∈ ks) →
          ks.length < ev.count .call → none ∈ outs) := by
  have h := good_new a c hd
  obtain ⟨l, s, outs, h1, h2, h3, _, h5, _, h7, h8⟩ := run_spec hu (tops_ne c) ev (l := {}) h hf hn
    ⟨by simp, by simp, Or.inr (Or.inl ⟨rfl, rfl, rfl⟩)⟩
  simp only [List.append_nil] at h3
  have hnd : (names outs).Nodup := by
    have := h2.nodup
    rw [h3] at this
    unfold List.Nodup at this ⊢
    rw [List.pairwise_reverse] at this
    exact this.imp Ne.symm
  refine ⟨l, s, outs, h1, h8, hnd, h7, fun ho => ?_⟩
  have hfirst : First (tops c) path := by rw [tops_eq]; exact ho
  have hin : ∀ k ∈ names outs, shownAt (c.entries []).reverse (path ++ [k]) ≠ none := by
    intro k hk
    exact (keys_shown a c path k).1 (h2.final hfirst k (by rw [h3]; simpa using hk))
  refine ⟨hin, ?_, ?_⟩
  · intro hno k hk
    rcases h2.cases with ⟨_, i2⟩ | ⟨i1, _⟩ | ⟨p, _, _, i1, _⟩
    · have := i2 hfirst k ((keys_shown a c path k).2 hk)
      rw [h3] at this
      simpa using this
    · have := h5 hno; omega
    · have := h5 hno; omega
  · intro ks hks hlt
    apply Classical.byContradiction
    intro hno
    have hall : ∀ l : List (Option Attr), none ∉ l → (names l).length = l.length := by
      intro l
      induction l with
      | nil => intro _; rfl
      | cons o l ih =>
        intro hl
        cases o with
        | none => simp at hl
        | some b =>
          have := ih (fun z => hl (by simp [z]))
          simp only [names, List.filterMap_cons, Option.map_some, List.length_cons] at this ⊢
          omega
    have h9 := hall outs hno
    have h10 := nodup_length hnd (fun k hk => hks k (hin k hk))
    omega

/-- **C47** for the archive itself: its `DirLister` returns exactly the top-level names, each once, whatever the
archive contains. -/
theorem C47_root (a : Attr) (c : Contents) (hd : c.depth ≤ 9) (url : List UInt8) {fuel n : Nat}
    (hf : c.count < fuel) (hn : c.count + 1 < n) (ev : List Event) :
    ∃ l s outs, Lister.run fuel n url url ev {} (State.new a c) = .ok (l, s, outs) ∧
      outs.length = ev.count .call ∧ (names outs).Nodup ∧
      (∀ o1 o2, outs = o1 ++ none :: o2 → ∀ o ∈ o2, o = none) ∧
      (∀ k ∈ names outs, shownAt (c.entries []).reverse [k] ≠ none) ∧
      (none ∈ outs → ∀ k, shownAt (c.entries []).reverse [k] ≠ none → k ∈ names outs) ∧
      ∀ ks : List Name, (∀ k, shownAt (c.entries []).reverse [k] ≠ none → k ∈ ks) →
        ks.length < ev.count .call → none ∈ outs := by
  obtain ⟨l, s, outs, h1, h2, h3, h4, h5⟩ := C47_lister a c hd (lurl := url) (url := url) (Or.inl ⟨rfl, rfl⟩) hf hn ev
  exact ⟨l, s, outs, h1, h2, h3, h4, h5 (orderly_root c)⟩

/-- **C47** for a directory that is known completely: the entries are returned one after the other, then
`false` for good: call number `i` (from 0) returns entry number `i`, if there is one. -/
theorem C47_static (entries : List Attr) (i : Nat) :
    (Lister.nextStatic entries (Nat.repeat (fun r => Lister.nextStatic entries r.1) i (0, none)).1).2 =
      entries[i]? := by
  have key : ∀ i, (Nat.repeat (fun r => Lister.nextStatic entries r.1) i ((0, none) : Int × Option Attr)).1 =
      if i ≤ entries.length then (i : Int) else -1 := by
    intro i
    induction i with
    | zero => simp [Nat.repeat]
    | succ i ih =>
      rw [Nat.repeat, Lister.nextStatic, ih]
      by_cases h : i ≤ entries.length
      · rw [if_pos h]
        by_cases h2 : i = entries.length
        · rw [if_pos (Or.inr (by omega)), if_neg (by omega)]
        · rw [if_neg (by omega), if_pos (by omega)]
          simp
      · rw [if_neg h, if_pos (Or.inl (by omega)), if_neg (by omega)]
  rw [Lister.nextStatic, key]
  by_cases h : i ≤ entries.length
  · rw [if_pos h]
    by_cases h2 : i = entries.length
    · rw [if_pos (Or.inr (by omega)), List.getElem?_eq_none (by omega)]
    · rw [if_neg (by omega)]
      simp
  · rw [if_neg h, if_pos (Or.inl (by omega)), List.getElem?_eq_none (by omega)]

/-- **C47** (found while proving): with an archive that is not orderly the lister of a directory misses entries.
The archive has `d/f`, `d`, `d/g`; after the first entry a `DirLister` of `d` returns `f`; then the archive
replaces `d`, and the lister never returns `g`, although the complete listing shows `g` in `d` (and not
`f`). -/
theorem C47_witness_stale :
    (∃ l s outs, Lister.run 9 9 [120] [120, 47, 100] [.call, .call] {} (State.new {}
      (.entry { filename := [100, 47, 102], size := 0 } 0 .nil
        (.entry { filename := [100], size := 0 } 0 .nil
          (.entry { filename := [100, 47, 103], size := 0 } 0 .nil .nil)))) = .ok (l, s, outs) ∧
      names outs = [[102]] ∧ none ∈ outs) ∧
    shownAt ((Contents.entry { filename := [100, 47, 102], size := 0 } 0 .nil
        (.entry { filename := [100], size := 0 } 0 .nil
          (.entry { filename := [100, 47, 103], size := 0 } 0 .nil .nil))).entries []).reverse [[100], [103]] ≠ none :=
  ⟨⟨_, _, _, rfl, rfl, by decide⟩, by decide +kernel⟩

-- An archive with a nested archive in a directory: orderly, and of depth 2.
example : (Contents.entry { filename := [100, 47, 102] } 3 (.entry { filename := [103] } 1 .nil .nil) .nil).depth ≤ 9 := by
  decide
example : UrlOf [120] [120, 47, 100] [[100]] := Or.inr ⟨[100], rfl, rfl⟩
example : Orderly (.entry { filename := [100, 47, 102] } 3 (.entry { filename := [103] } 1 .nil .nil) .nil) [[100]] := by
  intro t1 x t2 e hx y hy
  cases t1 with
  | nil => simp at hy
  | cons a t1 =>
    have := congrArg List.length e
    simp [topPaths] at this

end Strigi.Props
