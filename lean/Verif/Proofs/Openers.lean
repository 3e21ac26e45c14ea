import Verif.Model.Openers
import Verif.OpenerSpec

/-!
# Proofs about several `StreamOpener`s
-/

namespace Strigi
namespace Reader

theorem firstOf_nil {α β : Type} {f : α → Option β} {v : β} : ¬ FirstOf f [] v := by
  rintro ⟨pre, o, post, e, _⟩
  cases pre <;> cases e

theorem firstOf_cons {α β : Type} {f : α → Option β} {o : α} {os : List α} {v : β} :
    FirstOf f (o :: os) v ↔ f o = some v ∨ (f o = none ∧ FirstOf f os v) := by
  constructor
  · rintro ⟨pre, o', post, e, h, hp⟩
    cases pre with
    | nil => cases e; exact Or.inl h
    | cons p pre =>
      cases e
      exact Or.inr ⟨hp o (by simp), pre, o', post, rfl, h, fun q hq => hp q (by simp [hq])⟩
  · rintro (h | ⟨h, pre, o', post, rfl, h', hp⟩)
    · exact ⟨[], o, os, rfl, h, by simp⟩
    · refine ⟨o :: pre, o', post, rfl, h', ?_⟩
      intro q hq
      rcases List.mem_cons.1 hq with rfl | hq
      · exact h
      · exact hp q hq

namespace Several

theorem open_iff (os : List Opener) (url : Name) (c : Contents) :
    Several.open os url = some c ↔ FirstOf (fun o => o.openStream url) os c := by
  induction os with
  | nil => simp [Several.open, firstOf_nil]
  | cons o os ih =>
    rw [firstOf_cons, Several.open]
    cases h : o.openStream url with
    | some c' => simp
    | none => simp [ih]

variable {os : List Opener} {fs : Opener}

theorem open_eq (h : ActsAs os fs) (url : Name) : Several.open os url = fs.openStream url := by
  apply Option.ext
  intro c
  rw [open_iff, h.opened]

theorem cullLoop_congr {fs fs' : Opener} (h : ∀ u, fs.openStream u = fs'.openStream u) (url : Name) :
    ∀ (n : Nat) (p : Option Nat) (s : Option Contents) (l : List Nat), cullLoop fs url n p s l = cullLoop fs' url n p s l := by
  intro n
  induction n with
  | zero => intro p s l; rfl
  | succ n ih =>
    intro p s l
    unfold cullLoop
    cases p <;> cases s <;> try rfl
    dsimp only
    split
    · rfl
    · rw [h, ih]

theorem cullName_eq (h : ActsAs os fs) (url : Name) : Several.cullName os url = Reader.cullName fs url := by
  unfold Several.cullName Reader.cullName
  dsimp only
  rw [open_eq h, cullLoop_congr (fs' := fs) (fun u => open_eq h u)]

theorem localStat_skip {r : Reader} {url : Name} {pre : List Opener} (h : ∀ p ∈ pre, p.stat url = none) (l : List Opener) :
    Several.localStat (pre ++ l) r url = Several.localStat l r url := by
  induction pre with
  | nil => rfl
  | cons p pre ih =>
    rw [List.cons_append, Several.localStat, h p (by simp)]
    exact ih fun q hq => h q (by simp [hq])

/-- What `localStat` does depends on the answers for this url only. -/
theorem localStat_congr {o fs : Opener} {r : Reader} {url : Name} {e : Attr} (h1 : o.stat url = some e) (h2 : fs.stat url = some e)
    (h3 : e.isFile = true → o.openStream url = fs.openStream url) : r.localStat o url = r.localStat fs url := by
  unfold Reader.localStat probe
  rw [h1, h2]
  dsimp only
  by_cases hf : e.isFile = false
  · rw [if_pos hf, if_pos hf]
  · rw [h3 (by simpa using hf)]

theorem localStat_eq (h : ActsAs os fs) (hh : ∀ o ∈ os, Honest o) (r : Reader) (url : Name) :
    Several.localStat os r url = r.localStat fs url := by
  cases hs : fs.stat url with
  | none =>
    have : ∀ p ∈ os, p.stat url = none := by
      intro p hp
      apply Decidable.byContradiction
      intro hn
      have key : ∀ l : List Opener, p ∈ l → ∃ e, FirstOf (fun o => o.stat url) l e := by
        intro l
        induction l with
        | nil => intro hp; cases hp
        | cons q l ih =>
          intro hp
          cases hq : q.stat url with
          | some e => exact ⟨e, firstOf_cons.2 (Or.inl hq)⟩
          | none =>
            rcases List.mem_cons.1 hp with rfl | hp
            · exact absurd hq hn
            · obtain ⟨e, he⟩ := ih hp
              exact ⟨e, firstOf_cons.2 (Or.inr ⟨hq, he⟩)⟩
      obtain ⟨e, he⟩ := key os hp
      rw [← h.told, hs] at he
      cases he
    have e := localStat_skip (r := r) this []
    rw [List.append_nil] at e
    rw [e, Several.localStat, Reader.localStat, hs]
  | some e =>
    obtain ⟨pre, o, post, rfl, h1, h2⟩ := (h.told url e).1 hs
    dsimp only at h1 h2
    rw [localStat_skip h2, Several.localStat, h1]
    dsimp only
    refine localStat_congr h1 hs fun hf => ?_
    cases ho : o.openStream url with
    | none => exact absurd ho ((hh o (by simp)).kept url e h1 hf)
    | some c =>
      symm
      refine (h.opened url c).2 ⟨pre, o, post, rfl, ho, ?_⟩
      intro p hp
      apply Decidable.byContradiction
      intro hn
      exact (hh p (by simp [hp])).known url hn (h2 p hp)

theorem lipFor_eq (h : ActsAs os fs) (hh : ∀ o ∈ os, Honest o) (r : Reader) (url : Name) :
    Several.lipFor os r url = r.lipFor fs url := by
  unfold Several.lipFor Reader.lipFor
  simp only [cullName_eq h, localStat_eq h hh]
  rfl

theorem dirEntries_eq (h : ActsAs os fs) (hh : ∀ o ∈ os, Honest o) (r : Reader) (url : Name) :
    Several.dirEntries os r url = r.dirEntries fs url := by
  unfold Several.dirEntries Reader.dirEntries
  simp only [lipFor_eq h hh]
  rfl

theorem stat_eq (h : ActsAs os fs) (hh : ∀ o ∈ os, Honest o) (N : Nat) (r : Reader) (url : Name) :
    Several.stat N os r url = r.stat N fs url := by
  unfold Several.stat Reader.stat
  simp only [dirEntries_eq h hh, localStat_eq h hh]
  rfl

theorem call_eq (h : ActsAs os fs) (hh : ∀ o ∈ os, Honest o) (N : Nat) (r : Reader) (c : Call) :
    Several.call N os r c = r.call N fs c := by
  cases c with
  | dirEntries url => simp only [Several.call, Reader.call, dirEntries_eq h hh]
  | next i => rfl
  | stat url => simp only [Several.call, Reader.call, stat_eq h hh]
  | localStat url => simp only [Several.call, Reader.call, localStat_eq h hh]

theorem openStream_eq (h : ActsAs os fs) (url : Name) : Several.openStream os url = Reader.openStream fs url := by
  unfold Several.openStream Reader.openStream
  rw [open_eq h]
  unfold Several.positionedProvider Reader.positionedProvider
  rw [cullName_eq h]
  rfl

theorem run_eq (N : Nat) : ∀ (l : List (List Opener × Opener × Call)) (r : Reader),
    (∀ x ∈ l, ActsAs x.1 x.2.1 ∧ ∀ o ∈ x.1, Honest o) →
    Several.run N (l.map fun x => (x.1, x.2.2)) r = Reader.run N (l.map fun x => x.2) r := by
  intro l
  induction l with
  | nil => intro r _; rfl
  | cons x l ih =>
    intro r h
    obtain ⟨h1, h2⟩ := h x (by simp)
    simp only [List.map_cons, Several.run, Reader.run]
    rw [call_eq h1 h2]
    cases Reader.call N x.2.1 r x.2.2 with
    | ok y => simp only [Res.bind_ok]; rw [ih y.1 fun z hz => h z (by simp [hz])]
    | fault e => rfl
    | diverge => rfl

end Several
end Reader
end Strigi
