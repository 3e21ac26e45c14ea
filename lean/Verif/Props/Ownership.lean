import Verif.Proofs.Ownership

/-!
# C154: the streams of an `ArchiveReader` are deleted exactly once

A deletion of something that is gone, and a use of something that is gone (or that reads from something that is gone) are faults of the model; what
is left over at the end is what `live` still has.
-/

namespace Strigi
namespace Props

open Owner

/-- C154.  A client opens streams of files and of archives in archives (whatever the files are, and whatever `openStream` finds in them), reads from
those it has, closes them in any order, and asks whether files are archives.  Nothing is deleted twice or used when it is gone; each stream that it has
stays usable until it closes it, whatever else it does; and when the `ArchiveReader` is deleted all is gone except the streams that an opener had opened
directly and that were not closed. -/
theorem C154_streams_are_deleted_once (l : List Call) :
    ∃ s, State.new.run l = .ok s ∧ (∀ i ∈ s.mine, touch s.heap i = .ok ()) ∧
      ∃ h, destroy s.heap s.opened = .ok h ∧ ∀ i, h.live i ≠ none → i ∈ s.mine ∧ ∀ x ∈ s.opened, x.1 ≠ i := by
  obtain ⟨s, e, I, _⟩ := Inv.run l _ Inv.new
  refine ⟨s, e, fun i hi => I.use hi, ?_⟩
  obtain ⟨h, e1, z1, z2⟩ := destroy_ok s.opened s.heap (fun x hx => (I.segs x hx).1.toFrees) I.apart
  refine ⟨h, e1, fun i hi => ?_⟩
  have no : ∀ x ∈ s.opened, ¬ Own s.heap.live x.2 i := fun x hx w => hi (z1 i ⟨x, hx, w⟩)
  rw [z2 i no] at hi
  rcases I.cover i hi with ⟨w, _⟩ | ⟨x, hx, w⟩
  · exact ⟨w, fun x hx z => no x hx (by rw [← z]; exact (I.segs x hx).2)⟩
  · exact absurd w (no x hx)

/-- C154.  If the client has closed all the streams that it was given, then nothing that was opened is left.  (Unless a file that was no file when it was
looked up, as part of it is, has become one when it is opened, which is `inside []`: that stays open until the reader is deleted.) -/
theorem C154_closed_streams_leave_nothing (l : List Call) (quiet : ∀ c ∈ l, c ≠ .openStream (.inside [])) :
    ∃ s, State.new.run l = .ok s ∧ (s.mine = [] → ∀ i, s.heap.live i = none) := by
  obtain ⟨s, e, I, z⟩ := Inv.run l _ Inv.new
  refine ⟨s, e, fun hm i => ?_⟩
  have keys := z quiet (fun x hx => by cases hx)
  cases hl : s.heap.live i with
  | none => rfl
  | some o =>
    rcases I.cover i (by rw [hl]; simp) with ⟨w, _⟩ | ⟨x, hx, _⟩
    · rw [hm] at w; cases w
    · have := keys x hx
      rw [hm] at this; cases this

/-! ## Examples -/

/-- A tar file in a compressed tar file: 0 is the file, 1 the stream that uncompresses it, 2 no working decompressor, 3 a format tried in vain, 4 the tar
reader, 5 to 7 its entries, 8 the reader of the last of these and 9 its entry. -/
def twoTars : List Round := [⟨⟨[true, false], 1, true⟩, 2, true⟩, ⟨⟨[], 0, true⟩, 0, true⟩]

/-- What the client has, what is registered and what is alive. -/
def Owner.State.alive (s : State) : List Nat × Open × List Nat := (s.mine, s.opened, (List.range s.heap.next).filter fun i => (s.heap.live i).isSome)

/-- What is open after the first call. -/
example : (do let s ← State.new.run [.openStream (.inside twoTars)]; .ok (Owner.State.alive s)) = .ok ([9], [(9, [0, 1, 4, 8])], [0, 1, 4, 7, 8, 9]) := by
  decide +kernel

/-- Two of them and a file; closed in another order, with a look at a file in between. -/
example : (do
    let s ← State.new.run [.openStream (.inside twoTars), .openStream .direct, .use 1, .openStream (.inside twoTars), .closeStream 2, .use 0, .use 1,
      .stat (some ⟨[true], 2, true⟩), .closeStream 0]
    .ok (Owner.State.alive s)) = .ok ([10], [], [10]) := by decide +kernel

/-- A stream of an opener that is not closed outlives the reader, although archivereader.h:139-141 promises otherwise. -/
example : ∃ s h, State.new.run [.openStream .direct] = .ok s ∧ destroy s.heap s.opened = .ok h ∧ h.live 0 = some ⟨none, none⟩ := ⟨_, _, rfl, rfl, rfl⟩

/-- The exception is one. -/
example : ∃ s, State.new.run [.openStream (.inside [])] = .ok s ∧ s.mine = [] ∧ s.opened = [(0, [0])] ∧ s.heap.live 0 = some ⟨none, none⟩ := ⟨_, rfl, rfl, rfl, rfl⟩

/-- The model can tell: what is deleted twice or used when it is gone is a fault. -/
example : (do let h ← delete (alloc ⟨0, fun _ => none⟩ ⟨none, none⟩).1 0; let h ← delete h 0; .ok h.next) = .fault .undefined := by decide +kernel
example : (do let r ← openStream ⟨0, fun _ => none⟩ [] (.inside twoTars); let h ← delete r.1 4; touch h 9) = .fault .undefined := by decide +kernel
example : (do let r ← openStream ⟨0, fun _ => none⟩ [] (.inside twoTars); let h ← delete r.1 1; touch h 9) = .fault .undefined := by decide +kernel
example : (do let r ← openStream ⟨0, fun _ => none⟩ [] (.inside twoTars); let h ← delete r.1 9; let x ← closeStream h r.2.1 9; .ok x.2) = .fault .undefined := by decide +kernel

end Props
end Strigi
