import Verif.Proofs.EntryOwnership

/-!
# C155: entries of archives are deleted exactly once
-/

namespace Strigi
namespace Props

open Owner

/-- The provider that a client has after it has used entries and asked for the next ones is deleted without a fault, and all that it made is gone: the
heap is as it was. -/
def Owner.DeletedOnce (h : Heap) (destroy : Prov → Res Heap) (s : Res Prov) : Prop :=
  ∃ s' h', s = .ok s' ∧ destroy s' = .ok h' ∧ ∀ i, h'.live i = h.live i

/-- A heap in which the file `r` is open. -/
def Owner.HasFile (h : Heap) (r : Nat) : Prop := h.live r = some ⟨none, none⟩ ∧ ∀ i, h.next ≤ i → h.live i = none

/-- C155 for tar and ar files: whatever is in the file, and at whatever time the reader is deleted. -/
theorem C155_tar_ar (h : Heap) (r : Nat) (f : Owner.HasFile h r) (l : List (Step Bool)) :
    Owner.DeletedOnce h plainDestroy (runSteps (fun s x => plainNext s r x) ⟨h, none, none, none, false⟩ l) := by
  have B : Base h r := ⟨f.2, f.1⟩
  obtain ⟨s, e, S⟩ := runSteps_ok (I := fun s => Shape h r s ∧ s.a = none) (fun s S => S.1.use B) (fun s x S => plain_next B s x S) l _
    ⟨.none h false ⟨Nat.le_refl _, fun _ => rfl⟩, rfl⟩
  obtain ⟨h', e', g⟩ := plain_destroy B S
  exact ⟨s, h', e, e', g.2⟩

/-- C155 for zip files. -/
theorem C155_zip (h : Heap) (r : Nat) (f : Owner.HasFile h r) (l : List (Step (Bool × ZipFound))) :
    Owner.DeletedOnce h zipDestroy (runSteps (fun s x => zipNext s r x.1 x.2) ⟨h, none, none, none, false⟩ l) := by
  have B : Base h r := ⟨f.2, f.1⟩
  obtain ⟨s, e, S⟩ := runSteps_ok (I := fun s => Shape h r s ∧ ZipShape s) (fun s S => S.1.use B) (fun s x S => zip_next B s x S) l _
    ⟨.none h false ⟨Nat.le_refl _, fun _ => rfl⟩, fun z => absurd rfl z⟩
  obtain ⟨h', e', g⟩ := zip_destroy B S
  exact ⟨s, h', e, e', g.2⟩

/-- C155 for mails, with several parts or not. -/
theorem C155_mail (h : Heap) (r : Nat) (f : Owner.HasFile h r) (multi invalid : Bool) (l : List (Step (Bool × MailFound))) :
    Owner.DeletedOnce h mailDestroy (runSteps (fun s x => mailNext multi s r x.1 x.2) ⟨h, none, none, none, invalid⟩ l) := by
  have B : Base h r := ⟨f.2, f.1⟩
  obtain ⟨s, e, S⟩ := runSteps_ok (I := fun s => Shape h r s ∧ MailShape multi s) (fun s S => S.1.use B) (fun s x S => mail_next B multi s x S) l _
    ⟨.none h invalid ⟨Nat.le_refl _, fun _ => rfl⟩, rfl, fun _ _ => rfl, fun _ _ => rfl⟩
  obtain ⟨h', e', g⟩ := mail_destroy B S.1 S.2.1
  exact ⟨s, h', e, e', g.2⟩

/-- C155 for SD files. -/
theorem C155_sdf (h : Heap) (r : Nat) (f : Owner.HasFile h r) (l : List (Step (Bool × Bool))) :
    Owner.DeletedOnce h mailDestroy (runSteps (fun s x => sdfNext s r x.1 x.2) ⟨h, none, none, none, false⟩ l) := by
  have B : Base h r := ⟨f.2, f.1⟩
  obtain ⟨s, e, S⟩ := runSteps_ok (I := fun s => Shape h r s ∧ s.b = none ∧ (s.a = none → s.entry = none)) (fun s S => S.1.use B)
    (fun s x S => sdf_next B s x S) l _ ⟨.none h false ⟨Nat.le_refl _, fun _ => rfl⟩, rfl, fun _ => rfl⟩
  obtain ⟨h', e', g⟩ := mail_destroy B S.1 S.2.1
  exact ⟨s, h', e, e', g.2⟩

/-- C155 for RPM packages, in whatever way the constructor ended. -/
theorem C155_rpm (h : Heap) (r : Nat) (f : Owner.HasFile h r) (made : RpmFound) (l : List (Step Bool)) :
    Owner.DeletedOnce h rpmDestroy (do
      let s ← rpmNew h r made
      runSteps rpmNext s l) := by
  have B : Base h r := ⟨f.2, f.1⟩
  obtain ⟨s0, e0, S0⟩ := rpm_new B made
  obtain ⟨s, e, S⟩ := runSteps_ok (I := RpmShape h r) (fun s S => rpm_use B S) (fun s x S => rpm_next B s x S) l s0 S0
  obtain ⟨h', e', g⟩ := rpm_destroy B S
  exact ⟨s, h', by rw [e0, Res.bind_ok]; exact e, e', g.2⟩

/-- C155 for OLE files, as far as it holds: the reader is deleted when there is no entry left. -/
theorem C155_ole_ended (h : Heap) (r : Nat) (f : Owner.HasFile h r) (l : List (Step Bool)) :
    Owner.DeletedOnce h oleDestroy (do
      let s ← runSteps oleNext (oleNew h r) l
      oleNext s false) := by
  have B : Base h r := ⟨f.2, f.1⟩
  obtain ⟨s, e, S⟩ := runSteps_ok (I := OleShape h r) (fun s S => ole_use B S) (fun s x S => by
    obtain ⟨s', e, S', _⟩ := ole_next B s x S
    exact ⟨s', e, S'⟩) l (oleNew h r) ⟨rfl, rfl, Or.inl rfl⟩
  obtain ⟨s', e1, S1, e2⟩ := ole_next B s false S
  obtain ⟨h', e', g⟩ := (ole_destroy B S1).1 e2
  exact ⟨s', h', by rw [e, Res.bind_ok]; exact e1, e', g.2⟩

/-- A defect: an `OleInputStream` that is deleted while it is at an entry deletes the entry stream twice, whatever happened before: `~Private` deletes it
(oleinputstream.cpp:271-273), and so does the base class (substreamprovider.h:101-106). -/
theorem C155_ole_at_an_entry (h : Heap) (r : Nat) (f : Owner.HasFile h r) (l : List (Step Bool)) :
    ∃ s s', runSteps oleNext (oleNew h r) l = .ok s ∧ oleNext s true = .ok s' ∧ oleDestroy s' = .fault .undefined := by
  have B : Base h r := ⟨f.2, f.1⟩
  obtain ⟨s, e, S⟩ := runSteps_ok (I := OleShape h r) (fun s S => ole_use B S) (fun s x S => by
    obtain ⟨s', e, S', _⟩ := ole_next B s x S
    exact ⟨s', e, S'⟩) l (oleNew h r) ⟨rfl, rfl, Or.inl rfl⟩
  obtain ⟨s', e1, S1, e2⟩ := ole_next B s true S
  exact ⟨s, s', e, e1, (ole_destroy B S1).2 (by rw [e2]; simp)⟩

/-! ## Examples -/

/-- The file is 0. -/
def Owner.file : Heap := (alloc ⟨0, fun _ => none⟩ ⟨none, none⟩).1

example : Owner.HasFile Owner.file 0 := ⟨rfl, fun i hi => if_neg (by have hi : 1 ≤ i := hi; show ¬ i = 0; omega)⟩

/-- What is alive, and the pointers. -/
def Owner.Prov.alive (s : Prov) : List Nat × Option Nat × Option Nat × Option Nat :=
  ((List.range s.heap.next).filter fun i => (s.heap.live i).isSome, s.a, s.b, s.entry)

/-- A deflated entry, and the one after a deflated one. -/
example : (do
    let s ← runSteps (fun s (x : Bool × ZipFound) => zipNext s 0 x.1 x.2) ⟨Owner.file, none, none, none, false⟩ [.next (false, .stored), .use, .next (false, .deflated), .use]
    .ok (Owner.Prov.alive s)) = .ok ([0, 2, 3, 4], some 2, some 3, some 4) := by decide +kernel
example : (do
    let s ← runSteps (fun s (x : Bool × ZipFound) => zipNext s 0 x.1 x.2) ⟨Owner.file, none, none, none, false⟩ [.next (false, .deflated), .next (false, .streamed), .next (true, .stored)]
    .ok (Owner.Prov.alive s)) = .ok ([0, 4], none, none, some 4) := by decide +kernel

/-- A part in base64: `p->substream` and `m_entrystream` are two streams. -/
example : (do
    let s ← runSteps (fun s (x : Bool × MailFound) => mailNext true s 0 x.1 x.2) ⟨Owner.file, none, none, none, false⟩ [.next (false, .part), .use, .next (false, .base64), .use]
    .ok (Owner.Prov.alive s)) = .ok ([0, 2, 3], some 2, none, some 3) := by decide +kernel

/-- An RPM package at its second file: 1 uncompresses, 2 is the cpio reader. -/
example : (do
    let s ← rpmNew Owner.file 0 .good
    let s ← runSteps rpmNext s [.next true, .use, .next true, .use]
    .ok (Owner.Prov.alive s)) = .ok ([0, 1, 2, 4], some 1, some 2, some 4) := by decide +kernel

end Props
end Strigi
