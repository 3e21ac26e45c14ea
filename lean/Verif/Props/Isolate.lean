import Verif.Proofs.Isolate
import Verif.Props.Cpio
import Verif.Props.Zip

/-!
# C136: archives are presented exactly although readers are opened on their entries
-/

namespace Strigi.Props

open Nest

variable {σ : Type}

/-- **C136**, for archives whose entries are parts of the stream (`tar`, `cpio`, `ar`, SD files, the payload of an RPM package):
if iterating presents the entries `l` to every client that only uses the entry streams themselves, then it does so also if the
client opens readers of any kind on the entry streams, on the entries of those, and so on, uses them in any way, and drops them
at any moment. -/
theorem C136_parts {π : Type} {P : StreamOps σ UInt8} {A : ProviderOps π (SubInputStream σ)} (hA : A.stream = SubInputStream.ops P)
    {last : Status} {p : π} {l : List ArchiveEntry} (hl : ∀ a ∈ l, a.info.size ≠ -1 ∧ a.content.length < 2 ^ 31)
    (h : Presents A Failure.never True last p l) : PresentsNested A last p l := by
  refine presents_nested l p (fun a ha p p' e _ _ _ h4 h5 => ?_) h
  rw [hA] at h4 h5 ⊢
  exact sub_lenient h5 (fun z => (hl a ha).1 (by rw [← h4]; exact z)) (hl a ha).2

/-- **C136**, for zip files with stored, deflated and streamed members. -/
theorem C136_zip {ζ : Type} {P : StreamOps σ UInt8} {D : Decompressor ζ} {mktime : TextUtils.Tm → Int} {N fuel : Nat} {last : Status}
    {p : Zip.State σ ζ} {l : List ArchiveEntry} (hl : ∀ a ∈ l, a.content.length < 2 ^ 31)
    (h : Presents (Zip.ops P D mktime N fuel) Failure.never True last p l) : PresentsNested (Zip.ops P D mktime N fuel) last p l := by
  refine presents_nested l p (fun a ha p p' e h1 h2 h3 h4 h5 => ?_) h
  refine Zip.entry_lenient h5 (hl a ha) ?_
  rcases Zip.entry_kind h1 h2 with z | z
  · left
    have h3 : p'.info = a.info := h3
    have h4 : (Zip.entryOps P D N).size e = a.info.size := h4
    rw [h4, ← h3]
    omega
  · exact Or.inr z

/-- **C136**, for archives whose entries are buffered streams (OLE files). -/
theorem C136_buffered {π φ : Type} {B : Producer φ UInt8} {A : ProviderOps π (BufferedStream φ UInt8)} (hA : A.stream = BufferedStream.ops B)
    {last : Status} {p : π} {l : List ArchiveEntry} (hl : ∀ a ∈ l, a.content.length < 2 ^ 31)
    (h : Presents A Failure.never True last p l) : PresentsNested A last p l := by
  refine presents_nested l p (fun a ha p p' e _ _ _ _ h5 => ?_) h
  rw [hA] at h5 ⊢
  exact buffered_lenient h5 (hl a ha)

/-- The zip file of `Props/Zip.lean`, with stored, deflated and streamed members. -/
example : PresentsNested (Zip.ops StringStream.ops storedDecompressor (fun t => t.tm_sec) 100 100) .eof
    (Zip.new (StringStream.new (zipMembers.flatMap ZipSpec.Member.bytes ++ ([0x50, 0x4b, 1, 2] ++ List.replicate 60 0))))
    [⟨⟨[97], 2, 30, .file⟩, [1, 2]⟩, ⟨⟨[98], 0, 30, .dir⟩, []⟩, ⟨⟨[99], 3, 30, .file⟩, [5, 6, 7]⟩,
      ⟨⟨[100], -1, 30, .file⟩, [8, 9]⟩] :=
  C136_zip (by decide) (C41_roundtrip (C01_isStream _) stored_unpacks _ zipMembers ([0x50, 0x4b, 1, 2] ++ List.replicate 60 0) ⟨⟨_, rfl⟩, by decide⟩
    zipMembers_wellFormed rfl 100 100 (by decide))

/-- The `cpio` archive of `Props/Cpio.lean`. -/
theorem C136_example : PresentsNested (Cpio.ops StringStream.ops 2) .eof
    (Cpio.new (StringStream.new ([exampleMember, exampleMember].flatMap CpioSpec.Member.bytes ++ exampleTrailer.bytes ++ [1, 2, 3])))
    [⟨⟨[97], 3, 0x5fa0, .file⟩, [104, 105, 33]⟩, ⟨⟨[97], 3, 0x5fa0, .file⟩, [104, 105, 33]⟩] := by
  refine C136_parts (P := StringStream.ops) rfl (by decide) ?_
  have h : ∀ m ∈ [exampleMember, exampleMember], m.WellFormed ∧ CpioSpec.shownName m.name ≠ CpioSpec.trailerName := by
    have h : exampleMember.WellFormed := by
      constructor <;> first | decide | exact ⟨⟨by decide, by decide⟩, by decide⟩ | exact ⟨by decide, by decide⟩
    have h2 : CpioSpec.shownName exampleMember.name ≠ CpioSpec.trailerName := by decide
    intro m hm
    simp only [List.mem_cons, List.not_mem_nil, or_false, or_self] at hm
    subst hm
    exact ⟨h, h2⟩
  exact C38_roundtrip (C01_isStream _) [exampleMember, exampleMember] exampleTrailer [1, 2, 3] h
    ⟨by constructor <;> first | decide | exact ⟨⟨by decide, by decide⟩, by decide⟩ | exact ⟨by decide, by decide⟩, rfl⟩ rfl 2 (by decide)

/-- What it means: an `ar` reader is opened on the first entry and tried, and then the second entry is presented all the same. -/
example : ∃ p' e q q', (Cpio.ops StringStream.ops 2).nextEntry
      (Cpio.new (StringStream.new ([exampleMember, exampleMember].flatMap CpioSpec.Member.bytes ++ exampleTrailer.bytes ++ [1, 2, 3]))) = .ok p' ∧
    p'.entry = some e ∧ Ar.new (SubInputStream.ops StringStream.ops) e = .ok q ∧ Ar.nextEntry (SubInputStream.ops StringStream.ops) 100 q = .ok q' ∧
    PresentsNested (Cpio.ops StringStream.ops 2) .eof { p' with entry := some ((ar 100).under q') } [⟨⟨[97], 3, 0x5fa0, .file⟩, [104, 105, 33]⟩] := by
  obtain ⟨p', e, h1, h2, _, _, _, _, h⟩ := C136_example
  have hfit : (ar 100).fits (contentFacts (Cpio.ops StringStream.ops 2).stream [104, 105, 33] e) := by
    refine ⟨show (3 : Nat) < 100 by decide, fun p b hg hb => ?_⟩
    have := congrArg List.length hg.2
    rw [hb] at this
    simp [slice] at this
    omega
  obtain ⟨hI, hS, _⟩ := h e .rest
  obtain ⟨k1, k2⟩ := hS.2.2.2 (ar 100) (.ar 100) hfit
  have hst : (Cpio.ops StringStream.ops 2).stream.status e ≠ .error := by
    have := hI []
    simp only [Behaves, Healthy] at this
    exact this.2.2.2.2.1
  obtain ⟨q, hq⟩ := k1 hst
  have s0 : Session (ar 100) (contentFacts (Cpio.ops StringStream.ops 2).stream [104, 105, 33] e) (Cpio.ops StringStream.ops 2).stream e q := .start (.ar 100) hfit hst hq
  obtain ⟨q', hq'⟩ := k2 q s0
  exact ⟨p', e, q, q', h1, h2, hq, hq', (h _ (.inside .rest (.next s0 hq'))).2.2⟩

end Strigi.Props
