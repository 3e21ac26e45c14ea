import Verif.Proofs.CpioCut
import Verif.Props.Cpio

/-!
# Property C137: cpio archives of which the end is missing
-/

namespace Strigi.Props

open CpioSpec Cpio

variable {σ : Type}

/-- `StringStream` reports the end at once. -/
theorem prompt_stringStream {α : Type} : Prompt (StringStream.ops (α := α)) := by
  intro s s' mn mx n d h1 h2 h hn
  have h : StringStream.read s mn mx = (s', n, d) := by
    have := h; simp only [StringStream.ops, Res.ok.injEq] at this; exact this
  unfold StringStream.read at h
  dsimp only at h
  by_cases hz : (s.data.length : Int) - s.pos = 0
  · rw [if_pos hz] at h; cases h; simp [StringStream.ops]
  · rw [if_neg hz] at h
    by_cases hm : mx > (s.data.length : Int) - s.pos ∨ mx < 1
    · rw [if_pos hm, if_pos (by omega)] at h; cases h; simp [StringStream.ops]
    · rw [if_neg hm] at h; cases h; omega

/-- So do all streams that are built on `BufferedStream`: files, decompressors, processes, decoders. -/
theorem prompt_buffered {φ : Type} (B : Producer φ UInt8) : Prompt (BufferedStream.ops B) :=
  fun _ _ _ _ _ _ h1 h2 h hn => buffered_short h1 h2 h hn

/-- So does a mapped file. -/
theorem prompt_mmap {α : Type} : Prompt (MMapStream.ops (α := α)) := by
  intro s s' mn mx n d h1 h2 h hn
  have h : MMapStream.read s mn mx = .ok (s', n, d) := h
  unfold MMapStream.read at h
  split at h
  · rename_i hs; cases h; simp [MMapStream.ops, hs]
  · split at h
    · rename_i hs; cases h; simp [MMapStream.ops, hs]
    · dsimp only at h
      by_cases hl : max mn mx ≥ (s.mem.length : Int) - s.pos
      · simp only [if_pos hl] at h
        cases ha : s.at_ ((s.mem.length : Int) - s.pos) with
        | ok x => rw [ha] at h; cases h; simp [MMapStream.ops]
        | fault f => rw [ha] at h; cases h
        | diverge => rw [ha] at h; cases h
      · simp only [if_neg hl] at h
        cases ha : s.at_ (max mn mx) with
        | ok x => rw [ha] at h; cases h; omega
        | fault f => rw [ha] at h; cases h
        | diverge => rw [ha] at h; cases h

/-- **C137**: the input ends after `k` bytes of the member `m`.  The members before it are presented as if nothing were
missing, and then:

* if the cut is in the header, the iteration ends with `Eof`: the loss is not noticed;
* if it is in the name, it ends with `Error`;
* if it is in the content, `m` is shown with its full size; its stream delivers what is there and then reports an error,
  never `Eof`; the iteration ends with `Eof`;
* if only padding is missing, `m` is presented and the iteration ends with `Eof`. -/
theorem C137_cpio {P : StreamOps σ UInt8} {c : List UInt8} {soft : Prop} {input : σ} (hS : IsStream P c Failure.never soft input)
    (hP : Prompt P) (ms : List Member) (m : Member) (hms : ∀ m ∈ ms, m.WellFormed ∧ shownName m.name ≠ trailerName)
    (hm : m.WellFormed) (k : Nat)
    (hc : c.drop (P.position input).toNat = ms.flatMap Member.bytes ++ m.bytes.take k) (fuel : Nat) (hf : 3 ≤ fuel) :
    let start := 110 + (m.name.length + 1) + m.namePad.length
    (k < 110 → Presents (Cpio.ops P fuel) Failure.never soft .eof (Cpio.new input) (ms.map Member.entry)) ∧
    (110 ≤ k → k < start → Presents (Cpio.ops P fuel) Failure.never soft .error (Cpio.new input) (ms.map Member.entry)) ∧
    (shownName m.name ≠ trailerName → start ≤ k → k < start + m.content.length →
      PresentsThen (Cpio.ops P fuel) Failure.never soft
        (ShowsPart (Cpio.ops P fuel) soft m.entry.info (m.content.take (k - start)) .eof) (Cpio.new input) (ms.map Member.entry)) ∧
    (shownName m.name ≠ trailerName → start + m.content.length ≤ k →
      Presents (Cpio.ops P fuel) Failure.never soft .eof (Cpio.new input) (ms.map Member.entry ++ [m.entry])) := by
  intro start
  have hR : Cpio.Ready P c soft fuel (Cpio.new input) (ms.flatMap Member.bytes ++ m.bytes.take k) := by
    refine ⟨rfl, rfl, input, rfl, ?_⟩
    have := At.of_isStream hS
    rw [hc] at this
    exact this
  have hT := Cpio.presentsThen (by omega) ms _ hms (by show (-1 : Int) ≤ -1; omega) hR
  have hl := header_length hm
  have hn : (m.name ++ 0 :: m.namePad).length = m.name.length + 1 + m.namePad.length := by
    simp only [List.length_append, List.length_cons]; omega
  rw [bytes_eq m] at hT
  refine ⟨fun h1 => ?_, fun h1 h2 => ?_, fun hne h1 h2 => ?_, fun hne h1 => ?_⟩
  · refine PresentsThen.presents _ _ (PresentsThen.mono (fun p h => ?_) _ _ hT)
    exact end_header hP h.1 (by rw [List.length_take]; omega) h.2
  · refine PresentsThen.presents _ _ (PresentsThen.mono (fun p h => ?_) _ _ hT)
    have h := h.2
    rw [List.take_append, List.take_of_length_le (by omega)] at h
    refine end_name hm ?_ h
    rw [List.length_take, hl]
    simp only [start] at h2
    omega
  · refine PresentsThen.mono (fun p h => ?_) _ _ hT
    have h := h.2
    simp only [start] at h1 h2 ⊢
    rw [List.take_append, List.take_of_length_le (by omega), List.take_append, List.take_of_length_le (by omega),
      List.take_append, hl, hn] at h
    rw [show k - 110 - (m.name.length + 1 + m.namePad.length) = k - (110 + (m.name.length + 1) + m.namePad.length) by omega,
      show k - (110 + (m.name.length + 1) + m.namePad.length) - m.content.length = 0 by omega, List.take_zero, List.append_nil] at h
    exact shows_part hP hf hm hne (by rw [List.length_take]; omega) h
  · refine PresentsThen.presents _ _ (PresentsThen.append _ _ (PresentsThen.mono (fun p h => ?_) _ _ hT))
    have h := h.2
    simp only [start] at h1
    rw [List.take_append, List.take_of_length_le (by omega), List.take_append, List.take_of_length_le (by omega),
      List.take_append, List.take_of_length_le (by omega)] at h
    exact shows_all hP (by omega) hm hne (by rw [List.length_take]; omega) h

/-- Where a cut falls. -/
theorem take_flatMap {β : Type} (f : β → List UInt8) : ∀ (l : List β) (k : Nat), k < (l.flatMap f).length →
    ∃ l1 b l2 j, l = l1 ++ b :: l2 ∧ j < (f b).length ∧ (l.flatMap f).take k = l1.flatMap f ++ (f b).take j := by
  intro l
  induction l with
  | nil => intro k hk; simp at hk
  | cons a l ih =>
    intro k hk
    rw [List.flatMap_cons, List.length_append] at hk
    by_cases h : k < (f a).length
    · exact ⟨[], a, l, k, rfl, h, by rw [List.flatMap_cons, List.take_append]; simp [show k - (f a).length = 0 by omega]⟩
    · obtain ⟨l1, b, l2, j, h1, h2, h3⟩ := ih (k - (f a).length) (by omega)
      refine ⟨a :: l1, b, l2, j, by rw [h1]; rfl, h2, ?_⟩
      rw [List.flatMap_cons, List.flatMap_cons, List.take_append, List.take_of_length_le (by omega), h3, List.append_assoc]

/-- **C137**, for every cut: of an archive of which only the first `k` bytes are there, exactly the first `i` members are
presented, for some `i`, and then at most one more, of which a part is missing, as such.  Nothing is invented. -/
theorem C137_cpio_any {P : StreamOps σ UInt8} {c : List UInt8} {soft : Prop} {input : σ} (hS : IsStream P c Failure.never soft input)
    (hP : Prompt P) (ms : List Member) (trailer : Member) (hms : ∀ m ∈ ms, m.WellFormed ∧ shownName m.name ≠ trailerName)
    (ht : trailer.WellFormed ∧ trailer.name = trailerName) (k : Nat)
    (hc : c.drop (P.position input).toNat = (ms.flatMap Member.bytes ++ trailer.bytes).take k) (fuel : Nat) (hf : 3 ≤ fuel) :
    ∃ i ≤ ms.length,
      (∃ st, st ≠ .ok ∧ Presents (Cpio.ops P fuel) Failure.never soft st (Cpio.new input) ((ms.take i).map Member.entry)) ∨
      (∃ m j, ms[i]? = some m ∧ j < m.content.length ∧
        PresentsThen (Cpio.ops P fuel) Failure.never soft
          (ShowsPart (Cpio.ops P fuel) soft m.entry.info (m.content.take j) .eof) (Cpio.new input) ((ms.take i).map Member.entry)) := by
  have seen : ∀ (l : List Member) (x : List UInt8), (∀ m ∈ l, m.WellFormed ∧ shownName m.name ≠ trailerName) →
      c.drop (P.position input).toNat = l.flatMap Member.bytes ++ (header trailer ++ ((trailer.name ++ 0 :: trailer.namePad) ++ x)) →
      Presents (Cpio.ops P fuel) Failure.never soft .eof (Cpio.new input) (l.map Member.entry) := by
    intro l x hl hcx
    have hA := At.of_isStream hS
    rw [hcx] at hA
    refine PresentsThen.presents _ _ (PresentsThen.mono (fun p h => end_trailer ht.1 (by rw [ht.2]; rfl) h.2) _ _
      (Cpio.presentsThen (by omega) l _ hl (by show (-1 : Int) ≤ -1; omega) ⟨rfl, rfl, input, rfl, hA⟩))
  by_cases hk : k < ((ms ++ [trailer]).flatMap Member.bytes).length
  · obtain ⟨l1, b, l2, j, h1, h2, h3⟩ := take_flatMap Member.bytes _ k hk
    rw [List.flatMap_append, List.flatMap_singleton] at h3
    rw [h3] at hc
    have hi : l1.length ≤ ms.length := by
      have := congrArg List.length h1
      simp only [List.length_append, List.length_cons, List.length_nil] at this; omega
    have hl1 : ms.take l1.length = l1 := by
      have := congrArg (List.take l1.length) h1
      rw [List.take_append_of_le_length hi, List.take_left] at this; exact this
    have hb : (ms[l1.length]? = some b ∧ shownName b.name ≠ trailerName ∧ b.WellFormed) ∨
        (b = trailer ∧ l1.length = ms.length) := by
      have hg := congrArg (fun l : List Member => l[l1.length]?) h1
      simp only [List.getElem?_append_right (Nat.le_refl _), Nat.sub_self, List.getElem?_cons_zero] at hg
      by_cases hlt : l1.length < ms.length
      · rw [List.getElem?_append_left hlt] at hg
        have := hms b (List.mem_of_getElem? hg)
        exact Or.inl ⟨hg, this.2, this.1⟩
      · have : l1.length = ms.length := by omega
        rw [this] at hg
        rw [List.getElem?_append_right (Nat.le_refl _)] at hg
        simp only [Nat.sub_self, List.getElem?_cons_zero, Option.some.injEq] at hg
        exact Or.inr ⟨hg.symm, this⟩
    have hbw : b.WellFormed := by
      rcases hb with x | x
      · exact x.2.2
      · rw [x.1]; exact ht.1
    have hl1w : ∀ m ∈ l1, m.WellFormed ∧ shownName m.name ≠ trailerName :=
      fun m hm => hms m (by rw [← hl1] at hm; exact List.mem_of_mem_take hm)
    have M := C137_cpio hS hP l1 b hl1w hbw j hc fuel hf
    dsimp only at M
    obtain ⟨m1, m2, m3, m4⟩ := M
    by_cases c1 : j < 110
    · exact ⟨l1.length, hi, Or.inl ⟨.eof, by decide, by rw [hl1]; exact m1 c1⟩⟩
    · by_cases c2 : j < 110 + (b.name.length + 1) + b.namePad.length
      · exact ⟨l1.length, hi, Or.inl ⟨.error, by decide, by rw [hl1]; exact m2 (by omega) c2⟩⟩
      · rcases hb with ⟨x1, x2, x3⟩ | ⟨x1, x2⟩
        · by_cases c3 : j < 110 + (b.name.length + 1) + b.namePad.length + b.content.length
          · exact ⟨l1.length, hi, Or.inr ⟨b, j - (110 + (b.name.length + 1) + b.namePad.length), x1, by omega, by rw [hl1]; exact m3 x2 (by omega) c3⟩⟩
          · have hlt : l1.length < ms.length := (List.getElem?_eq_some_iff.mp x1).1
            refine ⟨l1.length + 1, by omega, Or.inl ⟨.eof, by decide, ?_⟩⟩
            rw [List.take_add_one, x1, hl1, List.map_append]
            exact m4 x2 (by omega)
        · -- the content of the trailer is read as if it followed the trailer
          refine ⟨l1.length, hi, Or.inl ⟨.eof, by decide, ?_⟩⟩
          rw [hl1]
          subst x1
          rw [bytes_eq b] at hc
          have hl := header_length hbw
          have hn : (b.name ++ 0 :: b.namePad).length = b.name.length + 1 + b.namePad.length := by
            simp only [List.length_append, List.length_cons]; omega
          rw [List.take_append, List.take_of_length_le (by omega), List.take_append, List.take_of_length_le (by omega)] at hc
          exact seen l1 _ hl1w hc
  · refine ⟨ms.length, Nat.le_refl _, Or.inl ⟨.eof, by decide, ?_⟩⟩
    rw [List.take_length]
    rw [List.flatMap_append, List.flatMap_singleton] at hk
    rw [List.take_of_length_le (by omega), bytes_eq] at hc
    exact seen ms _ hms hc

theorem exampleMember_ok : exampleMember.WellFormed ∧ shownName exampleMember.name ≠ trailerName :=
  ⟨by constructor <;> first | decide | exact ⟨⟨by decide, by decide⟩, by decide⟩ | exact ⟨by decide, by decide⟩, by decide⟩

/-- Non-vacuity: two members of which the last byte of content and the padding are missing. -/
example : PresentsThen (Cpio.ops StringStream.ops 3) Failure.never True
    (ShowsPart (Cpio.ops StringStream.ops 3) True ⟨[97], 3, 0x5fa0, .file⟩ [104, 105] .eof)
    (Cpio.new (StringStream.new (exampleMember.bytes ++ exampleMember.bytes.take 118)))
    [⟨⟨[97], 3, 0x5fa0, .file⟩, [104, 105, 33]⟩] :=
  (C137_cpio (C01_isStream _) prompt_stringStream [exampleMember] exampleMember
    (by intro m hm; rw [List.mem_singleton] at hm; subst hm; exact exampleMember_ok) exampleMember_ok.1 118
    rfl 3 (by omega)).2.2.1 exampleMember_ok.2 (by decide) (by decide)

/-- The same archive, cut in the second header: the loss is not noticed. -/
example : Presents (Cpio.ops StringStream.ops 3) Failure.never True .eof
    (Cpio.new (StringStream.new (exampleMember.bytes ++ exampleMember.bytes.take 50)))
    [⟨⟨[97], 3, 0x5fa0, .file⟩, [104, 105, 33]⟩] :=
  (C137_cpio (C01_isStream _) prompt_stringStream [exampleMember] exampleMember
    (by intro m hm; rw [List.mem_singleton] at hm; subst hm; exact exampleMember_ok) exampleMember_ok.1 50
    rfl 3 (by omega)).1 (by decide)

/-- A `read` that returns the rest of the data without a change of status, so that only the next read reports the end. -/
def lazyRead (s : StringStream UInt8) (mn mx : Int) : Res (StringStream UInt8 × Int × List UInt8) :=
  let r := s.read mn mx
  .ok (if 0 < r.2.1 then { r.1 with status := .ok } else r.1, r.2)

/-- `Prompt` is needed: on a stream with such a `read`, a header that is cut off is shown as an entry without name and size. -/
theorem C137_prompt_needed : ∃ s, Cpio.nextEntry { StringStream.ops with read := lazyRead } 3
      (Cpio.new (StringStream.new (exampleMember.bytes.take 50))) = .ok s ∧ s.status = .ok ∧ s.entry.isSome ∧
      s.info.filename = [] ∧ s.info.size = -1 := by
  refine ⟨_, rfl, ?_⟩
  decide +kernel

end Strigi.Props
