import Verif.Proofs.ArCut
import Verif.Props.Ar
import Verif.Props.Cut

/-!
# Property C139: `ar` archives of which the end is missing
-/

namespace Strigi.Props

open ArSpec

variable {σ : Type} {P : StreamOps σ UInt8} {c : List UInt8} {soft : Prop} {input : σ}

theorem ar_ready (hS : IsStream P c Failure.never soft input) (heven : P.position input % 2 = 0) {bytes : List UInt8}
    (hc : c.drop (P.position input).toNat = ArSpec.magic ++ bytes) :
    ∃ s, Ar.new P input = .ok s ∧ s.names = [] ∧ Ar.Ready P c soft s bytes := by
  have hA := At.of_isStream hS
  rw [hc] at hA
  obtain ⟨i, e, hA', hpos⟩ := hA.read (n := 8) rfl (by omega)
  refine ⟨_, by rw [Ar.new, e]; rfl, rfl, rfl, i, rfl, [], hA', Or.inl ?_⟩
  rw [hpos]
  simp only [List.length_nil]
  omega

/-- **C139**: the cut is in a header, of which at least two bytes are there: the entries before it are presented and the
iteration ends with `Error`. -/
theorem C139_header (hS : IsStream P c Failure.never soft input) (heven : P.position input % 2 = 0) {tail last : List UInt8}
    (h2 : 2 ≤ tail.length) (h60 : tail.length < 60) (entries : List ArchiveEntry) (bytes : List UInt8)
    (hM : Members tail last [] entries bytes)
    (hc : c.drop (P.position input).toNat = ArSpec.magic ++ bytes) (fuel : Nat) (hf : bytes.length < fuel) :
    ∃ s, Ar.new P input = .ok s ∧ Presents (Ar.ops P fuel) Failure.never soft .error s entries := by
  obtain ⟨s, e, hn, hR⟩ := ar_ready hS heven hc
  refine ⟨s, e, PresentsThen.presents _ _ (PresentsThen.mono (fun p h => Ar.Stands.ends (by decide) h) _ _
    (Ar.presentsThen (E := fun s' => s'.status = .error) (fun _ h => h) (fun fuel s hf _ _ hA => ?_) entries s hM hf hn hR))⟩
  obtain ⟨f, rfl⟩ : ∃ f, fuel = f + 1 := ⟨fuel - 1, by omega⟩
  exact Ar.tail_header h2 h60 f s hA

/-- **C139**: at most one byte of the next header is there: this is a valid archive without the members that follow, and the
loss is not noticed. -/
theorem C139_boundary (hS : IsStream P c Failure.never soft input) (heven : P.position input % 2 = 0) {tail last : List UInt8}
    (h1 : tail.length ≤ 1) (entries : List ArchiveEntry) (bytes : List UInt8) (hM : Members tail last [] entries bytes)
    (hc : c.drop (P.position input).toNat = ArSpec.magic ++ bytes) (fuel : Nat) (hf : bytes.length < fuel) :
    ∃ s, Ar.new P input = .ok s ∧ Presents (Ar.ops P fuel) Failure.never soft .eof s entries := by
  obtain ⟨s, e, hn, hR⟩ := ar_ready hS heven hc
  refine ⟨s, e, PresentsThen.presents _ _ (PresentsThen.mono (fun p h => Ar.Stands.ends (by decide) h) _ _
    (Ar.presentsThen (E := fun s' => s'.status = .eof) (fun _ h => h) (fun fuel s hf _ _ hA => ?_) entries s hM hf hn hR))⟩
  obtain ⟨f, rfl⟩ : ∃ f, fuel = f + 1 := ⟨fuel - 1, by omega⟩
  obtain ⟨i, e⟩ := Ar.readHeader_end h1 f s hA
  exact ⟨_, e, rfl⟩

/-- **C139**: the cut is in the content of an entry: the entries before it are presented; the entry is shown with its full
size, its stream delivers what is there and then reports an error, never `Eof`; then the iteration ends with `Eof`. -/
theorem C139_content (hS : IsStream P c Failure.never soft input) (heven : P.position input % 2 = 0)
    {head field name x last : List UInt8} {size mtime : Nat} (hname : ShortName field name ∨ LongName last field name)
    (hh : Header head field mtime size) (hx : x.length < size) (entries : List ArchiveEntry) (bytes : List UInt8)
    (hM : Members (head ++ x) last [] entries bytes)
    (hc : c.drop (P.position input).toNat = ArSpec.magic ++ bytes) (fuel : Nat) (hf : bytes.length < fuel) :
    ∃ s, Ar.new P input = .ok s ∧ PresentsThen (Ar.ops P fuel) Failure.never soft
      (ShowsPart (Ar.ops P fuel) soft ⟨name, size, mtime, .file⟩ x .eof) s entries := by
  obtain ⟨s, e, hn, hR⟩ := ar_ready hS heven hc
  have hf1 : 1 ≤ fuel := by omega
  refine ⟨s, e, PresentsThen.mono (fun p h => Ar.shows_part (size := size) hf1 rfl (Ar.header_size hh) hx h) _ _
    (Ar.presentsThen (E := Ar.Found P c soft ⟨name, size, mtime, .file⟩ x) (fun s' h => ⟨h.1, by simp only [h.2.1], h.2.2⟩)
      (fun fuel s hf hst hs hA => ?_) entries s hM hf hn hR)⟩
  obtain ⟨f, rfl⟩ : ∃ f, fuel = f + 1 := ⟨fuel - 1, by omega⟩
  obtain ⟨i, hAi, _, e⟩ := Ar.step_entry hname hh hs f hA
  exact ⟨_, e, hst, rfl, hAi⟩

/-- **C139**: the cut is in the symbol table: the iteration ends with `Eof`. -/
theorem C139_symbols (hS : IsStream P c Failure.never soft input) (heven : P.position input % 2 = 0)
    {head field x last : List UInt8} {size mtime : Nat} (hfd : field = 47 :: List.replicate 15 32)
    (hh : Header head field mtime size) (hx : x.length < size) (entries : List ArchiveEntry) (bytes : List UInt8)
    (hM : Members (head ++ x) last [] entries bytes)
    (hc : c.drop (P.position input).toNat = ArSpec.magic ++ bytes) (fuel : Nat) (hf : bytes.length < fuel) :
    ∃ s, Ar.new P input = .ok s ∧ Presents (Ar.ops P fuel) Failure.never soft .eof s entries := by
  obtain ⟨s, e, hn, hR⟩ := ar_ready hS heven hc
  have hl := (Ar.header_parts hh).1
  refine ⟨s, e, PresentsThen.presents _ _ (PresentsThen.mono (fun p h => Ar.Stands.ends (by decide) h) _ _
    (Ar.presentsThen (E := fun s' => s'.status = .eof) (fun _ h => h) (fun fuel s hf _ _ hA => ?_) entries s hM hf hn hR))⟩
  rw [List.length_append] at hf
  obtain ⟨f, rfl⟩ : ∃ f, fuel = f + 2 := ⟨fuel - 2, by omega⟩
  exact Ar.tail_symbols hfd hh hx s f hA

/-- **C139**: the cut is in the table of long names: the iteration ends with `Error`. -/
theorem C139_names (hS : IsStream P c Failure.never soft input) (heven : P.position input % 2 = 0)
    {head field x last : List UInt8} {size mtime : Nat} (hfd : field = 47 :: 47 :: List.replicate 14 32)
    (hh : Header head field mtime size) (hx : x.length < size) (entries : List ArchiveEntry) (bytes : List UInt8)
    (hM : Members (head ++ x) last [] entries bytes)
    (hc : c.drop (P.position input).toNat = ArSpec.magic ++ bytes) (fuel : Nat) (hf : bytes.length < fuel) :
    ∃ s, Ar.new P input = .ok s ∧ Presents (Ar.ops P fuel) Failure.never soft .error s entries := by
  obtain ⟨s, e, hn, hR⟩ := ar_ready hS heven hc
  refine ⟨s, e, PresentsThen.presents _ _ (PresentsThen.mono (fun p h => Ar.Stands.ends (by decide) h) _ _
    (Ar.presentsThen (E := fun s' => s'.status = .error) (fun _ h => h) (fun fuel s hf _ _ hA => ?_) entries s hM hf hn hR))⟩
  obtain ⟨f, rfl⟩ : ∃ f, fuel = f + 1 := ⟨fuel - 1, by omega⟩
  exact Ar.tail_names hfd hh hx s f hA

/-- **C139**, for every cut: of an archive of which only the first `k` bytes are there, exactly the first `i` entries are
presented, for some `i`, and then at most one more, of which a part is missing, as such.  Nothing is invented. -/
theorem C139_any (hS : IsStream P c Failure.never soft input) (heven : P.position input % 2 = 0)
    (entries : List ArchiveEntry) (bytes : List UInt8) (ha : Archive [] entries bytes) (k : Nat) (hk : k ≤ (ArSpec.magic ++ bytes).length)
    (hc : c.drop (P.position input).toNat = (ArSpec.magic ++ bytes).take k) (fuel : Nat) (hf : bytes.length < fuel) :
    ∃ s, Ar.new P input = .ok s ∧ ∃ i ≤ entries.length,
      (∃ st, st ≠ .ok ∧ Presents (Ar.ops P fuel) Failure.never soft st s (entries.take i)) ∨
      (∃ e j, entries[i]? = some e ∧ j < e.content.length ∧
        PresentsThen (Ar.ops P fuel) Failure.never soft
          (ShowsPart (Ar.ops P fuel) soft e.info (e.content.take j) .eof) s (entries.take i)) := by
  have h8 : ArSpec.magic.length = 8 := rfl
  by_cases hk8 : k < 8
  · have hno : ¬ ArSpec.magic <+: c.drop (P.position input).toNat := by
      intro z
      have := z.length_le
      rw [hc, List.length_take] at this
      omega
    obtain ⟨s, e, h⟩ := C37_not_an_archive hS hno fuel
    exact ⟨s, e, 0, Nat.zero_le _, Or.inl ⟨.error, by decide, h⟩⟩
  · rw [List.take_append, List.take_of_length_le (by omega), h8] at hc
    rw [List.length_append] at hk
    have hfk : (bytes.take (k - 8)).length < fuel := by rw [List.length_take]; omega
    obtain ⟨i, hi, h⟩ := Ar.cut ha (k - 8) (by omega)
    rcases h with h | ⟨tail, last, h, hM⟩
    · obtain ⟨s, e, hp⟩ := C37_roundtrip hS heven _ _ h hc fuel hfk
      exact ⟨s, e, i, hi, Or.inl ⟨.eof, by decide, hp⟩⟩
    · cases h with
      | header h1 h2 =>
        obtain ⟨s, e, hp⟩ := C139_header hS heven h1 h2 _ _ hM hc fuel hfk
        exact ⟨s, e, i, hi, Or.inl ⟨.error, by decide, hp⟩⟩
      | @part a field name head x y mtime h1 h2 h3 h4 h5 h6 =>
        have hl := congrArg List.length h5
        have hy := List.length_pos_iff.mpr h6
        rw [List.length_append] at hl
        obtain ⟨s, e, hp⟩ := C139_content hS heven h3 h4 (by omega) _ _ hM hc fuel hfk
        refine ⟨s, e, i, hi, Or.inr ⟨a, x.length, h1, by omega, ?_⟩⟩
        rw [h2, show a.content.take x.length = x by rw [h5, List.take_left]]
        exact hp
      | symbols h1 h2 h3 =>
        obtain ⟨s, e, hp⟩ := C139_symbols hS heven h1 h2 h3 _ _ hM hc fuel hfk
        exact ⟨s, e, i, hi, Or.inl ⟨.eof, by decide, hp⟩⟩
      | names h1 h2 h3 =>
        obtain ⟨s, e, hp⟩ := C139_names hS heven h1 h2 h3 _ _ hM hc fuel hfk
        exact ⟨s, e, i, hi, Or.inl ⟨.error, by decide, hp⟩⟩

/-- The header of the first entry of the example. -/
def exampleArHead (field : List UInt8) (size : UInt8) : List UInt8 :=
  field ++ (([55] ++ List.replicate 10 32) ++ [32]) ++ List.replicate 20 32 ++ ([size] ++ List.replicate 9 32) ++ [96, 10]

theorem exampleArHeader (field : List UInt8) (size : UInt8) (n : Nat) (hf : field.length = 16) (hn : decimal [size] = some n)
    (hlt : n < 2 ^ 31) : Header (exampleArHead field size) field 7 n := by
  have hfield : ∀ (d : UInt8) (w n : Nat), decimal [d] = some n → Field ([d] ++ List.replicate w 32) (w + 1) n :=
    fun d w n h => ⟨[d], w, rfl, by simp, h, by simp⟩
  exact ⟨_, _, _, rfl, hf, hfield 55 10 7 rfl, by simp, hfield size 9 n hn, by decide, hlt⟩

/-- A name table and an entry with a long name. -/
theorem exampleMembers (tail : List UInt8) : Members tail [97, 98, 47, 10] [] [⟨⟨[97, 98], 3, 7, .file⟩, [1, 2, 3]⟩]
    (exampleArHead (47 :: 47 :: List.replicate 14 32) 52 ++ [97, 98, 47, 10] ++ [] ++
      (exampleArHead ([47, 48] ++ List.replicate 14 32) 51 ++ [1, 2, 3] ++ [10] ++ tail)) :=
  Members.names (content := [97, 98, 47, 10]) rfl (exampleArHeader _ 52 4 rfl rfl (by decide)) (by simp) rfl
    (Members.entry (content := [1, 2, 3]) (Or.inr ⟨[48], 13, 0, [], [10], rfl, by simp, rfl, by decide, by simp, rfl, rfl, by decide⟩)
      (exampleArHeader _ 51 3 rfl rfl (by decide)) rfl .done)

/-- Non-vacuity: of the second entry one byte is there and one is missing. -/
example : ∃ bytes s, Ar.new StringStream.ops (StringStream.new bytes) = .ok s ∧
    PresentsThen (Ar.ops StringStream.ops 1000) Failure.never True
      (ShowsPart (Ar.ops StringStream.ops 1000) True ⟨[120], 2, 7, .file⟩ [5] .eof) s [⟨⟨[97, 98], 3, 7, .file⟩, [1, 2, 3]⟩] :=
  ⟨_, C139_content (C01_isStream _) rfl (field := [120, 47] ++ List.replicate 14 32)
    (Or.inl ⟨by simp, by simp, by decide, Or.inr ⟨47, List.replicate 14 32, rfl, by decide⟩⟩)
    (exampleArHeader _ 50 2 rfl rfl (by decide)) (by decide) _ _ (exampleMembers _) rfl 1000 (by decide +kernel)⟩

/-- Non-vacuity: two bytes of the second header are there. -/
example : ∃ bytes s, Ar.new StringStream.ops (StringStream.new bytes) = .ok s ∧
    Presents (Ar.ops StringStream.ops 1000) Failure.never True .error s [⟨⟨[97, 98], 3, 7, .file⟩, [1, 2, 3]⟩] :=
  ⟨_, C139_header (C01_isStream _) rfl (tail := [120, 47]) (by decide) (by decide) _ _ (exampleMembers _) rfl 1000 (by decide +kernel)⟩

end Strigi.Props
