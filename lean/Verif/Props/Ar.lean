import Verif.Proofs.Ar
import Verif.Props.StringStream

/-!
# Property C37: `ar` archives
-/

namespace Strigi.Props

open ArSpec Ar

variable {σ : Type}

/-- **C37**: an `ar` archive with the given entries (short or GNU long names, with symbol and name tables)
at an even position of any input stream that does not fail: iteration presents exactly these entries in
order and then ends with status `Eof`, whatever the client does with the entry streams. -/
theorem C37_roundtrip {P : StreamOps σ UInt8} {c : List UInt8} {soft : Prop} {input : σ}
    (hP : IsStream P c Failure.never soft input) (heven : P.position input % 2 = 0)
    (entries : List ArchiveEntry) (bytes : List UInt8) (ha : Archive [] entries bytes)
    (hc : c.drop (P.position input).toNat = ArSpec.magic ++ bytes) (fuel : Nat)
    (hf : bytes.length < fuel) :
    ∃ s, Ar.new P input = .ok s ∧
      Presents (Ar.ops P fuel) Failure.never soft .eof s entries := by
  have hA := At.of_isStream hP
  rw [hc] at hA
  obtain ⟨i, e, hA', hpos⟩ := hA.read (n := 8) rfl (by omega)
  refine ⟨_, by rw [Ar.new, e]; rfl, ?_⟩
  refine Ar.presents (c := c) entries _ ha hf rfl ⟨rfl, i, rfl, [], hA', Or.inl ?_⟩
  rw [hpos]
  simp only [List.length_nil]
  omega

/-- **C37**: what does not start with the magic is not an archive: the provider reports `Error` and has no
entries. -/
theorem C37_not_an_archive {P : StreamOps σ UInt8} {c : List UInt8} {soft : Prop} {input : σ}
    (hP : IsStream P c Failure.never soft input)
    (hc : ¬ ArSpec.magic <+: c.drop (P.position input).toNat) (fuel : Nat) :
    ∃ s, Ar.new P input = .ok s ∧ Presents (Ar.ops P fuel) Failure.never soft .error s [] := by
  have hA := At.of_isStream hP
  generalize hrest : c.drop (P.position input).toNat = rest at hA hc
  have key : ∀ (i : σ), Ar.new P input = .ok ⟨⟨.error, i, none, {}⟩, []⟩ →
      ∃ s, Ar.new P input = .ok s ∧ Presents (Ar.ops P fuel) Failure.never soft .error s [] := by
    intro i h1
    exact ⟨_, h1, _, by simp only [Ar.ops, nextEntry]; rw [if_pos (by simp)], rfl, rfl,
      by simp only [Ar.ops, nextEntry]; rw [if_pos (by simp)]⟩
  by_cases hl : rest.length < 8
  · obtain ⟨i, k, d, e, _, h1, h2⟩ := hA.read_short (n := 8) (by omega) (by omega)
    refine key i ?_
    have hk : k ≠ 8 := by
      by_cases hz : rest = []
      · have := (h2 hz).1; omega
      · have := (h1 hz).1; omega
    rw [Ar.new, e]
    simp only [Res.bind_ok]
    rw [if_pos hk]
    rfl
  · have hsplit : rest = rest.take 8 ++ rest.drop 8 := (List.take_append_drop 8 rest).symm
    rw [hsplit] at hA
    have hl8 : (rest.take 8).length = 8 := by rw [List.length_take]; omega
    obtain ⟨i, e, _, _⟩ := hA.read (n := 8) (by omega) (by omega)
    refine key i ?_
    have hne : rest.take 8 ≠ Ar.magic := by
      intro z
      apply hc
      rw [hsplit, z]
      exact ⟨rest.drop 8, rfl⟩
    have hm : memEq (rest.take 8) Ar.magic = .ok false := by
      unfold memEq
      rw [if_pos (by rw [hl8]; decide)]
      have h8 : Ar.magic.length = 8 := rfl
      rw [h8, List.take_take]
      simpa using hne
    rw [Ar.new, e]
    simp only [Res.bind_ok, checkHeader]
    rw [if_neg (by omega), if_neg (by omega), hm]
    rfl

/-- An archive for the examples: a name table, an entry with a long name and one with a short name. -/
def exampleArBytes : List UInt8 :=
  ((47 :: 47 :: List.replicate 14 32) ++ (([48] ++ List.replicate 10 32) ++ [32]) ++ List.replicate 20 32 ++
      ([52] ++ List.replicate 9 32) ++ [96, 10]) ++ [97, 98, 47, 10] ++ [] ++
  (((([47, 48] ++ List.replicate 14 32) ++ (([55] ++ List.replicate 10 32) ++ [32]) ++ List.replicate 20 32 ++
      ([51] ++ List.replicate 9 32) ++ [96, 10]) ++ [1, 2, 3] ++ [10]) ++
  (((([120, 47] ++ List.replicate 14 32) ++ (([55] ++ List.replicate 10 32) ++ [32]) ++ List.replicate 20 32 ++
      ([49] ++ List.replicate 9 32) ++ [96, 10]) ++ [9] ++ []) ++ []))

theorem exampleArchive : Archive [] [⟨⟨[97, 98], 3, 7, .file⟩, [1, 2, 3]⟩, ⟨⟨[120], 1, 7, .file⟩, [9]⟩]
    exampleArBytes := by
  have hfield : ∀ (d : UInt8) (w n : Nat), decimal [d] = some n →
      Field ([d] ++ List.replicate w 32) (w + 1) n :=
    fun d w n h => ⟨[d], w, rfl, by simp, h, by simp⟩
  refine Archive.names (field := 47 :: 47 :: List.replicate 14 32) (content := [97, 98, 47, 10]) (mtime := 0) rfl
    ⟨_, _, _, rfl, rfl, hfield 48 10 0 rfl, by simp, hfield 52 9 4 rfl, by decide, by decide⟩ (by simp)
    (Or.inl rfl) ?_
  refine Archive.entry (field := [47, 48] ++ List.replicate 14 32) (content := [1, 2, 3]) (mtime := 7)
    (Or.inr ⟨[48], 13, 0, [], [10], rfl, by simp, rfl, by decide, by simp, rfl, rfl, by decide⟩)
    ⟨_, _, _, rfl, rfl, hfield 55 10 7 rfl, by simp, hfield 51 9 3 rfl, by decide, by decide⟩
    (Or.inl rfl) ?_
  refine Archive.entry (field := [120, 47] ++ List.replicate 14 32) (content := [9]) (mtime := 7)
    (Or.inl ⟨by simp, by simp, by decide, Or.inr ⟨47, List.replicate 14 32, rfl, by decide⟩⟩)
    ⟨_, _, _, rfl, rfl, hfield 55 10 7 rfl, by simp, hfield 49 9 1 rfl, by decide, by decide⟩
    (Or.inr ⟨rfl, rfl⟩) .done

/-- Non-vacuity: a concrete archive on a concrete stream. -/
example : ∃ s, Ar.new StringStream.ops (StringStream.new (ArSpec.magic ++ exampleArBytes)) = .ok s ∧
    Presents (Ar.ops StringStream.ops 1000) Failure.never True .eof s
      [⟨⟨[97, 98], 3, 7, .file⟩, [1, 2, 3]⟩, ⟨⟨[120], 1, 7, .file⟩, [9]⟩] :=
  C37_roundtrip (C01_isStream _) rfl _ _ exampleArchive rfl 1000 (by decide +kernel)

end Strigi.Props
