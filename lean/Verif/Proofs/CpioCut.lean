import Verif.Proofs.Cpio
import Verif.Proofs.Cut

/-!
# cpio archives of which the end is missing
-/

namespace Strigi.Cpio

open CpioSpec

variable {σ : Type} {P : StreamOps σ UInt8} {c : List UInt8} {soft : Prop}

theorem presentsThen {fuel : Nat} (hf : 2 ≤ fuel) {tail : List UInt8} :
    ∀ (ms : List Member) (s : State σ), (∀ m ∈ ms, m.WellFormed ∧ shownName m.name ≠ trailerName) →
      -1 ≤ s.info.size → Ready P c soft fuel s (ms.flatMap Member.bytes ++ tail) →
      PresentsThen (ops P fuel) Failure.never soft (fun s => -1 ≤ s.info.size ∧ Ready P c soft fuel s tail) s
        (ms.map Member.entry) := by
  intro ms
  induction ms with
  | nil =>
    intro s _ hsz hR
    simp only [List.flatMap_nil, List.nil_append] at hR
    exact ⟨hsz, hR⟩
  | cons m ms ih =>
    intro s hms hsz hR
    rw [List.flatMap_cons, List.append_assoc] at hR
    obtain ⟨hm, hne⟩ := hms m (by simp)
    obtain ⟨s', e, x1, x2, x3, x4, x5, x6, x7, x8⟩ := nextEntry_spec hf hm hne hR
    refine ⟨s', e, x1, x2, x3, x4, x5, x6, x7, fun e' lo hi hu => ?_⟩
    refine ih _ (fun m' hm' => hms m' (by simp [hm'])) ?_ (x8 e' lo hi hu)
    simp only [ops]
    rw [x3]; simp only [Member.entry]; omega

/-- The header of a member. -/
def header (m : Member) : List UInt8 :=
  [48, 55, 48, 55, 48, 49] ++ m.before ++ m.mtimeField ++ m.sizeField ++ m.between ++ m.nameField ++ m.check

theorem bytes_eq (m : Member) : m.bytes = header m ++ ((m.name ++ 0 :: m.namePad) ++ (m.content ++ m.pad)) := by
  rw [Member.bytes, header]; simp

theorem header_ok {m : Member} (hm : m.WellFormed) : Header (header m) m.content.length m.mtime (m.name.length + 1) :=
  ⟨⟨_, _, _, _, _, _, rfl, hm.before, hm.mtime.1, hm.size.1, hm.between, hm.nameSize.1, hm.check⟩,
      hm.mtime.2, hm.size.2, by have := hm.nameSize.2; omega⟩

theorem header_length {m : Member} (hm : m.WellFormed) : (header m).length = 110 := by
  simp only [header, List.length_append, hm.before, hm.mtime.1.1, hm.size.1.1, hm.between, hm.nameSize.1.1, hm.check,
    List.length_cons, List.length_nil]

/-- The header is cut off. -/
theorem end_header (hP : Prompt P) {fuel : Nat} {s : State σ} {tail : List UInt8} (hsz : -1 ≤ s.info.size)
    (ht : tail.length < 110) (hR : Ready P c soft fuel s tail) : EndsWith (ops P fuel) .eof s := by
  obtain ⟨hst, hty, input, el, hA⟩ := hR
  obtain ⟨input', k, d, er, hA', h1, h0⟩ := hA.read_short (n := 110) (by omega) (by omega)
  have hk : k < 110 := by
    by_cases hz : tail = []
    · have := (h0 hz).1; omega
    · have := (h1 hz).1; omega
  have hs : P.status input' = .eof := by
    have a1 := hP _ _ _ _ _ _ (by omega) (Or.inr (Int.le_refl _)) er hk
    have a2 := hA'.status_ne
    cases h : P.status input' with
    | ok => exact absurd h a1
    | eof => rfl
    | error => exact absurd h a2
  refine ⟨{ s with entry := none, input := input', status := .eof }, ?_, rfl, rfl, ?_⟩
  · simp only [ops]
    rw [nextEntry, if_neg (by simp [hst]), el]
    simp only [Res.bind_ok]
    rw [readHeader, er]
    simp only [Res.bind_ok]
    rw [if_pos (by omega)]
    simp only [Res.bind_ok]
    rw [SubInputStream.new, Res.assert_of (by simpa using hsz)]
    simp only [Res.bind_ok, hs]
    rw [if_pos (by simp)]
  · simp only [ops]
    rw [nextEntry, if_pos (by simp)]

/-- The name is cut off. -/
theorem end_name {fuel : Nat} {s : State σ} {m : Member} {x : List UInt8} (hm : m.WellFormed)
    (ht : x.length < m.name.length + 1 + m.namePad.length) (hR : Ready P c soft fuel s (header m ++ x)) :
    EndsWith (ops P fuel) .error s := by
  obtain ⟨hst, hty, input, el, hA⟩ := hR
  obtain ⟨input', eh, hA'⟩ := readHeader_fields (s := { s with entry := none, input := input }) (header_ok hm) hA
  have e1 : ((m.name.length + 1 : Nat) : Int) + padTo4 ((((m.name.length + 1 : Nat) : Int) + 2).tmod 4) =
      ((m.name.length + 1 + m.namePad.length : Nat) : Int) := by
    have : padTo4 ((((m.name.length + 1 : Nat) : Int) + 2).tmod 4) = m.namePad.length := by
      have hp := hm.namePad
      apply padTo4_pads (len := m.name.length + 1 + 2)
      · refine ⟨hp.1, ?_⟩
        have := hp.2
        omega
      · congr 1
    rw [this]; omega
  obtain ⟨i2, k, d, er, hA2, h1, h0⟩ := hA'.read_short (n := ((m.name.length + 1 + m.namePad.length : Nat) : Int)) (by omega) (by omega)
  have hk : k ≠ ((m.name.length + 1 + m.namePad.length : Nat) : Int) := by
    by_cases hz : x = []
    · have := (h0 hz).1; omega
    · have := (h1 hz).1; omega
  have en : readHeader P { s with entry := none, input := input } = .ok { s with
      entry := none, input := i2, status := .error, padding := padTo4 ((m.content.length : Int).tmod 4),
      info := { s.info with size := m.content.length, mtime := m.mtime } } := by
    rw [eh, readName]
    dsimp only
    rw [e1, er]
    simp only [Res.bind_ok]
    rw [if_pos hk]
  refine ⟨{ s with
      entry := none, input := i2, status := .error, padding := padTo4 ((m.content.length : Int).tmod 4),
      info := { s.info with size := m.content.length, mtime := m.mtime } }, ?_, ?_, ?_, ?_⟩
  · simp only [ops]
    rw [nextEntry, if_neg (by simp [hst]), el]
    simp only [Res.bind_ok]
    rw [en]
    simp only [Res.bind_ok]
    rw [SubInputStream.new, Res.assert_of (by simp)]
    simp only [Res.bind_ok]
    rw [if_pos (by simp)]
  · rfl
  · rfl
  · simp only [ops]
    rw [nextEntry, if_pos (by simp)]

/-- The header and the name are there. -/
theorem opened {fuel : Nat} {s : State σ} {m : Member} {x : List UInt8} (hm : m.WellFormed)
    (hne : shownName m.name ≠ trailerName) (hR : Ready P c soft fuel s (header m ++ ((m.name ++ 0 :: m.namePad) ++ x))) :
    ∃ input, At P c soft input x ∧ ∀ e, SubInputStream.new P input m.content.length = .ok e →
      nextEntry P fuel s = .ok { s with entry := some e, input := input, padding := m.pad.length, info := m.entry.info } := by
  obtain ⟨hst, hty, input, el, hA⟩ := hR
  obtain ⟨i1, eh, hA1⟩ := readHeader_fields (s := { s with entry := none, input := input }) (header_ok hm) hA
  have epad : padTo4 ((m.content.length : Int).tmod 4) = m.pad.length := padTo4_pads hm.pad rfl
  rw [epad] at eh
  obtain ⟨i2, e2, hA2⟩ := readName_spec
    (s := { s with entry := none, input := i1, padding := m.pad.length,
                   info := { s.info with size := m.content.length, mtime := m.mtime } })
    hm.noNul hm.namePad hA1
  rw [if_neg hne] at e2
  refine ⟨i2, hA2, fun e en => ?_⟩
  rw [nextEntry, if_neg (by simp [hst]), el]
  simp only [Res.bind_ok]
  rw [eh, e2]
  simp only [Res.bind_ok]
  rw [en]
  simp only [Res.bind_ok]
  rw [if_neg (by simp [hst]), hty]
  rfl

/-- The header and the name of the trailer are there. -/
theorem end_trailer {fuel : Nat} {s : State σ} {m : Member} {x : List UInt8} (hm : m.WellFormed)
    (ht : shownName m.name = trailerName) (hR : Ready P c soft fuel s (header m ++ ((m.name ++ 0 :: m.namePad) ++ x))) :
    EndsWith (ops P fuel) .eof s := by
  obtain ⟨hst, hty, input, el, hA⟩ := hR
  obtain ⟨i1, eh, hA1⟩ := readHeader_fields (s := { s with entry := none, input := input }) (header_ok hm) hA
  have epad : padTo4 ((m.content.length : Int).tmod 4) = m.pad.length := padTo4_pads hm.pad rfl
  rw [epad] at eh
  obtain ⟨i2, e2, hA2⟩ := readName_spec
    (s := { s with entry := none, input := i1, padding := m.pad.length,
                   info := { s.info with size := m.content.length, mtime := m.mtime } })
    hm.noNul hm.namePad hA1
  rw [if_pos ht] at e2
  refine ⟨{ s with entry := none, input := i2, padding := m.pad.length, status := .eof,
                   info := ⟨shownName m.name, m.content.length, m.mtime, s.info.type⟩ }, ?_, rfl, rfl, ?_⟩
  · simp only [ops]
    rw [nextEntry, if_neg (by simp [hst]), el]
    simp only [Res.bind_ok]
    rw [eh, e2]
    simp only [Res.bind_ok]
    rw [SubInputStream.new, Res.assert_of (by simp)]
    simp only [Res.bind_ok]
    rw [if_pos (by simp)]
  · simp only [ops]
    rw [nextEntry, if_pos (by simp)]

/-- What is left is read as the end. -/
theorem end_left (hP : Prompt P) {fuel : Nat} {s : State σ} {e : SubInputStream σ} (hst : s.status = .ok) (hty : s.info.type = .file)
    (hsz : -1 ≤ s.info.size) (he : s.entry = some e) (h0 : 0 ≤ s.padding) (h1 : s.padding < 4) {e' : SubInputStream σ} {x : List UInt8}
    (hx : x.length ≤ s.padding.toNat) (hs : skipEntry P fuel e = .ok e') (hA : At P c soft e'.parent x) : EndsWith (ops P fuel) .eof s := by
  refine end_header (c := c) (soft := soft) (tail := []) hP hsz (by simp) ⟨hst, hty, ?_⟩
  rw [leave, he]
  simp only
  rw [hs]
  simp only [Res.bind_ok]
  by_cases hp : s.padding = 0
  · rw [if_neg (by simp [hp])]
    have : x = [] := List.length_eq_zero_iff.mp (by omega)
    exact ⟨_, rfl, by rw [this] at hA; exact hA⟩
  · rw [if_pos hp]
    obtain ⟨i, r, ei, hA', _⟩ := hA.skip_short (n := s.padding) (by omega) (by omega)
    rw [ei]
    simp only [Res.bind_ok]
    exact ⟨_, rfl, hA'⟩

/-- The content is cut off. -/
theorem shows_part (hP : Prompt P) {fuel : Nat} (hf : 3 ≤ fuel) {s : State σ} {m : Member} {x : List UInt8} (hm : m.WellFormed)
    (hne : shownName m.name ≠ trailerName) (hx : x.length < m.content.length)
    (hR : Ready P c soft fuel s (header m ++ ((m.name ++ 0 :: m.namePad) ++ x))) :
    ShowsPart (ops P fuel) soft m.entry.info x .eof s := by
  have hst := hR.1
  obtain ⟨input, hA, en⟩ := opened hm hne hR
  have hsz := hm.size.2
  obtain ⟨e, e1, e2, e3, e4, e5, e6⟩ := hA.sub_cut (n := (m.content.length : Int)) (by omega) (by omega)
  refine ⟨_, e, en e e1, rfl, rfl, hst, e3, e2, e5, fun e' lo hi hu => ?_⟩
  obtain ⟨f1, f2, f3, e7, r7, e8, r8, g1, g2, g3, g4, g5, g6⟩ := e6 e' lo hi hu
  refine ⟨f2, ?_⟩
  have hleft : ∃ e9, skipEntry P fuel e' = .ok e9 ∧ At P c soft e9.parent [] := by
    obtain ⟨f, rfl⟩ : ∃ f, fuel = f + 3 := ⟨fuel - 3, by omega⟩
    by_cases h0 : e'.status = .ok
    · rw [skipEntry, if_pos h0, f1, g1]
      simp only [Res.bind_ok]
      by_cases h7 : e7.status = .ok
      · rw [skipEntry, if_pos h7, g3, g4]
        simp only [Res.bind_ok]
        rw [skipEntry, if_neg (by rw [g6]; decide)]
        exact ⟨_, rfl, g5⟩
      · rw [skipEntry, if_neg h7]
        exact ⟨_, rfl, g2⟩
    · rw [skipEntry, if_neg h0]
      exact ⟨_, rfl, f3 h0⟩
  obtain ⟨e9, g7, g8⟩ := hleft
  have hp := hm.pad.1
  refine end_left hP hst rfl ?_ rfl ?_ ?_ (x := []) (by simp) g7 g8
  · simp only [ops, Member.entry]; omega
  · simp only [ops]; omega
  · simp only [ops]; omega

/-- The padding is cut off. -/
theorem shows_all (hP : Prompt P) {fuel : Nat} (hf : 2 ≤ fuel) {s : State σ} {m : Member} {x : List UInt8} (hm : m.WellFormed)
    (hne : shownName m.name ≠ trailerName) (hx : x.length ≤ m.pad.length)
    (hR : Ready P c soft fuel s (header m ++ ((m.name ++ 0 :: m.namePad) ++ (m.content ++ x)))) :
    PresentsThen (ops P fuel) Failure.never soft (EndsWith (ops P fuel) .eof) s [m.entry] := by
  have hst := hR.1
  obtain ⟨input, hA, en⟩ := opened hm hne hR
  have hsz := hm.size.2
  obtain ⟨e, e1, e2, e3, e5, e6⟩ := hA.sub_skip (n := (m.content.length : Int)) rfl (by omega)
  obtain ⟨e0, e1', _, _, _, _, e7⟩ := hA.sub (n := (m.content.length : Int)) rfl (by omega)
  rw [e1] at e1'; cases e1'
  refine ⟨_, e, en e e1, rfl, rfl, hst, e3, e2, e5, fun e' lo hi hu => ?_⟩
  obtain ⟨e9, r9, g1, g2, g3, g4⟩ := e6 e' lo hi hu
  obtain ⟨_, g5, _⟩ := e7 e' lo hi hu
  have hleft : ∃ e9, skipEntry P fuel e' = .ok e9 ∧ At P c soft e9.parent x := by
    obtain ⟨f, rfl⟩ : ∃ f, fuel = f + 2 := ⟨fuel - 2, by omega⟩
    by_cases h0 : e'.status = .ok
    · rw [skipEntry, if_pos h0, g1]
      simp only [Res.bind_ok]
      rw [skipEntry, if_neg (by rw [g2]; decide)]
      exact ⟨_, rfl, g3⟩
    · rw [skipEntry, if_neg h0]
      exact ⟨_, rfl, (g5 h0).2.1⟩
  obtain ⟨e9, g7, g8⟩ := hleft
  have hp := hm.pad.1
  refine end_left hP hst rfl ?_ rfl ?_ ?_ (x := x) ?_ g7 g8
  · simp only [ops, Member.entry]; omega
  · simp only [ops]; omega
  · simp only [ops]; omega
  · simp only [ops]; omega

end Strigi.Cpio
