import Verif.Proofs.Cpio
import Verif.Props.StringStream

/-!
# Properties C38–C40: cpio archives
-/

namespace Strigi.Props

open CpioSpec Cpio

variable {σ : Type}

/-- **C38**: any list of members in the new ASCII format, followed by the trailer member and anything
else, at the current position of any input stream that does not fail: iteration presents exactly these
members in order and then ends with status `Eof`, whatever the client does with the entry streams. -/
theorem C38_roundtrip {P : StreamOps σ UInt8} {c : List UInt8} {soft : Prop} {input : σ}
    (hP : IsStream P c Failure.never soft input) (ms : List Member) (trailer : Member)
    (rest : List UInt8) (hms : ∀ m ∈ ms, m.WellFormed ∧ shownName m.name ≠ trailerName)
    (ht : trailer.WellFormed ∧ trailer.name = trailerName)
    (hc : c.drop (P.position input).toNat = ms.flatMap Member.bytes ++ trailer.bytes ++ rest)
    (fuel : Nat) (hf : 2 ≤ fuel) :
    Presents (Cpio.ops P fuel) Failure.never soft .eof (Cpio.new input) (ms.map Member.entry) := by
  refine Cpio.presents hf (tail := trailer.bytes ++ rest) (c := c) ?_ ms _ hms (by show (-1 : Int) ≤ -1; omega) ?_
  · intro s _ hR
    exact nextEntry_trailer ht.1 (by rw [ht.2]; rfl) hR
  · refine ⟨rfl, rfl, input, rfl, ?_⟩
    have := At.of_isStream hP
    rw [hc, List.append_assoc] at this
    exact this

/-- **C38**, without a trailer: if the input ends after the last member, the iteration ends with `Eof`
too. -/
theorem C38_no_trailer {P : StreamOps σ UInt8} {c : List UInt8} {soft : Prop} {input : σ}
    (hP : IsStream P c Failure.never soft input) (ms : List Member)
    (hms : ∀ m ∈ ms, m.WellFormed ∧ shownName m.name ≠ trailerName)
    (hc : c.drop (P.position input).toNat = ms.flatMap Member.bytes) (fuel : Nat) (hf : 2 ≤ fuel) :
    Presents (Cpio.ops P fuel) Failure.never soft .eof (Cpio.new input) (ms.map Member.entry) := by
  refine Cpio.presents hf (tail := []) (c := c) ?_ ms _ hms (by show (-1 : Int) ≤ -1; omega) ?_
  · intro s hs hR
    exact nextEntry_end hs hR
  · refine ⟨rfl, rfl, input, rfl, ?_⟩
    have := At.of_isStream hP
    rw [hc] at this
    simpa using this

/-- A member of an archive, for the examples: name `./a`, content `hi!`. -/
def exampleMember : Member where
  name := [46, 47, 97]
  content := [104, 105, 33]
  mtime := 0x5Fa0
  before := List.replicate 40 48
  mtimeField := [48, 48, 48, 48, 53, 70, 97, 48]
  sizeField := [48, 48, 48, 48, 48, 48, 48, 51]
  between := List.replicate 32 48
  nameField := [48, 48, 48, 48, 48, 48, 48, 52]
  check := List.replicate 8 48
  namePad := [0, 0]
  pad := [0]

/-- The trailer, for the examples. -/
def exampleTrailer : Member where
  name := trailerName
  content := []
  mtime := 0
  before := List.replicate 40 48
  mtimeField := List.replicate 8 48
  sizeField := List.replicate 8 48
  between := List.replicate 32 48
  nameField := [48, 48, 48, 48, 48, 48, 48, 66]
  check := List.replicate 8 48
  namePad := [0, 0, 0]
  pad := []

/-- Non-vacuity: a concrete archive on a concrete stream. -/
example : Presents (Cpio.ops StringStream.ops 2) Failure.never True .eof
    (Cpio.new (StringStream.new
      ([exampleMember, exampleMember].flatMap Member.bytes ++ exampleTrailer.bytes ++ [1, 2, 3])))
    [⟨⟨[97], 3, 0x5fa0, .file⟩, [104, 105, 33]⟩, ⟨⟨[97], 3, 0x5fa0, .file⟩, [104, 105, 33]⟩] :=
  C38_roundtrip (C01_isStream _) [exampleMember, exampleMember] exampleTrailer [1, 2, 3]
    (by
      have h : exampleMember.WellFormed := by
        constructor <;> first | decide | exact ⟨⟨by decide, by decide⟩, by decide⟩ | exact ⟨by decide, by decide⟩
      have h2 : shownName exampleMember.name ≠ trailerName := by decide
      intro m hm
      simp only [List.mem_cons, List.not_mem_nil, or_false, or_self] at hm
      subst hm
      exact ⟨h, h2⟩)
    ⟨by constructor <;> first | decide | exact ⟨⟨by decide, by decide⟩, by decide⟩ | exact ⟨by decide, by decide⟩,
      rfl⟩
    rfl 2 (by decide)

/-- **C39**: eight hexadecimal digits, upper or lower case, that denote `n < 2^31` are read as `n`,
wherever they are in the header. -/
theorem C39_hex (pre f post : List UInt8) (n : Nat) (hf : f.length = 8) (hn : hexNumber f = some n)
    (h : n < 2 ^ 31) : readHexField (pre ++ f ++ post) pre.length = .ok (n : Int) :=
  readHexField_spec ⟨hf, hn⟩ h (post := post) (by simp) rfl

example : hexNumber [48, 48, 49, 97, 66, 99, 68, 70] = some 0x1abcdf := by decide

/-- **C39**, the limit: the field `80000000` is read as a negative number. -/
theorem C39_hex_negative : readHexField [56, 48, 48, 48, 48, 48, 48, 48] 0 = .ok (-(2 ^ 31)) := by decide +kernel

/-- **C40**: a header whose name starts with `./`, has no NUL, and leaves less than two bytes of padding
makes the reader look at memory behind the name. -/
theorem C40_overrun {P : StreamOps σ UInt8} {c : List UInt8} {soft : Prop} {input : σ}
    (hP : IsStream P c Failure.never soft input) (head name pad rest : List UInt8) (size mtime : Nat)
    (hh : Header head size mtime (name.length + 2)) (hpad : Pads (110 + name.length + 2) pad.length)
    (hpad2 : pad.length < 2) (h0 : 0 ∉ name ∧ 0 ∉ pad) (hne : 2 ≤ name.length)
    (hc : c.drop (P.position input).toNat = head ++ ([46, 47] ++ name ++ pad) ++ rest) (fuel : Nat) :
    Cpio.nextEntry P fuel (Cpio.new input) = .fault .outOfBounds := by
  have hA := At.of_isStream hP
  rw [hc, List.append_assoc] at hA
  obtain ⟨i1, e1, hA1⟩ := readHeader_fields (s := Cpio.new input) hh hA
  have hp4 : padTo4 ((((name.length + 2 : Nat) : Int) + 2).tmod 4) = pad.length := by
    apply padTo4_pads (len := name.length + 2 + 2)
    · refine ⟨hpad.1, ?_⟩
      have := hpad.2
      omega
    · congr 1
  have hlen : ((name.length + 2 : Nat) : Int) + padTo4 ((((name.length + 2 : Nat) : Int) + 2).tmod 4) =
      ((([46, 47] ++ name ++ pad).length : Nat) : Int) := by
    rw [hp4]; simp only [List.length_append, List.length_cons, List.length_nil]; omega
  obtain ⟨i2, e2, hA2, _⟩ := hA1.read (n := ((([46, 47] ++ name ++ pad).length : Nat) : Int)) rfl
    (by simp only [List.length_append, List.length_cons, List.length_nil]; omega)
  rw [Cpio.nextEntry, if_neg (by simp [Cpio.new])]
  simp only [leave, Cpio.new, Res.bind_ok]
  simp only [Cpio.new] at e1
  rw [e1]
  unfold readName
  dsimp only
  rw [hlen, e2]
  simp only [Res.bind_ok]
  rw [if_neg (by simp)]
  have hbase : nameBase ([46, 47] ++ name ++ pad) ((name.length + 2 : Nat) : Int) = .ok 2 := by
    rw [nameBase, if_pos (by omega)]
    simp [aget]
  rw [hbase]
  simp only [Res.bind_ok]
  have := nameLen_fault (name ++ pad) [46, 47] ((name.length + 2 : Nat) : Int).toNat 0 2
    (by simp only [List.mem_append, not_or]; exact h0)
    (by simp only [List.length_append]; omega) (by simp)
  rw [List.append_assoc, this]
  rfl

/-- Non-vacuity of `C40_overrun`: the name `./xxxx` without NUL. -/
example : Header ([48, 55, 48, 55, 48, 49] ++ List.replicate 40 48 ++ List.replicate 8 48 ++
      List.replicate 8 48 ++ List.replicate 32 48 ++ [48, 48, 48, 48, 48, 48, 48, 54] ++ List.replicate 8 48)
      0 0 ([120, 120, 120, 120].length + 2) ∧ Pads (110 + [120, 120, 120, 120].length + 2) 0 :=
  ⟨⟨⟨_, _, _, _, _, _, rfl, by decide, ⟨by decide, by decide⟩, ⟨by decide, by decide⟩, by decide,
    ⟨by decide, by decide⟩, by decide⟩, by decide, by decide, by decide⟩, by decide, by decide⟩

/-- **C40**, the safe case: whatever the name field contains, if it does not start with `./`, or contains
a NUL behind that, reading the header touches only bytes that were delivered by the stream. -/
theorem C40_safe {P : StreamOps σ UInt8} {c : List UInt8} {soft : Prop} {input : σ}
    (hP : IsStream P c Failure.never soft input) (head field rest : List UInt8) (size mtime ns : Nat)
    (hh : Header head size mtime ns) (hns : 1 ≤ ns) (hlen : ns ≤ field.length)
    (hpad : Pads (110 + ns) (field.length - ns))
    (hsafe : (∀ l, field ≠ 46 :: 47 :: l) ∨ 0 ∈ field.drop 2)
    (hc : c.drop (P.position input).toNat = head ++ field ++ rest) (fuel : Nat) :
    ∃ s', Cpio.nextEntry P fuel (Cpio.new input) = .ok s' := by
  have hA := At.of_isStream hP
  rw [hc, List.append_assoc] at hA
  obtain ⟨i1, e1, hA1⟩ := readHeader_fields (s := Cpio.new input) hh hA
  have hp4 : padTo4 (((ns : Int) + 2).tmod 4) = ((field.length - ns : Nat) : Int) := by
    apply padTo4_pads (len := ns + 2)
    · refine ⟨hpad.1, ?_⟩
      have := hpad.2
      omega
    · congr 1
  have hlen' : (ns : Int) + padTo4 (((ns : Int) + 2).tmod 4) = (field.length : Int) := by
    rw [hp4]; omega
  obtain ⟨i2, e2, hA2, _⟩ := hA1.read (n := (field.length : Int)) rfl (by omega)
  rw [Cpio.nextEntry, if_neg (by simp [Cpio.new])]
  simp only [leave, Cpio.new, Res.bind_ok]
  simp only [Cpio.new] at e1
  rw [e1]
  unfold readName
  dsimp only
  rw [hlen', e2]
  simp only [Res.bind_ok]
  rw [if_neg (by simp)]
  have hb : ∃ base : Nat, nameBase field ns = .ok (base : Int) ∧ base ≤ field.length ∧
      (0 ∈ field.drop base ∨ ns ≤ (field.drop base).length) := by
    rw [nameBase]
    split
    · rcases field with _ | ⟨a, _ | ⟨b, l⟩⟩
      · simp at hlen; omega
      · simp at hlen; omega
      · have e0 : aget (a :: b :: l) 0 = .ok a := by simp [aget]
        have e1 : aget (a :: b :: l) 1 = .ok b := by simp [aget]
        rw [e0, e1]
        simp only [Res.bind_ok]
        split
        · split
          · refine ⟨2, rfl, by simp, Or.inl ?_⟩
            rcases hsafe with h | h
            · rename_i ha hb; subst ha hb; exact absurd rfl (h l)
            · exact h
          · exact ⟨0, rfl, by omega, Or.inr (by simpa using hlen)⟩
        · exact ⟨0, rfl, by omega, Or.inr (by simpa using hlen)⟩
    · exact ⟨0, rfl, by omega, Or.inr (by simpa using hlen)⟩
  obtain ⟨base, eb, hbl, hb⟩ := hb
  rw [eb]
  simp only [Res.bind_ok]
  obtain ⟨len, el⟩ := nameLen_safe (field.drop base) (field.take base) ns 0 base hb
    (by simp only [List.length_take]; omega)
  rw [List.take_append_drop] at el
  rw [show ((ns : Int)).toNat = ns from rfl, el]
  simp only [Res.bind_ok]
  split
  all_goals
    simp only [Res.bind_ok]
    rw [SubInputStream.new, Res.assert_of (by simp; try omega)]
    simp only [Res.bind_ok]
    split <;> exact ⟨_, rfl⟩

/-- **C65**: malformed archives are reported, they do not abort the program.  Fails: a cpio header with a
size field of `80000000` or more runs into the assertion `length >= -1` of the entry stream. -/
theorem C65_cpio_negative_size :
    ∃ archive : List UInt8, archive.take 6 = magic ∧
      Cpio.nextEntry StringStream.ops 2 (Cpio.new (StringStream.new archive)) = .fault .assertion :=
  ⟨magic ++ List.replicate 48 48 ++ [70, 70, 70, 70, 70, 70, 70, 69] ++ List.replicate 32 48 ++
    List.replicate 8 48 ++ List.replicate 8 48, by decide, by decide +kernel⟩

end Strigi.Props
