import Verif.Proofs.Sdf
import Verif.Props.StringStream

/-!
# Properties C50, C51, C74: SD files
-/

namespace Strigi.Props

open SdfSpec Sdf

variable {σ : Type}

/-- **C50**: `skip80Line` returns the start of the next line, or null if there is no line of at most 80 bytes with
something behind it. -/
theorem C50_skip80Line (before d : List UInt8) :
    (∃ l rest, Line d l rest ∧
      skip80Line (before ++ d) before.length d.length = .ok (some ((before ++ d).length - rest.length))) ∨
    (skip80Line (before ++ d) before.length d.length = .ok none ∧ ∀ l rest, ¬ Line d l rest) :=
  skip80_spec before d

/-- **C50**: the header check accepts exactly the beginnings of mol files; only the given data is read. -/
theorem C50_checkHeader (d : List UInt8) :
    ∃ b, Sdf.checkHeader d d.length = .ok b ∧ (b = true ↔ Mol d) := checkHeader_spec d

/-- Four lines with three kinds of line breaks. -/
example : Mol [13, 65, 10, 66, 13, 10, 32, 86, 50, 48, 48, 48, 10, 67] :=
  ⟨by decide, [], [65], [66], [32, 86, 50, 48, 48, 48], _, _, _, _,
    .cr (l := []) (b := 65) (rest := [10, 66, 13, 10, 32, 86, 50, 48, 48, 48, 10, 67]) (by simp [NoBreak]) (by simp) (by decide),
    .lf (l := [65]) (rest := [66, 13, 10, 32, 86, 50, 48, 48, 48, 10, 67]) (by unfold NoBreak; decide) (by simp) (by simp),
    .crlf (l := [66]) (rest := [32, 86, 50, 48, 48, 48, 10, 67]) (by unfold NoBreak; decide) (by simp) (by simp),
    .lf (l := [32, 86, 50, 48, 48, 48]) (rest := [67]) (by unfold NoBreak; decide) (by simp) (by simp),
    1, [32], [], rfl, rfl⟩

/-- **C51**: an SD file: a first record, `$$$$`, further records with `$$$$` behind each of them, anything without
`$$$$`.  Iteration presents the records in order and ends with `Eof`, whatever the client does with the entry
streams; but behind the first record it does not only leave out line breaks: the first other character of every
further record is missing, too (`Record.text` is what is behind it).

The records have to be short enough to be found in the first 1024 bytes, or the input has to hand out everything at
once (see `C74_chunks`). -/
theorem C51_entries {P : StreamOps σ UInt8} {c : List UInt8} {input : σ}
    (hP : IsStream P c Failure.never True input) (h0 : P.position input = 0) (first : List UInt8) (rs : List Record)
    (tail : List UInt8) (hne : first ≠ []) (hclean : Clean first) (hrs : ∀ r ∈ rs, r.WellFormed)
    (htail : ∀ p, ¬ OccursAt SdfSpec.delimiter tail p)
    (hc : c = first ++ (SdfSpec.delimiter ++ (rs.flatMap Record.bytes ++ tail))) (h31 : c.length < 2 ^ 31)
    (hsz : (∀ t ∈ first :: rs.map Record.text, t.length + 4 ≤ 1024) ∨ Whole P c Failure.never True)
    (fuel : Nat) (hf : c.length + 3 < fuel) :
    Presents (Sdf.ops P fuel) Failure.never True .eof (Sdf.new input) (entries 1 (first :: rs.map Record.text)) := by
  have hA := At.of_isStream hP
  obtain ⟨i, e, hpi, hA1⟩ := at_reset hA
  rw [h0] at e hpi hA1
  rw [Int.toNat_zero, List.drop_zero] at hA1
  have hlen : c.length = first.length + 4 + ((rs.flatMap Record.bytes).length + tail.length) := by
    rw [hc]; simp [SdfSpec.delimiter]; omega
  have h31r : ∀ r ∈ rs, r.text.length < 2 ^ 31 := by
    intro r hr
    have : r.bytes.length ≤ (rs.flatMap Record.bytes).length := by
      obtain ⟨a, b, rfl⟩ := List.append_of_mem hr
      simp; omega
    have h2 : r.text.length ≤ r.bytes.length := by simp [Record.bytes]; omega
    omega
  obtain ⟨p', es, en, h1, h2, h3, h4, h5, h6, h7⟩ := present_text
    (s := { Sdf.new input with input := i }) (l := entries 2 (rs.map Record.text)) (fuel := fuel)
    hclean hne (by omega) rfl rfl (by rw [← hc]; exact hA1)
    (by rcases hsz with z | z
        · exact Or.inl (z first (by simp))
        · exact Or.inr z) (by omega)
    (by
      intro p hp hnum
      have := Sdf.presents fuel (by omega) htail rs p hrs h31r
        (by rcases hsz with z | z
            · exact Or.inl (fun r hr => z _ (by simp only [List.mem_cons, List.mem_map]; exact Or.inr ⟨r, hr, rfl⟩))
            · exact Or.inr z) hp
      rw [hnum] at this
      exact this)
  refine ⟨p', es, ?_, h1, h2, h3, h4, h5, h6, h7⟩
  show nextEntry P fuel (Sdf.new input) = _
  rw [nextEntry, if_neg (by simp [Sdf.new]), rewind]
  simp only [Sdf.new]
  rw [e]
  exact en

/-- **C51**: without `$$$$` there are no entries. -/
theorem C51_mol {P : StreamOps σ UInt8} {c : List UInt8} {input : σ}
    (hP : IsStream P c Failure.never True input) (h0 : P.position input = 0)
    (hc : ∀ p, ¬ OccursAt SdfSpec.delimiter c p) (fuel : Nat) (hf : c.length + 1 < fuel) :
    Presents (Sdf.ops P fuel) Failure.never True .eof (Sdf.new input) [] := by
  have hA := At.of_isStream hP
  obtain ⟨i, e, hpi, hA1⟩ := at_reset hA
  rw [h0] at e hpi hA1
  rw [Int.toNat_zero, List.drop_zero] at hA1
  obtain ⟨i2, e2⟩ := next_none (s := { Sdf.new input with input := i }) hc hA1 hf
  refine ⟨{ Sdf.new input with input := i2, status := .eof, entry := none }, ?_, rfl, rfl, ?_⟩
  · show nextEntry P fuel (Sdf.new input) = _
    rw [nextEntry, if_neg (by simp [Sdf.new]), rewind]
    simp only [Sdf.new]
    rw [e]
    exact e2
  · show nextEntry P fuel { Sdf.new input with input := i2, status := .eof, entry := none } = _
    rw [nextEntry, if_pos (by simp)]

/-- An in-memory stream hands out everything at once. -/
theorem whole_stringStream (c : List UInt8) (F : Failure) (soft : Prop) : Whole StringStream.ops c F soft := by
  intro s lo hi h mn s' n d h1 e hn
  have hb := h [.read mn 0]
  obtain ⟨_, hr⟩ := hb
  obtain ⟨s2, n2, d2, e2, rk, hk⟩ := hr h1 (Or.inl rfl)
  rw [e] at e2; cases e2
  simp only [StringStream.ops] at e
  unfold StringStream.read at e
  by_cases hz : (s.data.length : Int) - s.pos = 0
  · simp only [if_pos hz] at e
    injection e with e; injection e with _ e; injection e with e _
    omega
  · simp only [if_neg hz] at e
    injection e with e; injection e with e _
    rw [if_pos (Or.inr (by omega))] at e
    have hst : StringStream.ops.status s' = .eof := by
      rw [← e]
      simp only [StringStream.ops]
      rw [if_pos (by omega)]
    cases rk with
    | data _ _ _ _ _ _ st =>
      have := hk st
      simp only [Behaves, Healthy] at this
      exact this.2.2.2.2.2.1 hst
    | ended a _ _ _ _ => omega
    | failed _ a _ => omega

/-- **C51** for in-memory streams: records of any size. -/
theorem C51_stringStream (first : List UInt8) (rs : List Record) (tail : List UInt8) (hne : first ≠ []) (hclean : Clean first)
    (hrs : ∀ r ∈ rs, r.WellFormed) (htail : ∀ p, ¬ OccursAt SdfSpec.delimiter tail p)
    (h31 : (first ++ (SdfSpec.delimiter ++ (rs.flatMap Record.bytes ++ tail))).length < 2 ^ 31)
    (fuel : Nat) (hf : (first ++ (SdfSpec.delimiter ++ (rs.flatMap Record.bytes ++ tail))).length + 3 < fuel) :
    Presents (Sdf.ops StringStream.ops fuel) Failure.never True .eof
      (Sdf.new (StringStream.new (first ++ (SdfSpec.delimiter ++ (rs.flatMap Record.bytes ++ tail)))))
      (entries 1 (first :: rs.map Record.text)) :=
  C51_entries (C01_isStream _) rfl first rs tail hne hclean hrs htail rfl h31 (Or.inr (whole_stringStream _ _ _)) fuel hf

theorem clean_of_not_mem {t : List UInt8} (h : 36 ∉ t) : Clean t := by
  intro p ⟨pre, post, e, hp⟩
  by_contra hlt
  have hi := congrArg (fun z => z[p]?) e
  rw [List.getElem?_append_left (by omega), List.append_assoc, List.getElem?_append_right (by omega), hp, Nat.sub_self,
    List.getElem?_append_left (by simp [SdfSpec.delimiter])] at hi
  exact h (List.mem_of_getElem? hi)

/-- Two molecules: of the second one, `\nBC`, only `C` is presented. -/
example : Presents (Sdf.ops StringStream.ops 30) Failure.never True .eof
    (Sdf.new (StringStream.new [65, 10, 36, 36, 36, 36, 10, 66, 67, 36, 36, 36, 36, 10]))
    [⟨⟨[77, 111, 108, 101, 99, 117, 108, 101, 49], 2, 0, .file⟩, [65, 10]⟩,
     ⟨⟨[77, 111, 108, 101, 99, 117, 108, 101, 50], 1, 0, .file⟩, [67]⟩] :=
  C51_stringStream [65, 10] [⟨[10], 66, [67]⟩] [10] (by simp) (clean_of_not_mem (by decide))
    (by
      intro r hr
      simp only [List.mem_cons, List.not_mem_nil, or_false] at hr
      subst hr
      exact ⟨by simp, by decide, by simp, clean_of_not_mem (by decide)⟩)
    (by
      rintro p ⟨pre, post, e, _⟩
      have := congrArg List.length e
      simp [SdfSpec.delimiter] at this
      omega)
    (by decide) 30 (by decide)

/-! ## C74: chunks -/

/-- An in-memory stream that hands out at most 1024 bytes (or what is asked for, if this is more) in one call. -/
def chunked : StreamOps (StringStream UInt8) UInt8 :=
  { StringStream.ops with
    read := fun s mn mx => .ok (s.read mn (if mx = 0 then max mn 1024 else mx)) }

theorem chunked_isStream (c : List UInt8) : IsStream chunked c Failure.never True (StringStream.new c) := by
  have C := StringStream.contract c
  have C' : Contract chunked c Failure.never _ := {
    range := C.range
    status := C.status
    narrow := C.narrow
    size := C.size
    skip := C.skip
    reset := C.reset
    read := by
      intro s lo hi h mn mx h1 h2
      obtain ⟨s', n, d, e, rk, hk⟩ := C.read h (min := mn) (max := if mx = 0 then max mn 1024 else mx) h1
        (by right; split <;> omega)
      refine ⟨s', n, d, e, ?_, hk⟩
      cases rk with
      | data pos items inside adv limit enough st =>
        refine .data pos items inside adv (fun z => ?_) enough st
        have := limit (by rw [if_neg z]; exact z)
        rwa [if_neg z] at this
      | ended a b c d e => exact .ended a b c d e
      | failed a b c => exact .failed a b c }
  exact C'.isStream (fun _ => ⟨(StringStream.softReset c).reset⟩) ⟨StringStream.Inv.new c, by simp [chunked, StringStream.ops, StringStream.new]⟩

/-- **C74**: the same file, a record with `$$$$` behind it, has no entry if the input is handed out in pieces of 1024
bytes and the delimiter lies across the end of the first piece; in one piece it has one. -/
theorem C74_chunks (text : List UInt8) (h1 : 1021 ≤ text.length) (h2 : text.length ≤ 1023) (h36 : 36 ∉ text) (fuel : Nat)
    (hf : text.length + 7 < fuel) :
    Presents (Sdf.ops chunked fuel) Failure.never True .eof (Sdf.new (StringStream.new (text ++ SdfSpec.delimiter))) [] ∧
    Presents (Sdf.ops StringStream.ops fuel) Failure.never True .eof
      (Sdf.new (StringStream.new (text ++ SdfSpec.delimiter))) (entries 1 [text]) := by
  have hnone : ∀ d : List UInt8, (∃ a b, d = a ++ b ∧ 36 ∉ a ∧ b.length < 4) → Kmp.find Sdf.delimiter d = .ok none := by
    rintro d ⟨a, b, rfl, ha, hb⟩
    obtain ⟨r, e, h⟩ := find_delimiter (a ++ b)
    cases r with
    | none => exact e
    | some p =>
      exfalso
      obtain ⟨h0, ⟨pre, post, e1, hp⟩, _⟩ := h
      have hl := congrArg List.length e1
      simp only [List.length_append, show Sdf.delimiter.length = 4 from rfl] at hl
      have hi := congrArg (fun z => z[pre.length]?) e1
      rw [List.getElem?_append_left (by omega), List.append_assoc, List.getElem?_append_right (by omega), Nat.sub_self] at hi
      exact ha (List.mem_of_getElem? hi)
  constructor
  · obtain ⟨fuel, rfl⟩ : ∃ k, fuel = k + 3 := ⟨fuel - 3, by omega⟩
    generalize hc : text ++ SdfSpec.delimiter = c
    have hlen : c.length = text.length + 4 := by rw [← hc]; simp [SdfSpec.delimiter]
    have s1 : (⟨c, 0, .ok⟩ : StringStream UInt8).read 1024 (max 1024 1024) =
        ((⟨c, 1024, .ok⟩, 1024, slice c 0 1024) : StringStream UInt8 × Int × List UInt8) := by
      unfold StringStream.read
      simp only
      rw [if_neg (by omega), if_neg (by omega), if_neg (by omega)]
      rfl
    have s2 : (⟨c, 1024, .ok⟩ : StringStream UInt8).read 1024 (max 1024 1024) =
        ((⟨c, c.length, .eof⟩, c.length - 1024, slice c 1024 (c.length - 1024)) : StringStream UInt8 × Int × List UInt8) := by
      unfold StringStream.read
      simp only
      rw [if_neg (by omega), if_pos (by omega), if_pos (by omega)]
      congr 2
      omega
    have l1 : ((slice c 0 1024).length : Int) = 1024 := slice_length (by omega) (by omega) (by omega)
    have l2 : ((slice c 1024 (c.length - 1024)).length : Int) = c.length - 1024 := slice_length (by omega) (by omega) (by omega)
    have f1 : Kmp.find Sdf.delimiter (slice c 0 1024) = .ok none := by
      apply hnone
      refine ⟨text, SdfSpec.delimiter.take (1024 - text.length), ?_, h36, by simp; omega⟩
      rw [slice, ← hc]
      simp only [Int.toNat_zero, List.drop_zero]
      rw [show (1024 : Int).toNat = 1024 from rfl, List.take_append, List.take_of_length_le (by omega)]
    have f2 : Kmp.find Sdf.delimiter (slice c 1024 (c.length - 1024)) = .ok none :=
      hnone _ ⟨[], slice c 1024 (c.length - 1024), rfl, by simp, by omega⟩
    have hscan : scan chunked (fuel + 3) ⟨c, 0, .ok⟩ 0 = .ok (⟨c, c.length, .eof⟩, 0) := by
      rw [scan, if_pos (by rfl), show chunked.read ⟨c, 0, .ok⟩ 1024 0 = _ from congrArg Res.ok s1]
      simp only [Res.bind_ok]
      rw [if_pos (by omega), Sdf.slice_zero l1.symm, f1]
      simp only [Res.bind_ok]
      rw [scan, if_pos (by rfl), show chunked.read ⟨c, 1024, .ok⟩ 1024 0 = _ from congrArg Res.ok s2]
      simp only [Res.bind_ok]
      rw [if_pos (by omega), Sdf.slice_zero l2.symm, f2]
      simp only [Res.bind_ok]
      rw [scan, if_neg (by simp [chunked, StringStream.ops])]
    have hreset : chunked.reset ⟨c, 0, .ok⟩ 0 = .ok (⟨c, 0, .ok⟩, 0) := by
      simp only [chunked, StringStream.ops, StringStream.reset]
      rw [if_neg (by omega), if_pos (by omega)]
    have hreset2 : chunked.reset ⟨c, c.length, .eof⟩ 0 = .ok (⟨c, 0, .ok⟩, 0) := by
      simp only [chunked, StringStream.ops, StringStream.reset]
      rw [if_neg (by omega), if_pos (by omega)]
    refine ⟨{ Sdf.new (StringStream.new c) with status := .eof }, ?_, rfl, rfl, ?_⟩
    · show nextEntry chunked (fuel + 3) (Sdf.new (StringStream.new c)) = _
      rw [nextEntry, if_neg (by simp [Sdf.new]), rewind]
      simp only [Sdf.new, StringStream.new]
      rw [hreset]
      simp only [Res.bind_ok, leave]
      rw [next, hscan]
      simp only [Res.bind_ok]
      rw [if_neg (by simp [chunked, StringStream.ops])]
      simp only [show chunked.position ⟨c, 0, .ok⟩ = 0 from rfl]
      rw [hreset2]
      rfl
    · show nextEntry chunked (fuel + 3) { Sdf.new (StringStream.new c) with status := .eof } = _
      rw [nextEntry, if_pos (by simp)]
  · have := C51_stringStream text [] [] (by intro z; rw [z] at h1; simp at h1) (clean_of_not_mem h36) (by simp)
      (by
        rintro p ⟨pre, post, e, _⟩
        have := congrArg List.length e
        simp [SdfSpec.delimiter] at this)
      (by simp [SdfSpec.delimiter]; omega) fuel (by simp [SdfSpec.delimiter]; omega)
    simpa using this

example : 36 ∉ List.replicate 1022 (65 : UInt8) := by
  intro h; exact absurd (List.eq_of_mem_replicate h) (by decide)

end Strigi.Props
