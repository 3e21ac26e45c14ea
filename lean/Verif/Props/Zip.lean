import Verif.Proofs.Zip
import Verif.Props.Decompress
import Verif.Props.FileStreams
import Verif.Props.StringStream

/-!
# Properties C41, C75–C78: zip archives
-/

namespace Strigi.Props

open ZipSpec Zip

variable {σ ζ : Type}

/-- The time of an entry: `mktime` applied to the broken-down time, with years from 1900 on and months from 0 on. -/
def mktimeOf (mktime : TextUtils.Tm → Int) (year month day hour min sec : Int) : Int :=
  mktime ⟨year - 1900, month - 1, day, hour, min, sec⟩

/-- **C41**: the members of a zip file -- stored, deflated, or deflated with the sizes behind the data -- and the
central directory, at the current position of any input stream that does not fail: iteration presents exactly these
members in order and ends with `Eof`, whatever the client does with the entry streams.  (`N` and `fuel` only bound
the loops of the model.) -/
theorem C41_roundtrip {P : StreamOps σ UInt8} {D : Decompressor ζ} {R : ζ → List UInt8 → List UInt8 → Prop}
    {c : List UInt8} {soft : Prop} {input : σ} (hP : IsStream P c Failure.never soft input)
    (hD : Unpacks D False R) (mktime : TextUtils.Tm → Int) (ms : List Member) (dir : List UInt8) (hdir : Directory dir)
    (hms : ∀ m ∈ ms, m.WellFormed (R D.init))
    (hc : c.drop (P.position input).toNat = ms.flatMap Member.bytes ++ dir)
    (N fuel : Nat) (hN : ∀ m ∈ ms, 2 * (m.data.length + m.content.length) + 1 < N ∧ m.content.length + 2 < fuel) :
    Presents (Zip.ops P D mktime N fuel) Failure.never soft .eof (Zip.new input)
      (ms.map (Member.entry (mktimeOf mktime))) := by
  refine Zip.presents (c := c) hD hdir ms _ (fun m hm => ⟨hms m hm, hN m hm⟩) ⟨rfl, input, rfl, ?_⟩
  have := At.of_isStream hP
  rw [hc] at this
  exact this

/-- Three members: `a` stored, `b/` (a directory), `c` deflated, `d` with a data descriptor. -/
def zipMembers : List Member :=
  [ { kind := .stored, name := [97], content := [1, 2], time := ⟨2000, 2, 29, 10, 20, 30⟩, data := [1, 2],
      extra := [9], version := [20, 0], flags := 0, flagsField := [0, 0], methodField := [0, 0],
      timeField := [0x8f, 0x52, 0x5d, 0x28], crc := [0, 0, 0, 0], compressedField := [2, 0, 0, 0],
      sizeField := [2, 0, 0, 0], nameField := [1, 0], extraField := [1, 0], descriptor := [] },
    { kind := .stored, name := [98, 47], content := [], time := ⟨2000, 2, 29, 10, 20, 30⟩, data := [],
      extra := [], version := [20, 0], flags := 0, flagsField := [0, 0], methodField := [0, 0],
      timeField := [0x8f, 0x52, 0x5d, 0x28], crc := [0, 0, 0, 0], compressedField := [0, 0, 0, 0],
      sizeField := [0, 0, 0, 0], nameField := [2, 0], extraField := [0, 0], descriptor := [] },
    { kind := .deflated, name := [99], content := [5, 6, 7], time := ⟨2000, 2, 29, 10, 20, 30⟩, data := [5, 6, 7, 0],
      extra := [], version := [20, 0], flags := 2, flagsField := [2, 0], methodField := [8, 0],
      timeField := [0x8f, 0x52, 0x5d, 0x28], crc := [0, 0, 0, 0], compressedField := [4, 0, 0, 0],
      sizeField := [3, 0, 0, 0], nameField := [1, 0], extraField := [0, 0], descriptor := [] },
    { kind := .streamed, name := [100], content := [8, 9], time := ⟨2000, 2, 29, 10, 20, 30⟩, data := [8, 9, 0],
      extra := [], version := [20, 0], flags := 8, flagsField := [8, 0], methodField := [8, 0],
      timeField := [0x8f, 0x52, 0x5d, 0x28], crc := [0, 0, 0, 0], compressedField := [0, 0, 0, 0],
      sizeField := [0, 0, 0, 0], nameField := [1, 0], extraField := [0, 0],
      descriptor := [0x50, 0x4b, 7, 8, 1, 2, 3, 4, 3, 0, 0, 0, 2, 0, 0, 0] } ]

theorem zipMembers_wellFormed : ∀ m ∈ zipMembers, m.WellFormed (fun x y => x = y ++ [0] ∧ 0 ∉ y) := by
  intro m hm
  have hv : (⟨2000, 2, 29, 10, 20, 30⟩ : Text.DosTime).Valid := by unfold Text.DosTime.Valid; decide
  simp only [zipMembers, List.mem_cons, List.not_mem_nil, or_false] at hm
  rcases hm with rfl | rfl | rfl | rfl
  · refine ⟨rfl, ⟨rfl, rfl⟩, ⟨hv, rfl, by decide⟩, rfl, ⟨⟨rfl, rfl⟩, by decide, by decide⟩, ⟨rfl, rfl⟩, ?_, by decide⟩
    exact ⟨by decide, ⟨rfl, rfl⟩, ⟨rfl, rfl⟩, ⟨rfl, rfl⟩, rfl, rfl⟩
  · refine ⟨rfl, ⟨rfl, rfl⟩, ⟨hv, rfl, by decide⟩, rfl, ⟨⟨rfl, rfl⟩, by decide, by decide⟩, ⟨rfl, rfl⟩, ?_, by decide⟩
    exact ⟨by decide, ⟨rfl, rfl⟩, ⟨rfl, rfl⟩, ⟨rfl, rfl⟩, rfl, rfl⟩
  · refine ⟨rfl, ⟨rfl, rfl⟩, ⟨hv, rfl, by decide⟩, rfl, ⟨⟨rfl, rfl⟩, by decide, by decide⟩, ⟨rfl, rfl⟩, ?_, by decide⟩
    exact ⟨by decide, ⟨rfl, rfl⟩, ⟨rfl, rfl⟩, ⟨rfl, rfl⟩, ⟨rfl, by decide⟩, by simp, Or.inl rfl⟩
  · refine ⟨rfl, ⟨rfl, rfl⟩, ⟨hv, rfl, by decide⟩, rfl, ⟨⟨rfl, rfl⟩, by decide, by decide⟩, ⟨rfl, rfl⟩, ?_, by decide⟩
    exact ⟨by decide, ⟨rfl, rfl⟩, ⟨0, ⟨rfl, rfl⟩, by decide⟩, rfl, ⟨rfl, by decide⟩, by simp, Or.inl ⟨_, rfl, rfl⟩⟩

/-- The hypotheses of `C41_roundtrip` are met by these members in a string stream (with the decompressor of
`Props/Decompress.lean`). -/
example : Presents (Zip.ops StringStream.ops storedDecompressor (fun t => t.tm_sec) 100 100) Failure.never True .eof
    (Zip.new (StringStream.new (zipMembers.flatMap Member.bytes ++ ([0x50, 0x4b, 1, 2] ++ List.replicate 60 0))))
    [⟨⟨[97], 2, 30, .file⟩, [1, 2]⟩, ⟨⟨[98], 0, 30, .dir⟩, []⟩, ⟨⟨[99], 3, 30, .file⟩, [5, 6, 7]⟩,
      ⟨⟨[100], -1, 30, .file⟩, [8, 9]⟩] :=
  C41_roundtrip (C01_isStream _) stored_unpacks _ zipMembers ([0x50, 0x4b, 1, 2] ++ List.replicate 60 0) ⟨⟨_, rfl⟩, by decide⟩ zipMembers_wellFormed rfl 100 100
    (by decide)

/-- **C75**: if something is left that is shorter than a local file header -- the 22 bytes of the end record, which
are the whole of a zip file without members, or a header that is cut off -- the first `nextEntry()` ends with
`Error`. -/
theorem C75_short {P : StreamOps σ UInt8} {D : Decompressor ζ} {c rest : List UInt8} {soft : Prop} {input : σ}
    (hP : IsStream P c Failure.never soft input) (mktime : TextUtils.Tm → Int)
    (hc : c.drop (P.position input).toNat = rest) (hne : rest ≠ []) (hlen : rest.length < 30) (N fuel : Nat) :
    Presents (Zip.ops P D mktime N fuel) Failure.never soft .error (Zip.new input) [] := by
  have hA := At.of_isStream hP
  rw [hc] at hA
  obtain ⟨i, k, d, er, _, h1, _⟩ := hA.read_short (n := 30) (by omega) (by omega)
  obtain ⟨rfl, rfl⟩ := h1 hne
  have hok : P.status input = .ok := hA.status_ok hne
  refine ⟨⟨.error, i, none, {}⟩, ?_, rfl, rfl, ?_⟩
  · show nextEntry P D mktime N fuel (Zip.new input) = _
    rw [nextEntry, if_neg (by simp [Zip.new])]
    show (do let (s, ok) ← Res.ok (Zip.new input, true); if ok then next P D mktime N s else .ok s) = _
    simp only [Res.bind_ok, if_true]
    rw [next, if_neg (by simp [Zip.new, hok]), readHeader]
    simp only [Zip.new]
    rw [er]
    simp only [Res.bind_ok]
    rw [if_pos (by omega)]
    simp
  · show nextEntry P D mktime N fuel ⟨.error, i, none, {}⟩ = _
    rw [nextEntry, if_pos (by simp)]

/-- The zip file without members. -/
example : Presents (Zip.ops StringStream.ops storedDecompressor (fun t => t.tm_sec) 9 9) Failure.never True .error
    (Zip.new (StringStream.new ([0x50, 0x4b, 5, 6] ++ List.replicate 18 0))) [] :=
  C75_short (rest := [0x50, 0x4b, 5, 6] ++ List.replicate 18 0) (C01_isStream _) _ rfl (by decide) (by decide) 9 9

/-- **C78**: if the data descriptor of a member is cut off (the file ends inside it or before it), the members up to
this one are presented, and then iteration ends with `Error`. -/
theorem C78_truncated {P : StreamOps σ UInt8} {D : Decompressor ζ} {R : ζ → List UInt8 → List UInt8 → Prop}
    {c : List UInt8} {soft : Prop} {input : σ} (hP : IsStream P c Failure.never soft input)
    (hD : Unpacks D False R) (mktime : TextUtils.Tm → Int) (ms : List Member) (hms : ∀ m ∈ ms, m.WellFormed (R D.init))
    (m : Member) (full : List UInt8) (hk : m.kind = .streamed) (hm : { m with descriptor := full }.WellFormed (R D.init))
    (h1 : signature <+: m.descriptor → m.descriptor.length < 16) (h2 : ¬ signature <+: m.descriptor → m.descriptor.length < 12)
    (hcut : m.data ++ m.descriptor ≠ [])
    (hc : c.drop (P.position input).toNat = ms.flatMap Member.bytes ++ m.bytes)
    (N fuel : Nat) (hN : ∀ m' ∈ m :: ms, 2 * (m'.data.length + m'.content.length) + 1 < N ∧ m'.content.length + 2 < fuel) :
    Presents (Zip.ops P D mktime N fuel) Failure.never soft .error (Zip.new input)
      (ms.map (Member.entry (mktimeOf mktime)) ++ [m.entry (mktimeOf mktime)]) := by
  have hst : 16 ≤ m.bytes.length ∧ ¬ signature <+: m.bytes := by
    have h := member_start [] hm
    constructor
    · have hv := hm.version; have hf := hm.flags.1; have ht := hm.time.2.1; have hcr := hm.crc
      have hn := hm.name.1.1; have hx := hm.extra.1
      simp only at hv hf ht hcr hn hx
      simp only [Member.bytes, List.length_append, List.length_cons, List.length_nil, hv, hf, ht, hcr, hn, hx]
      omega
    · simp [Member.bytes, signature]
  have hA := At.of_isStream hP
  rw [hc] at hA
  refine presents_then hD hst (fun s hs => ?_) ms _ (fun m' hm' => ⟨hms m' hm', hN m' (by simp [hm'])⟩) ⟨rfl, input, rfl, hA⟩
  obtain ⟨hsok, i0, el, hA⟩ := hs
  obtain ⟨hN, hf⟩ := hN m (by simp)
  generalize hhead : [0x50, 0x4b, 0x03, 0x04] ++ m.version ++ m.flagsField ++ m.methodField ++ m.timeField ++ m.crc ++
    m.compressedField ++ m.sizeField ++ m.nameField ++ m.extraField = head
  have hsplit : m.bytes = head ++ (m.name ++ (m.extra ++ (m.data ++ m.descriptor))) := by
    rw [← hhead, Member.bytes]; simp
  have hok : P.status i0 = .ok := hA.status_ok (by simp [Member.bytes])
  rw [hsplit] at hA
  have hxl : m.extra.length < 2 ^ 31 := by
    obtain ⟨h1, h2⟩ := hm.extra
    simp only at h1 h2
    rcases hf : m.extraField with _ | ⟨b0, _ | ⟨b1, _ | ⟨_, _⟩⟩⟩ <;> rw [hf] at h1 h2 <;> simp at h1
    simp only [Text.leValue] at h2
    have := b0.toNat_lt; have := b1.toNat_lt; omega
  have he := hm.encoded
  unfold Member.Encoded at he
  simp only [hk] at he
  obtain ⟨hb, hme, ⟨co, hco, hco31⟩, hsi, hinf, hdne, _⟩ := he
  have hh : Header head m.flags 8 m.time.encode co (Text.leValue m.sizeField) m.name.length m.extra.length :=
    ⟨_, _, _, _, _, _, _, _, _, hhead.symm, hm.version, hm.flags, hme, hm.time.2, hm.crc, hco, ⟨hsi, rfl⟩, hm.name.1, hm.extra⟩
  obtain ⟨i, eh, hA'⟩ := readHeader_spec (mktime := mktime) (s := { s with entry := none, input := i0 }) hsok hh hco31
    (fun _ => rfl) hm.name.2.1 hcut hxl hA
  have htime : mktime (TextUtils.dosFields m.time.encode) =
      mktimeOf mktime m.time.year m.time.month m.time.day ((m.time.hour % 16 : Nat) : Int) m.time.min
        ((m.time.sec / 2 * 2 : Nat) : Int) := by
    rw [Props.C42_dos_fields hm.time.1]; rfl
  have hfn : (shown m.name).1 ≠ [] := by
    intro z
    unfold shown at z
    split at z
    · rename_i hg
      have h1 := hm.name.2.1
      have h2 := hm.name.2.2
      simp only at h1 h2
      rw [← List.dropLast_concat_getLast h1] at h2
      rw [List.getLast?_eq_some_getLast h1] at hg
      simp only at z
      rw [z] at h2
      rw [Option.some.inj hg] at h2
      exact h2 rfl
    · exact hm.name.2.1 z
  obtain ⟨e, eo, hpos, hsz, hI, hU⟩ := streamed_spec (N := N) hD hA' hm.range.1 hinf hdne hN
      ⟨((8 : Nat) : Int), -1⟩ rfl hf
  rw [hb] at eh
  simp only [if_true] at eh
  have hent : (m.entry (mktimeOf mktime)).info = ⟨(shown m.name).1, -1, mktime (TextUtils.dosFields m.time.encode), (shown m.name).2⟩ := by
    rw [htime]; simp [Member.entry, hk]
  refine ⟨{ s with entry := some (.streamed e), input := i, info := (m.entry (mktimeOf mktime)).info }, .streamed e, ?_, rfl, rfl, hsok,
    hpos, ?_, hI, ?_⟩
  · show nextEntry P D mktime N fuel s = _
    rw [nextEntry, if_neg (by simp [hsok]), el]
    simp only [Res.bind_ok, if_true]
    rw [next, if_neg (by simp [hok]), eh]
    simp only [Res.bind_ok]
    rw [if_neg (by simp [hsok]), if_neg (by simpa using hfn), eo]
    simp only [Res.bind_ok]
    rw [hent]
  · rw [hent]; exact hsz
  · intro e' lo hi hu
    obtain ⟨i1, el', hnd, hAt⟩ := hU e' lo hi hu
    obtain ⟨i2, es⟩ := skipDescriptor_short hAt h1 h2
    refine ⟨{ s with status := .error, entry := none, input := i2, info := (m.entry (mktimeOf mktime)).info }, ?_, rfl, rfl, ?_⟩
    · show nextEntry P D mktime N fuel { s with entry := some e', input := i, info := (m.entry (mktimeOf mktime)).info } = _
      rw [nextEntry, if_neg (by simp [hsok]), leave_other hnd rfl]
      simp only
      rw [hent, show decide ((0 : Int) ≤ -1) = false by decide, el', es]
      simp
    · show nextEntry P D mktime N fuel { s with status := .error, entry := none, input := i2, info := (m.entry (mktimeOf mktime)).info } = _
      rw [nextEntry, if_pos (by simp)]

/-- The last of the members above, without the last byte. -/
def zipCut : Member :=
  { kind := .streamed, name := [100], content := [8, 9], time := ⟨2000, 2, 29, 10, 20, 30⟩, data := [8, 9, 0],
    extra := [], version := [20, 0], flags := 8, flagsField := [8, 0], methodField := [8, 0],
    timeField := [0x8f, 0x52, 0x5d, 0x28], crc := [0, 0, 0, 0], compressedField := [0, 0, 0, 0],
    sizeField := [0, 0, 0, 0], nameField := [1, 0], extraField := [0, 0],
    descriptor := [0x50, 0x4b, 7, 8, 1, 2, 3, 4, 3, 0, 0, 0, 2, 0, 0] }

example : Presents (Zip.ops StringStream.ops storedDecompressor (fun t => t.tm_sec) 100 100) Failure.never True .error
    (Zip.new (StringStream.new ((zipMembers.take 3).flatMap Member.bytes ++ zipCut.bytes)))
    [⟨⟨[97], 2, 30, .file⟩, [1, 2]⟩, ⟨⟨[98], 0, 30, .dir⟩, []⟩, ⟨⟨[99], 3, 30, .file⟩, [5, 6, 7]⟩,
      ⟨⟨[100], -1, 30, .file⟩, [8, 9]⟩] :=
  C78_truncated (C01_isStream _) stored_unpacks (fun t => t.tm_sec) (zipMembers.take 3)
    (fun m hm => zipMembers_wellFormed m (List.mem_of_mem_take hm)) zipCut
    [0x50, 0x4b, 7, 8, 1, 2, 3, 4, 3, 0, 0, 0, 2, 0, 0, 0] rfl (zipMembers_wellFormed _ (by simp [zipMembers, zipCut]))
    (fun _ => by decide) (fun z => absurd ⟨_, rfl⟩ z) (by simp [zipCut]) rfl 100 100 (by decide)

/-- **C76**: a member with another method than 0 or 8 (and its sizes in the header) is not refused: the entry stream
delivers what lies in the file, and as many bytes of it as the *uncompressed* size says; the next header is looked
for behind these bytes, wherever the compressed data ends. -/
theorem C76_unknown_method {P : StreamOps σ UInt8} {D : Decompressor ζ} {c raw rest : List UInt8} {soft : Prop} {input : σ}
    (hP : IsStream P c Failure.never soft input) (mktime : TextUtils.Tm → Int) (m : Member) (method compressed : Nat)
    (hv : m.version.length = 2) (hf : Field 2 m.flagsField m.flags) (hbit : m.flags.testBit 3 = false)
    (hm : Field 2 m.methodField method) (hm8 : method ≠ 8) (ht : m.time.Valid ∧ Field 4 m.timeField m.time.encode)
    (hcrc : m.crc.length = 4) (hcomp : Field 4 m.compressedField compressed) (hc31 : compressed < 2 ^ 31)
    (hsize : Field 4 m.sizeField raw.length) (h31 : raw.length < 2 ^ 31)
    (hname : Field 2 m.nameField m.name.length ∧ m.name ≠ [] ∧ m.name.getLast? ≠ some 47)
    (hx : Field 2 m.extraField m.extra.length) (hd : m.descriptor = [])
    (hc : c.drop (P.position input).toNat = m.bytes ++ rest) (hraw : raw <+: m.data ++ rest) (hne : m.data ++ rest ≠ [])
    (N fuel : Nat) (hfuel : 2 ≤ fuel) :
    ∃ s e, (Zip.ops P D mktime N fuel).nextEntry (Zip.new input) = .ok s ∧ s.entry = some e ∧ s.status = .ok ∧
      s.info = ⟨m.name, raw.length, mktime (TextUtils.dosFields m.time.encode), .file⟩ ∧
      IsStream (entryOps P D N) raw Failure.never soft e ∧
      ∀ e' lo hi, Uses (entryOps P D N) raw soft e e' lo hi →
        ∃ i', (Zip.ops P D mktime N fuel).nextEntry ((Zip.ops P D mktime N fuel).setEntry s e') =
            Zip.next P D mktime N { s with entry := none, input := i' } ∧
          At P c soft i' ((m.data ++ rest).drop raw.length) := by
  have hA := At.of_isStream hP
  rw [hc] at hA
  generalize hhead : [0x50, 0x4b, 0x03, 0x04] ++ m.version ++ m.flagsField ++ m.methodField ++ m.timeField ++ m.crc ++
    m.compressedField ++ m.sizeField ++ m.nameField ++ m.extraField = head
  have hsplit : m.bytes ++ rest = head ++ (m.name ++ (m.extra ++ (m.data ++ rest))) := by
    rw [← hhead, Member.bytes, hd]; simp
  have hok : P.status input = .ok := hA.status_ok (by simp [Member.bytes])
  rw [hsplit] at hA
  have hxl : m.extra.length < 2 ^ 31 := by
    obtain ⟨h1, h2⟩ := hx
    rcases hf : m.extraField with _ | ⟨b0, _ | ⟨b1, _ | ⟨_, _⟩⟩⟩ <;> rw [hf] at h1 h2 <;> simp at h1
    simp only [Text.leValue] at h2
    have := b0.toNat_lt; have := b1.toNat_lt; omega
  have hh : Header head m.flags method m.time.encode compressed raw.length m.name.length m.extra.length :=
    ⟨_, _, _, _, _, _, _, _, _, hhead.symm, hv, hf, hm, ht.2, hcrc, hcomp, hsize, hname.1, hx⟩
  obtain ⟨i, eh, hA'⟩ := readHeader_spec (mktime := mktime) (s := Zip.new (ζ := ζ) input) rfl hh hc31 (by simp [hbit])
    hname.2.1 hne hxl hA
  obtain ⟨t, htl⟩ := hraw
  rw [← htl] at hA'
  obtain ⟨e, eo, hpos, hsz, hI, hU⟩ := stored_spec (D := D) (N := N) hA' h31 hfuel ⟨method, compressed⟩ (by simp; omega)
  have hshown : shown m.name = (m.name, .file) := by rw [shown, if_neg hname.2.2]
  rw [hshown, hbit] at eh
  simp only [Bool.false_eq_true, if_false] at eh
  refine ⟨⟨.ok, i, some (.stored e), ⟨m.name, raw.length, mktime (TextUtils.dosFields m.time.encode), .file⟩⟩, .stored e,
    ?_, rfl, rfl, rfl, hI, ?_⟩
  · show nextEntry P D mktime N fuel (Zip.new input) = _
    rw [nextEntry, if_neg (by simp [Zip.new])]
    show (do let (s, ok) ← Res.ok (Zip.new input, true); if ok then next P D mktime N s else .ok s) = _
    simp only [Res.bind_ok, if_true]
    rw [next, if_neg (by simp [Zip.new, hok]), eh]
    simp only [Res.bind_ok]
    rw [if_neg (by simp [Zip.new]), if_neg (by have := List.length_pos_iff.mpr hname.2.1; omega), eo]
    simp [Zip.new]
  · intro e' lo hi hu
    obtain ⟨i', el, hnd, hA2⟩ := hU e' lo hi hu
    refine ⟨i', ?_, ?_⟩
    · show nextEntry P D mktime N fuel ⟨.ok, i, some e', _⟩ = _
      rw [nextEntry, if_neg (by simp), leave_other hnd rfl]
      simp only
      rw [decide_eq_true (by omega), el]
      simp
    · rw [← htl, List.drop_left]; exact hA2

/-- A member of five bytes, compressed with method 12 from two bytes: the user is handed the first two of the five. -/
example : ∃ s e, (Zip.ops StringStream.ops storedDecompressor (fun t => t.tm_sec) 9 9).nextEntry
    (Zip.new (StringStream.new ([0x50, 0x4b, 3, 4, 20, 0, 0, 0, 12, 0, 0x8f, 0x52, 0x5d, 0x28, 0, 0, 0, 0, 5, 0, 0, 0,
      2, 0, 0, 0, 1, 0, 0, 0, 97] ++ [66, 90, 104, 57, 49] ++ [0x50, 0x4b, 1, 2]))) = .ok s ∧ s.entry = some e ∧ s.status = .ok ∧
    s.info = ⟨[97], 2, 30, .file⟩ ∧ IsStream (entryOps StringStream.ops storedDecompressor 9) [66, 90] Failure.never True e := by
  obtain ⟨s, e, h1, h2, h3, h4, h5, _⟩ := C76_unknown_method (D := storedDecompressor) (raw := [66, 90])
    (rest := [0x50, 0x4b, 1, 2]) (C01_isStream _) (fun t => t.tm_sec)
    { kind := .stored, name := [97], content := [], time := ⟨2000, 2, 29, 10, 20, 30⟩, data := [66, 90, 104, 57, 49],
      extra := [], version := [20, 0], flags := 0, flagsField := [0, 0], methodField := [12, 0],
      timeField := [0x8f, 0x52, 0x5d, 0x28], crc := [0, 0, 0, 0], compressedField := [5, 0, 0, 0],
      sizeField := [2, 0, 0, 0], nameField := [1, 0], extraField := [0, 0], descriptor := [] } 12 5
    rfl ⟨rfl, rfl⟩ rfl ⟨rfl, rfl⟩ (by decide) ⟨by unfold Text.DosTime.Valid; decide, rfl, by decide⟩ rfl ⟨rfl, rfl⟩ (by decide)
    ⟨rfl, rfl⟩ (by decide) ⟨⟨rfl, rfl⟩, by simp, by decide⟩ ⟨rfl, rfl⟩ rfl rfl ⟨_, rfl⟩ (by simp) 9 9 (by decide)
  exact ⟨s, e, h1, h2, h3, h4, h5⟩

theorem buffer_read {α : Type} {b : StreamBuffer α} (h : StreamBuffer.WF b) (mx : Int) : b.read mx = (do
    let n := if mx ≤ 0 ∨ mx > b.avail then b.avail else mx
    let d ← StreamBuffer.initialised (slice b.mem b.offset n)
    .ok ({ b with offset := b.offset + n, avail := b.avail - n }, n, d)) := by
  have h1 := h.off; have h2 := h.av; have h3 := h.fits
  have hs : 0 ≤ b.size := by simp [StreamBuffer.size]
  unfold StreamBuffer.read
  rw [Res.assert_of (by simp; omega), Res.assert_of (by simp; omega),
    Res.assert_of (by simp; omega), Res.assert_of (by simp; omega)]
  rfl

/-- Reading exactly as much as was asked for leaves nothing in the buffer of a `FileInputStream`. -/
theorem file_read_first (c : List UInt8) (n : Int) (hn : 1 ≤ n) (hlen : n ≤ c.length) (mem : List (Option UInt8))
    (hmem : n ≤ mem.length) (size : Int) (hsize : size = -1 ∨ size = c.length) :
    ∃ mem', BufferedStream.read FileInputStream.producer ⟨some ⟨c, 0⟩, ⟨mem, 0, 0⟩, false, 0, size, .ok⟩ n n =
      .ok (⟨some ⟨c, n⟩, ⟨mem', n, 0⟩, false, n, size, .ok⟩, n, c.take n.toNat) ∧ mem'.length = mem.length := by
  have hms : StreamBuffer.makeSpace (⟨mem, 0, 0⟩ : StreamBuffer UInt8) n = .ok (⟨mem, 0, 0⟩, mem.length) := by
    obtain ⟨b, sp, e, h1, h2, h3, h4, h5, h6, h7, h8, h9⟩ := StreamBuffer.makeSpace_spec
      (b := (⟨mem, 0, 0⟩ : StreamBuffer UInt8)) ⟨by simp, by simp, by simp [StreamBuffer.size]⟩ n
    have hb := h8 (by simp [StreamBuffer.size]; omega)
    subst hb
    rw [e, h3]
    simp [StreamBuffer.size]
  have hsp : (if n ≥ n ∧ (mem.length : Int) > n then n else (mem.length : Int)) = n := by
    split <;> omega
  have hl : ((CFile.fread (⟨c, 0⟩ : CFile UInt8) n).2.length : Int) = n := by
    rw [CFile.fread_length (by simp) (by simp) (by omega)]; simp only; omega
  have hd : (CFile.fread (⟨c, 0⟩ : CFile UInt8) n).2 = c.take n.toNat := by simp [CFile.fread, slice]
  have hfill : FileInputStream.producer.fill (some (⟨c, 0⟩ : CFile UInt8)) n = .ok (some ⟨c, n⟩, ⟨n, c.take n.toNat, false⟩) := by
    simp only [FileInputStream.producer]
    rw [if_neg (by omega), hl, hd]
    simp only [CFile.fread] at hl ⊢
    rw [hl]; simp
  have hlt : (c.take n.toNat).length = n.toNat := by rw [List.length_take]; omega
  have hst : StreamBuffer.store (⟨mem, 0, 0⟩ : StreamBuffer UInt8) (0 + 0) (c.take n.toNat) =
      .ok ⟨(c.take n.toNat).map some ++ mem.drop n.toNat, 0, 0⟩ := by
    unfold StreamBuffer.store
    rw [if_pos (by simp only [StreamBuffer.size]; omega), hlt]
    simp
  have hw : BufferedStream.writeToBuffer FileInputStream.producer ⟨some ⟨c, 0⟩, ⟨mem, 0, 0⟩, false, 0, size, .ok⟩ n n =
      .ok ⟨some ⟨c, n⟩, ⟨(c.take n.toNat).map some ++ mem.drop n.toNat, 0, n⟩, false, 0, size, .ok⟩ := by
    unfold BufferedStream.writeToBuffer
    rw [show FileInputStream.producer.fuel (some (⟨c, 0⟩ : CFile UInt8)) + 1 = (c.length + 2) + 1 + 1 from rfl,
      BufferedStream.writeLoop]
    simp only
    rw [if_pos (by omega), show n - 0 = n by omega, hms]
    simp only [Res.bind_ok]
    rw [hsp, hfill]
    simp only [Res.bind_ok]
    rw [hst]
    simp only [Res.bind_ok, Bool.false_eq_true, if_false]
    rw [Res.assert_of (by simp)]
    simp only [Res.bind_ok]
    rw [if_pos (by omega), BufferedStream.writeLoop, if_neg (by omega)]
    simp only [Res.bind_ok]
    rw [if_neg (by omega)]
    simp
  refine ⟨(c.take n.toNat).map some ++ mem.drop n.toNat, ?_, by simp; omega⟩
  unfold BufferedStream.read
  rw [if_neg (by simp), if_neg (by simp)]
  simp only
  rw [if_neg (by omega), BufferedStream.ensure, if_pos (by simp; omega), hw]
  simp only [Res.bind_ok]
  rw [if_neg (by simp), buffer_read ⟨by simp, by simp; omega, by simp [StreamBuffer.size]; omega⟩]
  simp only
  rw [if_neg (by omega)]
  have hsl : slice ((c.take n.toNat).map some ++ mem.drop n.toNat) 0 n = (c.take n.toNat).map some := by
    unfold slice
    rw [Int.toNat_zero, List.drop_zero, List.take_append_of_le_length (by rw [List.length_map]; omega),
      List.take_of_length_le (by rw [List.length_map]; omega)]
  rw [hsl, StreamBuffer.initialised_map]
  simp only [Res.bind_ok]
  rw [if_neg (by omega), if_neg (by simp)]
  simp

/-- **C77**: a local file header with the name length 0 at the start of a file that is read with `FileInputStream`
(and a buffer that is larger than the header): `nextEntry()` reads the byte *before* the empty name. -/
theorem C77_empty_name {D : Decompressor ζ} (mktime : TextUtils.Tm → Int) (c : List UInt8) (m : Member) (rest : List UInt8)
    (method compressed size : Nat) (hc : c = m.bytes ++ rest)
    (hv : m.version.length = 2) (hf : Field 2 m.flagsField m.flags)
    (hm : Field 2 m.methodField method) (hm8 : m.flags.testBit 3 = true → method = 8) (ht : m.timeField.length = 4)
    (hcrc : m.crc.length = 4) (hcomp : Field 4 m.compressedField compressed) (hc31 : compressed < 2 ^ 31)
    (hsize : Field 4 m.sizeField size) (hname : Field 2 m.nameField 0) (hx : m.extraField.length = 2)
    (buffersize : Int) (hb : 30 ≤ buffersize) (N fuel : Nat) :
    ∃ input, FileInputStream.new c buffersize = .ok input ∧
      nextEntry (BufferedStream.ops FileInputStream.producer) D mktime N fuel (Zip.new input) = .fault .outOfBounds := by
  generalize hhead : [0x50, 0x4b, 0x03, 0x04] ++ m.version ++ m.flagsField ++ m.methodField ++ m.timeField ++ m.crc ++
    m.compressedField ++ m.sizeField ++ m.nameField ++ m.extraField = head
  have hhl : head.length = 30 := by
    rw [← hhead]
    simp [hv, hf.1, hm.1, ht, hcrc, hcomp.1, hsize.1, hname.1, hx]
  have hsplit : c = head ++ (m.name ++ (m.extra ++ (m.data ++ (m.descriptor ++ rest)))) := by
    rw [hc, ← hhead, Member.bytes]; simp
  have hcl : 30 ≤ c.length := by rw [hsplit, List.length_append]; omega
  have htake : c.take 30 = head := by rw [hsplit, List.take_append_of_le_length (by omega), List.take_of_length_le (by omega)]
  have hne0 : (c.length : Int) ≠ 0 := by omega
  -- the constructor
  have hnew : ∃ mem : List (Option UInt8), 30 ≤ mem.length ∧ FileInputStream.new c buffersize =
      .ok ⟨some ⟨c, 0⟩, ⟨mem, 0, 0⟩, false, 0, c.length, .ok⟩ := by
    unfold FileInputStream.new
    simp only [not_true_eq_false, if_false]
    rw [if_neg (show ¬ ((c.length : Int) = 0 ∧ c.length ≥ 1) by omega), if_neg hne0]
    generalize hk : (if (c.length : Int) ≤ buffersize then (c.length : Int) + 1 else buffersize) = k
    have hk30 : 30 ≤ k := by rw [← hk]; split <;> omega
    obtain ⟨b, sp, e, h1, h2, h3, h4, h5, h6, h7, h8, h9⟩ := StreamBuffer.makeSpace_spec (StreamBuffer.WF.empty (α := UInt8)) k
    refine ⟨b.mem, ?_, ?_⟩
    · have := h9 rfl (by omega)
      simp only [StreamBuffer.size] at this
      omega
    · rw [BufferedStream.setMinBufSize, show (BufferedStream.new (some (⟨c, 0⟩ : CFile UInt8)) (c.length : Int)).buf = StreamBuffer.empty from rfl, e]
      have ho : b.offset = 0 := by
        have := h2.off
        simp only [StreamBuffer.empty] at h5; omega
      have ha : b.avail = 0 := h4
      simp only [Res.bind_ok, BufferedStream.new]
      obtain ⟨mem, o, a⟩ := b
      simp only at ho ha
      subst ho; subst ha
      simp
  obtain ⟨mem, hml, hnew⟩ := hnew
  refine ⟨_, hnew, ?_⟩
  obtain ⟨mem', er, hml'⟩ := file_read_first c 30 (by omega) (by omega) mem (by omega) c.length (Or.inr rfl)
  rw [show (30 : Int).toNat = 30 from rfl, htake] at er
  have hread0 : BufferedStream.read FileInputStream.producer
      (⟨some ⟨c, 30⟩, ⟨mem', 30, 0⟩, false, 30, c.length, .ok⟩ : BufferedStream (Option (CFile UInt8)) UInt8) 0 0 =
      .ok (⟨some ⟨c, 30⟩, ⟨mem', 30, 0⟩, false, 30, c.length, .ok⟩, 0, []) := by
    unfold BufferedStream.read
    rw [if_neg (by simp), if_neg (by simp)]
    simp only
    rw [if_neg (by omega), BufferedStream.ensure, if_neg (by simp)]
    simp only [Res.bind_ok]
    rw [if_neg (by simp), buffer_read ⟨by simp, by simp, by simp [StreamBuffer.size]; omega⟩]
    simp only
    rw [if_pos (Or.inl (by omega))]
    simp only [slice, Int.toNat_zero, List.take_zero, StreamBuffer.initialised, Res.bind_ok]
    rw [if_neg (by omega), if_neg (by simp)]
    simp
  have e26 : TextUtils.readLittleEndianUInt16 (head.drop 26) = .ok (0 : Nat) :=
    read16 hname (pre := [0x50, 0x4b, 0x03, 0x04] ++ m.version ++ m.flagsField ++ m.methodField ++ m.timeField ++ m.crc ++
      m.compressedField ++ m.sizeField) (post := m.extraField) (by rw [← hhead])
      (by simp [hv, hf.1, hm.1, ht, hcrc, hcomp.1, hsize.1])
  have e28 : TextUtils.readLittleEndianUInt16 (head.drop 28) = .ok (Text.leValue m.extraField) :=
    read16 ⟨hx, rfl⟩ (pre := [0x50, 0x4b, 0x03, 0x04] ++ m.version ++ m.flagsField ++ m.methodField ++ m.timeField ++ m.crc ++
      m.compressedField ++ m.sizeField ++ m.nameField) (post := []) (by rw [← hhead]; simp)
      (by simp [hv, hf.1, hm.1, ht, hcrc, hcomp.1, hsize.1, hname.1])
  have e22 : TextUtils.readLittleEndianUInt32 (head.drop 22) = .ok size :=
    read32 hsize (pre := [0x50, 0x4b, 0x03, 0x04] ++ m.version ++ m.flagsField ++ m.methodField ++ m.timeField ++ m.crc ++
      m.compressedField) (post := m.nameField ++ m.extraField) (by rw [← hhead]; simp)
      (by simp [hv, hf.1, hm.1, ht, hcrc, hcomp.1])
  have e18 : TextUtils.readLittleEndianUInt32 (head.drop 18) = .ok compressed :=
    read32 hcomp (pre := [0x50, 0x4b, 0x03, 0x04] ++ m.version ++ m.flagsField ++ m.methodField ++ m.timeField ++ m.crc)
      (post := m.sizeField ++ m.nameField ++ m.extraField) (by rw [← hhead]; simp)
      (by simp [hv, hf.1, hm.1, ht, hcrc])
  have e10 : TextUtils.readLittleEndianUInt32 (head.drop 10) = .ok (Text.leValue m.timeField) :=
    read32 ⟨ht, rfl⟩ (pre := [0x50, 0x4b, 0x03, 0x04] ++ m.version ++ m.flagsField ++ m.methodField)
      (post := m.crc ++ m.compressedField ++ m.sizeField ++ m.nameField ++ m.extraField) (by rw [← hhead]; simp)
      (by simp [hv, hf.1, hm.1])
  have e8 : TextUtils.readLittleEndianUInt16 (head.drop 8) = .ok method :=
    read16 hm (pre := [0x50, 0x4b, 0x03, 0x04] ++ m.version ++ m.flagsField)
      (post := m.timeField ++ m.crc ++ m.compressedField ++ m.sizeField ++ m.nameField ++ m.extraField) (by rw [← hhead]; simp)
      (by simp [hv, hf.1])
  have e6 : TextUtils.readLittleEndianUInt16 (head.drop 6) = .ok m.flags :=
    read16 hf (pre := [0x50, 0x4b, 0x03, 0x04] ++ m.version)
      (post := m.methodField ++ m.timeField ++ m.crc ++ m.compressedField ++ m.sizeField ++ m.nameField ++ m.extraField)
      (by rw [← hhead]; simp) (by simp [hv])
  rw [nextEntry, if_neg (by simp [Zip.new])]
  simp only [leave, Zip.new, Res.bind_ok, if_true]
  rw [next, if_neg (by simp [BufferedStream.ops]), readHeader]
  simp only [BufferedStream.ops]
  rw [er]
  simp only [Res.bind_ok]
  rw [if_neg (by simp)]
  have a0 : aget head 0 = .ok 0x50 := by rw [← hhead]; simp [aget]
  have a1 : aget head 1 = .ok 0x4b := by rw [← hhead]; simp [aget]
  have a2 : aget head 2 = .ok 0x03 := by rw [← hhead]; simp [aget]
  have a3 : aget head 3 = .ok 0x04 := by rw [← hhead]; simp [aget]
  rw [a0, a1]
  simp only [Res.bind_ok]
  rw [if_neg (by simp), a2, a3]
  simp only [Res.bind_ok]
  rw [if_neg (by simp)]
  unfold readFields
  rw [e26, e28, e22, e18, e8, e6, e10]
  simp only [Res.bind_ok]
  rw [if_neg (by omega), if_neg (by rw [flag_iff]; rintro ⟨z1, z2⟩; exact z2 (by exact_mod_cast hm8 z1))]
  unfold readNames readFileName
  simp only [BufferedStream.ops]
  by_cases hbit : m.flags &&& 8 ≠ 0
  · simp only [hbit, not_false_eq_true, decide_true, if_true, ne_eq, Int.natCast_zero]
    rw [hread0]
    simp [aget, slice]
  · simp only [hbit, decide_false, Bool.false_eq_true, if_false, Int.natCast_zero]
    rw [hread0]
    simp [aget, slice]

/-- Such a file. -/
example : ∃ input, FileInputStream.new ([0x50, 0x4b, 3, 4, 20, 0, 0, 0, 0, 0, 0x8f, 0x52, 0x5d, 0x28, 0, 0, 0, 0, 5, 0, 0, 0,
      2, 0, 0, 0, 0, 0, 0, 0, 97] : List UInt8) 1000 = .ok input ∧
    nextEntry (BufferedStream.ops FileInputStream.producer) storedDecompressor (fun t => t.tm_sec) 9 9 (Zip.new input) =
      .fault .outOfBounds :=
  C77_empty_name _ _
    { kind := .stored, name := [], content := [], time := ⟨2000, 2, 29, 10, 20, 30⟩, data := [],
      extra := [], version := [20, 0], flags := 0, flagsField := [0, 0], methodField := [0, 0],
      timeField := [0x8f, 0x52, 0x5d, 0x28], crc := [0, 0, 0, 0], compressedField := [5, 0, 0, 0],
      sizeField := [2, 0, 0, 0], nameField := [0, 0], extraField := [0, 0], descriptor := [] } [97] 0 5 2 rfl
    rfl ⟨rfl, rfl⟩ ⟨rfl, rfl⟩ (by decide) rfl rfl ⟨rfl, rfl⟩ (by decide) ⟨rfl, rfl⟩ ⟨rfl, rfl⟩ rfl 1000 (by decide) 9 9

end Strigi.Props
