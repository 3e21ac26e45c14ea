import Verif.Proofs.TarCut
import Verif.Props.Tar
import Verif.Props.Cut

/-!
# Property C138: tar archives of which the end is missing
-/

namespace Strigi.Props

open TarSpec

variable {σ : Type}

section

variable {P : StreamOps σ UInt8} {c : List UInt8} {soft : Prop} {input : σ}

theorem tar_ready (hS : IsStream P c Failure.never soft input) {bytes : List UInt8}
    (hc : c.drop (P.position input).toNat = bytes) : Tar.Ready P c soft (Tar.new input) bytes := by
  refine ⟨rfl, input, rfl, ?_⟩
  have := At.of_isStream hS
  rw [hc] at this
  exact this

/-- **C138**: less than a block is left behind the complete entries, whatever it is (a header that is cut off, or a part of
the NULs at the end): exactly the complete entries are presented and the iteration ends with `Error`. -/
theorem C138_rest (hS : IsStream P c Failure.never soft input) {tail : List UInt8} (ht : tail ≠ []) (htl : tail.length < 512)
    (entries : List ArchiveEntry) (bytes : List UInt8) (ha : Archive tail entries bytes)
    (hc : c.drop (P.position input).toNat = bytes) (fuel : Nat) (hf : bytes.length < fuel) :
    Presents (Tar.ops P fuel) Failure.never soft .error (Tar.new input) entries := by
  refine Tar.ends_presents ht (by decide) (fun fuel s hf _ hA => ?_) ha hf (tar_ready hS hc)
  obtain ⟨f, rfl⟩ : ∃ f, fuel = f + 1 := ⟨fuel - 1, by omega⟩
  exact Tar.parse_short htl hA f

/-- An empty input is not an archive. -/
theorem C138_nothing (hS : IsStream P c Failure.never soft input) (hc : c.drop (P.position input).toNat = []) (fuel : Nat)
    (hf : 1 ≤ fuel) : Presents (Tar.ops P fuel) Failure.never soft .error (Tar.new input) [] := by
  obtain ⟨hst, i, el, hA⟩ := tar_ready hS hc
  obtain ⟨f, rfl⟩ : ∃ f, fuel = f + 1 := ⟨fuel - 1, by omega⟩
  obtain ⟨s', e1, e2, e3⟩ := Tar.parse_short (s := { Tar.new input with entry := none, input := i }) (by simp) hA f
  exact Tar.ends hst el e1 e2 (by decide) e3

/-- **C138**: of the blocks of NULs at the end less than two are there: the iteration ends with `Error`. -/
theorem C138_zeros (hS : IsStream P c Failure.never soft input) {j : Nat} (h1 : 1 ≤ j) (hj : j < 1024)
    (entries : List ArchiveEntry) (bytes : List UInt8) (ha : Archive (List.replicate j 0) entries bytes)
    (hc : c.drop (P.position input).toNat = bytes) (fuel : Nat) (hf : bytes.length < fuel) :
    Presents (Tar.ops P fuel) Failure.never soft .error (Tar.new input) entries := by
  refine Tar.ends_presents (by intro z; rw [List.replicate_eq_nil_iff] at z; omega) (by decide) (fun fuel s hf hst hA => ?_) ha hf
    (tar_ready hS hc)
  rw [List.length_replicate] at hf
  obtain ⟨f, rfl⟩ : ∃ f, fuel = f + 2 := ⟨fuel - 2, by omega⟩
  exact Tar.parse_zeros hj f s hst hA

/-- **C138**: the cut is in the content of an entry, of which at least one byte is there.  The entries before it are
presented; the entry itself is shown with its full size, its stream delivers what is there and then reports an error, never
`Eof`, and the iteration ends with `Error`. -/
theorem C138_content (hS : IsStream P c Failure.never soft input) {pre x : List UInt8} {info : EntryInfo} (hI : Intro pre info)
    (hx : x ≠ []) (hxl : (x.length : Int) < info.size)
    (entries : List ArchiveEntry) (bytes : List UInt8) (ha : Archive (pre ++ x) entries bytes)
    (hc : c.drop (P.position input).toNat = bytes) (fuel : Nat) (hf : bytes.length < fuel) :
    PresentsThen (Tar.ops P fuel) Failure.never soft (ShowsPart (Tar.ops P fuel) soft info x .error) (Tar.new input) entries := by
  obtain ⟨size, hsz, hlt⟩ := Tar.intro_size hI
  obtain ⟨padn, hpad⟩ := Tar.pads_exist size
  refine PresentsThen.mono (fun s hB => ?_) _ _ (Tar.presentsThen (by simp [hx]) (fun fuel s hf hst hA => ?_) entries _ ha hf
    (tar_ready hS hc))
  · have hf1 : 1 ≤ fuel := by omega
    exact Tar.shows_part hf1 hsz hlt hpad.1 (by omega) (Tar.Before.opens hI hsz hpad hx hB)
  · obtain ⟨f, rfl⟩ : ∃ f, fuel = f + 1 := ⟨fuel - 1, by omega⟩
    obtain ⟨i, _, e⟩ := Tar.parse_intro hI hsz hpad hx f s hst hA
    exact ⟨_, e, rfl⟩

/-- **C138**: the archive ends behind the content of an entry, within or at the end of its padding: the entry is presented
like the others, and the iteration ends with `Error`. -/
theorem C138_complete (hS : IsStream P c Failure.never soft input) {pre content x : List UInt8} {info : EntryInfo} {padn : Nat}
    (hI : Intro pre info) (hsz : info.size = content.length) (hpad : Pads content.length padn) (hne : content ++ x ≠ [])
    (hxl : x.length ≤ padn)
    (entries : List ArchiveEntry) (bytes : List UInt8) (ha : Archive (pre ++ (content ++ x)) entries bytes)
    (hc : c.drop (P.position input).toNat = bytes) (fuel : Nat) (hf : bytes.length < fuel) :
    Presents (Tar.ops P fuel) Failure.never soft .error (Tar.new input) (entries ++ [⟨info, content⟩]) := by
  obtain ⟨size, hsz', hlt⟩ := Tar.intro_size hI
  refine PresentsThen.presents _ _ (PresentsThen.append _ _ (PresentsThen.mono (fun s hB => ?_) _ _
    (Tar.presentsThen (by simp [Tar.intro_ne_nil hI]) (fun fuel s hf hst hA => ?_) entries _ ha hf (tar_ready hS hc))))
  · have hf1 : 1 ≤ fuel := by omega
    exact Tar.shows_all hf1 hsz (by omega) hpad.1 hxl (Tar.Before.opens hI hsz hpad hne hB)
  · obtain ⟨f, rfl⟩ : ∃ f, fuel = f + 1 := ⟨fuel - 1, by omega⟩
    obtain ⟨i, _, e⟩ := Tar.parse_intro hI hsz hpad hne f s hst hA
    exact ⟨_, e, rfl⟩

/-- **C138**: the last complete block is the header of an entry, and the input reports its end as soon as it has delivered
the last byte: the entry is not shown, even if it has no content and nothing is missing but the NULs. -/
theorem C138_lost (hS : IsStream P c Failure.never soft input)
    (hprompt : ∀ s min max s' n d, IsStream P c Failure.never soft s → P.read s min max = .ok (s', n, d) →
      P.position s' = c.length → P.status s' = .eof)
    {head name : List UInt8} {size mtime : Nat} {type : EntryType} (hh : Header head name size mtime type)
    (entries : List ArchiveEntry) (bytes : List UInt8) (ha : Archive head entries bytes)
    (hc : c.drop (P.position input).toNat = bytes) (fuel : Nat) (hf : bytes.length < fuel) :
    Presents (Tar.ops P fuel) Failure.never soft .error (Tar.new input) entries := by
  obtain ⟨hn, front, hp⟩ := Tar.header_named hh
  have hl := hp.len
  refine Tar.ends_presents (by intro z; rw [z] at hl; simp at hl) (by decide) (fun fuel s hf hst hA => ?_) ha hf
    (tar_ready hS hc)
  obtain ⟨f, rfl⟩ : ∃ f, fuel = f + 1 := ⟨fuel - 1, by omega⟩
  obtain ⟨i, e2, hA2, _⟩ := (show At P c soft s.input (head ++ []) by rw [List.append_nil]; exact hA).read (n := 512)
    (by omega) (by omega)
  have hs : P.status i = .eof := by
    refine hprompt _ _ _ _ _ _ hA.isStream e2 ?_
    have := hA2.range
    simpa using this.2
  refine ⟨{ s with input := i, status := .error }, ?_, rfl, rfl⟩
  rw [Tar.parseHeader, Tar.readHeader, e2]
  simp only [Res.bind_ok]
  rw [if_pos (Or.inr hs)]
  simp only [Res.bind_ok]
  rw [if_pos (by decide)]

/-- **C138**: the cut is in a long name or in the padding behind it: the iteration ends with `Error`. -/
theorem C138_long_name (hS : IsStream P c Failure.never soft input) {head x : List UInt8} {size padn mtime : Nat} {type : EntryType}
    (hh : Header head longLink size mtime type) (hs0 : size ≠ 0) (hpad : Pads size padn) (hx : x.length < size + padn)
    (entries : List ArchiveEntry) (bytes : List UInt8) (ha : Archive (head ++ x) entries bytes)
    (hc : c.drop (P.position input).toNat = bytes) (fuel : Nat) (hf : bytes.length < fuel) :
    Presents (Tar.ops P fuel) Failure.never soft .error (Tar.new input) entries := by
  obtain ⟨hn, front, hp⟩ := Tar.header_named hh
  have hl := hp.len
  refine Tar.ends_presents (by intro z; rw [List.append_eq_nil_iff] at z; rw [z.1] at hl; simp at hl) (by decide) (fun fuel s hf hst hA => ?_)
    ha hf (tar_ready hS hc)
  obtain ⟨f, rfl⟩ : ∃ f, fuel = f + 1 := ⟨fuel - 1, by omega⟩
  exact Tar.parse_long_short f s hh hs0 hpad hx hst hA

/-- **C138**: the cut is in the header that follows a long name: the iteration ends with `Eof`, as if nothing were missing. -/
theorem C138_second_header (hS : IsStream P c Failure.never soft input) (hP : Prompt P)
    {head longName pad1 y : List UInt8} {size mtime : Nat} {type : EntryType}
    (hh : Header head longLink size mtime type) (hsize : size = longName.length) (hlne : longName ≠ [])
    (hpad : Pads longName.length pad1.length) (hy : y ≠ []) (hyl : y.length < 512)
    (entries : List ArchiveEntry) (bytes : List UInt8) (ha : Archive (head ++ longName ++ pad1 ++ y) entries bytes)
    (hc : c.drop (P.position input).toNat = bytes) (fuel : Nat) (hf : bytes.length < fuel) :
    Presents (Tar.ops P fuel) Failure.never soft .eof (Tar.new input) entries := by
  refine Tar.ends_presents (by simp [hy]) (by decide) (fun fuel s hf hst hA => ?_) ha hf (tar_ready hS hc)
  obtain ⟨f, rfl⟩ : ∃ f, fuel = f + 1 := ⟨fuel - 1, by omega⟩
  obtain ⟨i, hA', e⟩ := Tar.parse_long_name f s hh hsize hlne hpad hy hst hA
  obtain ⟨j, d, st, ej, h1, h2, h3⟩ :=
    Tar.readHeader_short (s := { s with input := i, info := { s.info with filename := longName } }) hyl hA'
  have h3 := h3 hP
  subst h3
  refine ⟨{ s with input := j, info := { s.info with filename := longName }, status := .eof }, ?_, rfl, rfl⟩
  rw [e, ej]
  simp only [Res.bind_ok]
  rw [if_pos (by decide)]

/-- **C138**, for every cut: of an archive of which only the first `k` bytes are there, exactly the first `i` entries are
presented, for some `i`.  Then the iteration ends, or the next entry is shown with a part of its content as such, or it is
presented in full; in the latter two cases the iteration then ends with `Error`.  Nothing is invented.

(Which of these happens if `k` is at the end of a header depends on whether the input reports its end early.) -/
theorem C138_any (hS : IsStream P c Failure.never soft input) (entries : List ArchiveEntry) (bytes : List UInt8) (m : Nat)
    (ha : Archive (List.replicate m 0) entries bytes) (k : Nat) (hk : k ≤ bytes.length)
    (hc : c.drop (P.position input).toNat = bytes.take k) (fuel : Nat) (hf : bytes.length < fuel) :
    ∃ i ≤ entries.length,
      PresentsThen (Tar.ops P fuel) Failure.never soft
        (fun p => (∃ st, st ≠ .ok ∧ EndsWith (Tar.ops P fuel) st p) ∨
          (∃ e j, entries[i]? = some e ∧ j < e.content.length ∧
            ShowsPart (Tar.ops P fuel) soft e.info (e.content.take j) .error p) ∨
          ∃ e, entries[i]? = some e ∧ Presents (Tar.ops P fuel) Failure.never soft .error p [e])
        (Tar.new input) (entries.take i) := by
  by_cases h0 : k = 0
  · subst h0
    refine ⟨0, Nat.zero_le _, Or.inl ⟨.error, by decide, ?_⟩⟩
    exact C138_nothing hS (by rw [hc, List.take_zero]) fuel (by omega)
  · obtain ⟨i, tail, h1, h2, h3, h4⟩ := Tar.cut ha k (by omega) hk
    refine ⟨i, h1, PresentsThen.mono (fun s hB => ?_) _ _ (Tar.presentsThen h2 (fun fuel s hf hst hA => ?_) _ _ h4 ?_
      (tar_ready hS hc))⟩
    · rcases h3.ending h2 hB with x | x | ⟨e, x, y⟩
      · exact Or.inl x
      · exact Or.inr (Or.inl x)
      · exact Or.inr (Or.inr ⟨e, x, PresentsThen.presents _ _ y⟩)
    · obtain ⟨s', e1, hV⟩ := h3.verdict h2 fuel s hf hst hA
      refine ⟨s', e1, ?_⟩
      rcases hV with ⟨_, v⟩ | ⟨e, i, padn, x, _, rfl, _⟩
      · exact v
      · rfl
    · rw [List.length_take]; omega

end

/-- A `StringStream` reports its end as soon as it has delivered the last byte. -/
theorem stringStream_early (c : List UInt8) (s : StringStream UInt8) (min max : Int) (s' : StringStream UInt8) (n : Int)
    (d : List UInt8) (hI : IsStream StringStream.ops c Failure.never True s) (h : StringStream.ops.read s min max = .ok (s', n, d))
    (hp : StringStream.ops.position s' = c.length) : StringStream.ops.status s' = .eof := by
  have hz := (Contract.of_behaves _ _ _ _).size hI
  simp only [StringStream.ops, Failure.never, or_false] at hz h hp
  have hr := (Contract.of_behaves _ _ _ _).range hI
  simp only [StringStream.ops] at hr
  unfold StringStream.read at h
  simp only at h
  split at h
  · cases h; rfl
  · simp only [Res.ok.injEq, Prod.mk.injEq] at h
    obtain ⟨rfl, -, -⟩ := h
    simp only at hp
    simp only [StringStream.ops]
    rw [if_pos (by omega)]

local macro "tarlen" : tactic => `(tactic|
  (simp only [exampleTarHead, longLink, List.length_append, List.length_replicate, List.length_cons, List.length_nil]; try omega))

/-- Non-vacuity: three entries, and a fourth of which one byte is missing. -/
example (fuel : Nat) (h : 1000000 < fuel) : ∃ bytes, PresentsThen (Tar.ops StringStream.ops fuel) Failure.never True
    (ShowsPart (Tar.ops StringStream.ops fuel) True ⟨[120], 3, 7, .file⟩ [1, 2] .error)
    (Tar.new (StringStream.new bytes))
    [⟨⟨[100], 0, 7, .dir⟩, []⟩, ⟨⟨[97], 3, 7, .file⟩, [1, 2, 3]⟩, ⟨⟨[98, 98, 0], 1, 7, .file⟩, [9]⟩] :=
  ⟨_, C138_content (C01_isStream _) (.plain (exampleTarHeader [120] 51 48 (by decide) (by decide) (by decide) 3 rfl (by omega))
    (by decide) (by decide)) (by decide) (by decide) _ _ (exampleTar _) rfl fuel (Nat.lt_of_le_of_lt (by tarlen) h)⟩

/-- The same, cut behind the content of the fourth. -/
example (fuel : Nat) (h : 1000000 < fuel) : ∃ bytes, Presents (Tar.ops StringStream.ops fuel) Failure.never True .error
    (Tar.new (StringStream.new bytes))
    ([⟨⟨[100], 0, 7, .dir⟩, []⟩, ⟨⟨[97], 3, 7, .file⟩, [1, 2, 3]⟩, ⟨⟨[98, 98, 0], 1, 7, .file⟩, [9]⟩] ++
      [⟨⟨[120], 3, 7, .file⟩, [1, 2, 3]⟩]) :=
  ⟨_, C138_complete (padn := 509) (C01_isStream _)
    (.plain (exampleTarHeader [120] 51 48 (by decide) (by decide) (by decide) 3 rfl (by omega)) (by decide) (by decide))
    rfl ⟨by decide, by decide⟩ (by decide) (by decide : ([0, 0] : List UInt8).length ≤ 509) _ _ (exampleTar _) rfl fuel
    (Nat.lt_of_le_of_lt (by tarlen) h)⟩

/-- An empty directory whose header is the last block of the input is lost. -/
example (fuel : Nat) (h : 1000000 < fuel) : ∃ bytes, Presents (Tar.ops StringStream.ops fuel) Failure.never True .error
    (Tar.new (StringStream.new bytes))
    [⟨⟨[100], 0, 7, .dir⟩, []⟩, ⟨⟨[97], 3, 7, .file⟩, [1, 2, 3]⟩, ⟨⟨[98, 98, 0], 1, 7, .file⟩, [9]⟩] :=
  ⟨_, C138_lost (C01_isStream _) (stringStream_early _)
    (exampleTarHeader [100, 47] 48 53 (by decide) (by decide) (by decide) 0 rfl (by omega))
    _ _ (exampleTar _) rfl fuel (Nat.lt_of_le_of_lt (by tarlen) h)⟩

/-- A cut in the header that follows a long name is not noticed. -/
example (fuel : Nat) (h : 1000000 < fuel) : ∃ bytes, Presents (Tar.ops StringStream.ops fuel) Failure.never True .eof
    (Tar.new (StringStream.new bytes))
    [⟨⟨[100], 0, 7, .dir⟩, []⟩, ⟨⟨[97], 3, 7, .file⟩, [1, 2, 3]⟩, ⟨⟨[98, 98, 0], 1, 7, .file⟩, [9]⟩] :=
  ⟨_, C138_second_header (longName := [98, 98, 0]) (pad1 := List.replicate 509 0) (y := [99, 99]) (C01_isStream _) prompt_stringStream
    (exampleTarHeader longLink 51 76 (by decide) (by decide) (by decide) 3 rfl (by omega)) rfl (by decide)
    ⟨by tarlen, by tarlen⟩ (by decide) (by decide)
    _ _ (exampleTar _) rfl fuel (Nat.lt_of_le_of_lt (by tarlen) h)⟩

end Strigi.Props
