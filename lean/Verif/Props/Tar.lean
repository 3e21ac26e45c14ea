import Verif.Proofs.Tar
import Verif.Props.StringStream

/-!
# Properties C35, C36, C67, C68: tar archives
-/

namespace Strigi.Props

open TarSpec Tar

variable {σ : Type}

theorem tar_zero_block {P : StreamOps σ UInt8} {c : List UInt8} {soft : Prop} (k : Nat) (fuel : Nat)
    (s : Tar.State σ) (hst : s.status = .ok) (hA : At P c soft s.input (List.replicate (512 * (k + 2)) 0)) :
    ∃ i, parseHeader P (fuel + 1) s = zeroBlocks P fuel 0 { s with input := i } ∧
      At P c soft i (List.replicate (512 * (k + 1)) 0) := by
  rw [show 512 * (k + 2) = 512 + 512 * (k + 1) by omega, ← List.replicate_append_replicate] at hA
  have hne : List.replicate (512 * (k + 1)) (0 : UInt8) ≠ [] := by
    intro z; rw [List.replicate_eq_nil_iff] at z; omega
  obtain ⟨i, e, hA'⟩ := readHeader_more (s := s) List.length_replicate hne hA
  refine ⟨i, ?_, hA'⟩
  rw [parseHeader, e]
  simp only [Res.bind_ok]
  have hz : (slice (List.replicate 512 (0 : UInt8)) 0 512).all (· = 0) = true := by
    rw [List.all_eq_true]
    intro b hb
    unfold slice at hb
    have := List.mem_of_mem_drop (List.mem_of_mem_take hb)
    rw [List.mem_replicate] at this
    simp [this.2]
  rw [if_neg (by simp [hst]), if_pos hz]

theorem tar_end {P : StreamOps σ UInt8} {c : List UInt8} {soft : Prop} {k : Nat} (hk : 3 ≤ k) (fuel : Nat)
    (s : Tar.State σ) (hf : (List.replicate (512 * k) (0 : UInt8)).length < fuel) (hst : s.status = .ok)
    (hA : At P c soft s.input (List.replicate (512 * k) 0)) :
    ∃ s', parseHeader P fuel s = .ok s' ∧ s'.status = .eof ∧ s'.entry = s.entry := by
  rw [List.length_replicate] at hf
  obtain ⟨f, rfl⟩ : ∃ f, fuel = f + 1 := ⟨fuel - 1, by omega⟩
  obtain ⟨k, rfl⟩ : ∃ j, k = j + 2 := ⟨k - 2, by omega⟩
  obtain ⟨i, e, hA'⟩ := tar_zero_block k f s hst hA
  rw [e]
  exact zeroBlocks_spec (k + 1) f 0 { s with input := i } hst (by omega) (by omega) (by omega) hA'

/-- **C35, C36**: an archive with the given entries (plain or GNU long names) and at least three blocks of
NULs at its end, at the current position of any input stream that does not fail: iteration presents exactly
these entries in order and then ends with status `Eof`, whatever the client does with the entry streams. -/
theorem C36_roundtrip {P : StreamOps σ UInt8} {c : List UInt8} {soft : Prop} {input : σ}
    (hP : IsStream P c Failure.never soft input) (entries : List ArchiveEntry) (bytes : List UInt8) (k : Nat)
    (hk : 3 ≤ k) (ha : Archive (List.replicate (512 * k) 0) entries bytes)
    (hc : c.drop (P.position input).toNat = bytes) (fuel : Nat) (hf : bytes.length < fuel) :
    Presents (Tar.ops P fuel) Failure.never soft .eof (Tar.new input) entries := by
  have hne : List.replicate (512 * k) (0 : UInt8) ≠ [] := by
    intro z; rw [List.replicate_eq_nil_iff] at z; omega
  refine Tar.presents (c := c) hne (by simp) (tar_end hk) entries _ ha hf ⟨rfl, input, rfl, ?_⟩
  have := At.of_isStream hP
  rw [hc] at this
  exact this

/-- **C67**: if the archive ends with the two blocks of NULs that the format asks for, and the input stream
reports its end as soon as it has delivered the last byte, then all entries are presented, but the iteration
ends with status `Error`. -/
theorem C67_two_blocks {P : StreamOps σ UInt8} {c : List UInt8} {soft : Prop} {input : σ}
    (hP : IsStream P c Failure.never soft input) (entries : List ArchiveEntry) (bytes : List UInt8)
    (hprompt : ∀ s min max s' n d, IsStream P c Failure.never soft s → P.read s min max = .ok (s', n, d) →
      P.position s' = c.length → P.status s' = .eof)
    (ha : Archive (List.replicate 1024 0) entries bytes)
    (hc : c.drop (P.position input).toNat = bytes) (fuel : Nat) (hf : bytes.length < fuel) :
    Presents (Tar.ops P fuel) Failure.never soft .error (Tar.new input) entries := by
  have hne : List.replicate 1024 (0 : UInt8) ≠ [] := by
    intro z; rw [List.replicate_eq_nil_iff] at z; omega
  refine Tar.presents (c := c) hne (by simp) ?_ entries _ ha hf ⟨rfl, input, rfl, ?_⟩
  · intro fuel s hf hst hA
    rw [List.length_replicate] at hf
    obtain ⟨f, rfl⟩ : ∃ f, fuel = f + 1 + 1 := ⟨fuel - 2, by omega⟩
    obtain ⟨i, e, hA'⟩ := tar_zero_block 0 (f + 1) s hst hA
    rw [e]
    obtain ⟨i2, e2, hA2, _⟩ := (show At P c soft i (List.replicate 512 0 ++ []) by
      rw [List.append_nil]; exact hA').read (n := 512) (by rw [List.length_replicate]; rfl) (by omega)
    have hs : P.status i2 = .eof := by
      refine hprompt _ _ _ _ _ _ hA'.isStream e2 ?_
      have := hA2.range
      simpa using this.2
    refine ⟨{ s with input := i2, status := .error }, ?_, rfl, rfl⟩
    rw [zeroBlocks, readHeader, e2]
    simp only [Res.bind_ok]
    rw [if_pos (Or.inr hs)]
    simp only [Res.bind_ok]
    rw [if_pos ⟨by omega, trivial⟩]
  · have := At.of_isStream hP
    rw [hc] at this
    exact this

local macro "tarlen" : tactic => `(tactic|
  (simp only [List.length_append, List.length_replicate, List.length_cons, List.length_nil]; try omega))

/-- A header, for the examples. -/
def exampleTarHead (name : List UInt8) (size : UInt8) (type : UInt8) : List UInt8 :=
  (name ++ List.replicate (100 - name.length) 0 ++ (List.replicate 7 48 ++ [0]) ++ (List.replicate 7 48 ++ [0]) ++
    (List.replicate 7 48 ++ [0])) ++ (List.replicate 0 32 ++ (List.replicate 10 48 ++ [size]) ++ List.replicate 1 0) ++
    (List.replicate 0 32 ++ (List.replicate 10 48 ++ [55]) ++ List.replicate 1 32) ++ List.replicate 8 48 ++ [type] ++
    (List.replicate 99 0 ++ [0] ++ List.replicate 255 0)

theorem exampleTarFields (name : List UInt8) (size type : UInt8) (hn : name.length ≤ 100)
    (n : Nat) (hs : octal (List.replicate 10 48 ++ [size]) = some n) (hlt : n < 2 ^ 31) :
    Fields (exampleTarHead name size type)
      (name ++ List.replicate (100 - name.length) 0 ++ (List.replicate 7 48 ++ [0]) ++ (List.replicate 7 48 ++ [0]) ++
        (List.replicate 7 48 ++ [0])) (List.replicate 99 0 ++ [0] ++ List.replicate 255 0) n 7 (flagType type) :=
  ⟨_, _, _, type, rfl, by tarlen, ⟨0, _, 0, 0, rfl, Or.inl rfl, by simp, hs, by tarlen⟩, hlt,
    ⟨0, _, 0, 32, rfl, Or.inr rfl, by simp, rfl, by tarlen⟩, by omega, by tarlen, rfl, by tarlen⟩

theorem exampleTarHeader (name : List UInt8) (size type : UInt8) (hn : name.length ≤ 100) (hne : name ≠ [])
    (h0 : 0 ∉ name) (n : Nat) (hs : octal (List.replicate 10 48 ++ [size]) = some n) (hlt : n < 2 ^ 31) :
    Header (exampleTarHead name size type) name n 7 (flagType type) :=
  ⟨_, _, _, _, _, _, exampleTarFields name size type hn n hs hlt, by omega, hne, h0, by tarlen, by tarlen, by tarlen, by tarlen⟩

/-- An archive for the examples: the current directory, a directory, a file and a file with a long name. -/
theorem exampleTar (tail : List UInt8) : Archive tail
    [⟨⟨[100], 0, 7, .dir⟩, []⟩, ⟨⟨[97], 3, 7, .file⟩, [1, 2, 3]⟩, ⟨⟨[98, 98, 0], 1, 7, .file⟩, [9]⟩]
    (exampleTarHead [46, 47] 48 53 ++
    (exampleTarHead [46, 47, 100, 47] 48 53 ++ [] ++ [] ++
    (exampleTarHead [97] 51 48 ++ [1, 2, 3] ++ List.replicate 509 0 ++
    (exampleTarHead longLink 51 76 ++ [98, 98, 0] ++ List.replicate 509 0 ++ exampleTarHead [98, 98] 49 48 ++ [9] ++
      List.replicate 511 0 ++ tail)))) := by
  have h1 := exampleTarHeader [46, 47] 48 53 (by decide) (by decide) (by decide) 0 rfl (by omega)
  have h2 := exampleTarHeader [46, 47, 100, 47] 48 53 (by decide) (by decide) (by decide) 0 rfl (by omega)
  have h3 := exampleTarHeader [97] 51 48 (by decide) (by decide) (by decide) 3 rfl (by omega)
  have h4 := exampleTarHeader longLink 51 76 (by decide) (by decide) (by decide) 3 rfl (by omega)
  have h5 := exampleTarFields [98, 98] 49 48 (by decide) 1 rfl (by omega)
  have p1 : Pads ([] : List UInt8).length ([] : List UInt8).length := ⟨by decide, rfl⟩
  have p3 : Pads ([1, 2, 3] : List UInt8).length (List.replicate 509 (0 : UInt8)).length :=
    ⟨by tarlen, by tarlen⟩
  have p4 : Pads ([98, 98, 0] : List UInt8).length (List.replicate 509 (0 : UInt8)).length :=
    ⟨by tarlen, by tarlen⟩
  have p5 : Pads ([9] : List UInt8).length (List.replicate 511 (0 : UInt8)).length := ⟨by tarlen, by tarlen⟩
  exact .dot h1 (.entry h2 (by decide) (by decide) p1 (.entry h3 (by decide) (by decide) p3
    (.long h4 rfl (by simp) p4 h5 p5 .done)))

/-- Non-vacuity: a concrete archive on a concrete stream. -/
example (fuel : Nat) (h : 1000000 < fuel) : ∃ bytes,
    Presents (Tar.ops StringStream.ops fuel) Failure.never True .eof (Tar.new (StringStream.new bytes))
    [⟨⟨[100], 0, 7, .dir⟩, []⟩, ⟨⟨[97], 3, 7, .file⟩, [1, 2, 3]⟩, ⟨⟨[98, 98, 0], 1, 7, .file⟩, [9]⟩] :=
  ⟨_, C36_roundtrip (C01_isStream _) _ _ 3 (by omega) (exampleTar _) rfl fuel
    (Nat.lt_of_le_of_lt (by simp only [exampleTarHead, longLink]; tarlen) h)⟩

/-- **C67** on a `StringStream`. -/
theorem C67_stringStream (entries : List ArchiveEntry) (bytes : List UInt8)
    (ha : Archive (List.replicate 1024 0) entries bytes) (fuel : Nat)
    (hf : bytes.length < fuel) :
    Presents (Tar.ops StringStream.ops fuel) Failure.never True .error (Tar.new (StringStream.new bytes))
      entries := by
  refine C67_two_blocks (C01_isStream _) _ _ ?_ ha rfl fuel hf
  intro s min max s' n d hI h hp
  have hz := (Contract.of_behaves _ _ _ _).size hI
  simp only [StringStream.ops, Failure.never, or_false] at hz h hp
  have hr := (Contract.of_behaves _ _ _ _).range hI
  simp only [StringStream.ops] at hr
  unfold StringStream.read at h
  simp only at h
  split at h
  · cases h; rfl
  · simp only [Res.ok.injEq, Prod.mk.injEq] at h
    obtain ⟨rfl, -, -⟩ := h
    simp only at hp
    simp only [StringStream.ops]
    rw [if_pos (by omega)]

/-- **C68**: for a GNU long name the whole data of the pseudo entry is the name.  GNU tar ends it with a NUL,
so the name that is reported has a NUL at its end and keeps the slash of a directory. -/
theorem C68_long_name {P : StreamOps σ UInt8} {c : List UInt8} {soft : Prop} {input : σ}
    (hP : IsStream P c Failure.never soft input)
    {head1 head2 front back longName pad1 content pad tail : List UInt8} {size mtime1 mtime k : Nat}
    {type1 type : EntryType}
    (h1 : Header head1 longLink size mtime1 type1) (hs : size = longName.length + 1)
    (hp1 : Pads (longName.length + 1) pad1.length) (h2 : Fields head2 front back content.length mtime type)
    (hp : Pads content.length pad.length) (ht : tail = List.replicate (512 * k) 0) (hk : 3 ≤ k)
    (hc : c.drop (P.position input).toNat =
      head1 ++ (longName ++ [0]) ++ pad1 ++ head2 ++ content ++ pad ++ tail) (fuel : Nat)
    (hf : c.length < fuel) :
    Presents (Tar.ops P fuel) Failure.never soft .eof (Tar.new input)
      [⟨⟨longName ++ [0], content.length, mtime, type⟩, content⟩] := by
  have hn : stripSlash (longName ++ [0]) = longName ++ [0] := by
    unfold stripSlash
    rw [if_neg (by simp)]
  have hl : (longName ++ [(0 : UInt8)]).length = longName.length + 1 := by simp
  subst ht
  have ha : Archive (List.replicate (512 * k) 0) [⟨⟨stripSlash (longName ++ [0]), content.length, mtime, type⟩, content⟩]
      (head1 ++ (longName ++ [0]) ++ pad1 ++ head2 ++ content ++ pad ++ List.replicate (512 * k) 0) :=
    .long h1 (by omega) (by simp) (by rw [hl]; exact hp1) h2 hp .done
  rw [hn] at ha
  refine C36_roundtrip hP _ _ k hk ha hc fuel ?_
  rw [← hc, List.length_drop]; omega

end Strigi.Props
