import Verif.Proofs.Rpm

/-!
# Properties C109-C111: `RpmInputStream`
-/

namespace Strigi.Props

open RpmSpec CpioSpec Rpm

variable {σ ζg ζb ζl : Type} {P : StreamOps σ UInt8} {C : Codecs ζg ζb ζl} {N : Nat} {c : List UInt8} {soft : Prop} {input : σ}

/-- `x` is `y` compressed in one of the formats that `RpmInputStream` supports (and the decompressor of that format works). -/
inductive Packed (C : Codecs ζg ζb ζl) : List UInt8 → List UInt8 → Prop
  | gzip {R : ζg → List UInt8 → List UInt8 → Prop} {x y : List UInt8} : Unpacks C.gz False R → R C.gz.init x y →
      ([0x1f, 0x8b] : List UInt8) <+: x → Packed C x y
  | bzip2 {R : ζb → List UInt8 → List UInt8 → Prop} {x y : List UInt8} : Unpacks C.bz False R → R C.bz.init x y →
      BZ2Magic x → Packed C x y
  | lzma {R : ζl → List UInt8 → List UInt8 → Prop} {hdr x y : List UInt8} {z : ζl} : LzmaHeader hdr (-1) →
      C.lz.init (hdr.take 5) = .ok z → LzmaMarked C.lz False R → R z x y → Packed C (hdr ++ x) y
  | lzmaSized {R : ζl → List UInt8 → List UInt8 → Prop} {hdr x y : List UInt8} {z : ζl} : LzmaHeader hdr y.length →
      C.lz.init (hdr.take 5) = .ok z → LzmaSized C.lz False R → R z x y → (∀ {z x y}, R z x y → x ≠ []) → Packed C (hdr ++ x) y

theorem LzmaMagic.of_prefix {l m : List UInt8} (h : l <+: m) (hl : LzmaMagic l) : LzmaMagic m := by
  obtain ⟨t, rfl⟩ := h
  obtain ⟨dic, size, rest, rfl, h1, h2, h3, h4⟩ := hl
  exact ⟨dic, size, rest ++ t, by simp, h1, h2, h3, h4⟩

theorem LzmaMagic.take {l : List UInt8} {n : Nat} (h : 13 ≤ n) (hl : LzmaMagic l) : LzmaMagic (l.take n) := by
  obtain ⟨dic, size, rest, rfl, h1, h2, h3, h4⟩ := hl
  refine ⟨dic, size, rest.take (n - 13), ?_, h1, h2, h3, h4⟩
  rw [show (0x5d : UInt8) :: 0 :: (dic ++ size ++ rest) = (0x5d :: 0 :: (dic ++ size)) ++ rest by simp,
    List.take_append, List.take_of_length_le (by simp; omega)]
  simp [h1, h2]

theorem BZ2Magic.of_prefix {l m : List UInt8} (h : l <+: m) (hl : BZ2Magic l) : BZ2Magic m := by
  obtain ⟨b, d, hb, hp⟩ := hl
  exact ⟨b, d, hb, hp.trans h⟩

theorem BZ2Magic.take {l : List UInt8} {n : Nat} (h : 10 ≤ n) (hl : BZ2Magic l) : BZ2Magic (l.take n) := by
  obtain ⟨b, d, hb, ⟨t, rfl⟩⟩ := hl
  refine ⟨b, d, hb, t.take (n - 10), ?_⟩
  rw [List.take_append, List.take_of_length_le (l := [_, _, _, _, _, _, _, _, _, _]) (by simp only [List.length_cons, List.length_nil]; omega)]
  rfl

theorem BZ2Magic.not_lzma {l : List UInt8} (h : LzmaMagic l) : ¬ BZ2Magic l := by
  rintro ⟨b, d, _, hp⟩
  obtain ⟨dic, size, rest, rfl, _⟩ := h
  simp only [List.cons_prefix_cons] at hp
  exact absurd hp.1 (by decide)

theorem gzip_not {l : List UInt8} (h : ([0x1f, 0x8b] : List UInt8) <+: l) : ¬ BZ2Magic l ∧ ¬ LzmaMagic l := by
  obtain ⟨t, rfl⟩ := h
  constructor
  · rintro ⟨b, d, _, hp⟩
    simp only [List.cons_append, List.cons_prefix_cons] at hp
    exact absurd hp.1 (by decide)
  · rintro ⟨dic, size, rest, e, _⟩
    simp only [List.cons_append, List.cons.injEq] at e
    exact absurd e.1 (by decide)

/-- The three header checks on sixteen bytes. -/
theorem checks16 {b : List UInt8} (h : b.length = 16) :
    (∃ r, BZ2.checkHeader b 16 = .ok r ∧ (r = true ↔ BZ2Magic b)) ∧
    (∃ r, Lzma.checkHeader b 16 = .ok r ∧ (r = true ↔ LzmaMagic b)) ∧
    (∃ r, GZip.checkHeader b 16 = .ok r ∧ (r = true ↔ ([0x1f, 0x8b] : List UInt8) <+: b)) := by
  refine ⟨?_, ?_, ?_⟩
  · have := C59_bz2 b; rw [h] at this; exact this
  · have := C59_lzma b; rw [h] at this; exact this
  · obtain ⟨r, e, hr⟩ := C59_gzip b; rw [h] at e; exact ⟨r, e, by rw [hr]; exact ⟨fun z => z.2, fun z => ⟨by omega, z⟩⟩⟩

/-- Looking at the first sixteen bytes. -/
theorem peek {i : σ} {l : List UInt8} (hA : At P c soft i l) (hl : 16 ≤ l.length) :
    ∃ j k, P.read i 16 16 = .ok (j, 16, l.take 16) ∧ P.reset j (P.position i) = .ok (k, P.position i) ∧ At P c soft k l := by
  have hr := hA.range
  have hS := hA.isStream
  have C := Contract.of_behaves P c Failure.never soft
  obtain ⟨j, n, d, er, hro, hk⟩ := C.read hS (min := 16) (max := 16) (by omega) (Or.inr (by omega))
  cases hro with
  | ended _ _ hend _ _ => omega
  | failed a _ _ => exact absurd a id
  | data pos items inside adv limit enough st =>
    have hn : n = 16 := by
      have := limit (by omega)
      rcases enough with x | x <;> omega
    subst hn
    obtain ⟨k, er2, hp2, _, _, hb2⟩ := C.reset (hk st) (q := P.position i) (by omega) (by omega)
    refine ⟨j, k, ?_, er2, ⟨⟨_, _, hb2⟩, ?_⟩⟩
    · rw [er, items]
      unfold slice
      rw [hA.2]; rfl
    · rw [hp2]; exact hA.2

/-- Opening the payload. -/
theorem rpm_payload {i : σ} {x y rest : List UInt8} (hA : At P c soft i (x ++ rest)) (hl : 16 ≤ (x ++ rest).length)
    (hx : Packed C x y) (hN : 2 * (x.length + y.length) + 1 < N) :
    ∃ u, payload P C N i = .ok (start P C N u) ∧ (payloadOps P C N).position u = 0 ∧
      IsStream (payloadOps P C N) y Failure.never True u := by
  obtain ⟨j, k, e1, e2, hB⟩ := peek hA hl
  have h16 : ((x ++ rest).take 16).length = 16 := by rw [List.length_take]; omega
  obtain ⟨⟨rb, eb, hb⟩, ⟨rl, el, hlz⟩, ⟨rg, eg, hg⟩⟩ := checks16 h16
  have hS := hB.isStream
  have hc := hB.2
  unfold payload
  simp only
  rw [e1, Res.bind_ok, if_neg (by simp), e2, Res.bind_ok, eb, Res.bind_ok, el, Res.bind_ok, eg, Res.bind_ok]
  cases hx with
  | gzip hD hR hm =>
    obtain ⟨s, es, hp, hI, _⟩ := C55_gzip_file hS hD hc hR hm N hN
    have hm16 : ([0x1f, 0x8b] : List UInt8) <+: (x ++ rest).take 16 := by
      obtain ⟨t, rfl⟩ := hm
      exact ⟨(t ++ rest).take 14, rfl⟩
    have hn := gzip_not hm16
    have hbf : rb = false := by cases rb with | false => rfl | true => exact absurd (hb.mp rfl) hn.1
    have hlf : rl = false := by cases rl with | false => rfl | true => exact absurd (hlz.mp rfl) hn.2
    have hgt : rg = true := hg.mpr hm16
    subst hbf hlf hgt
    simp only [Bool.false_eq_true, if_false, if_true]
    rw [es, Res.bind_ok]
    exact ⟨.gz s, rfl, hp, embeds_gz.isStream hI⟩
  | bzip2 hD hR hm =>
    obtain ⟨s, es, hp, hI, _⟩ := C55_bz2 hS hD hc hR hm N hN
    have hbt : rb = true := hb.mpr ((hm.of_prefix (List.prefix_append _ _)).take (by omega))
    subst hbt
    simp only [if_true]
    rw [es, Res.bind_ok]
    exact ⟨.bz s, rfl, hp, embeds_bz.isStream hI⟩
  | lzma hh hz hD hR =>
    rename_i hdr x z
    rw [List.append_assoc] at hc
    rw [List.length_append] at hN
    obtain ⟨s, es, hp, hI⟩ := C106_marked hS hc hh C.z0 hz hD hR N (by omega)
    have hm : LzmaMagic ((hdr ++ x ++ rest).take 16) :=
      (hh.2.1.of_prefix ((List.prefix_append hdr x).trans (List.prefix_append _ _))).take (by omega)
    have hbf : rb = false := by cases rb with | false => rfl | true => exact absurd (hb.mp rfl) (BZ2Magic.not_lzma hm)
    have hlt : rl = true := hlz.mpr hm
    subst hbf hlt
    simp only [Bool.false_eq_true, if_false, if_true]
    rw [es, Res.bind_ok]
    exact ⟨.lz s, rfl, hp, embeds_lz.isStream hI⟩
  | lzmaSized hh hz hD hR hpr =>
    rename_i hdr x z
    rw [List.append_assoc] at hc
    rw [List.length_append] at hN
    obtain ⟨s, es, hp, hI⟩ := C106_sized hS hc hh C.z0 hz hD hR (Or.inl hpr) N (by omega)
    have hm : LzmaMagic ((hdr ++ x ++ rest).take 16) :=
      (hh.2.1.of_prefix ((List.prefix_append hdr x).trans (List.prefix_append _ _))).take (by omega)
    have hbf : rb = false := by cases rb with | false => rfl | true => exact absurd (hb.mp rfl) (BZ2Magic.not_lzma hm)
    have hlt : rl = true := hlz.mpr hm
    subst hbf hlt
    simp only [Bool.false_eq_true, if_false, if_true]
    rw [es, Res.bind_ok]
    exact ⟨.lz s, rfl, hp, embeds_lz.isStream hI⟩

/-- What the cpio reader presents, the provider presents. -/
theorem rpm_presents {fuel : Nat} {F : Failure} {soft : Prop} : ∀ (l : List ArchiveEntry) (s : Cpio.State (Payload σ ζg ζb ζl)) (i : EntryInfo),
    Presents (Cpio.ops (payloadOps P C N) fuel) F soft .eof s l →
    Presents (Rpm.ops P C N fuel) F soft .eof ⟨.ok, some s, i⟩ l := by
  intro l
  induction l with
  | nil =>
    rintro s i ⟨p', e, h1, h2, h3⟩
    refine ⟨⟨.eof, some p', i⟩, ?_, h1, rfl, rfl⟩
    simp only [Rpm.ops]
    unfold Rpm.nextEntry
    rw [if_neg (by simp)]
    simp only
    rw [show Cpio.nextEntry (payloadOps P C N) fuel s = _ from e, Res.bind_ok, show p'.status = .eof from h2]
    simp
  | cons a l ih =>
    rintro s i ⟨p', es, e, h1, h2, h3, h4, h5, h6, h7⟩
    refine ⟨⟨.ok, some p', p'.info⟩, es, ?_, h1, h2, rfl, h4, h5, h6, ?_⟩
    · simp only [Rpm.ops]
      unfold Rpm.nextEntry
      rw [if_neg (by simp)]
      simp only
      rw [show Cpio.nextEntry (payloadOps P C N) fuel s = _ from e, Res.bind_ok, show p'.status = .ok from h3]
      simp
    · intro es' lo hi hu
      exact ih _ _ (h7 es' lo hi hu)

/-- The constructor on a file whose payload is `y` compressed. -/
theorem rpm_open {f : File} {y rest junk : List UInt8} {x : List UInt8} (hP : IsStream P c Failure.never soft input)
    (hf : f.WellFormed) (hx : Packed C x y) (hp : f.payload = x ++ junk)
    (hc : c.drop (P.position input).toNat = f.bytes ++ rest) (hN : 2 * (x.length + y.length) + 1 < N) :
    ∃ u, Rpm.new P C N input = .ok (start P C N u) ∧ (payloadOps P C N).position u = 0 ∧
      IsStream (payloadOps P C N) y Failure.never True u := by
  have hA := At.of_isStream hP
  rw [hc] at hA
  unfold File.bytes Block.bytes at hA
  simp only [List.append_assoc] at hA
  have hsm := hf.signature.small
  have hsn := hf.signature.notEmpty
  have hhm := hf.header.small
  have hhn := hf.header.notEmpty
  have hsb := body_length hf.signature
  have hhb := body_length hf.header
  obtain ⟨i1, e1, hA, _⟩ := hA.read (n := 96) (by rw [hf.lead]; rfl) (by omega)
  obtain ⟨i2, e2, hA, _⟩ := hA.read (n := 16) (by rw [intro_length hf.signature]; rfl) (by omega)
  rw [← List.append_assoc] at hA
  obtain ⟨i3, e3, hA, _⟩ := hA.read (n := ((f.signature.body.length + f.pad.length : Nat) : Int)) (by rw [List.length_append]) (by omega)
  obtain ⟨i4, e4, hA, _⟩ := hA.read (n := 16) (by rw [intro_length hf.header]; rfl) (by omega)
  obtain ⟨i5, e5, hA, _⟩ := hA.read (n := f.header.body.length) rfl (by omega)
  have hpl := hf.payload
  rw [hp, List.append_assoc] at hA
  obtain ⟨u, eu, h1, h2⟩ := rpm_payload (N := N) hA (by rw [← List.append_assoc, ← hp, List.length_append]; omega) hx hN
  refine ⟨u, ?_, h1, h2⟩
  unfold Rpm.new
  rw [e1, Res.bind_ok, if_neg (by simp)]
  unfold signature
  rw [e2, Res.bind_ok, isHead_block hf.signature, Res.bind_ok, if_pos rfl, blockSizes_block hf.signature, Res.bind_ok,
    pad8_spec hf.pad.1 hf.pad.2 (by omega), Res.bind_ok, e3, Res.bind_ok, if_neg (by simp)]
  unfold header
  rw [e4, Res.bind_ok, isHead_block hf.header, Res.bind_ok, if_pos rfl, blockSizes_block hf.header, Res.bind_ok]
  simp only
  rw [e5, Res.bind_ok, if_neg (by simp)]
  have := checkIndex_block f.header.store f.header.store.length f.header.index [] f.header.index.length (by simp)
    (fun e he => ⟨hf.header.index e he, by have := hf.offsets e he; omega⟩) (by omega) (by simp)
  rw [List.nil_append] at this
  simp only [Block.body]
  rw [Int.toNat_natCast]
  rw [show ([] : List (List UInt8)).length = 0 from rfl] at this
  rw [this, Res.bind_ok, if_pos rfl]
  exact eu

/-- **C109**: a well-formed RPM file whose payload is a cpio archive compressed with gzip, bzip2 or lzma, at the current
position of any input stream that does not fail: iteration presents exactly the members of the archive in order and
then ends with status `Eof`, whatever the client does with the entry streams. -/
theorem C109_roundtrip {f : File} {x junk rest more : List UInt8} {ms : List Member} {trailer : Member}
    (hP : IsStream P c Failure.never soft input) (hf : f.WellFormed) (hp : f.payload = x ++ junk)
    (hms : ∀ m ∈ ms, m.WellFormed ∧ shownName m.name ≠ trailerName) (ht : trailer.WellFormed ∧ trailer.name = trailerName)
    (hx : Packed C x (ms.flatMap Member.bytes ++ trailer.bytes ++ more))
    (hc : c.drop (P.position input).toNat = f.bytes ++ rest)
    (hN : 2 * (x.length + (ms.flatMap Member.bytes ++ trailer.bytes ++ more).length) + 1 < N) (fuel : Nat) (hfu : 2 ≤ fuel) :
    ∃ s, Rpm.new P C N input = .ok s ∧
      Presents (Rpm.ops P C N fuel) Failure.never True .eof s (ms.map Member.entry) := by
  obtain ⟨u, e, h0, hI⟩ := rpm_open hP hf hx hp hc hN
  refine ⟨_, e, ?_⟩
  have hst : (payloadOps P C N).status u ≠ .error := (At.of_isStream hI).status_ne
  unfold start
  rw [if_neg hst]
  exact rpm_presents _ _ _ (C38_roundtrip hI ms trailer more hms ht (by rw [h0]; rfl) fuel hfu)

/-! ## Damaged files -/

/-- The signed numbers that the first sixteen bytes of a block hold. -/
def blockCount (b : List UInt8) : Int := Text.signed 32 (Text.beValue ((b.drop 8).take 4))
def blockStore (b : List UInt8) : Int := Text.signed 32 (Text.beValue (b.drop 12))

/-- The first sixteen bytes of a block have the magic. -/
def IsIntro (b : List UInt8) : Prop := b.length = 16 ∧ ([0x8e, 0xad, 0xe8, 0x01] : List UInt8) <+: b

theorem isHead_intro {b : List UInt8} (h : IsIntro b) : isHead 16 b = .ok true := by
  unfold isHead
  rw [if_neg (by omega)]
  obtain ⟨r, e, hr⟩ := memEq_spec (l := b) (m := headmagic) (by rw [h.1]; decide)
  rw [e, hr.mpr h.2]

theorem blockSizes_intro {b : List UInt8} (h : IsIntro b) :
    blockSizes b = (do let m ← Ole.ck (blockCount b * 16); let size ← Ole.ck (m + blockStore b); .ok (blockCount b, blockStore b, size)) :=
  blockSizes_spec h.1 rfl rfl

/-- **C110** (refuted claim: whatever the file contains, the constructor has defined behaviour): if the numbers in the
signature do not fit, the computation of its size overflows. -/
theorem C110_overflow {lead b rest : List UInt8} (hP : IsStream P c Failure.never soft input)
    (hc : c.drop (P.position input).toNat = lead ++ b ++ rest) (hl : lead.length = 96) (hb : IsIntro b)
    (h : ¬ (-(2 ^ 31) ≤ blockCount b * 16 ∧ blockCount b * 16 < 2 ^ 31) ∨
      ¬ (-(2 ^ 31) ≤ blockCount b * 16 + blockStore b ∧ blockCount b * 16 + blockStore b < 2 ^ 31)) :
    Rpm.new P C N input = .fault .undefined := by
  have hA := At.of_isStream hP
  rw [hc, List.append_assoc] at hA
  obtain ⟨i1, e1, hA, _⟩ := hA.read (n := 96) (by rw [hl]; rfl) (by omega)
  obtain ⟨i2, e2, hA, _⟩ := hA.read (n := 16) (by rw [hb.1]; rfl) (by omega)
  unfold Rpm.new
  rw [e1, Res.bind_ok, if_neg (by simp)]
  unfold signature
  rw [e2, Res.bind_ok, isHead_intro hb, Res.bind_ok, if_pos rfl, blockSizes_intro hb]
  by_cases h1 : -(2 ^ 31) ≤ blockCount b * 16 ∧ blockCount b * 16 < 2 ^ 31
  · have h2 : ¬ (-(2 ^ 31) ≤ blockCount b * 16 + blockStore b ∧ blockCount b * 16 + blockStore b < 2 ^ 31) := by
      rcases h with h | h
      · exact absurd h1 h
      · exact h
    rw [Ole.ck_ok h1.1 h1.2, Res.bind_ok]
    unfold Ole.ck
    rw [if_neg h2]
    rfl
  · unfold Ole.ck
    rw [if_neg h1]
    rfl

/-- The constructor up to the header. -/
theorem rpm_header {sig : Block} {lead pad l : List UInt8} (hP : IsStream P c Failure.never soft input) (hl : lead.length = 96)
    (hs : sig.WellFormed) (hp : pad.length < 8 ∧ (sig.body.length + pad.length) % 8 = 0)
    (hc : c.drop (P.position input).toNat = lead ++ sig.bytes ++ pad ++ l) :
    ∃ i, At P c soft i l ∧ Rpm.new P C N input = header P C N i := by
  have hA := At.of_isStream hP
  rw [hc] at hA
  unfold Block.bytes at hA
  simp only [List.append_assoc] at hA
  have hsm := hs.small
  have hsn := hs.notEmpty
  have hsb := body_length hs
  obtain ⟨i1, e1, hA, _⟩ := hA.read (n := 96) (by rw [hl]; rfl) (by omega)
  obtain ⟨i2, e2, hA, _⟩ := hA.read (n := 16) (by rw [intro_length hs]; rfl) (by omega)
  rw [← List.append_assoc] at hA
  obtain ⟨i3, e3, hA, _⟩ := hA.read (n := ((sig.body.length + pad.length : Nat) : Int)) (by rw [List.length_append]) (by omega)
  refine ⟨i3, hA, ?_⟩
  unfold Rpm.new
  rw [e1, Res.bind_ok, if_neg (by simp)]
  unfold signature
  rw [e2, Res.bind_ok, isHead_block hs, Res.bind_ok, if_pos rfl, blockSizes_block hs, Res.bind_ok,
    pad8_spec hp.1 hp.2 (by omega), Res.bind_ok, e3, Res.bind_ok, if_neg (by simp)]

/-- **C110**: a header with at least one index entry and a negative size of the store, such that together they have less
than 12 bytes, makes the constructor read memory behind the bytes it got. -/
theorem C110_outside {sig : Block} {lead pad b body rest : List UInt8} (hP : IsStream P c Failure.never soft input)
    (hl : lead.length = 96) (hs : sig.WellFormed) (hp : pad.length < 8 ∧ (sig.body.length + pad.length) % 8 = 0)
    (hc : c.drop (P.position input).toNat = lead ++ sig.bytes ++ pad ++ (b ++ (body ++ rest)))
    (hb : IsIntro b) (h1 : 1 ≤ blockCount b) (h2 : blockCount b * 16 + blockStore b = body.length) (h3 : 1 ≤ body.length)
    (h4 : body.length < 12) (h5 : blockCount b * 16 < 2 ^ 31) :
    Rpm.new P C N input = .fault .outOfBounds := by
  obtain ⟨i, hA, e⟩ := rpm_header (C := C) (N := N) hP hl hs hp hc
  obtain ⟨i1, e1, hA, _⟩ := hA.read (n := 16) (by rw [hb.1]; rfl) (by omega)
  obtain ⟨i2, e2, hA, _⟩ := hA.read (n := body.length) rfl (by omega)
  rw [e]
  unfold header
  rw [e1, Res.bind_ok, isHead_intro hb, Res.bind_ok, if_pos rfl, blockSizes_intro hb, Ole.ck_ok (by omega) h5, Res.bind_ok, h2,
    Ole.ck_ok (by omega) (by omega), Res.bind_ok]
  simp only [Res.bind_ok]
  rw [e2, Res.bind_ok, if_neg (by simp)]
  obtain ⟨k, hk⟩ : ∃ k, (blockCount b).toNat = k + 1 := ⟨(blockCount b).toNat - 1, by omega⟩
  rw [hk, checkIndex]
  simp only [Nat.zero_mul, Nat.zero_add, List.drop_zero]
  by_cases q1 : body.length < 4
  · rw [be32_short q1]; rfl
  · rw [be32 (by omega), Res.bind_ok]
    by_cases q2 : body.length < 8
    · rw [be32_short (by rw [List.length_drop]; omega)]; rfl
    · rw [be32 (by rw [List.length_drop]; omega), Res.bind_ok, be32_short (by rw [List.length_drop]; omega)]; rfl

/-- **C110** (refuted claim: any correct file is accepted): a signature without entries and without data, which makes the
constructor ask for zero bytes, is taken for a damaged one over a `StringInputStream`, whatever follows. -/
theorem C110_empty_signature {lead reserved rest : List UInt8} (hl : lead.length = 96) (hr : reserved.length = 4) :
    Rpm.new StringStream.ops C N (StringStream.new (lead ++ ([0x8e, 0xad, 0xe8, 0x01] ++ reserved ++ List.replicate 8 0) ++ rest)) = .ok rejected := by
  have hA := At.of_isStream (C01_isStream (lead ++ ([0x8e, 0xad, 0xe8, 0x01] ++ reserved ++ List.replicate 8 0) ++ rest))
  rw [show StringStream.ops.position (StringStream.new (lead ++ ([0x8e, 0xad, 0xe8, 0x01] ++ reserved ++ List.replicate 8 0) ++ rest)) = 0 from rfl] at hA
  simp only [Int.toNat_zero, List.drop_zero] at hA
  rw [List.append_assoc lead] at hA
  have hlen : ([0x8e, 0xad, 0xe8, 0x01] ++ reserved ++ List.replicate 8 0).length = 16 := by simp [hr]
  obtain ⟨i1, e1, hA1, hp1⟩ := hA.read (n := 96) (by rw [hl]; rfl) (by omega)
  obtain ⟨i2, e2, hA2, hp2⟩ := hA1.read (n := 16) (by rw [hlen]; rfl) (by omega)
  have hb : IsIntro ([0x8e, 0xad, 0xe8, 0x01] ++ reserved ++ List.replicate 8 0) :=
    ⟨hlen, by rw [List.append_assoc]; exact List.prefix_append _ _⟩
  have hn : blockCount ([0x8e, 0xad, 0xe8, 0x01] ++ reserved ++ List.replicate 8 0) = 0 := by
    unfold blockCount
    rw [show List.drop 8 ([0x8e, 0xad, 0xe8, 0x01] ++ reserved ++ List.replicate 8 (0 : UInt8)) = List.replicate 8 0 from
      List.drop_left' (by simp [hr])]
    decide
  have hs : blockStore ([0x8e, 0xad, 0xe8, 0x01] ++ reserved ++ List.replicate 8 0) = 0 := by
    unfold blockStore
    rw [show (12 : Nat) = 8 + 4 from rfl, ← List.drop_drop,
      show List.drop 8 ([0x8e, 0xad, 0xe8, 0x01] ++ reserved ++ List.replicate 8 (0 : UInt8)) = List.replicate 8 0 from
      List.drop_left' (by simp [hr])]
    decide
  unfold Rpm.new
  rw [List.append_assoc lead, e1, Res.bind_ok, if_neg (by simp)]
  unfold signature
  rw [e2, Res.bind_ok, isHead_intro hb, Res.bind_ok, if_pos rfl, blockSizes_intro hb, hn, hs]
  simp only [Int.zero_mul, Int.add_zero]
  rw [show Ole.ck 0 = .ok 0 from rfl, Res.bind_ok, show Ole.ck 0 = .ok 0 from rfl, Res.bind_ok, Res.bind_ok]
  simp only
  rw [show pad8 0 = .ok 0 from rfl, Res.bind_ok]
  have hne : ∀ s : StringStream UInt8, (StringStream.read s 0 0).2.1 ≠ 0 := by
    intro s
    unfold StringStream.read
    simp only
    split
    · simp
    · rename_i h
      simp only [show ((0 : Int) > (s.data.length : Int) - s.pos ∨ (0 : Int) < 1) ↔ True from by simp, if_true]
      exact h
  simp only [StringStream.ops, Res.bind_ok]
  rw [if_pos (hne i2)]

/-! ## Any input -/

/-- The numbers of a block are not negative, and the block is neither empty nor larger than `2^31 - 8` bytes. -/
def Sane (b : List UInt8) : Prop := 0 ≤ blockCount b ∧ 0 ≤ blockStore b ∧ 1 ≤ blockCount b * 16 + blockStore b ∧
  blockCount b * 16 + blockStore b + 8 ≤ 2 ^ 31

/-- A read of `n` bytes gets them, or they are not there. -/
theorem read_exact {i : σ} {l : List UInt8} {n : Nat} (hA : At P c soft i l) (hn : 1 ≤ n) :
    (∃ j, P.read i n n = .ok (j, n, l.take n) ∧ n ≤ l.length ∧ At P c soft j (l.drop n)) ∨
      ∃ j k d, P.read i n n = .ok (j, k, d) ∧ k ≠ n := by
  by_cases h : n ≤ l.length
  · left
    rw [← List.take_append_drop n l] at hA
    obtain ⟨j, e, hA, _⟩ := hA.read (n := n) (by rw [List.length_take]; omega) (by omega)
    exact ⟨j, e, h, hA⟩
  · right
    obtain ⟨j, k, d, e, _, h1, h2⟩ := hA.read_short (n := n) (by omega) (by omega)
    refine ⟨j, k, d, e, ?_⟩
    by_cases hz : l = []
    · rcases (h2 hz).1 with h | h <;> omega
    · rw [(h1 hz).1]; omega

theorem checkIndex_total {b : List UInt8} {n s : Int} (hb : (b.length : Int) = n * 16 + s) (hs : 0 ≤ s) :
    ∀ k i : Nat, (k + i : Int) = n → ∃ r, checkIndex b n s k i = .ok r := by
  intro k
  induction k with
  | zero => intro i _; exact ⟨true, rfl⟩
  | succ k ih =>
    intro i hi
    rw [checkIndex]
    rw [be32 (by rw [List.length_drop]; omega), be32 (by rw [List.length_drop]; omega), be32 (by rw [List.length_drop]; omega)]
    simp only [Res.bind_ok]
    split
    · exact ⟨false, rfl⟩
    · rw [be32 (by rw [List.length_drop]; omega)]
      simp only [Res.bind_ok]
      split
      · rw [be32 (by rw [List.length_drop]; omega)]
        simp only [Res.bind_ok]
        exact ih (i + 1) (by omega)
      · exact ih (i + 1) (by omega)

theorem setMinBufSize_ok {φ : Type} (f : φ) (sz n : Int) : ∃ s, BufferedStream.setMinBufSize (BufferedStream.new (α := UInt8) f sz) n = .ok s := by
  obtain ⟨s, e, _⟩ := BufferedStream.setMinBufSize_healthy (α := UInt8) (R := fun _ _ _ => True) (c := []) (f := f) (m := 0) trivial sz n
  exact ⟨s, e⟩

/-- Sixteen bytes with sane numbers and the right number of bytes after them are a block. -/
theorem block_of {b body : List UInt8} (hb : IsIntro b) (hs : Sane b) (hl : (body.length : Int) = blockCount b * 16 + blockStore b) :
    ∃ B : Block, B.WellFormed ∧ B.intro = b ∧ B.body = body ∧ (B.index.length : Int) = blockCount b ∧ (B.store.length : Int) = blockStore b := by
  obtain ⟨hb16, t, rfl⟩ := hb
  obtain ⟨g1, g2, g3, g4⟩ := hs
  have ht : t.length = 12 := by simpa using hb16
  unfold blockCount blockStore at *
  simp only [show List.drop 8 ([0x8e, 0xad, 0xe8, 0x01] ++ t) = t.drop 4 from rfl,
    show List.drop 12 ([0x8e, 0xad, 0xe8, 0x01] ++ t) = t.drop 8 from rfl] at *
  have v1 := signed_nonneg (beValue_lt (by rw [List.length_take, List.length_drop]; omega)) g1
  have v2 := signed_nonneg (beValue_lt (by rw [List.length_drop]; omega)) g2
  obtain ⟨v1, u1⟩ := v1
  obtain ⟨v2, u2⟩ := v2
  simp only [v1, v2] at g1 g2 g3 g4 hl ⊢
  clear v1 v2
  generalize hn : Text.beValue ((t.drop 4).take 4) = n at *
  generalize hm : Text.beValue (t.drop 8) = m at *
  obtain ⟨c1, c2, c3⟩ := chunks_spec n body (by omega)
  refine ⟨⟨t.take 4, (t.drop 4).take 4, t.drop 8, chunks n body, body.drop (16 * n)⟩, ?_, ?_, ?_, ?_, ?_⟩
  · constructor
    · simp only [List.length_take]; omega
    · exact ⟨by simp only [List.length_take, List.length_drop]; omega, by simp only [hn, c1]⟩
    · exact ⟨by simp only [List.length_drop]; omega, by simp only [hm, List.length_drop]; omega⟩
    · exact c2
    · simp only [c1, List.length_drop]; omega
    · simp only [c1, List.length_drop]; omega
  · unfold Block.intro
    simp only
    rw [List.append_assoc, List.append_assoc, show t.drop 8 = (t.drop 4).drop 4 by rw [List.drop_drop], List.take_append_drop,
      List.take_append_drop]
  · unfold Block.body
    simp only
    rw [c3, List.take_append_drop]
  · simp only [c1]
  · simp only [List.length_drop]; omega

theorem start_cases (u : Payload σ ζg ζb ζl) : start P C N u = rejected ∨ (start P C N u).status = .ok := by
  unfold start
  split
  · exact Or.inl rfl
  · exact Or.inr rfl

/-- The data starts like one of the three compressed formats. -/
def KnownFormat (l : List UInt8) : Prop := BZ2Magic l ∨ LzmaMagic l ∨ ([0x1f, 0x8b] : List UInt8) <+: l

theorem payload_total {i : σ} {l : List UInt8} (hA : At P c soft i l) (hz : ∀ props, ∃ z, C.lz.init props = .ok z) :
    ∃ s, payload P C N i = .ok s ∧ (s = rejected ∨ s.status = .ok ∧ 16 ≤ l.length ∧ KnownFormat l) := by
  have rej : ∃ s, (Res.ok (rejected : Rpm.State σ ζg ζb ζl)) = .ok s ∧ (s = rejected ∨ s.status = .ok ∧ 16 ≤ l.length ∧ KnownFormat l) :=
    ⟨_, rfl, Or.inl rfl⟩
  unfold payload
  simp only
  by_cases hl : 16 ≤ l.length
  · obtain ⟨j, k, e1, e2, hB⟩ := peek hA hl
    have h16 : (l.take 16).length = 16 := by rw [List.length_take]; omega
    obtain ⟨⟨rb, eb, hb⟩, ⟨rl, el, hlz⟩, ⟨rg, eg, hg⟩⟩ := checks16 h16
    have hS := hB.isStream
    have fin : KnownFormat l → ∀ u : Payload σ ζg ζb ζl, start P C N u = rejected ∨ (start P C N u).status = .ok ∧ 16 ≤ l.length ∧ KnownFormat l :=
      fun h u => (start_cases u).imp id fun q => ⟨q, hl, h⟩
    have hpre : l.take 16 <+: l := List.take_prefix _ _
    rw [e1, Res.bind_ok, if_neg (by simp), e2, Res.bind_ok, eb, Res.bind_ok, el, Res.bind_ok, eg, Res.bind_ok]
    cases rb with
    | true =>
      simp only [if_true]
      obtain ⟨i', b, e, _⟩ := bz2_magic hS
      unfold BZ2.new
      rw [e, Res.bind_ok]
      simp only
      split
      · obtain ⟨s, es⟩ := setMinBufSize_ok (Unpack.start C.bz i') (-1) 262144
        unfold Unpack.openStream
        rw [es]; exact ⟨_, rfl, fin (Or.inl ((hb.mp rfl).of_prefix hpre)) _⟩
      · exact ⟨_, rfl, fin (Or.inl ((hb.mp rfl).of_prefix hpre)) _⟩
    | false =>
      simp only [Bool.false_eq_true, if_false]
      cases rl with
      | true =>
        simp only [if_true]
        have hm : LzmaMagic ((l.take 13)) := by
          have := (hlz.mp rfl).take (n := 13) (by omega)
          rw [List.take_take] at this
          exact this
        have hc : c.drop (P.position k).toNat = l.take 13 ++ l.drop 13 := by rw [hB.2, List.take_append_drop]
        obtain ⟨z, ez⟩ := hz ((l.take 13).take 5)
        obtain ⟨i', _, _, _, e⟩ := lzma_new (D := C.lz) hS hc ⟨by rw [List.length_take]; omega, hm, rfl⟩ C.z0 ez
        rw [e]
        obtain ⟨s, es⟩ := setMinBufSize_ok ({ input := i', z := z, availIn := [], msize := _, done := 0, failed := false, marked := false } : LzmaStream.State σ ζl)
          (Text.signed 64 (Text.leValue ((l.take 13).drop 5))) 262144
        rw [es]; exact ⟨_, rfl, fin (Or.inr (Or.inl ((hlz.mp rfl).of_prefix hpre))) _⟩
      | false =>
        simp only [Bool.false_eq_true, if_false]
        cases rg with
        | false => exact rej
        | true =>
          simp only [if_true]
          obtain ⟨i', b, e, _⟩ := gzip_magic hS
          unfold GZip.new
          simp only [if_true]
          rw [e, Res.bind_ok]
          simp only
          split
          · obtain ⟨s, es⟩ := setMinBufSize_ok (Unpack.start C.gz i') (-1) 262144
            unfold Unpack.openStream
            rw [es]; exact ⟨_, rfl, fin (Or.inr (Or.inr ((hg.mp rfl).trans hpre))) _⟩
          · exact ⟨_, rfl, fin (Or.inr (Or.inr ((hg.mp rfl).trans hpre))) _⟩
  · rcases read_exact (n := 16) hA (by omega) with ⟨_, _, h, _⟩ | ⟨j, k, d, e, hk⟩
    · omega
    · rw [show P.read i 16 16 = _ from e, Res.bind_ok, if_pos (by exact hk)]
      exact rej

/-- **C111**: whatever the input contains, the constructor returns, provided that the numbers in the two blocks (if they are
there) are sane.  If it accepted the input, that is a well-formed file whose payload starts like one of the known formats; if it
did not, `nextEntry()` returns nothing, for good. -/
theorem C111_total {l : List UInt8} (hP : IsStream P c Failure.never soft input) (hl : c.drop (P.position input).toNat = l)
    (hz : ∀ props, ∃ z, C.lz.init props = .ok z)
    (h1 : IsIntro ((l.drop 96).take 16) → Sane ((l.drop 96).take 16))
    (h2 : ∀ n : Nat, n < 8 → let b := (l.drop 96).take 16
      (blockCount b * 16 + blockStore b + n) % 8 = 0 →
      let b2 := (l.drop (112 + (blockCount b * 16 + blockStore b).toNat + n)).take 16
      IsIntro b2 → Sane b2) (fuel : Nat) :
    ∃ s, Rpm.new P C N input = .ok s ∧ ((s.status = .ok ∧ ∃ f : File, f.WellFormed ∧ l = f.bytes ∧ KnownFormat f.payload) ∨ Finished (Rpm.ops P C N fuel) .error s) := by
  have fin : Finished (Rpm.ops P C N fuel) .error (rejected : Rpm.State σ ζg ζb ζl) := ⟨rfl, rfl, rfl⟩
  have R : ∃ s, (Res.ok (rejected : Rpm.State σ ζg ζb ζl)) = .ok s ∧ ((s.status = .ok ∧ ∃ f : File, f.WellFormed ∧ l = f.bytes ∧ KnownFormat f.payload) ∨ Finished (Rpm.ops P C N fuel) .error s) :=
    ⟨_, rfl, Or.inr fin⟩
  have hA := At.of_isStream hP
  rw [hl] at hA
  unfold Rpm.new
  rcases read_exact (n := 96) hA (by omega) with ⟨i1, e1, hlen1, hA1⟩ | ⟨j, k, d, e, hk⟩
  swap
  · rw [show P.read input 96 96 = _ from e, Res.bind_ok, if_pos (by exact hk)]; exact R
  rw [show P.read input 96 96 = _ from e1, Res.bind_ok, if_neg (by simp)]
  unfold signature
  rcases read_exact (n := 16) hA1 (by omega) with ⟨i2, e2, hlen2, hA2⟩ | ⟨j, k, d, e, hk⟩
  swap
  · rw [show P.read i1 16 16 = _ from e, Res.bind_ok]
    unfold isHead
    rw [if_pos (by exact hk), Res.bind_ok, if_neg (by simp)]; exact R
  rw [show P.read i1 16 16 = _ from e2, Res.bind_ok]
  generalize hb : (l.drop 96).take 16 = b at *
  have hb16 : b.length = 16 := by rw [← hb, List.length_take]; omega
  by_cases hm : ([0x8e, 0xad, 0xe8, 0x01] : List UInt8) <+: b
  swap
  · obtain ⟨r, er, hr⟩ := memEq_spec (l := b) (m := headmagic) (by rw [hb16]; decide)
    have : r = false := by cases r with | false => rfl | true => exact absurd (hr.mp rfl) hm
    subst this
    unfold isHead
    rw [if_neg (by simp), er, Res.bind_ok, if_neg (by simp)]; exact R
  have hI : IsIntro b := ⟨hb16, hm⟩
  obtain ⟨g1, g2, g3, g4⟩ := h1 hI
  rw [show isHead ((16 : Nat) : Int) b = _ from isHead_intro hI, Res.bind_ok, if_pos rfl, blockSizes_intro hI, Ole.ck_ok (by omega) (by omega), Res.bind_ok,
    Ole.ck_ok (by omega) (by omega), Res.bind_ok, Res.bind_ok]
  simp only
  obtain ⟨m, hmm⟩ : ∃ m : Nat, blockCount b * 16 + blockStore b = m := ⟨(blockCount b * 16 + blockStore b).toNat, by omega⟩
  have hp : (8 - m % 8) % 8 < 8 := Nat.mod_lt _ (by omega)
  generalize hq : (8 - m % 8) % 8 = p at hp
  have hp2 : (m + p) % 8 = 0 := by omega
  have h2 := h2 p hp (by rw [hmm]; omega)
  rw [hmm, pad8_spec hp hp2 (by omega), Res.bind_ok]
  rw [hmm, Int.toNat_natCast] at h2
  rcases read_exact (n := m + p) hA2 (by omega) with ⟨i3, e3, hlen3, hA3⟩ | ⟨j, k, d, e, hk⟩
  swap
  · rw [e, Res.bind_ok, if_pos (by exact hk)]; exact R
  rw [e3, Res.bind_ok, if_neg (by simp)]
  unfold header
  rcases read_exact (n := 16) hA3 (by omega) with ⟨i4, e4, hlen4, hA4⟩ | ⟨j, k, d, e, hk⟩
  swap
  · rw [show P.read i3 16 16 = _ from e, Res.bind_ok]
    unfold isHead
    rw [if_pos (by exact hk), Res.bind_ok, if_neg (by simp)]; exact R
  rw [show P.read i3 16 16 = _ from e4, Res.bind_ok]
  rw [show ((List.drop 96 l).drop 16).drop (m + p) = l.drop (112 + m + p) by
    rw [List.drop_drop, List.drop_drop]; congr 1; omega] at hlen4 hA4 ⊢
  generalize hb' : (l.drop (112 + m + p)).take 16 = b2 at *
  have hb216 : b2.length = 16 := by rw [← hb', List.length_take]; omega
  by_cases hm2 : ([0x8e, 0xad, 0xe8, 0x01] : List UInt8) <+: b2
  swap
  · obtain ⟨r, er, hr⟩ := memEq_spec (l := b2) (m := headmagic) (by rw [hb216]; decide)
    have : r = false := by cases r with | false => rfl | true => exact absurd (hr.mp rfl) hm2
    subst this
    unfold isHead
    rw [if_neg (by simp), er, Res.bind_ok, if_neg (by simp)]; exact R
  have hI2 : IsIntro b2 := ⟨hb216, hm2⟩
  obtain ⟨k1, k2, k3, k4⟩ := h2 hI2
  rw [show isHead ((16 : Nat) : Int) b2 = _ from isHead_intro hI2, Res.bind_ok, if_pos rfl, blockSizes_intro hI2, Ole.ck_ok (by omega) (by omega), Res.bind_ok,
    Ole.ck_ok (by omega) (by omega), Res.bind_ok, Res.bind_ok]
  simp only
  obtain ⟨m2, hm2⟩ : ∃ m : Nat, blockCount b2 * 16 + blockStore b2 = m := ⟨(blockCount b2 * 16 + blockStore b2).toNat, by omega⟩
  rw [hm2]
  rcases read_exact (n := m2) hA4 (by omega) with ⟨i5, e5, hlen5, hA5⟩ | ⟨j, k, d, e, hk⟩
  swap
  · rw [e, Res.bind_ok, if_pos (by exact hk)]; exact R
  rw [e5, Res.bind_ok, if_neg (by simp)]
  simp only
  have hbody : (((List.drop 16 (List.drop (112 + m + p) l)).take m2).length : Int) = blockCount b2 * 16 + blockStore b2 := by
    rw [List.length_take]; omega
  obtain ⟨B1, w1, x1, y1, z1, _⟩ := block_of (body := ((l.drop 112).take m)) hI ⟨g1, g2, g3, g4⟩ (by
    rw [List.length_take, List.length_drop]
    rw [List.length_drop] at hlen2
    rw [List.length_drop, List.length_drop] at hlen3
    omega)
  obtain ⟨B2, w2, x2, y2, z2, t2⟩ := block_of hI2 ⟨k1, k2, k3, k4⟩ hbody
  obtain ⟨r, er⟩ := checkIndex_total (b := (List.drop 16 (List.drop (112 + m + p) l)).take m2) (n := blockCount b2) (s := blockStore b2)
    (by rw [List.length_take]; omega) k2 (blockCount b2).toNat 0 (by omega)
  rw [er, Res.bind_ok]
  cases r with
  | false => rw [if_neg (by simp)]; exact R
  | true =>
    rw [if_pos rfl]
    obtain ⟨s, es, h⟩ := payload_total (N := N) hA5 hz
    refine ⟨s, es, ?_⟩
    rcases h with h | ⟨h, h16, hk⟩
    · exact Or.inr (h ▸ fin)
    left
    refine ⟨h, ⟨l.take 96, B1, ((l.drop 112).drop m).take p, B2, _⟩, ⟨?_, w1, ?_, w2, ?_, h16⟩, ?_, hk⟩
    · simp only [List.length_take]; omega
    · simp only [y1, List.length_take, List.length_drop]
      simp only [List.length_drop] at hlen2 hlen3
      refine ⟨by omega, by omega⟩
    · simp only
      have := checkIndex_offsets B2.store B2.store.length B2.index [] B2.index.length (by simp) w2.index (by simp)
      rw [List.nil_append, show B2.index.flatten ++ B2.store = B2.body from rfl, y2, z2, t2, List.length_nil,
        show B2.index.length = (blockCount b2).toNat by omega] at this
      intro e he
      have := this er e he
      omega
    · unfold File.bytes Block.bytes
      simp only [x1, y1, x2, y2, ← hb, ← hb', List.append_assoc]
      have cut : ∀ a n, (l.drop a).take n ++ l.drop (a + n) = l.drop a := by
        intro a n; rw [← List.drop_drop, List.take_append_drop]
      simp only [List.drop_drop, cut]
      exact (List.take_append_drop 96 l).symm

/-! ## Examples -/

/-- For the examples: the data is two bytes (of magic) and `l` bytes that are stored as they are. -/
def countedDecompressor (l : Nat) : Decompressor (Nat × Nat) where
  init := (2, l)
  run z inp space :=
    let a := min z.1 inp.length
    let b := min z.2 (min (inp.length - a) space.toNat)
    ((z.1 - a, z.2 - b), a + b, (inp.drop a).take b, if z.1 - a = 0 ∧ z.2 - b = 0 then .ended else .more)

theorem counted_unpacks (l : Nat) :
    Unpacks (countedDecompressor l) False (fun z x y => x.length = z.1 + z.2 ∧ y = x.drop z.1) := by
  rintro ⟨m, l⟩ x y ⟨hx, rfl⟩ inp hin space hsp
  simp only at hx
  simp only [countedDecompressor]
  generalize ha : min m inp.length = a
  generalize hb : min l (min (inp.length - a) space.toNat) = b
  have hk : a + b ≤ inp.length ∧ a + b ≤ x.length := by omega
  have htake : inp.take (a + b) = x.take (a + b) := by
    rcases hin with ⟨t, rfl⟩ | ⟨t, rfl⟩
    · rw [List.take_append_of_le_length hk.1]
    · rw [List.take_append_of_le_length hk.2]
  have hout : (inp.drop a).take b = (x.drop a).take b := by
    have := congrArg (List.drop a) htake
    rw [List.drop_take, List.drop_take, show a + b - a = b by omega] at this
    exact this
  have hy : x.drop m = (inp.drop a).take b ++ (x.drop m).drop b := by
    rw [hout]
    by_cases hz : b = 0
    · rw [hz]; simp
    · rw [show a = m by omega, List.take_append_drop]
  refine ⟨_, _, _, _, rfl, hk.1, by rw [List.length_take]; omega, _, hy, ?_⟩
  by_cases he : m - a = 0 ∧ l - b = 0
  · left
    rw [if_pos he, htake]
    refine ⟨rfl, (List.take_of_length_le (by omega)).symm, List.drop_of_length_le (by rw [List.length_drop]; omega)⟩
  · right; left
    rw [if_neg he, htake]
    refine ⟨rfl, x.drop (a + b), (List.take_append_drop _ _).symm, ⟨by rw [List.length_drop]; simp only; omega, ?_⟩, ?_⟩
    · rw [List.drop_drop, List.drop_drop]; congr 1; simp only; omega
    · rw [List.length_take, List.length_drop]
      by_cases hs : b = space.toNat
      · left; omega
      · right
        refine ⟨by omega, fun hz => ?_⟩
        have := congrArg List.length hz
        rw [List.length_drop, List.length_nil] at this
        omega

/-- A file for the examples. -/
def rpmExampleArchive : List UInt8 := [exampleMember, exampleMember].flatMap Member.bytes ++ exampleTrailer.bytes ++ []

def exampleSignature : Block := ⟨[0, 0, 0, 0], [0, 0, 0, 0], [0, 0, 0, 3], [], [1, 2, 3]⟩

def exampleRpm : File where
  lead := [0xed, 0xab, 0xee, 0xdb, 3, 0] ++ List.replicate 90 0
  signature := exampleSignature
  pad := List.replicate 5 0
  header := ⟨[0, 0, 0, 0], [0, 0, 0, 2], [0, 0, 0, 4],
    [[0, 0, 3, 232, 0, 0, 0, 6, 0, 0, 0, 0, 0, 0, 0, 1], [0, 0, 3, 233, 0, 0, 0, 6, 0, 0, 0, 2, 0, 0, 0, 1]], [97, 0, 98, 0]⟩
  payload := [0x1f, 0x8b] ++ rpmExampleArchive

theorem exampleSignature_ok : exampleSignature.WellFormed := by
  constructor <;> decide

theorem exampleRpm_ok : exampleRpm.WellFormed := by
  constructor
  · decide
  · exact exampleSignature_ok
  · decide
  · constructor <;> decide
  · decide
  · decide +kernel

def exampleCodecs : Codecs (Nat × Nat) (Nat × Nat) Unit := ⟨countedDecompressor rpmExampleArchive.length, countedDecompressor 0, storedLzma, ()⟩

theorem examplePacked : Packed exampleCodecs ([0x1f, 0x8b] ++ rpmExampleArchive) rpmExampleArchive := by
  have h2 : exampleCodecs.gz = countedDecompressor rpmExampleArchive.length := rfl
  generalize rpmExampleArchive = l at *
  refine .gzip (R := fun z x y => x.length = z.1 + z.2 ∧ y = x.drop z.1) ?_ ?_ (List.prefix_append _ _)
  · rw [h2]; exact counted_unpacks _
  · rw [h2]; simp [countedDecompressor]; omega

/-- Non-vacuity of C109. -/
example : ∃ s, Rpm.new StringStream.ops exampleCodecs 2000 (StringStream.new (exampleRpm.bytes ++ [7])) = .ok s ∧
    Presents (Rpm.ops StringStream.ops exampleCodecs 2000 2) Failure.never True .eof s
      [⟨⟨[97], 3, 0x5fa0, .file⟩, [104, 105, 33]⟩, ⟨⟨[97], 3, 0x5fa0, .file⟩, [104, 105, 33]⟩] :=
  C109_roundtrip (f := exampleRpm) (x := [0x1f, 0x8b] ++ rpmExampleArchive) (junk := []) (rest := [7]) (more := [])
    (ms := [exampleMember, exampleMember]) (trailer := exampleTrailer) (C01_isStream _) exampleRpm_ok (by simp [exampleRpm])
    (by
      have h : exampleMember.WellFormed := by
        constructor <;> first | decide | exact ⟨⟨by decide, by decide⟩, by decide⟩ | exact ⟨by decide, by decide⟩
      have h2 : shownName exampleMember.name ≠ trailerName := by decide
      intro m hm
      simp only [List.mem_cons, List.not_mem_nil, or_false, or_self] at hm
      subst hm
      exact ⟨h, h2⟩)
    ⟨by constructor <;> first | decide | exact ⟨⟨by decide, by decide⟩, by decide⟩ | exact ⟨by decide, by decide⟩, rfl⟩
    examplePacked rfl (by decide +kernel) 2 (by omega)

/-- Non-vacuity of C110. -/
example : Rpm.new StringStream.ops exampleCodecs 20 (StringStream.new (List.replicate 96 0 ++ [0x8e, 0xad, 0xe8, 1, 0, 0, 0, 0, 8, 0, 0, 0, 0, 0, 0, 0] ++ [])) =
    .fault .undefined :=
  C110_overflow (lead := List.replicate 96 0) (b := [0x8e, 0xad, 0xe8, 1, 0, 0, 0, 0, 8, 0, 0, 0, 0, 0, 0, 0]) (rest := [])
    (C01_isStream _) rfl (by decide) ⟨rfl, by decide⟩ (Or.inl (by decide))

example : Rpm.new StringStream.ops exampleCodecs 20 (StringStream.new (List.replicate 96 0 ++ exampleSignature.bytes ++ List.replicate 5 0 ++
    ([0x8e, 0xad, 0xe8, 1, 0, 0, 0, 0, 0, 0, 0, 1, 0xff, 0xff, 0xff, 0xf1] ++ ([5] ++ [6, 7])))) = .fault .outOfBounds :=
  C110_outside (sig := exampleSignature) (lead := List.replicate 96 0) (pad := List.replicate 5 0)
    (b := [0x8e, 0xad, 0xe8, 1, 0, 0, 0, 0, 0, 0, 0, 1, 0xff, 0xff, 0xff, 0xf1]) (body := [5]) (rest := [6, 7])
    (C01_isStream _) (by decide) exampleSignature_ok (by decide) (by decide +kernel) ⟨rfl, by decide⟩ (by decide) (by decide) (by decide) (by decide) (by decide)

/-- Non-vacuity of C111: a file that ends in the header. -/
example : ∃ s, Rpm.new StringStream.ops exampleCodecs 20 (StringStream.new (List.replicate 96 0 ++ exampleSignature.bytes ++ List.replicate 5 0)) = .ok s ∧
    ((s.status = .ok ∧ ∃ f : File, f.WellFormed ∧ List.replicate 96 0 ++ exampleSignature.bytes ++ List.replicate 5 0 = f.bytes ∧ KnownFormat f.payload) ∨ Finished (Rpm.ops StringStream.ops exampleCodecs 20 2) .error s) :=
  C111_total (l := List.replicate 96 0 ++ exampleSignature.bytes ++ List.replicate 5 0) (C01_isStream _) rfl (fun _ => ⟨(), rfl⟩) (fun _ => by unfold Sane; decide +kernel)
    (by
      intro n hn
      simp only
      intro _ hi
      have := hi.1
      rw [List.length_take, List.length_drop] at this
      have hlen : (List.replicate 96 0 ++ exampleSignature.bytes ++ List.replicate 5 (0 : UInt8)).length = 120 := by decide
      rw [hlen] at this
      omega) 2

end Strigi.Props
