import Verif.Proofs.Doomed
import Verif.Proofs.TellsErrors

/-!
# Zip archives of which the end is missing
-/

namespace Strigi

namespace Zip

open ZipSpec

variable {σ ζ : Type} {P : StreamOps σ UInt8} {D : Decompressor ζ} {N : Nat} {c : List UInt8} {soft : Prop}
  {R : ζ → List UInt8 → List UInt8 → Prop}

/-- Members, and then something that is not the rest of a data descriptor. -/
theorem presentsThen (hD : Unpacks D False R) {mktime : TextUtils.Tm → Int} {fuel : Nat} {tail : List UInt8} (htail : tail ≠ []) :
    ∀ (ms : List Member) (s : State σ ζ),
      (∀ m, ms.getLast? = some m → m.kind = .deflated → m.descriptor = [] → 16 ≤ tail.length ∧ ¬ signature <+: tail) →
      (∀ m ∈ ms, m.WellFormed (R D.init) ∧
        2 * (m.data.length + m.content.length) + 1 < N ∧ m.content.length + 2 < fuel) →
      Ready P D c soft N fuel s (ms.flatMap Member.bytes ++ tail) →
      PresentsThen (ops P D mktime N fuel) Failure.never soft (fun s => Ready P D c soft N fuel s tail) s
        (ms.map (Member.entry (clock mktime))) := by
  intro ms
  induction ms with
  | nil =>
    intro s _ _ hR
    simp only [List.flatMap_nil, List.nil_append] at hR
    exact hR
  | cons m ms ih =>
    intro s hlast hms hR
    rw [List.flatMap_cons, List.append_assoc] at hR
    obtain ⟨hm, hN, hf⟩ := hms m (by simp)
    have hrest : m.kind = .deflated → m.descriptor = [] →
        16 ≤ (ms.flatMap Member.bytes ++ tail).length ∧ ¬ signature <+: ms.flatMap Member.bytes ++ tail := by
      cases ms with
      | nil => simpa using hlast m (by simp)
      | cons m2 ms2 =>
        intro _ _
        rw [List.flatMap_cons, List.append_assoc]
        exact member_start _ (hms m2 (by simp)).1
    obtain ⟨s', e, x1, x2, x3, x4, x5, x6, x7, x8⟩ := nextEntry_spec hD (mktime := mktime) hm hN hf hrest (by simp [htail]) hR
    refine ⟨s', e, x1, x2, x3, x4, x5, x6, x7, fun e' lo hi hu => ?_⟩
    refine ih _ (fun m' hm' => ?_) (fun m' hm' => hms m' (by simp [hm'])) (x8 e' lo hi hu)
    cases ms with
    | nil => simp at hm'
    | cons m2 ms2 => exact hlast m' (by rw [List.getLast?_cons_cons]; exact hm')

/-- The provider finished. -/
theorem finished {mktime : TextUtils.Tm → Int} {fuel : Nat} {s : State σ ζ} {st : Status} (h : s.status = st) (hn : st ≠ .ok)
    (he : s.entry = none) : Finished (ops P D mktime N fuel) st s := by
  refine ⟨he, h, ?_⟩
  simp only [ops]
  rw [nextEntry, if_pos (by rw [h]; exact hn), he]
  simp only
  rw [← he]

theorem ends_of_next {mktime : TextUtils.Tm → Int} {fuel : Nat} {s : State σ ζ} {st : Status} (hn : st ≠ .ok)
    {Q : σ → Prop} (hL : Leads P D N fuel s Q)
    (h : ∀ input, Q input → ∃ s', next P D mktime N { s with entry := none, input := input } = .ok s' ∧ s'.status = st ∧ s'.entry = none) :
    EndsWith (ops P D mktime N fuel) st s := by
  obtain ⟨hst, input, el, hq⟩ := hL
  obtain ⟨s', e, h1, h2⟩ := h input hq
  refine ⟨s', ?_, finished h1 hn h2⟩
  simp only [ops]
  rw [nextEntry, if_neg (by simp [hst]), el]
  simp only [Res.bind_ok, if_true]
  exact e

/-- Fewer bytes than a header has. -/
theorem next_short {mktime : TextUtils.Tm → Int} {s : State σ ζ} {tail : List UInt8} (hA : At P c soft s.input tail)
    (hne : P.status s.input ≠ .eof) (hl : tail.length < 30) (hen : s.entry = none) :
    ∃ s', next P D mktime N s = .ok s' ∧ s'.status = .error ∧ s'.entry = none := by
  obtain ⟨i, k, d, er, _, ha, hb⟩ := hA.read_short (n := 30) (by omega) (by omega)
  have hk : k ≠ 30 := by
    by_cases hz : tail = []
    · have := (hb hz).1; omega
    · have := (ha hz).1; omega
  refine ⟨{ s with input := i, status := .error }, ?_, rfl, hen⟩
  rw [next, if_neg hne, readHeader, er]
  simp only [Res.bind_ok]
  rw [if_pos hk]
  simp

/-- A complete header, whatever follows it. -/
theorem readHeader_fields {mktime : TextUtils.Tm → Int} {s : State σ ζ} {head rest : List UInt8}
    {flags method time compressed size name extra : Nat}
    (hh : Header head flags method time compressed size name extra)
    (hc : compressed < 2 ^ 31) (hm : flags.testBit 3 = true → method = 8)
    (hA : At P c soft s.input (head ++ rest)) :
    ∃ i, At P c soft i rest ∧ readHeader P mktime s = (do
      let s ← readNames P { s with input := i, info := { s.info with size := if flags.testBit 3 then -1 else size, mtime := mktime (TextUtils.dosFields time) } } name extra
      .ok (s, ⟨method, if flags.testBit 3 then -1 else compressed⟩)) := by
  obtain ⟨ver, fl, me, ti, crc, cs, us, nl, xl, hhead, l1, f1, f2, f3, l2, f4, f5, f6, f7⟩ := hh.fields
  have hl : (head.length : Int) = 30 := by
    rw [hhead]
    simp [l1, l2, f1.1, f2.1, f3.1, f4.1, f5.1, f6.1, f7.1]
  obtain ⟨i, er, hA', _⟩ := hA.read (n := 30) hl.symm (by omega)
  have e26 : TextUtils.readLittleEndianUInt16 (head.drop 26) = .ok name :=
    read16 f6 (pre := [0x50, 0x4b, 0x03, 0x04] ++ ver ++ fl ++ me ++ ti ++ crc ++ cs ++ us) (post := xl) (by rw [hhead])
      (by simp [l1, l2, f1.1, f2.1, f3.1, f4.1, f5.1])
  have e28 : TextUtils.readLittleEndianUInt16 (head.drop 28) = .ok extra :=
    read16 f7 (pre := [0x50, 0x4b, 0x03, 0x04] ++ ver ++ fl ++ me ++ ti ++ crc ++ cs ++ us ++ nl) (post := []) (by rw [hhead]; simp)
      (by simp [l1, l2, f1.1, f2.1, f3.1, f4.1, f5.1, f6.1])
  have e22 : TextUtils.readLittleEndianUInt32 (head.drop 22) = .ok size :=
    read32 f5 (pre := [0x50, 0x4b, 0x03, 0x04] ++ ver ++ fl ++ me ++ ti ++ crc ++ cs) (post := nl ++ xl) (by rw [hhead]; simp)
      (by simp [l1, l2, f1.1, f2.1, f3.1, f4.1])
  have e18 : TextUtils.readLittleEndianUInt32 (head.drop 18) = .ok compressed :=
    read32 f4 (pre := [0x50, 0x4b, 0x03, 0x04] ++ ver ++ fl ++ me ++ ti ++ crc) (post := us ++ nl ++ xl) (by rw [hhead]; simp)
      (by simp [l1, l2, f1.1, f2.1, f3.1])
  have e10 : TextUtils.readLittleEndianUInt32 (head.drop 10) = .ok time :=
    read32 f3 (pre := [0x50, 0x4b, 0x03, 0x04] ++ ver ++ fl ++ me) (post := crc ++ cs ++ us ++ nl ++ xl) (by rw [hhead]; simp)
      (by simp [l1, f1.1, f2.1])
  have e8 : TextUtils.readLittleEndianUInt16 (head.drop 8) = .ok method :=
    read16 f2 (pre := [0x50, 0x4b, 0x03, 0x04] ++ ver ++ fl) (post := ti ++ crc ++ cs ++ us ++ nl ++ xl) (by rw [hhead]; simp)
      (by simp [l1, f1.1])
  have e6 : TextUtils.readLittleEndianUInt16 (head.drop 6) = .ok flags :=
    read16 f1 (pre := [0x50, 0x4b, 0x03, 0x04] ++ ver) (post := me ++ ti ++ crc ++ cs ++ us ++ nl ++ xl) (by rw [hhead]; simp)
      (by simp [l1])
  refine ⟨i, hA', ?_⟩
  unfold readHeader
  rw [er]
  simp only [Res.bind_ok]
  rw [if_neg (by simp)]
  have a0 : aget head 0 = .ok 0x50 := by rw [hhead]; simp [aget]
  have a1 : aget head 1 = .ok 0x4b := by rw [hhead]; simp [aget]
  have a2 : aget head 2 = .ok 0x03 := by rw [hhead]; simp [aget]
  have a3 : aget head 3 = .ok 0x04 := by rw [hhead]; simp [aget]
  rw [a0, a1]
  simp only [Res.bind_ok]
  rw [if_neg (by simp), a2, a3]
  simp only [Res.bind_ok]
  rw [if_neg (by simp)]
  unfold readFields
  rw [e26, e28, e22, e18, e8, e6, e10]
  simp only [Res.bind_ok]
  rw [if_neg (by omega), if_neg (by rw [flag_iff]; rintro ⟨z1, z2⟩; exact z2 (hm z1))]
  simp only [flag_iff]
  by_cases hb : flags.testBit 3 = true
  · simp only [hb, decide_true, if_true]
  · simp only [hb, decide_false, Bool.false_eq_true, if_false]

/-- A complete header, but the name or the extra field is cut off. -/
theorem next_names {mktime : TextUtils.Tm → Int} {s : State σ ζ} {head x : List UInt8} (hst : s.status = .ok) (hen : s.entry = none)
    {flags method time compressed size name extra : Nat}
    (hh : Header head flags method time compressed size name extra)
    (hc : compressed < 2 ^ 31) (hm : flags.testBit 3 = true → method = 8) (h1 : 1 ≤ name) (h2 : extra < 2 ^ 16)
    (hl : x.length < name + extra) (hA : At P c soft s.input (head ++ x)) :
    ∃ s', next P D mktime N s = .ok s' ∧ s'.status = .error ∧ s'.entry = none := by
  have hok : P.status s.input = .ok := by
    refine hA.status_ok ?_
    obtain ⟨_, _, _, _, _, _, _, _, _, hhead, _⟩ := hh.fields
    rw [hhead]; simp
  obtain ⟨i, hi, eh⟩ := readHeader_fields (mktime := mktime) hh hc hm hA
  rw [next, if_neg (by simp [hok]), eh]
  generalize hs0 : ({ s with input := i, info := { s.info with size := if flags.testBit 3 then -1 else size, mtime := mktime (TextUtils.dosFields time) } } : State σ ζ) = s0
  have hst0 : s0.status = .ok := by rw [← hs0]; exact hst
  have hen0 : s0.entry = none := by rw [← hs0]; exact hen
  have hi0 : s0.input = i := by rw [← hs0]
  rw [← hi0] at hi
  -- either the status is an error, or there is no name
  have key : ∃ s1, readNames P s0 name extra = .ok s1 ∧ s1.entry = none ∧ (s1.status = .error ∨ (s1.status = .ok ∧ s1.info.filename = [])) := by
    unfold readNames
    by_cases hx : x.length < name
    · obtain ⟨i1, k, d, er, hA1, ha, hb⟩ := hi.read_short (n := (name : Int)) (by omega) (by omega)
      have hk : k ≠ (name : Int) := by
        by_cases hz : x = []
        · have := (hb hz).1; omega
        · have := (ha hz).1; omega
      obtain ⟨i2, r, ek, _⟩ := hA1.skip_short (n := (extra : Int)) (by simp) (by omega)
      have hfn : readFileName P s0 name = .ok { s0 with input := i1, info := { s0.info with filename := [] } } := by
        unfold readFileName
        rw [er]
        simp only [Res.bind_ok]
        rw [if_pos hk]
      rw [hfn]
      simp only [Res.bind_ok]
      rw [if_neg (by simp [hst0]), ek]
      simp only [Res.bind_ok]
      split
      · exact ⟨_, rfl, hen0, Or.inl rfl⟩
      · exact ⟨_, rfl, hen0, Or.inr ⟨hst0, rfl⟩⟩
    · rw [← List.take_append_drop name x] at hi
      have htl : (x.take name).length = name := by rw [List.length_take]; omega
      obtain ⟨i1, en, hA1⟩ := readFileName_spec (ζ := ζ) hi (by intro z; rw [z] at htl; simp at htl; omega)
      rw [htl] at en
      obtain ⟨i2, r, ek, hr⟩ : ∃ i2 r, P.skip i1 (extra : Int) = .ok (i2, r) ∧ r ≠ extra := by
        have hr1 := hA1.range
        obtain ⟨⟨lo, hi, hb⟩, hd⟩ := hA1
        obtain ⟨i2, r, ek, ro, _⟩ := (Contract.of_behaves P c Failure.never soft).skip hb (k := (extra : Int)) (by omega) (by omega)
        refine ⟨i2, r, ek, ?_⟩
        have hlen : (x.drop name).length < extra := by rw [List.length_drop]; omega
        cases ro with
        | skipped adv res st => rcases res with z | ⟨z, _, _⟩ <;> omega
        | failed a _ => exact absurd a id
      rw [en]
      simp only [Res.bind_ok]
      rw [if_neg (by simp [hst0]), ek]
      simp only [Res.bind_ok]
      rw [if_pos hr]
      exact ⟨_, rfl, hen0, Or.inl rfl⟩
  obtain ⟨s1, e1, hen1, h3⟩ := key
  rw [e1]
  simp only [Res.bind_ok]
  rcases h3 with h3 | ⟨h3, h4⟩
  · rw [if_pos (by rw [h3]; decide)]
    exact ⟨s1, rfl, h3, hen1⟩
  · rw [if_neg (by simp [h3]), if_pos (by simp [h4])]
    exact ⟨_, rfl, rfl, hen1⟩

/-- A header with everything up to the data. -/
def intro (m : Member) : List UInt8 :=
  [0x50, 0x4b, 0x03, 0x04] ++ m.version ++ m.flagsField ++ m.methodField ++ m.timeField ++ m.crc ++
    m.compressedField ++ m.sizeField ++ m.nameField ++ m.extraField ++ m.name ++ m.extra

theorem bytes_eq (m : Member) : m.bytes = intro m ++ (m.data ++ m.descriptor) := by
  simp [Member.bytes, intro]

theorem extra_lt {m : Member} {inflates : List UInt8 → List UInt8 → Prop} (hm : m.WellFormed inflates) : m.extra.length < 2 ^ 16 := by
  obtain ⟨h1, h2⟩ := hm.extra
  rcases hf : m.extraField with _ | ⟨b0, _ | ⟨b1, _ | ⟨_, _⟩⟩⟩ <;> rw [hf] at h1 h2 <;> simp at h1
  simp only [Text.leValue] at h2
  have := b0.toNat_lt; have := b1.toNat_lt; omega

/-- The first thirty bytes. -/
theorem member_header {m : Member} {inflates : List UInt8 → List UInt8 → Prop} (hm : m.WellFormed inflates) :
    ∃ head me co si, intro m = head ++ (m.name ++ m.extra) ∧ head.length = 30 ∧
      Header head m.flags me m.time.encode co si m.name.length m.extra.length ∧ co < 2 ^ 31 ∧ (m.flags.testBit 3 = true → me = 8) ∧
      Field 2 m.methodField me ∧ Field 4 m.compressedField co ∧ Field 4 m.sizeField si := by
  have hnum : ∃ me co si, Field 2 m.methodField me ∧ Field 4 m.compressedField co ∧ Field 4 m.sizeField si ∧ co < 2 ^ 31 ∧
      (m.flags.testBit 3 = true → me = 8) := by
    have he := hm.encoded
    have hr := hm.range
    unfold Member.Encoded at he
    split at he
    · exact ⟨0, _, _, he.2.1, he.2.2.1, he.2.2.2.1, by omega, by rw [he.1]; simp⟩
    · exact ⟨8, _, _, he.2.1, he.2.2.1, he.2.2.2.1, by omega, fun _ => rfl⟩
    · obtain ⟨_, h2, ⟨n, h3, h4⟩, h5, _⟩ := he
      exact ⟨8, n, _, h2, h3, ⟨h5, rfl⟩, h4, fun _ => rfl⟩
  obtain ⟨me, co, si, fme, fco, fsi, hco, hme⟩ := hnum
  refine ⟨_, me, co, si, ?_, ?_, ⟨_, _, _, _, _, _, _, _, _, rfl, hm.version, hm.flags, fme, hm.time.2, hm.crc, fco, fsi, hm.name.1, hm.extra⟩, hco, hme,
    fme, fco, fsi⟩
  · simp [intro]
  · simp [hm.version, hm.flags.1, fme.1, hm.time.2.1, hm.crc, fco.1, fsi.1, hm.name.1.1, hm.extra.1]

theorem shown_ne {name : List UInt8} (h1 : name ≠ []) (h2 : name ≠ [47]) : (shown name).1 ≠ [] := by
  intro z
  unfold shown at z
  split at z
  · rename_i hg
    rw [← List.dropLast_concat_getLast h1] at h2
    rw [List.getLast?_eq_some_getLast h1] at hg
    simp only at z
    rw [z] at h2
    rw [Option.some.inj hg] at h2
    exact h2 rfl
  · exact h1 z

/-- The header, and something of the data. -/
theorem opens {mktime : TextUtils.Tm → Int} {fuel : Nat} {s : State σ ζ} {m : Member} {inflates : List UInt8 → List UInt8 → Prop}
    (hm : m.WellFormed inflates) {x : List UInt8} (hx : x ≠ []) (hR : Ready P D c soft N fuel s (intro m ++ x)) :
    ∃ i me co, At P c soft i x ∧ Field 2 m.methodField me ∧ Field 4 m.compressedField co ∧
      ∀ e, openEntry P D N i (m.entry (clock mktime)).info.size ⟨me, if m.flags.testBit 3 then -1 else co⟩ = .ok e →
        nextEntry P D mktime N fuel s = .ok { s with entry := some e, input := i, info := (m.entry (clock mktime)).info } := by
  obtain ⟨hst, input, el, hA⟩ := hR
  obtain ⟨head, me, co, si, hin, hl, hh, hco, hme, fme, fco, fsi⟩ := member_header hm
  rw [hin, List.append_assoc, List.append_assoc] at hA
  obtain ⟨i, eh, hA'⟩ := readHeader_spec (mktime := mktime) (s := { s with entry := none, input := input }) hst hh hco hme
    hm.name.2.1 hx (by have := extra_lt hm; omega) hA
  have htime : mktime (TextUtils.dosFields m.time.encode) =
      clock mktime m.time.year m.time.month m.time.day ((m.time.hour % 16 : Nat) : Int) m.time.min
        ((m.time.sec / 2 * 2 : Nat) : Int) := by
    rw [Props.C42_dos_fields hm.time.1]; rfl
  rw [htime] at eh
  refine ⟨i, me, co, hA', fme, fco, fun e he => ?_⟩
  have uniq : ∀ {k : Nat} {f : List UInt8} {a b : Nat}, Field k f a → Field k f b → a = b := by
    intro k f a b h1 h2; rw [← h1.2, ← h2.2]
  have hsz : (if m.flags.testBit 3 then (-1 : Int) else si) = (m.entry (clock mktime)).info.size := by
    have he := hm.encoded
    unfold Member.Encoded at he
    split at he
    · rename_i hk; rw [he.1, uniq fsi he.2.2.2.1]; simp [Member.entry, hk]
    · rename_i hk; rw [he.1, uniq fsi he.2.2.2.1]; simp [Member.entry, hk]
    · rename_i hk; rw [he.1]; simp [Member.entry, hk]
  rw [nextEntry, if_neg (by simp [hst]), el]
  simp only [Res.bind_ok, if_true]
  have hok : P.status input = .ok := hA.status_ok (by simp [hx])
  rw [next, if_neg (by simp [hok]), eh]
  simp only [Res.bind_ok]
  rw [hsz, if_neg (by simp [hst]), if_neg (by simpa using shown_ne hm.name.2.1 hm.name.2.2), he]
  simp only [Res.bind_ok]
  rfl

/-- `nextEntry()` when the input is at its end. -/
theorem ends_at_end {mktime : TextUtils.Tm → Int} {fuel : Nat} {s : State σ ζ} (hR : Ready P D c soft N fuel s []) :
    EndsWith (ops P D mktime N fuel) .eof s ∨ EndsWith (ops P D mktime N fuel) .error s := by
  obtain ⟨hst, input, el, hA⟩ := hR
  by_cases he : P.status input = .eof
  · left
    refine ends_of_next (Q := fun i => i = input) (by decide) ⟨hst, input, el, rfl⟩ ?_
    rintro i rfl
    rw [next, if_pos he]
    exact ⟨_, rfl, rfl, rfl⟩
  · right
    refine ends_of_next (Q := fun i => i = input) (by decide) ⟨hst, input, el, rfl⟩ ?_
    rintro i rfl
    exact next_short (s := { s with entry := none, input := i }) hA he (by simp) rfl

/-- Stored data, cut off. -/
theorem shows_stored {mktime : TextUtils.Tm → Int} {fuel : Nat} (hf : 3 ≤ fuel) {s : State σ ζ} {m : Member}
    {inflates : List UInt8 → List UInt8 → Prop} (hm : m.WellFormed inflates) (hk : m.kind = .stored) {x : List UInt8} (hx : x ≠ [])
    (hl : x.length < m.content.length) (hR : Ready P D c soft N fuel s (intro m ++ x)) :
    ShowsPartThen (ops P D mktime N fuel) soft (m.entry (clock mktime)).info x
      (fun s => EndsWith (ops P D mktime N fuel) .eof s ∨ EndsWith (ops P D mktime N fuel) .error s) s := by
  have hst := hR.1
  obtain ⟨i, me, co, hA, fme, fco, hopen⟩ := opens (mktime := mktime) hm hx hR
  have he := hm.encoded
  have hr := hm.range
  unfold Member.Encoded at he
  rw [hk] at he
  obtain ⟨hb, h1, h2, h3, hdata, hdesc⟩ := he
  have hme : me = 0 := by rw [← fme.2, ← h1.2]
  have hsize : (m.entry (clock mktime)).info.size = m.content.length := by simp [Member.entry, hk]
  obtain ⟨e, en, es, ep, est, hI, hU⟩ := hA.sub_cut (n := (m.content.length : Int)) (by omega) (by omega)
  rw [hsize] at hopen
  have hn := hopen (.stored e) (by rw [openEntry, if_neg (by simp [hme]), en]; rfl)
  refine ⟨_, .stored e, hn, rfl, rfl, hst, ep, by rw [hsize]; exact es, embeds_stored.isStream hI, ?_⟩
  intro t lo hi hu
  obtain ⟨e', rfl, hu'⟩ := embeds_stored.tries hu
  obtain ⟨z1, z2, z3, e2, r2, e3, r3, k1, k2, k3, k4, k5, k6⟩ := hU e' lo hi hu'
  refine ⟨?_, ?_⟩
  · intro hs mn mx t k d g1 g2 g3
    have g3 : (do let (s', r) ← (SubInputStream.ops P).read e' mn mx; Res.ok (Entry.stored (ζ := ζ) s', r)) = .ok (t, k, d) := g3
    obtain ⟨s', e4, rfl⟩ := Embeds.split g3
    exact z2 hs mn mx s' k d g1 g2 e4
  · obtain ⟨f, rfl⟩ : ∃ f, fuel = f + 3 := ⟨fuel - 3, by omega⟩
    have hfin : ∃ e4, skipAll (SubInputStream.ops P) (m.content.length : Int) (f + 3) e' = .ok e4 ∧ At P c soft e4.parent [] := by
      rw [skipAll]
      by_cases hs : (SubInputStream.ops P).status e' = .ok
      · rw [if_pos hs, show (SubInputStream.ops P).skip e' _ = _ from k1]
        simp only [Res.bind_ok]
        rw [skipAll]
        by_cases hs2 : (SubInputStream.ops P).status e2 = .ok
        · rw [if_pos hs2, show (SubInputStream.ops P).skip e2 _ = _ from k4]
          simp only [Res.bind_ok]
          rw [skipAll, if_neg (by rw [show (SubInputStream.ops P).status e3 = e3.status from rfl, k6]; decide)]
          exact ⟨e3, rfl, k5⟩
        · rw [if_neg hs2]
          exact ⟨e2, rfl, k2⟩
      · rw [if_neg hs]
        exact ⟨e', rfl, z3 hs⟩
    obtain ⟨e4, k7, k8⟩ := hfin
    refine ends_at_end (c := c) (soft := soft) ⟨hst, e4.parent, ?_, k8⟩
    have hlo : leaveOther P D N (f + 3) (Entry.stored e') true = .ok (e4.parent, true) := by
      unfold leaveOther
      simp only
      rw [skipAll_embeds embeds_stored, show (entryOps P D N).size (.stored e') = e'.size from rfl, z1, if_neg (by omega), k7]
      rfl
    show leave P D N (f + 3) { s with entry := some (.stored e'), input := i, info := (m.entry (clock mktime)).info } = _
    rw [leave_other (by simp) rfl]
    simp only
    rw [hsize, show decide ((0 : Int) ≤ (m.content.length : Int)) = true by simp, hlo]
    simp
    exact ⟨rfl, rfl⟩

/-- Leaving a stream over data that is cut off. -/
theorem skipAll_doomed {S : StreamOps σ UInt8} {J G : Unpack.State σ ζ → Prop}
    (T : BufferedStream.Endless (Unpack.producer S D true N) J G)
    {y : List UInt8} {F : Failure} {H0 H1 : BufferedStream (Unpack.State σ ζ) UInt8 → Int → Int → Prop}
    (C0 : Contract (GZip.ops S D N) y F H0) (C1 : Contract (GZip.ops S D N) (y ++ [0]) F H1) {k : Int} (hk1 : 1 ≤ k) (hk2 : k < 2 ^ 31) :
    ∀ (fuel : Nat) (e : BufferedStream (Unpack.State σ ζ) UInt8), BufferedStream.Doomed J G e →
      (e.status ≠ .error → ∃ lo hi, H0 e lo hi) → (e.status ≠ .error → ∃ lo hi, H1 e lo hi) →
      y.length - e.pos.toNat + 1 < fuel → ∃ e', skipAll (GZip.ops S D N) k fuel e = .ok e' ∧ e'.status = .error ∧
        BufferedStream.Doomed J G e' := by
  intro fuel
  induction fuel with
  | zero => intro e _ _ _ h; omega
  | succ fuel ih =>
    intro e hd h0 h1 hlt
    rw [skipAll]
    by_cases hs : (GZip.ops S D N).status e = .ok
    · have hs' : e.status = .ok := hs
      rw [if_pos hs]
      obtain ⟨lo0, hi0, g0⟩ := h0 (by rw [hs']; decide)
      obtain ⟨lo1, hi1, g1⟩ := h1 (by rw [hs']; decide)
      have hrg := C0.range g0
      have hpp : (GZip.ops S D N).position e = e.pos := rfl
      obtain ⟨e2, r, ek, ro0, kk0⟩ := C0.skip g0 (k := k) (by omega) hk2
      obtain ⟨e3, r3, ek3, ro1, kk1⟩ := C1.skip g1 (k := k) (by omega) hk2
      rw [ek] at ek3; cases ek3
      have hd2 : BufferedStream.Doomed J G e2 := BufferedStream.skipLoop_doomed T _ hd ek
      rw [ek]
      simp only [Res.bind_ok]
      have hpp2 : (GZip.ops S D N).position e2 = e2.pos := rfl
      by_cases he : e2.status = .error
      · obtain ⟨g, rfl⟩ : ∃ g, fuel = g + 1 := ⟨fuel - 1, by omega⟩
        rw [skipAll, if_neg (by rw [show (GZip.ops S D N).status e2 = e2.status from rfl, he]; decide)]
        exact ⟨e2, rfl, he, hd2⟩
      · have q0 := kk0 he
        have hrg2 := C0.range q0
        have hadv : e2.pos ≥ e.pos + 1 := by
          cases ro1 with
          | skipped adv res st => simp only [List.length_append, List.length_singleton] at adv; omega
          | failed _ st => exact absurd st he
        exact ih e2 hd2 (fun _ => ⟨_, _, q0⟩) (fun z => ⟨_, _, kk1 z⟩) (by omega)
    · rw [if_neg hs]
      have hs' : e.status ≠ .ok := hs
      refine ⟨e, rfl, ?_, hd⟩
      cases he : e.status with
      | ok => exact absurd he hs'
      | eof => exact absurd he hd.not_eof
      | error => rfl

/-- Deflated data of unknown size, cut off. -/
theorem shows_streamed (hD : Unpacks D False R) {mktime : TextUtils.Tm → Int} {fuel : Nat} {s : State σ ζ} {m : Member}
    (hm : m.WellFormed (R D.init)) (hk : m.kind = .streamed) (hN : 2 * (m.data.length + m.content.length) + 1 < N)
    (hf : m.content.length + 2 < fuel) {x : List UInt8} (hx : x ≠ [])
    (hp : x <+: m.data) (hl : x.length < m.data.length) (hR : Ready P D c soft N fuel s (intro m ++ x)) :
    ShowsPart (ops P D mktime N fuel) soft (m.entry (clock mktime)).info m.content .error s := by
  have hst := hR.1
  obtain ⟨i, me, co, hA, fme, fco, hopen⟩ := opens (mktime := mktime) hm hx hR
  have he := hm.encoded
  have hr := hm.range
  unfold Member.Encoded at he
  rw [hk] at he
  obtain ⟨hb, h1, _, _, hinf, hxne, _⟩ := he
  have hme : me = 8 := by rw [← fme.2, ← h1.2]
  have hsize : (m.entry (clock mktime)).info.size = -1 := by simp [Member.entry, hk]
  have hA0 := hA
  obtain ⟨⟨lo, hi, hH⟩, hd⟩ := hA
  have C := Contract.of_behaves P c Failure.never soft
  have hfit : ∀ t, Unpack.Fits True t m.data (c.drop (P.position i).toNat) := fun t => Or.inr ⟨trivial, by rw [hd]; exact hp, by rw [hd]; exact hl⟩
  obtain ⟨C0, S0, u, eu, hpu, hHu0⟩ := Unpack.opened (keep := true) C hD True [] (N := N) hH (hfit []) hinf hxne hN
  obtain ⟨C1, S1, u1, eu1, _, hHu1⟩ := Unpack.opened (keep := true) C hD True [0] (N := N) hH (hfit [0]) hinf hxne hN
  rw [eu] at eu1; cases eu1
  have hF : (⟨Failure.never.onRead ∨ False ∨ True, Failure.never.onRead ∨ False ∨ True⟩ : Failure) = Failure.always := by
    simp [Failure.always]
  rw [hF, List.append_nil] at C0
  rw [List.append_nil] at S0 hHu0
  rw [hF] at C1
  have C0 : Contract (GZip.ops P D N) m.content Failure.always _ := C0
  have C1 : Contract (GZip.ops P D N) (m.content ++ [0]) Failure.always _ := C1
  have S0 : SoftReset (GZip.ops P D N) m.content _ := S0
  have S1 : SoftReset (GZip.ops P D N) (m.content ++ [0]) _ := S1
  have hu0 : (GZip.ops P D N).position u = 0 := hpu
  have hdoom := Unpack.doomed_new (R := R) (H := fun s lo hi => ∀ l, Behaves P c Failure.never soft s lo hi l) (I := fun _ => True)
    (E := fun i => At P c soft i []) C hH (by rw [hd]; exact hp) (by rw [hd]; exact hl) hinf hN trivial eu
  have T := Unpack.endless (keep := true) (I := fun _ => True) (E := fun i => At P c soft i []) C hD (stop := P.position i + m.data.length)
    (by have := hA0.range; omega) N (by
      intro s s' lo hi n d _ h er
      refine ⟨trivial, fun hn => ?_⟩
      obtain ⟨s2, n2, d2, er2, ro, kk⟩ := C.read h (min := 1) (max := 0) (by omega) (Or.inl rfl)
      rw [er] at er2; cases er2
      cases ro with
      | data pos _ _ _ _ _ _ => exfalso; omega
      | ended none nodata atEnd stay st => exact ⟨⟨_, _, kk (by rw [st]; decide)⟩, by rw [stay, atEnd]; simp⟩
      | failed a _ _ => exact absurd a id)
  have husz : u.size = -1 := hdoom.1
  rw [hsize] at hopen
  have hn := hopen (.streamed u) (by
    rw [openEntry, if_pos (by simp [hme]), if_neg (by omega), GZip.new]
    simp only [Bool.false_eq_true, if_false]
    rw [eu]; rfl)
  refine ⟨_, .streamed u, hn, rfl, rfl, hst, hpu, by rw [hsize]; exact husz,
    embeds_streamed.isStream (C0.isStream (fun _ => S0) (by rw [hu0]; exact hHu0)), ?_⟩
  intro t lo' hi' hu
  obtain ⟨e', rfl, hu'⟩ := embeds_streamed.tries hu
  have hd' := hu'.keep (J := fun q => BufferedStream.Doomed _ _ q) (fun hj e => BufferedStream.read_doomed T hj e) (fun hj e => BufferedStream.skipLoop_doomed T _ hj e)
    (fun {s s' q r} hj e => by
      have e : BufferedStream.reset s q = .ok (s', r) := e
      exact BufferedStream.reset_doomed hj e) hdoom
  refine ⟨?_, ?_⟩
  · intro hs mn mx t k d g1 g2 g3
    have g3 : (do let (s', r) ← (GZip.ops P D N).read e' mn mx; Res.ok (Entry.streamed (σ := σ) s', r)) = .ok (t, k, d) := g3
    obtain ⟨s', e4, rfl⟩ := Embeds.split g3
    exact (BufferedStream.read_doomed T hd' e4).not_eof
  · have t0 := C0.tries (fun _ => S0) (Nat.le_refl _) (by rw [hu0]; exact hHu0) hu'
    have t1 := C1.tries (fun _ => S1) (by simp) (by rw [hu0]; exact hHu1) hu'
    have hk' : (if (GZip.ops P D N).size e' < 1 then (1024 : Int) else (GZip.ops P D N).size e') = 1024 := by
      rw [show (GZip.ops P D N).size e' = e'.size from rfl, hd'.1]; simp
    obtain ⟨e2, ek, hes, hd2⟩ := skipAll_doomed T C0 C1 (k := 1024) (by omega) (by omega) fuel e' hd'
      (fun z => ⟨_, _, t0 z⟩) (fun z => ⟨_, _, t1 z⟩) (by omega)
    have hAe := (hd2.error hes).2
    obtain ⟨i2, es⟩ := skipDescriptor_short hAe (by simp) (by simp)
    refine ⟨{ s with status := .error, entry := none, input := i2, info := (m.entry (clock mktime)).info }, ?_, finished rfl (by decide) rfl⟩
    have hlo : leaveOther P D N fuel (Entry.streamed e') false = .ok (i2, false) := by
      unfold leaveOther
      simp only
      rw [skipAll_embeds embeds_streamed, embeds_streamed.size, hk', ek]
      simp only [Res.bind_ok, Bool.false_eq_true, if_false]
      exact es
    show nextEntry P D mktime N fuel { s with entry := some (.streamed e'), input := i, info := (m.entry (clock mktime)).info } = _
    rw [nextEntry, if_neg (by simp [hst]), leave_other (by simp) rfl]
    simp only
    rw [hsize, show decide ((0 : Int) ≤ -1) = false by decide, hlo]
    simp

/-- Deflated data of known size, cut off. -/
theorem shows_deflated (hD : Unpacks D False R) {mktime : TextUtils.Tm → Int} {fuel : Nat} {s : State σ ζ} {m : Member}
    (hm : m.WellFormed (R D.init)) (hk : m.kind = .deflated) (hN : 2 * (m.data.length + m.content.length) + 1 < N)
    {x : List UInt8} (hx : x ≠ [])
    (hp : x <+: m.data) (hl : x.length < m.data.length) (hR : Ready P D c soft N fuel s (intro m ++ x)) :
    ShowsUpToError (ops P D mktime N fuel) soft (m.entry (clock mktime)).info m.content (EndsWith (ops P D mktime N fuel) .eof) s := by
  have hst := hR.1
  obtain ⟨i, me, co, hA, fme, fco, hopen⟩ := opens (mktime := mktime) hm hx hR
  have he := hm.encoded
  have hr := hm.range
  unfold Member.Encoded at he
  rw [hk] at he
  obtain ⟨hb, h1, h2, _, hinf, hxne, _⟩ := he
  have hme : me = 8 := by rw [← fme.2, ← h1.2]
  have hco : co = m.data.length := by rw [← fco.2, ← h2.2]
  have hsize : (m.entry (clock mktime)).info.size = m.content.length := by simp [Member.entry, hk]
  have hA0 := hA
  have hrA := hA.range
  obtain ⟨⟨lo, hi, hH⟩, hd⟩ := hA
  have C := Contract.of_behaves P c Failure.never soft
  obtain ⟨z, ez, hi0, hpz⟩ := SubInputStream.inv_new C hH (l := (m.data.length : Int)) (by omega)
  have hw : SubInputStream.window c (P.position i) (m.data.length : Int) = x := by
    unfold SubInputStream.window; rw [if_neg (by omega)]; unfold slice; rw [hd]; apply List.take_of_length_le; omega
  have CZ := SubInputStream.contract C (o := P.position i) (l := (m.data.length : Int)) (by omega) (by omega) (by omega) (by omega) (by omega) (by omega)
  rw [hw] at CZ
  have hz0 : (SubInputStream.ops P).position z = 0 := hpz
  have hdz : x.drop ((SubInputStream.ops P).position z).toNat = x := by rw [hz0]; simp
  obtain ⟨C0, S0, u, eu, hpu, hHu0⟩ := Unpack.opened (keep := true) CZ hD True [] (N := N) hi0
    (Or.inr ⟨trivial, by rw [hdz]; exact hp, by rw [hdz]; exact hl⟩) hinf hxne hN
  generalize hFF : (⟨(SubInputStream.fails Failure.never c (P.position i) (m.data.length : Int)).onRead ∨ False ∨ True,
    (SubInputStream.fails Failure.never c (P.position i) (m.data.length : Int)).onRead ∨ False ∨ True⟩ : Failure) = FF at C0
  have hF : FF = Failure.always := by rw [← hFF]; simp [Failure.always]
  rw [hF, List.append_nil] at C0
  rw [List.append_nil] at S0 hHu0
  have C0 : Contract (GZip.ops (SubInputStream.ops P) D N) m.content Failure.always _ := C0
  have S0 : SoftReset (GZip.ops (SubInputStream.ops P) D N) m.content _ := S0
  have hu0 : (GZip.ops (SubInputStream.ops P) D N).position u = 0 := hpu
  have hcut : c.length < P.position i + m.data.length := by omega
  have hzs : z.status = .ok ∧ z.size = m.data.length := by
    unfold SubInputStream.new at ez
    rw [Res.assert_of (by simp)] at ez
    cases ez; exact ⟨rfl, rfl⟩
  have hzc : SubInputStream.Cut P c soft (P.position i) (m.data.length : Int) z := by
    refine ⟨hzs.2, by omega, ⟨_, SubInputStream.At.of_inv hi0⟩, fun _ => ⟨_, _, hi0⟩, fun q => ?_⟩
    rw [hzs.1] at q; cases q
  have hdoom := Unpack.doomed_new (R := R) (I := SubInputStream.Cut P c soft (P.position i) (m.data.length : Int))
    (E := fun _ => True) CZ hi0 (by rw [hdz]; exact hp) (by rw [hdz]; exact hl) hinf hN hzc eu
  have T := Unpack.endless (keep := true) (I := SubInputStream.Cut P c soft (P.position i) (m.data.length : Int)) (E := fun _ => True) CZ hD
    (stop := (SubInputStream.ops P).position z + m.data.length) (by rw [hz0]; omega) N (by
      intro s s' lo hi n d _ h er
      exact ⟨(SubInputStream.cut_read (by omega) (by omega) (by omega) hcut h (by omega) (Or.inl rfl) er).1, fun _ => trivial⟩)
  obtain ⟨e, ee, hie, hpe⟩ := SubInputStream.inv_new C0 hHu0 (l := (m.content.length : Int)) (by omega)
  rw [hu0] at hie
  have hw2 : SubInputStream.window m.content 0 (m.content.length : Int) = m.content := by
    unfold SubInputStream.window; simp [slice]
  have CE := SubInputStream.contract C0 (o := 0) (l := (m.content.length : Int)) (by omega) (by omega) (by omega) (by omega) (by omega) (by omega)
  rw [Props.sub_fails_eq _ (by omega) (by omega) (by omega), hw2] at CE
  have SE := SubInputStream.softReset C0 S0 (o := 0) (l := (m.content.length : Int)) (by omega) (by omega) (by omega)
  rw [hw2] at SE
  have hes : e.size = m.content.length ∧ e.parent = u := by
    unfold SubInputStream.new at ee
    rw [Res.assert_of (by simp)] at ee
    cases ee; exact ⟨rfl, rfl⟩
  have hpe' : (SubInputStream.ops (GZip.ops (SubInputStream.ops P) D N)).position e = 0 := hpe
  rw [hsize] at hopen
  have hn := hopen (.deflated e) (by
    rw [openEntry, if_pos (by simp [hme]), if_pos (by omega)]
    simp only [hb, Bool.false_eq_true, if_false, hco]
    rw [ez]
    simp only [Res.bind_ok]
    rw [GZip.new]
    simp only [Bool.false_eq_true, if_false]
    rw [eu]
    simp only [Res.bind_ok]
    rw [ee]
    rfl)
  refine ⟨_, .deflated e, hn, rfl, rfl, hst, hpe, by rw [hsize]; exact hes.1,
    embeds_deflated.isStream (CE.isStream (fun _ => SE) (by rw [hpe']; exact hie)), ?_⟩
  intro t lo' hi' hu
  obtain ⟨e', rfl, hu'⟩ := embeds_deflated.tries hu
  have hd' := hu'.keep (J := fun q => BufferedStream.Doomed _ _ q.parent)
    (fun hj h => SubInputStream.rel_read (R := fun a b => BufferedStream.Doomed _ _ a → BufferedStream.Doomed _ _ b) (fun _ h => h)
      (fun h hj => BufferedStream.read_doomed T hj h) h hj)
    (fun hj h => SubInputStream.rel_skip (R := fun a b => BufferedStream.Doomed _ _ a → BufferedStream.Doomed _ _ b) (fun _ h => h)
      (fun h hj => BufferedStream.skipLoop_doomed T _ hj h) h hj)
    (fun hj h => SubInputStream.rel_reset (R := fun a b => BufferedStream.Doomed _ _ a → BufferedStream.Doomed _ _ b)
      (fun {s s' q r} h hj => by
        have h : BufferedStream.reset s q = .ok (s', r) := h
        exact BufferedStream.reset_doomed hj h) h hj) (by rw [hes.2]; exact hdoom)
  have hzc' : SubInputStream.Cut P c soft (P.position i) (m.data.length : Int) e'.parent.prod.input := by
    rcases hd'.prod with h | h
    · exact h.1
    · exact h.1
  have hskip : ∃ z' r, SubInputStream.skip P e'.parent.prod.input e'.parent.prod.input.size = .ok (z', r) ∧ At P c soft z'.parent [] := by
    rw [hzc'.size]
    by_cases hs : e'.parent.prod.input.status = .error
    · obtain ⟨z', r, k1, k2, _⟩ := SubInputStream.cut_skip_end (j := (m.data.length : Int)) (by rw [hzc'.size]; exact hzc'.left) (hzc'.failed hs)
        (by omega) (by omega) (by rw [hzc'.size]; omega)
      exact ⟨z', r, k1, k2⟩
    · obtain ⟨_, _, hv⟩ := hzc'.healthy hs
      obtain ⟨z', r, k1, _, k2⟩ := SubInputStream.cut_skip (j := (m.data.length : Int)) (by omega) (by omega) hcut hv (by omega) (by omega)
      exact ⟨z', r, k1, k2 (Int.le_refl _)⟩
  obtain ⟨z', r, k1, k2⟩ := hskip
  obtain ⟨i2, k, d, er, _, _, hb2⟩ := k2.read_short (n := 16) (by omega) (by simp)
  obtain ⟨hk3, _, hse⟩ := hb2 rfl
  have hsig : skipSignature P z'.parent = .ok i2 := by
    unfold skipSignature
    simp only
    rw [er]
    simp only [Res.bind_ok]
    rw [if_neg (by omega)]
  refine ends_of_next (Q := fun q => q = i2) (by decide) ⟨hst, i2, ?_, rfl⟩ ?_
  · show leave P D N fuel { s with entry := some (.deflated e'), input := i, info := (m.entry (clock mktime)).info } = _
    unfold leave
    simp only
    rw [k1]
    simp only [Res.bind_ok]
    rw [hsig]
    rfl
  · rintro q rfl
    rw [next, if_pos hse]
    exact ⟨_, rfl, rfl, rfl⟩

end Zip
end Strigi
