import Verif.Proofs.Tar
import Verif.Proofs.Cut

/-!
# tar archives of which the end is missing
-/

namespace Strigi.Tar

open TarSpec

variable {σ : Type} {P : StreamOps σ UInt8} {c : List UInt8} {soft : Prop}

/-- The block that starts here is a header or is cut off. -/
theorem readHeader_block {s : State σ} {head x : List UInt8} (hl : head.length = 512) (hst : s.status = .ok)
    (hA : At P c soft s.input (head ++ x)) :
    (∃ i, readHeader P s = .ok ({ s with input := i }, head) ∧ At P c soft i x) ∨
      (x = [] ∧ ∃ i, readHeader P s = .ok ({ s with input := i, status := .eof }, head) ∧ At P c soft i []) := by
  obtain ⟨i, e, hA', _⟩ := hA.read (n := 512) (by omega) (by omega)
  by_cases hs : P.status i = .eof
  · right
    have hx : x = [] := by
      by_cases hx : x = []
      · exact hx
      · rw [hA'.status_ok hx] at hs; cases hs
    refine ⟨hx, i, ?_, by rw [hx] at hA'; exact hA'⟩
    rw [readHeader, e]
    simp only [Res.bind_ok]
    rw [if_pos (Or.inr hs)]
  · left
    refine ⟨i, ?_, hA'⟩
    rw [readHeader, e]
    simp only [Res.bind_ok]
    rw [if_neg (by simp [hs]), if_neg (by simp)]

/-- Less than a block is left. -/
theorem readHeader_short {s : State σ} {tail : List UInt8} (ht : tail.length < 512) (hA : At P c soft s.input tail) :
    ∃ i d st, readHeader P s = .ok ({ s with input := i, status := st }, d) ∧ st ≠ .ok ∧ At P c soft i [] ∧
      (Prompt P → st = .eof) := by
  obtain ⟨i, k, d, e, hA', h1, h0⟩ := hA.read_short (n := 512) (by omega) (by omega)
  have hk : k ≠ 512 := by
    by_cases hz : tail = []
    · have := (h0 hz).1; omega
    · have := (h1 hz).1; omega
  have hk' : k < 512 := by
    by_cases hz : tail = []
    · have := (h0 hz).1; omega
    · have := (h1 hz).1; omega
  by_cases hs : k = 0 ∨ P.status i = .eof
  · refine ⟨i, d, .eof, ?_, by decide, hA', fun _ => rfl⟩
    rw [readHeader, e]
    simp only [Res.bind_ok]
    rw [if_pos hs]
  · refine ⟨i, d, .error, ?_, by decide, hA', fun hP => ?_⟩
    · rw [readHeader, e]
      simp only [Res.bind_ok]
      rw [if_neg hs, if_pos hk]
    · exfalso
      have a1 := hP _ _ _ _ _ _ (by omega) (Or.inr (Int.le_refl _)) e hk'
      have a2 := hA'.status_ne
      cases h : P.status i with
      | ok => exact a1 h
      | eof => exact hs (Or.inr h)
      | error => exact a2 h

theorem parse_short {s : State σ} {tail : List UInt8} (ht : tail.length < 512) (hA : At P c soft s.input tail) (fuel : Nat) :
    ∃ s', parseHeader P (fuel + 1) s = .ok s' ∧ s'.status = .error ∧ s'.entry = s.entry := by
  obtain ⟨i, d, st, e, h, _⟩ := readHeader_short ht hA
  refine ⟨{ s with input := i, status := .error }, ?_, rfl, rfl⟩
  rw [parseHeader, e]
  simp only [Res.bind_ok]
  rw [if_pos h]

/-- The name and the numbers of an entry whose header has been read. -/
theorem parse_fields {head name : List UInt8} {size mtime padn : Nat} {type : EntryType} (fuel : Nat) (s : State σ) {i : σ}
    (hh : Header head name size mtime type) (hn1 : name ≠ TarSpec.longLink) (hn2 : name ≠ [46, 47]) (hpad : Pads size padn)
    (hst : s.status = .ok) (e : readHeader P s = .ok ({ s with input := i }, head)) :
    parseHeader P (fuel + 1) s = .ok { s with input := i, info := ⟨shownName name, size, mtime, type⟩, padding := padn } := by
  obtain ⟨hn, front, hp⟩ := header_named hh
  obtain ⟨r, hr⟩ := hn.name
  have hname : name ≠ [] := by obtain ⟨_, _, _, _, _, _, _, _, x, _⟩ := hh; exact x
  have hfin : ∀ (nm : List UInt8), nm ≠ [] → stripSlash nm = shownName name →
      finish { s with input := i, info := { s.info with filename := nm } } head =
        .ok { s with input := i, info := ⟨shownName name, size, mtime, type⟩, padding := padn } := by
    intro nm hnm hs
    have := finish_spec (s := { s with input := i, info := { s.info with filename := nm } }) (front := front) (mtime := mtime)
      (type := type) (content := List.replicate size 0) (pad := List.replicate padn 0)
      (head := head) (by rw [List.length_replicate]; exact hp) (by rw [List.length_replicate, List.length_replicate]; exact hpad) hst hnm
    rw [this, hs, List.length_replicate, List.length_replicate]
  rw [parse_begin fuel s hh hst e]
  simp only
  have c1 : ¬ (name.length = 13 ∧ head.take 13 = TarSpec.longLink) := by
    rintro ⟨z1, z2⟩
    apply hn1
    rw [hr, ← z1, List.take_left] at z2
    exact z2
  rw [if_neg c1]
  rcases name with _ | ⟨a, _ | ⟨b, nm⟩⟩
  · exact absurd rfl hname
  · rw [if_neg (by simp)]
    have hs0 : slice head 0 (([a] : List UInt8).length : Int) = [a] := by rw [hr]; simp [slice]
    rw [hs0]
    refine hfin [a] (by simp) ?_
    unfold shownName
    split
    · rename_i heq; simp at heq
    · rfl
  · have htk : head.take 2 = [a, b] := by rw [hr]; rfl
    rw [htk]
    by_cases hab : a = 46 ∧ b = 47
    · obtain ⟨rfl, rfl⟩ := hab
      have hnm : nm ≠ [] := fun z => hn2 (by rw [z])
      have : 0 < nm.length := List.length_pos_iff.mpr hnm
      rw [if_pos ⟨by simp, rfl⟩, if_neg (by simp only [List.length_cons]; omega)]
      have hs0 : slice head 2 (((46 :: 47 :: nm : List UInt8).length : Int) - 2) = nm := by
        have e3 : (((46 :: 47 :: nm : List UInt8).length : Int) - 2) = nm.length := by
          simp only [List.length_cons]; omega
        rw [hr, e3]; simp [slice]
      rw [hs0]
      exact hfin nm hnm rfl
    · have hc2 : ¬ ((a :: b :: nm : List UInt8).length > 1 ∧ ([a, b] : List UInt8) = [46, 47]) := by
        rintro ⟨_, z⟩
        rw [List.cons.injEq, List.cons.injEq] at z
        exact hab ⟨z.1, z.2.1⟩
      rw [if_neg hc2]
      have hs0 : slice head 0 ((a :: b :: nm : List UInt8).length : Int) = a :: b :: nm := by
        unfold slice
        rw [hr, Int.toNat_natCast, Int.toNat_zero, List.drop_zero, List.take_left]
      rw [hs0]
      refine hfin _ (by simp) ?_
      unfold shownName
      split
      · rename_i l' heq
        simp only [List.cons.injEq] at heq
        exact absurd ⟨heq.1, heq.2.1⟩ hab
      · rfl

/-- The header of an entry, or the end of the archive if nothing follows it and the stream says so. -/
theorem parse_entry {head name x : List UInt8} {size mtime padn : Nat} {type : EntryType} (fuel : Nat) (s : State σ)
    (hh : Header head name size mtime type) (hn1 : name ≠ TarSpec.longLink) (hn2 : name ≠ [46, 47]) (hpad : Pads size padn)
    (hst : s.status = .ok) (hA : At P c soft s.input (head ++ x)) :
    (∃ i, At P c soft i x ∧ parseHeader P (fuel + 1) s =
      .ok { s with input := i, info := ⟨shownName name, size, mtime, type⟩, padding := padn }) ∨
    (x = [] ∧ ∃ s', parseHeader P (fuel + 1) s = .ok s' ∧ s'.status = .error ∧ s'.entry = s.entry) := by
  obtain ⟨hn, front, hp⟩ := header_named hh
  rcases readHeader_block hp.len hst hA with ⟨i, e, hA'⟩ | ⟨hx, i, e, hA'⟩
  · exact Or.inl ⟨i, hA', parse_fields fuel s hh hn1 hn2 hpad hst e⟩
  · refine Or.inr ⟨hx, { s with input := i, status := .error }, ?_, rfl, rfl⟩
    rw [parseHeader, e]
    simp only [Res.bind_ok]
    rw [if_pos (by decide)]

/-- The members for the current directory itself are passed over. -/
theorem parse_dots {tail bytes : List UInt8} (ht : tail ≠ []) {l : List ArchiveEntry} (h : Archive tail l bytes) (hl : l = []) :
    ∀ fuel, bytes.length < fuel → ∀ s : State σ, s.status = .ok → At P c soft s.input bytes →
      ∃ fuel' s1, tail.length < fuel' ∧ s1.status = .ok ∧ s1.entry = s.entry ∧ At P c soft s1.input tail ∧
        parseHeader P fuel s = parseHeader P fuel' s1 := by
  induction h with
  | done => intro fuel hf s hst hA; exact ⟨fuel, s, hf, hst, rfl, hA, rfl⟩
  | entry => cases hl
  | long => cases hl
  | @dot head rest l size mtime type hh hrest ih =>
    intro fuel hf s hst hA
    obtain ⟨fuel, rfl⟩ : ∃ f, fuel = f + 1 := ⟨fuel - 1, by omega⟩
    obtain ⟨hn, front, hp⟩ := header_named hh
    obtain ⟨r, hr⟩ := hn.name
    obtain ⟨i, hA', e⟩ := parse_start fuel s hh (archive_ne_nil ht hrest) hst hA
    have hlen := hp.len
    obtain ⟨f', s1, h1, h2, h3, h4, h5⟩ := ih hl fuel (by simp only [List.length_append] at hf; omega)
      { s with input := i, info := { s.info with filename := [] } } hst hA'
    refine ⟨f', s1, h1, h2, h3, h4, ?_⟩
    rw [e]
    simp only
    rw [if_neg (by simp), if_pos ⟨by simp, by rw [hr]; rfl⟩, if_pos (by simp)]
    exact h5

/-- The complete entries have been presented. -/
def Before (P : StreamOps σ UInt8) (c : List UInt8) (soft : Prop) (fuel : Nat) (tail : List UInt8) (s : State σ) : Prop :=
  ∃ bytes, Archive tail [] bytes ∧ bytes.length < fuel ∧ Ready P c soft s bytes

theorem presentsThen {tail : List UInt8} (ht : tail ≠ [])
    (hend : ∀ (fuel : Nat) (s : State σ), tail.length < fuel → s.status = .ok → At P c soft s.input tail →
      ∃ s', parseHeader P fuel s = .ok s' ∧ s'.entry = s.entry) :
    ∀ (l : List ArchiveEntry) {fuel : Nat} {bytes : List UInt8} (s : State σ),
    Archive tail l bytes → bytes.length < fuel → Ready P c soft s bytes →
    PresentsThen (ops P fuel) Failure.never soft (Before P c soft fuel tail) s l := by
  intro l
  induction l with
  | nil => intro fuel bytes s hArch hf hR; exact ⟨bytes, hArch, hf, hR⟩
  | cons a l ih =>
    intro fuel bytes s hArch hf hR
    obtain ⟨hst, input, el, hA⟩ := hR
    obtain ⟨s', e, hent, hN⟩ := parseHeader_spec (E := fun _ => True) ht
      (fun f s h1 h2 h3 => by obtain ⟨s', x, y⟩ := hend f s h1 h2 h3; exact ⟨s', x, trivial, y⟩)
      hArch fuel hf { s with entry := none, input := input } hst hA
    obtain ⟨hst', hinfo, hsz, hlt, pad, rest, hAt, hpd, hpl, hrest, hK⟩ := hN
    obtain ⟨es, en, hessz, hpos, hI, hU⟩ := hAt.sub_skip (n := (a.content.length : Int)) rfl (by omega)
    refine ⟨{ s' with entry := some es }, es, ?_, rfl, hinfo, hst', hpos,
      by simp only [ops, SubInputStream.ops]; omega, hI, ?_⟩
    · simp only [ops]
      rw [nextEntry, if_neg (by simp [hst]), el]
      simp only [Res.bind_ok]
      rw [e]
      simp only [Res.bind_ok]
      rw [if_neg (by simp [hst']), hinfo, hsz, if_pos (by omega), en]
      simp only [Res.bind_ok]
    · intro es' lo hi hu
      obtain ⟨e2, r2, x1, x2, x3, x4⟩ := hU es' lo hi hu
      obtain ⟨i3, r3, x5, x6, _, _⟩ := x3.skip (n := (pad.length : Int)) rfl (by omega)
      refine ih (bytes := rest) _ hrest (by omega) ⟨hst', i3, ?_, x6⟩
      simp only [ops, leave]
      rw [x1]
      simp only [Res.bind_ok]
      rw [hpd, x5]
      simp only [Res.bind_ok]

/-- `nextEntry()` finds nothing. -/
theorem ends {fuel : Nat} {s s' : State σ} {st : Status} (hst : s.status = .ok) {input : σ}
    (el : leave P s = .ok { s with entry := none, input := input })
    (e : parseHeader P fuel { s with entry := none, input := input } = .ok s') (h1 : s'.status = st) (h2 : st ≠ .ok)
    (h3 : s'.entry = none) : EndsWith (ops P fuel) st s := by
  refine ⟨s', ?_, h3, h1, ?_⟩
  · simp only [ops]
    rw [nextEntry, if_neg (by simp [hst]), el]
    simp only [Res.bind_ok]
    rw [e]
    simp only [Res.bind_ok]
    rw [if_pos (by rw [h1]; exact h2)]
  · simp only [ops]
    rw [nextEntry, if_pos (by rw [h1]; exact h2)]

/-- The entry is left and at most padding follows. -/
theorem ends_left {fuel : Nat} (hf : 1 ≤ fuel) {s : State σ} {e e' : SubInputStream σ} {r : Int} {x : List UInt8}
    (hst : s.status = .ok) (he : s.entry = some e) (h0 : 0 ≤ s.padding) (h1 : s.padding < 512)
    (hs : SubInputStream.skip P e e.size = .ok (e', r)) (hA : At P c soft e'.parent x) (hx : (x.length : Int) ≤ s.padding) :
    EndsWith (ops P fuel) .error s := by
  obtain ⟨f, rfl⟩ : ∃ f, fuel = f + 1 := ⟨fuel - 1, by omega⟩
  obtain ⟨i, r2, ei, hA', _⟩ := hA.skip_short (n := s.padding) hx (by omega)
  obtain ⟨s', e1, e2, e3⟩ := parse_short (s := { s with entry := none, input := i }) (by simp) hA' f
  refine ends (input := i) hst ?_ e1 e2 (by decide) e3
  rw [leave, he]
  simp only
  rw [hs]
  simp only [Res.bind_ok]
  rw [ei]
  simp only [Res.bind_ok]

/-- The next entry has the information `info`, and `x` is what follows its header. -/
def Opens (P : StreamOps σ UInt8) (c : List UInt8) (soft : Prop) (fuel : Nat) (info : EntryInfo) (padn : Nat) (x : List UInt8)
    (s : State σ) : Prop :=
  s.status = .ok ∧ ∃ input i, leave P s = .ok { s with entry := none, input := input } ∧ At P c soft i x ∧
    parseHeader P fuel { s with entry := none, input := input } =
      .ok { s with entry := none, input := i, info := info, padding := padn }

theorem Opens.next {fuel : Nat} {s : State σ} {info : EntryInfo} {padn : Nat} {x : List UInt8}
    (h : Opens P c soft fuel info padn x s) (h0 : 0 ≤ info.size) :
    ∃ i, At P c soft i x ∧ ∀ e, SubInputStream.new P i info.size = .ok e →
      nextEntry P fuel s = .ok { s with entry := some e, input := i, info := info, padding := padn } := by
  obtain ⟨hst, input, i, el, hA, ep⟩ := h
  refine ⟨i, hA, fun e en => ?_⟩
  rw [nextEntry, if_neg (by simp [hst]), el]
  simp only [Res.bind_ok]
  rw [ep]
  simp only [Res.bind_ok]
  rw [if_neg (by simp [hst]), if_pos h0, en]
  simp only [Res.bind_ok]

/-- The content is cut off. -/
theorem shows_part {fuel : Nat} (hf : 1 ≤ fuel) {s : State σ} {info : EntryInfo} {padn size : Nat} {x : List UInt8}
    (hsz : info.size = size) (hlt : size < 2 ^ 31) (hpad : padn < 512) (hx : x.length < size)
    (h : Opens P c soft fuel info padn x s) : ShowsPart (ops P fuel) soft info x .error s := by
  have hst := h.1
  obtain ⟨i, hA, en⟩ := h.next (by omega)
  rw [hsz] at en
  obtain ⟨e, e1, e2, e3, e4, e5, e6⟩ := hA.sub_cut (n := (size : Int)) (by omega) (by omega)
  refine ⟨_, e, en e e1, rfl, rfl, hst, e3, by simp only [ops, SubInputStream.ops]; omega, e5, fun e' lo hi hu => ?_⟩
  obtain ⟨f1, f2, f3, e7, r7, e8, r8, g1, g2, g3, g4, g5, g6⟩ := e6 e' lo hi hu
  refine ⟨f2, ends_left hf hst rfl ?_ ?_ (e' := e7) (r := r7) (by rw [f1]; exact g1) g2 ?_⟩
  · simp only [ops]; omega
  · simp only [ops]; omega
  · simp only [ops, List.length_nil]; omega

/-- The content is there. -/
theorem shows_all {fuel : Nat} (hf : 1 ≤ fuel) {s : State σ} {info : EntryInfo} {padn : Nat} {content x : List UInt8}
    (hsz : info.size = content.length) (hlt : content.length < 2 ^ 31) (hpad : padn < 512) (hx : x.length ≤ padn)
    (h : Opens P c soft fuel info padn (content ++ x) s) :
    PresentsThen (ops P fuel) Failure.never soft (EndsWith (ops P fuel) .error) s [⟨info, content⟩] := by
  have hst := h.1
  obtain ⟨i, hA, en⟩ := h.next (by omega)
  rw [hsz] at en
  obtain ⟨e, e1, e2, e3, e5, e6⟩ := hA.sub_skip (n := (content.length : Int)) rfl (by omega)
  refine ⟨_, e, en e e1, rfl, rfl, hst, e3, by simp only [ops, SubInputStream.ops]; omega, e5, fun e' lo hi hu => ?_⟩
  obtain ⟨e9, r9, g1, g2, g3, g4⟩ := e6 e' lo hi hu
  refine ends_left hf hst rfl ?_ ?_ (e' := e9) (r := r9) g1 g3 ?_
  · simp only [ops]; omega
  · simp only [ops]; omega
  · simp only [ops]; omega

/-- The name of an entry with a long name is cut off. -/
theorem parse_long_short {head x : List UInt8} {size padn mtime : Nat} {type : EntryType} (fuel : Nat) (s : State σ)
    (hh : Header head TarSpec.longLink size mtime type) (hs0 : size ≠ 0) (hpad : Pads size padn) (hx : x.length < size + padn)
    (hst : s.status = .ok) (hA : At P c soft s.input (head ++ x)) :
    ∃ s', parseHeader P (fuel + 1) s = .ok s' ∧ s'.status = .error ∧ s'.entry = s.entry := by
  obtain ⟨hn, front, hp⟩ := header_named hh
  obtain ⟨r, hr⟩ := hn.name
  rcases readHeader_block hp.len hst hA with ⟨i, e, hA'⟩ | ⟨hx, i, e, hA'⟩
  · rw [parse_begin fuel s hh hst e]
    simp only
    rw [if_pos ⟨rfl, by rw [hr]; rfl⟩]
    have hl : ∃ s', readLongLink P { s with input := i, info := { s.info with filename := [] } } head = .ok s' ∧
        s'.status = .error ∧ s'.entry = s.entry := by
      unfold readLongLink readOctalField
      rw [show (124 : Int).toNat = 124 from rfl, hp.size]
      simp only [Res.bind_ok]
      rw [if_neg (by simp [hst])]
      by_cases hc : x.length < size
      · obtain ⟨i2, k, d, e2, hA2, h1, h0⟩ := hA'.read_short (n := (size : Int)) (by omega) (by omega)
        have hk : k ≠ (size : Int) := by
          by_cases hz : x = []
          · have := (h0 hz).1; omega
          · have := (h1 hz).1; omega
        rw [e2]
        simp only [Res.bind_ok]
        rw [if_pos hk]
        exact ⟨_, rfl, rfl, rfl⟩
      · rw [← List.take_append_drop size x] at hA'
        have htl : (x.take size).length = size := by rw [List.length_take]; omega
        have hdl : (x.drop size).length < padn := by rw [List.length_drop]; omega
        obtain ⟨i2, e2, hA2, _⟩ := hA'.read (n := (size : Int)) (by omega) (by omega)
        have hleft : (if (size : Int).tmod 512 ≠ 0 then 512 - (size : Int).tmod 512 else 0) = (padn : Int) := left_spec hpad
        have hp512 := hpad.1
        have hr2 := hA2.range
        obtain ⟨⟨lo, hi, hb⟩, hd⟩ := hA2
        obtain ⟨i3, r3, e3, r3', g3⟩ := (Contract.of_behaves P c Failure.never soft).skip hb (k := (padn : Int)) (by omega) (by omega)
        have hne : r3 ≠ (padn : Int) := by
          cases r3' with
          | skipped adv res st => rcases res with y | ⟨y, _, _⟩ <;> omega
          | failed a _ => exact absurd a id
        rw [e2]
        simp only [Res.bind_ok]
        rw [if_neg (by simp), hleft, e3]
        simp only [Res.bind_ok]
        rw [if_pos hne]
        exact ⟨_, rfl, rfl, rfl⟩
    obtain ⟨s', e1, e2, e3⟩ := hl
    rw [e1]
    simp only [Res.bind_ok]
    rw [if_pos (by rw [e2]; decide)]
    exact ⟨s', rfl, e2, e3⟩
  · refine ⟨{ s with input := i, status := .error }, ?_, rfl, rfl⟩
    rw [parseHeader, e]
    simp only [Res.bind_ok]
    rw [if_pos (by decide)]

/-- The name of an entry with a long name is there. -/
theorem parse_long_end {head longName pad1 y : List UInt8} {size mtime : Nat} {type : EntryType} (fuel : Nat) (s : State σ)
    (hh : Header head TarSpec.longLink size mtime type) (hsize : size = longName.length) (hlne : longName ≠ [])
    (hpad : Pads longName.length pad1.length)
    (hst : s.status = .ok) (hA : At P c soft s.input (head ++ longName ++ pad1 ++ y)) :
    (∃ i, At P c soft i y ∧ parseHeader P (fuel + 1) s = (do
      let (s, hb) ← readHeader P { s with input := i, info := { s.info with filename := longName } }
      if s.status ≠ .ok then .ok s else finish s hb)) ∨
    (y = [] ∧ ∃ s', parseHeader P (fuel + 1) s = .ok s' ∧ s'.status = .error ∧ s'.entry = s.entry) := by
  obtain ⟨hn, front1, hp⟩ := header_named hh
  obtain ⟨r, hr⟩ := hn.name
  subst hsize
  rw [show head ++ longName ++ pad1 ++ y = head ++ (longName ++ (pad1 ++ y)) by simp] at hA
  obtain ⟨i, hA', e⟩ := parse_start fuel s hh
    (by intro z; simp only [List.append_eq_nil_iff] at z; exact hlne z.1) hst hA
  have hsz1 : longName.length < 2 ^ 31 := by
    obtain ⟨_, _, _, _, _, _, ⟨_, _, _, _, _, _, _, x, _⟩, _⟩ := hh; exact x
  have hl1 := List.length_pos_iff.mpr hlne
  obtain ⟨i2, e2, hA2, _⟩ := hA'.read (n := (longName.length : Int)) rfl (by omega)
  have hpl := hpad.1
  obtain ⟨i3, r3, e3, hA3, _, hr3⟩ := hA2.skip (n := (pad1.length : Int)) rfl (by omega)
  by_cases hr : r3 = (pad1.length : Int)
  · subst hr
    refine Or.inl ⟨i3, hA3, ?_⟩
    rw [e]
    simp only
    have hlong : readLongLink P { s with input := i, info := { s.info with filename := [] } } head =
        .ok { s with input := i3, info := { s.info with filename := longName } } := by
      unfold readLongLink readOctalField
      rw [show (124 : Int).toNat = 124 from rfl, hp.size]
      simp only [Res.bind_ok]
      rw [if_neg (by simp [hst]), e2]
      simp only [Res.bind_ok]
      rw [if_neg (by simp), left_spec hpad, e3]
      simp only [Res.bind_ok]
      rw [if_neg (by simp), slice_all]
      rfl
    rw [if_pos ⟨rfl, by rw [‹head = _›]; rfl⟩, hlong]
    simp only [Res.bind_ok]
    rw [if_neg (by simp [hst])]
  · refine Or.inr ⟨?_, { s with input := i3, info := { s.info with filename := longName }, status := .error }, ?_, rfl, rfl⟩
    · by_cases hy : y = []
      · exact hy
      · exact absurd (hr3 (Or.inl hy)) hr
    rw [e]
    simp only
    have hlong : readLongLink P { s with input := i, info := { s.info with filename := [] } } head =
        .ok { s with input := i3, info := { s.info with filename := longName }, status := .error } := by
      unfold readLongLink readOctalField
      rw [show (124 : Int).toNat = 124 from rfl, hp.size]
      simp only [Res.bind_ok]
      rw [if_neg (by simp [hst]), e2]
      simp only [Res.bind_ok]
      rw [if_neg (by simp), left_spec hpad, e3]
      simp only [Res.bind_ok]
      rw [if_pos hr, slice_all]
      rfl
    rw [if_pos ⟨rfl, by rw [‹head = _›]; rfl⟩, hlong]
    simp only [Res.bind_ok]
    rw [if_pos (by simp)]

theorem parse_long_name {head longName pad1 y : List UInt8} {size mtime : Nat} {type : EntryType} (fuel : Nat) (s : State σ)
    (hh : Header head TarSpec.longLink size mtime type) (hsize : size = longName.length) (hlne : longName ≠ [])
    (hpad : Pads longName.length pad1.length) (hy : y ≠ [])
    (hst : s.status = .ok) (hA : At P c soft s.input (head ++ longName ++ pad1 ++ y)) :
    ∃ i, At P c soft i y ∧ parseHeader P (fuel + 1) s = (do
      let (s, hb) ← readHeader P { s with input := i, info := { s.info with filename := longName } }
      if s.status ≠ .ok then .ok s else finish s hb) := by
  rcases parse_long_end fuel s hh hsize hlne hpad hst hA with h | h
  · exact h
  · exact absurd h.1 hy

/-- Blocks of NULs of which less than two are there. -/
theorem parse_zeros {j : Nat} (hj : j < 1024) (fuel : Nat) (s : State σ) (hst : s.status = .ok)
    (hA : At P c soft s.input (List.replicate j 0)) :
    ∃ s', parseHeader P (fuel + 2) s = .ok s' ∧ s'.status = .error ∧ s'.entry = s.entry := by
  by_cases h : j < 512
  · exact parse_short (by rw [List.length_replicate]; exact h) hA (fuel + 1)
  · have hz : (slice (List.replicate 512 (0 : UInt8)) 0 512).all (· = 0) = true := by
      rw [List.all_eq_true]
      intro b hb
      unfold slice at hb
      have := List.mem_of_mem_drop (List.mem_of_mem_take hb)
      rw [List.mem_replicate] at this
      simp [this.2]
    rw [show j = 512 + (j - 512) by omega, ← List.replicate_append_replicate] at hA
    rcases readHeader_block (by rw [List.length_replicate]) hst hA with ⟨i, e, hA'⟩ | ⟨hx, i, e, hA'⟩
    · rw [parseHeader, e]
      simp only [Res.bind_ok]
      rw [if_neg (by simp [hst]), if_pos hz]
      obtain ⟨i2, d, st, e2, h2, hA2, _⟩ := readHeader_short (s := { s with input := i }) (by rw [List.length_replicate]; omega) hA'
      rw [zeroBlocks, e2]
      simp only [Res.bind_ok]
      by_cases hst2 : st = .eof
      · rw [if_pos ⟨by omega, hst2⟩]; exact ⟨_, rfl, rfl, rfl⟩
      · rw [if_neg (fun z => hst2 z.2), if_pos h2]
        refine ⟨_, rfl, ?_, rfl⟩
        simp only
        cases st with
        | ok => exact absurd rfl h2
        | eof => exact absurd rfl hst2
        | error => rfl
    · refine ⟨{ s with input := i, status := .error }, ?_, rfl, rfl⟩
      rw [parseHeader, e]
      simp only [Res.bind_ok]
      rw [if_pos (by decide)]

/-- What happens at `tail` happens after the complete entries. -/
theorem Before.ends {tail : List UInt8} (ht : tail ≠ []) {st : Status} (hst : st ≠ .ok) {fuel : Nat} {s : State σ}
    (hend : ∀ (fuel : Nat) (s : State σ), tail.length < fuel → s.status = .ok → At P c soft s.input tail →
      ∃ s', parseHeader P fuel s = .ok s' ∧ s'.status = st ∧ s'.entry = s.entry)
    (h : Before P c soft fuel tail s) : EndsWith (ops P fuel) st s := by
  obtain ⟨bytes, hArch, hf, hs, input, el, hA⟩ := h
  obtain ⟨f', s1, h1, h2, h3, h4, h5⟩ := parse_dots ht hArch rfl fuel hf { s with entry := none, input := input } hs hA
  obtain ⟨s', e1, e2, e3⟩ := hend f' s1 h1 h2 h4
  exact Tar.ends hs el (h5.trans e1) e2 hst (e3.trans h3)

theorem ends_presents {tail : List UInt8} (ht : tail ≠ []) {st : Status} (hst : st ≠ .ok) {fuel : Nat} {s : State σ}
    (hend : ∀ (fuel : Nat) (s : State σ), tail.length < fuel → s.status = .ok → At P c soft s.input tail →
      ∃ s', parseHeader P fuel s = .ok s' ∧ s'.status = st ∧ s'.entry = s.entry)
    {l : List ArchiveEntry} {bytes : List UInt8} (ha : Archive tail l bytes) (hf : bytes.length < fuel) (hR : Ready P c soft s bytes) :
    Presents (ops P fuel) Failure.never soft st s l :=
  presents ht hst hend l s ha hf hR

/-- A complete header, or a long name and a complete header, is read if something follows. -/
theorem parse_intro {pre x : List UInt8} {info : EntryInfo} {padn size : Nat} (hI : Intro pre info) (hsz : info.size = size)
    (hpad : Pads size padn) (hx : x ≠ []) (fuel : Nat) (s : State σ) (hst : s.status = .ok)
    (hA : At P c soft s.input (pre ++ x)) :
    ∃ i, At P c soft i x ∧ parseHeader P (fuel + 1) s = .ok { s with input := i, info := info, padding := padn } := by
  cases hI with
  | @plain _ name size' mtime type hh h1 h2 =>
    have : size' = size := by simp only at hsz; omega
    subst this
    rcases parse_entry fuel s hh h1 h2 hpad hst hA with h | h
    · exact h
    · exact absurd h.1 hx
  | @long head1 head2 front back longName pad1 size1 size' mtime1 type1 mtime type hh h1 h2 h3 h4 =>
    have : size' = size := by simp only at hsz; omega
    subst this
    have hp := fields_parts h4
    rw [show head1 ++ longName ++ pad1 ++ head2 ++ x = head1 ++ longName ++ pad1 ++ (head2 ++ x) by simp] at hA
    obtain ⟨i, hA', e⟩ := parse_long_name fuel s hh h1 h2 h3 (by simp [hx]) hst hA
    rcases readHeader_block (s := { s with input := i, info := { s.info with filename := longName } }) hp.len hst hA' with
      ⟨j, ej, hAj⟩ | ⟨hx', _⟩
    · refine ⟨j, hAj, ?_⟩
      rw [e, ej]
      simp only [Res.bind_ok]
      rw [if_neg (by simp [hst])]
      have hl : (List.replicate size' (0 : UInt8)).length = size' := List.length_replicate
      have hl2 : (List.replicate padn (0 : UInt8)).length = padn := List.length_replicate
      have := finish_spec (s := { s with input := j, info := { s.info with filename := longName } })
        (content := List.replicate size' 0) (pad := List.replicate padn 0) (by rw [hl]; exact hp) (by rw [hl, hl2]; exact hpad) hst h2
      rw [hl, hl2] at this
      exact this
    · exact absurd hx' hx

theorem intro_ne_nil {pre : List UInt8} {info : EntryInfo} (hI : Intro pre info) : pre ≠ [] := by
  cases hI with
  | plain hh _ _ =>
    obtain ⟨hn, front, hp⟩ := header_named hh
    have := hp.len
    intro z; rw [z] at this; simp at this
  | long hh _ h2 _ _ => intro z; simp only [List.append_eq_nil_iff] at z; exact h2 z.1.1.2

theorem intro_size {pre : List UInt8} {info : EntryInfo} (hI : Intro pre info) : ∃ size : Nat, info.size = size ∧ size < 2 ^ 31 := by
  cases hI with
  | plain hh _ _ =>
    obtain ⟨_, _, _, _, _, _, ⟨_, _, _, _, _, _, _, x, _⟩, _⟩ := hh
    exact ⟨_, rfl, x⟩
  | long _ _ _ _ h =>
    obtain ⟨_, _, _, _, _, _, _, x, _⟩ := h
    exact ⟨_, rfl, x⟩

theorem Before.opens {pre x : List UInt8} {info : EntryInfo} {padn size : Nat} (hI : Intro pre info) (hsz : info.size = size)
    (hpad : Pads size padn) (hx : x ≠ []) {fuel : Nat} {s : State σ} (h : Before P c soft fuel (pre ++ x) s) :
    Opens P c soft fuel info padn x s := by
  obtain ⟨bytes, hArch, hf, hs, input, el, hA⟩ := h
  obtain ⟨f', s1, h1, h2, h3, h4, h5⟩ := parse_dots (by simp [hx]) hArch rfl fuel hf { s with entry := none, input := input } hs hA
  obtain ⟨f', rfl⟩ : ∃ f, f' = f + 1 := ⟨f' - 1, by omega⟩
  obtain ⟨i, hAi, e⟩ := parse_intro hI hsz hpad hx f' s1 h2 h4
  refine ⟨hs, input, i, el, hAi, ?_⟩
  rw [h5, e]
  obtain ⟨⟨a1, a2, a3, a4⟩, a5⟩ := s1
  simp only at h2 h3
  subst h2 h3
  simp only [hs]

/-- Any number of NULs ends the archive. -/
theorem zeroBlocks_any : ∀ (fuel : Nat) (j : Nat) (n : Int) (s : State σ), s.status = .ok → j < fuel → 0 ≤ n →
    At P c soft s.input (List.replicate j 0) →
    ∃ s', zeroBlocks P fuel n s = .ok s' ∧ s'.status ≠ .ok ∧ s'.entry = s.entry := by
  intro fuel
  induction fuel with
  | zero => intro j n s _ h; omega
  | succ fuel ih =>
    intro j n s hst hf hn hA
    by_cases h : j < 512
    · obtain ⟨i, d, st, e, h2, _⟩ := readHeader_short (s := s) (by rw [List.length_replicate]; exact h) hA
      rw [zeroBlocks, e]
      simp only [Res.bind_ok]
      by_cases h1 : n + 1 = 1 ∧ st = .eof
      · rw [if_pos h1]; exact ⟨_, rfl, by simp, rfl⟩
      · rw [if_neg h1, if_pos h2]; exact ⟨_, rfl, h2, rfl⟩
    · rw [show j = 512 + (j - 512) by omega, ← List.replicate_append_replicate] at hA
      rcases readHeader_block (by rw [List.length_replicate]) hst hA with ⟨i, e, hA'⟩ | ⟨hx, i, e, hA'⟩
      · rw [zeroBlocks, e]
        simp only [Res.bind_ok]
        have hz : (slice (List.replicate 512 (0 : UInt8)) 0 512).all (· = 0) = true := by
          rw [List.all_eq_true]
          intro b hb
          unfold slice at hb
          have := List.mem_of_mem_drop (List.mem_of_mem_take hb)
          rw [List.mem_replicate] at this
          simp [this.2]
        rw [if_neg (by simp [hst]), if_neg (by simp [hst]), if_pos hz]
        exact ih (j - 512) (n + 1) { s with input := i } hst (by omega) (by omega) hA'
      · rw [zeroBlocks, e]
        simp only [Res.bind_ok]
        by_cases h1 : n + 1 = 1 ∧ True
        · rw [if_pos h1]; exact ⟨_, rfl, by simp, rfl⟩
        · rw [if_neg h1, if_pos (by decide)]; exact ⟨_, rfl, by simp, rfl⟩

theorem parse_zeros_any {j : Nat} (fuel : Nat) (s : State σ) (hf : j < fuel) (hst : s.status = .ok)
    (hA : At P c soft s.input (List.replicate j 0)) :
    ∃ s', parseHeader P fuel s = .ok s' ∧ s'.status ≠ .ok ∧ s'.entry = s.entry := by
  obtain ⟨fuel, rfl⟩ : ∃ f, fuel = f + 1 := ⟨fuel - 1, by omega⟩
  by_cases h : j < 512
  · obtain ⟨s', h1, h2, h3⟩ := parse_short (by rw [List.length_replicate]; exact h) hA fuel
    exact ⟨s', h1, by rw [h2]; decide, h3⟩
  · rw [show j = 512 + (j - 512) by omega, ← List.replicate_append_replicate] at hA
    rcases readHeader_block (by rw [List.length_replicate]) hst hA with ⟨i, e, hA'⟩ | ⟨hx, i, e, hA'⟩
    · rw [parseHeader, e]
      simp only [Res.bind_ok]
      have hz : (slice (List.replicate 512 (0 : UInt8)) 0 512).all (· = 0) = true := by
        rw [List.all_eq_true]
        intro b hb
        unfold slice at hb
        have := List.mem_of_mem_drop (List.mem_of_mem_take hb)
        rw [List.mem_replicate] at this
        simp [this.2]
      rw [if_neg (by simp [hst]), if_pos hz]
      exact zeroBlocks_any fuel (j - 512) 0 { s with input := i } hst (by omega) (by omega) hA'
    · refine ⟨{ s with input := i, status := .error }, ?_, by simp, rfl⟩
      rw [parseHeader, e]
      simp only [Res.bind_ok]
      rw [if_pos (by decide)]

/-- A header, or a long name and a header, with which the input ends: it is read, or taken for the end. -/
theorem parse_intro_end {pre : List UInt8} {info : EntryInfo} {padn size : Nat} (hI : Intro pre info) (hsz : info.size = size)
    (hpad : Pads size padn) (fuel : Nat) (s : State σ) (hst : s.status = .ok)
    (hA : At P c soft s.input pre) :
    (∃ i, At P c soft i [] ∧ parseHeader P (fuel + 1) s = .ok { s with input := i, info := info, padding := padn }) ∨
    (∃ s', parseHeader P (fuel + 1) s = .ok s' ∧ s'.status ≠ .ok ∧ s'.entry = s.entry) := by
  cases hI with
  | @plain _ name size' mtime type hh h1 h2 =>
    have : size' = size := by simp only at hsz; omega
    subst this
    rcases parse_entry (x := []) fuel s hh h1 h2 hpad hst (by rw [List.append_nil]; exact hA) with h | ⟨_, s', h1, h2, h3⟩
    · exact Or.inl h
    · exact Or.inr ⟨s', h1, by rw [h2]; decide, h3⟩
  | @long head1 head2 front back longName pad1 size1 size' mtime1 type1 mtime type hh h1 h2 h3 h4 =>
    have : size' = size := by simp only at hsz; omega
    subst this
    have hp := fields_parts h4
    obtain ⟨i, hA', e⟩ := parse_long_name fuel s hh h1 h2 h3
      (by intro z; have := hp.len; rw [z] at this; simp at this) hst hA
    rcases readHeader_block (x := []) (s := { s with input := i, info := { s.info with filename := longName } }) hp.len hst
        (by rw [List.append_nil]; exact hA') with
      ⟨j, ej, hAj⟩ | ⟨hx', j, ej, hAj⟩
    · refine Or.inl ⟨j, hAj, ?_⟩
      rw [e, ej]
      simp only [Res.bind_ok]
      rw [if_neg (by simp [hst])]
      have hl : (List.replicate size' (0 : UInt8)).length = size' := List.length_replicate
      have hl2 : (List.replicate padn (0 : UInt8)).length = padn := List.length_replicate
      have := finish_spec (s := { s with input := j, info := { s.info with filename := longName } })
        (content := List.replicate size' 0) (pad := List.replicate padn 0) (by rw [hl]; exact hp) (by rw [hl, hl2]; exact hpad) hst h2
      rw [hl, hl2] at this
      exact this
    · refine Or.inr ⟨{ s with input := j, info := { s.info with filename := longName }, status := .eof }, ?_, by simp, rfl⟩
      rw [e, ej]
      simp only [Res.bind_ok]
      rw [if_pos (by decide)]

/-- What is left of an archive behind the complete entries, if it is cut off; `next` is the entry that follows them. -/
inductive Rest (next : Option ArchiveEntry) : List UInt8 → Prop
  | short {x} : x.length < 512 → Rest next x
  | zeros (j) : Rest next (List.replicate j 0)
  | dot {head size mtime type} : Header head [46, 47] size mtime type → Rest next head
  | part {pre e x y} : next = some e → Intro pre e.info → e.info.size = e.content.length → e.content = x ++ y → y ≠ [] →
      Rest next (pre ++ x)
  | all {pre e x padn} : next = some e → Intro pre e.info → e.info.size = e.content.length → Pads e.content.length padn →
      x.length ≤ padn → Rest next (pre ++ (e.content ++ x))
  | name {head x size padn mtime type} : Header head TarSpec.longLink size mtime type → size ≠ 0 → Pads size padn →
      x.length < size + padn → Rest next (head ++ x)
  | second {head longName pad1 y size mtime type} : Header head TarSpec.longLink size mtime type → size = longName.length →
      longName ≠ [] → Pads longName.length pad1.length → y.length < 512 → Rest next (head ++ longName ++ pad1 ++ y)

/-- `parseHeader` ends the iteration, or finds the entry `next` of which a part may be missing. -/
def Verdict (P : StreamOps σ UInt8) (c : List UInt8) (soft : Prop) (next : Option ArchiveEntry) (s s' : State σ) : Prop :=
  (s'.status ≠ .ok ∧ s'.entry = s.entry) ∨
  ∃ (e : ArchiveEntry) (i : σ) (padn : Nat) (x : List UInt8), next = some e ∧ s' = { s with input := i, info := e.info, padding := padn } ∧ At P c soft i x ∧
    (e.info.size = e.content.length ∧ e.content.length < 2 ^ 31 ∧ Pads e.content.length padn) ∧
    ((∃ y, e.content = x ++ y ∧ y ≠ []) ∨ ∃ y, x = e.content ++ y ∧ y.length ≤ padn)

theorem pads_exist (n : Nat) : ∃ p, Pads n p := ⟨(512 - n % 512) % 512, by omega, by omega⟩

theorem Rest.verdict {next : Option ArchiveEntry} {tail : List UInt8} (h : Rest next tail) (ht : tail ≠ []) (fuel : Nat) (s : State σ)
    (hf : tail.length < fuel) (hst : s.status = .ok) (hA : At P c soft s.input tail) :
    ∃ s', parseHeader P fuel s = .ok s' ∧ Verdict P c soft next s s' := by
  have hl := List.length_pos_iff.mpr ht
  obtain ⟨fuel, rfl⟩ : ∃ f, fuel = f + 1 + 1 := ⟨fuel - 2, by omega⟩
  cases h with
  | short h =>
    obtain ⟨s', h1, h2, h3⟩ := parse_short h hA (fuel + 1)
    exact ⟨s', h1, Or.inl ⟨by rw [h2]; decide, h3⟩⟩
  | zeros j =>
    obtain ⟨s', h1, h2, h3⟩ := parse_zeros_any (j := j) (fuel + 2) s (by rw [List.length_replicate] at hf; omega) hst hA
    exact ⟨s', h1, Or.inl ⟨h2, h3⟩⟩
  | dot hh =>
    obtain ⟨hn, front, hp⟩ := header_named hh
    obtain ⟨r, hr⟩ := hn.name
    rcases readHeader_block (x := []) hp.len hst (by rw [List.append_nil]; exact hA) with ⟨i, e, hA'⟩ | ⟨hx, i, e, hA'⟩
    · obtain ⟨s', h1, h2, h3⟩ := parse_short (s := { s with input := i, info := { s.info with filename := [] } }) (by simp) hA' fuel
      refine ⟨s', ?_, Or.inl ⟨by rw [h2]; decide, h3⟩⟩
      rw [parse_begin (fuel + 1) s hh hst e]
      simp only
      rw [if_neg (by simp), if_pos ⟨by simp, by rw [hr]; rfl⟩, if_pos (by simp)]
      exact h1
    · refine ⟨{ s with input := i, status := .error }, ?_, Or.inl ⟨by simp, rfl⟩⟩
      rw [parseHeader, e]
      simp only [Res.bind_ok]
      rw [if_pos (by decide)]
  | @part pre e x y hn hI hsz hxy hy =>
    obtain ⟨padn, hpad⟩ := pads_exist e.content.length
    obtain ⟨sz, hs1, hs2⟩ := intro_size hI
    by_cases hx : x = []
    · subst hx
      rw [List.append_nil] at hA
      rcases parse_intro_end hI hsz hpad (fuel + 1) s hst hA with ⟨i, h1, h2⟩ | ⟨s', h1, h2⟩
      · exact ⟨_, h2, Or.inr ⟨e, i, padn, [], hn, rfl, h1, ⟨hsz, by omega, hpad⟩, Or.inl ⟨y, hxy, hy⟩⟩⟩
      · exact ⟨s', h1, Or.inl h2⟩
    · obtain ⟨i, h1, h2⟩ := parse_intro hI hsz hpad hx (fuel + 1) s hst hA
      exact ⟨_, h2, Or.inr ⟨e, i, padn, x, hn, rfl, h1, ⟨hsz, by omega, hpad⟩, Or.inl ⟨y, hxy, hy⟩⟩⟩
  | @all pre e x padn hn hI hsz hpad hxp =>
    obtain ⟨sz, hs1, hs2⟩ := intro_size hI
    by_cases hx : e.content ++ x = []
    · rw [hx, List.append_nil] at hA
      rcases parse_intro_end hI hsz hpad (fuel + 1) s hst hA with ⟨i, h1, h2⟩ | ⟨s', h1, h2⟩
      · exact ⟨_, h2, Or.inr ⟨e, i, padn, [], hn, rfl, h1, ⟨hsz, by omega, hpad⟩, Or.inr ⟨x, hx.symm, hxp⟩⟩⟩
      · exact ⟨s', h1, Or.inl h2⟩
    · obtain ⟨i, h1, h2⟩ := parse_intro hI hsz hpad hx (fuel + 1) s hst hA
      exact ⟨_, h2, Or.inr ⟨e, i, padn, _, hn, rfl, h1, ⟨hsz, by omega, hpad⟩, Or.inr ⟨x, rfl, hxp⟩⟩⟩
  | name hh h0 hpad hx =>
    obtain ⟨s', h1, h2, h3⟩ := parse_long_short (fuel + 1) s hh h0 hpad hx hst hA
    exact ⟨s', h1, Or.inl ⟨by rw [h2]; decide, h3⟩⟩
  | @second head longName pad1 y size mtime type hh h1 h2 h3 hy =>
    rcases parse_long_end (fuel + 1) s hh h1 h2 h3 hst hA with ⟨i, hA', e⟩ | ⟨_, s', h1, h2, h3⟩
    · obtain ⟨j, d, st, ej, h4, _⟩ := readHeader_short (s := { s with input := i, info := { s.info with filename := longName } }) hy hA'
      refine ⟨{ s with input := j, info := { s.info with filename := longName }, status := st }, ?_, Or.inl ⟨h4, rfl⟩⟩
      rw [e, ej]
      simp only [Res.bind_ok]
      rw [if_pos h4]
    · exact ⟨s', h1, Or.inl ⟨by rw [h2]; decide, h3⟩⟩

/-- What follows the complete entries. -/
def Ending (A : ProviderOps (State σ) (SubInputStream σ)) (soft : Prop) (next : Option ArchiveEntry) (s : State σ) : Prop :=
  (∃ st, st ≠ .ok ∧ EndsWith A st s) ∨
  (∃ e j, next = some e ∧ j < e.content.length ∧ ShowsPart A soft e.info (e.content.take j) .error s) ∨
  ∃ e, next = some e ∧ PresentsThen A Failure.never soft (EndsWith A .error) s [e]

theorem Rest.ending {next : Option ArchiveEntry} {tail : List UInt8} (h : Rest next tail) (ht : tail ≠ []) {fuel : Nat} {s : State σ}
    (hB : Before P c soft fuel tail s) : Ending (ops P fuel) soft next s := by
  obtain ⟨bytes, hArch, hf, hs, input, el, hA⟩ := hB
  obtain ⟨f', s1, h1, h2, h3, h4, h5⟩ := parse_dots ht hArch rfl fuel hf { s with entry := none, input := input } hs hA
  obtain ⟨s', e1, hV⟩ := h.verdict ht f' s1 h1 h2 h4
  rcases hV with ⟨v1, v2⟩ | ⟨e, i, padn, x, hn, rfl, hAi, ⟨v1, v2, v3⟩, hx⟩
  · exact Or.inl ⟨s'.status, v1, Tar.ends hs el (h5.trans e1) rfl v1 (v2.trans h3)⟩
  · have hO : Opens P c soft fuel e.info padn x s := by
      refine ⟨hs, input, i, el, hAi, ?_⟩
      rw [h5, e1]
      obtain ⟨⟨a1, a2, a3, a4⟩, a5⟩ := s1
      simp only at h2 h3
      subst h2 h3
      simp only [hs]
    have hf1 : 1 ≤ fuel := by omega
    right
    rcases hx with ⟨y, hy1, hy2⟩ | ⟨y, hy1, hy2⟩
    · have hl := congrArg List.length hy1
      have hl2 := List.length_pos_iff.mpr hy2
      rw [List.length_append] at hl
      refine Or.inl ⟨e, x.length, hn, by omega, ?_⟩
      rw [show e.content.take x.length = x by rw [hy1, List.take_left]]
      exact shows_part hf1 v1 v2 v3.1 (by omega) hO
    · subst hy1
      exact Or.inr ⟨e, hn, shows_all hf1 v1 v2 v3.1 hy2 hO⟩

/-- Where a cut falls. -/
theorem cut {m : Nat} {l : List ArchiveEntry} {bytes : List UInt8} (h : Archive (List.replicate m 0) l bytes) :
    ∀ k, 1 ≤ k → k ≤ bytes.length → ∃ i tail, i ≤ l.length ∧ tail ≠ [] ∧ Rest l[i]? tail ∧ Archive tail (l.take i) (bytes.take k) := by
  induction h with
  | done =>
    intro k h1 h2
    rw [List.length_replicate] at h2
    refine ⟨0, List.replicate k 0, Nat.le_refl _, ?_, .zeros k, ?_⟩
    · intro z; rw [List.replicate_eq_nil_iff] at z; omega
    · rw [List.take_replicate, Nat.min_eq_left h2]; exact .done
  | @entry head name content pad rest l mtime type hh hn1 hn2 hpad hrest ih =>
    intro k h1 h2
    obtain ⟨hn, front, hp⟩ := header_named hh
    have hl := hp.len
    have hI := Intro.plain hh hn1 hn2
    by_cases hk : k ≤ 512 + content.length + pad.length
    · refine ⟨0, (head ++ content ++ pad).take k, Nat.zero_le _, ?_, ?_, ?_⟩
      · intro z
        have := congrArg List.length z
        simp only [List.length_take, List.length_append, List.length_nil] at this; omega
      · rw [List.append_assoc, List.take_append]
        by_cases hk1 : k < 512
        · rw [show k - head.length = 0 by omega, List.take_zero, List.append_nil]
          exact .short (by rw [List.length_take]; omega)
        · rw [List.take_of_length_le (by omega), List.take_append]
          by_cases hk2 : k - head.length < content.length
          · rw [show k - head.length - content.length = 0 by omega, List.take_zero, List.append_nil]
            refine .part rfl hI rfl (List.take_append_drop (k - head.length) _).symm ?_
            intro z
            have := congrArg List.length z
            rw [List.length_drop, List.length_nil] at this
            simp only at this
            omega
          · rw [List.take_of_length_le (l := content) (by omega)]
            exact .all rfl hI rfl hpad (by rw [List.length_take]; omega)
      · rw [List.take_append_of_le_length (l₁ := head ++ content ++ pad) (by simp only [List.length_append]; omega)]
        exact .done
    · obtain ⟨i, tail, a1, a2, a3, a4⟩ := ih (k - (512 + content.length + pad.length)) (by omega)
        (by simp only [List.length_append] at h2; omega)
      refine ⟨i + 1, tail, by simp only [List.length_cons]; omega, a2, by simpa using a3, ?_⟩
      rw [List.take_succ_cons, List.take_append,
        List.take_of_length_le (l := head ++ content ++ pad) (by simp only [List.length_append]; omega)]
      rw [show k - (head ++ content ++ pad).length = k - (512 + content.length + pad.length) by
        simp only [List.length_append]; omega]
      exact .entry hh hn1 hn2 hpad a4
  | @dot head rest l size mtime type hh hrest ih =>
    intro k h1 h2
    obtain ⟨hn, front, hp⟩ := header_named hh
    have hl := hp.len
    by_cases hk : k ≤ 512
    · refine ⟨0, head.take k, Nat.zero_le _, ?_, ?_, ?_⟩
      · intro z
        have := congrArg List.length z
        simp only [List.length_take, List.length_nil] at this; omega
      · by_cases hk1 : k = 512
        · rw [List.take_of_length_le (by omega)]; exact .dot hh
        · exact .short (by rw [List.length_take]; omega)
      · rw [List.take_append_of_le_length (by omega)]; exact .done
    · obtain ⟨i, tail, a1, a2, a3, a4⟩ := ih (k - 512) (by omega) (by simp only [List.length_append] at h2; omega)
      refine ⟨i, tail, a1, a2, a3, ?_⟩
      rw [List.take_append, List.take_of_length_le (l := head) (by omega), hl]
      exact .dot hh a4
  | @long head1 head2 front back longName pad1 content pad rest l size mtime1 type1 mtime type hh hs hne hpad1 hf hpad hrest ih =>
    intro k h1 h2
    obtain ⟨hn, front1, hp1⟩ := header_named hh
    have hl1 := hp1.len
    have hl2 := (fields_parts hf).len
    have hI := Intro.long hh hs hne hpad1 hf
    have hne' := List.length_pos_iff.mpr hne
    by_cases hk : k ≤ 512 + longName.length + pad1.length + 512 + content.length + pad.length
    · refine ⟨0, (head1 ++ longName ++ pad1 ++ head2 ++ content ++ pad).take k, Nat.zero_le _, ?_, ?_, ?_⟩
      · intro z
        have := congrArg List.length z
        simp only [List.length_take, List.length_append, List.length_nil] at this; omega
      · by_cases hk1 : k < 512
        · exact .short (by rw [List.length_take]; omega)
        · by_cases hk2 : k < 512 + longName.length + pad1.length
          · rw [show head1 ++ longName ++ pad1 ++ head2 ++ content ++ pad = head1 ++ (longName ++ pad1 ++ head2 ++ content ++ pad) by
              simp, List.take_append, List.take_of_length_le (by omega)]
            exact .name hh (by omega) (by rw [hs]; exact hpad1) (by rw [List.length_take]; omega)
          · by_cases hk3 : k < 512 + longName.length + pad1.length + 512
            · rw [show head1 ++ longName ++ pad1 ++ head2 ++ content ++ pad = (head1 ++ longName ++ pad1) ++ (head2 ++ content ++ pad) by
                simp, List.take_append, List.take_of_length_le (by simp only [List.length_append]; omega)]
              exact .second hh hs hne hpad1 (by rw [List.length_take]; simp only [List.length_append]; omega)
            · rw [show head1 ++ longName ++ pad1 ++ head2 ++ content ++ pad = (head1 ++ longName ++ pad1 ++ head2) ++ (content ++ pad) by
                simp, List.take_append, List.take_of_length_le (by simp only [List.length_append]; omega)]
              have hL : (head1 ++ longName ++ pad1 ++ head2).length = 512 + longName.length + pad1.length + 512 := by
                simp only [List.length_append]; omega
              generalize head1 ++ longName ++ pad1 ++ head2 = pre at hI hL
              rw [List.take_append]
              by_cases hk4 : k - pre.length < content.length
              · rw [show k - pre.length - content.length = 0 by omega, List.take_zero, List.append_nil]
                refine .part rfl hI rfl (List.take_append_drop (k - pre.length) _).symm ?_
                intro z
                have := congrArg List.length z
                rw [List.length_drop, List.length_nil] at this
                simp only at this
                omega
              · rw [List.take_of_length_le (l := content) (by omega)]
                exact .all rfl hI rfl hpad (by rw [List.length_take]; omega)
      · rw [List.take_append_of_le_length (l₁ := head1 ++ longName ++ pad1 ++ head2 ++ content ++ pad) (by simp only [List.length_append]; omega)]
        exact .done
    · obtain ⟨i, tail, a1, a2, a3, a4⟩ := ih (k - (512 + longName.length + pad1.length + 512 + content.length + pad.length)) (by omega)
        (by simp only [List.length_append] at h2; omega)
      refine ⟨i + 1, tail, by simp only [List.length_cons]; omega, a2, by simpa using a3, ?_⟩
      rw [List.take_succ_cons, List.take_append, List.take_of_length_le (l := head1 ++ longName ++ pad1 ++ head2 ++ content ++ pad)
        (by simp only [List.length_append]; omega)]
      rw [show k - (head1 ++ longName ++ pad1 ++ head2 ++ content ++ pad).length =
          k - (512 + longName.length + pad1.length + 512 + content.length + pad.length) by
        simp only [List.length_append]; omega]
      exact .long hh hs hne hpad1 hf hpad a4

end Strigi.Tar
