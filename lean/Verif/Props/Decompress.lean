import Verif.Proofs.Decompress
import Verif.Props.StringStream

/-!
# Property C55: `GZipInputStream` and `BZ2InputStream`
-/

namespace Strigi.Props

open Unpack

variable {σ ζ : Type} {P : StreamOps σ UInt8} {D : Decompressor ζ} {R : ζ → List UInt8 → List UInt8 → Prop}
  {bad : Prop}

theorem unpack_spec {c x y rest : List UInt8} {F : Failure} {soft : Prop} {input : σ} (keep : Bool)
    (hP : IsStream P c F soft input) (hD : Unpacks D bad R)
    (hc : c.drop (P.position input).toNat = x ++ rest) (hR : R D.init x y) (hx : x ≠ [])
    (N : Nat) (hN : 2 * (x.length + y.length) + 1 < N) :
    ∃ s, openStream D input = .ok s ∧ s.pos = 0 ∧
      IsStream (BufferedStream.ops (producer P D keep N)) y ⟨F.onRead ∨ bad, F.onRead ∨ bad⟩ True s ∧
      ∀ s' lo hi, Reaches (BufferedStream.ops (producer P D keep N)) s s' lo hi → s'.status = .eof →
        P.position s'.prod.input = P.position input + x.length ∧ IsStream P c F soft s'.prod.input := by
  have C := Contract.of_behaves P c F soft
  obtain ⟨C', S', s, e, hp, hH⟩ := opened (keep := keep) C hD False [] hP
    (Or.inl ⟨⟨rest, hc.symm⟩, rfl⟩) hR hx hN
  have hF : (⟨F.onRead ∨ bad ∨ False, F.onRead ∨ bad ∨ False⟩ : Failure) = ⟨F.onRead ∨ bad, F.onRead ∨ bad⟩ := by
    simp
  rw [hF, List.append_nil] at C'
  rw [List.append_nil] at S' hH
  have h0 : (BufferedStream.ops (producer P D keep N)).position s = 0 := hp
  refine ⟨s, e, hp, C'.isStream (fun _ => S') (by rw [h0]; exact hH), ?_⟩
  intro s' lo hi hr hs
  have hH' := C'.reaches (by rw [h0]; exact hH) hr
  obtain ⟨⟨hI, _⟩, hT⟩ := hH'
  have hfin := (hI.eof hs).2
  rcases hT with z | z | ⟨_, hq, lo2, hi2, hb⟩
  · rw [hs] at z; cases z
  · rw [hfin] at z; cases z.1
  · refine ⟨hq, fun l => ?_⟩
    have hrg := C.range hb
    exact C.narrow hb (by omega) (by omega) (by omega) (by omega) l

/-- **C55** for the formats without magic (`ZIPFORMAT`, `ZLIBFORMAT`): over any input stream that stands at
compressed data `x`, and for any decompressor that turns `x` into `y`, the `GZipInputStream` is a stream over
`y`; whenever it has reported `Eof`, the input stands behind `x` and is usable.  It only fails if the input
or the decompressor does. -/
theorem C55_gzip {c x y rest : List UInt8} {F : Failure} {soft : Prop} {input : σ}
    (hP : IsStream P c F soft input) (hD : Unpacks D bad R)
    (hc : c.drop (P.position input).toNat = x ++ rest) (hR : R D.init x y) (hx : x ≠ [])
    (N : Nat) (hN : 2 * (x.length + y.length) + 1 < N) :
    ∃ s, GZip.new P D false input = .ok s ∧ s.pos = 0 ∧
      IsStream (GZip.ops P D N) y ⟨F.onRead ∨ bad, F.onRead ∨ bad⟩ True s ∧
      ∀ s' lo hi, Reaches (GZip.ops P D N) s s' lo hi → s'.status = .eof →
        P.position s'.prod.input = P.position input + x.length ∧ IsStream P c F soft s'.prod.input :=
  unpack_spec true hP hD hc hR hx N hN

/-- The magic of a gzip file is found and the input is left where it was. -/
theorem gzip_magic {c : List UInt8} {soft : Prop} {input : σ} (hP : IsStream P c Failure.never soft input) :
    ∃ input' b, GZip.checkMagic P input = .ok (input', b) ∧ IsStream P c Failure.never soft input' ∧
      P.position input' = P.position input ∧
      (b = true ↔ ([0x1f, 0x8b] : List UInt8) <+: c.drop (P.position input).toNat) := by
  have C := Contract.of_behaves P c Failure.never soft
  have hrg := C.range hP
  obtain ⟨i, n, d, er, hro, hk⟩ := C.read hP (min := 2) (max := 2) (by omega) (Or.inr (by omega))
  have hst : P.status i ≠ .error := by
    cases hro with
    | data _ _ _ _ _ _ st => exact st
    | ended _ _ _ _ st => rw [st]; decide
    | failed a _ _ => exact absurd a id
  have hrg2 := C.range (hk hst)
  obtain ⟨i2, er2, hp2, _, _, hb2⟩ := C.reset (hk hst) (q := P.position input) (by omega) (by omega)
  have hS : IsStream P c Failure.never soft i2 := by
    intro l; rw [hp2]; exact hb2 l
  unfold GZip.checkMagic
  simp only
  rw [er]
  simp only [Res.bind_ok]
  rw [er2]
  simp only [Res.bind_ok]
  by_cases hn : n = 2
  · rw [if_neg (by omega)]
    cases hro with
    | data pos items inside adv limit enough st =>
      have hl : d.length = 2 := by
        have := slice_length (c := c) (p := P.position input) (n := n) (by omega) (by omega) (by omega)
        rw [← items] at this; omega
      obtain ⟨t, ht⟩ : d <+: c.drop (P.position input).toNat := by
        rw [items]; exact List.take_prefix _ _
      rcases d with _ | ⟨a, _ | ⟨b, _ | ⟨_, _⟩⟩⟩ <;> simp at hl
      rw [← ht]
      have e0 : aget [a, b] 0 = .ok a := rfl
      have e1 : aget [a, b] 1 = .ok b := rfl
      rw [e0, e1]
      simp only [Res.bind_ok]
      by_cases ha : a = 0x1f
      · rw [if_neg (by simp [ha])]
        refine ⟨i2, _, rfl, hS, hp2, ?_⟩
        simp [ha]
        exact ⟨fun z => z.symm, fun z => z.symm⟩
      · rw [if_pos ha]
        refine ⟨i2, _, rfl, hS, hp2, ?_⟩
        simp
        intro z; exact absurd z.symm ha
    | ended none _ _ _ _ => omega
    | failed a _ _ => exact absurd a id
  · rw [if_pos hn]
    refine ⟨i2, false, rfl, hS, hp2, ?_⟩
    simp only [Bool.false_eq_true, false_iff]
    intro hpre
    have := hpre.length_le
    simp only [List.length_cons, List.length_nil, List.length_drop] at this
    cases hro with
    | data pos items inside adv limit enough st =>
      have := limit (by omega)
      rcases enough with x | x <;> omega
    | ended none _ hend _ _ => omega
    | failed a _ _ => exact absurd a id

/-- **C55** for gzip files: data that starts with the magic is decompressed; otherwise the stream is in state
`Error` from the start and the input stands where it stood. -/
theorem C55_gzip_file {c x y rest : List UInt8} {soft : Prop} {input : σ}
    (hP : IsStream P c Failure.never soft input) (hD : Unpacks D bad R)
    (hc : c.drop (P.position input).toNat = x ++ rest) (hR : R D.init x y)
    (hx : ([0x1f, 0x8b] : List UInt8) <+: x) (N : Nat) (hN : 2 * (x.length + y.length) + 1 < N) :
    ∃ s, GZip.new P D true input = .ok s ∧ s.pos = 0 ∧
      IsStream (GZip.ops P D N) y ⟨bad, bad⟩ True s ∧
      ∀ s' lo hi, Reaches (GZip.ops P D N) s s' lo hi → s'.status = .eof →
        P.position s'.prod.input = P.position input + x.length ∧
          IsStream P c Failure.never soft s'.prod.input := by
  obtain ⟨i, b, e, hS, hp, hb⟩ := gzip_magic hP
  have hb : b = true := hb.mpr (by rw [hc]; exact hx.trans (List.prefix_append _ _))
  subst hb
  have hne : x ≠ [] := by
    intro z; rw [z] at hx; have := hx.length_le; simp at this
  have := unpack_spec true hS hD (by rw [hp]; exact hc) hR hne N hN
  obtain ⟨s, e2, h1, h2, h3⟩ := this
  rw [hp] at h3
  refine ⟨s, ?_, h1, ?_, h3⟩
  · unfold GZip.new
    simp only [if_true]
    rw [e]
    simp only [Res.bind_ok, if_true]
    exact e2
  · have hF : (⟨Failure.never.onRead ∨ bad, Failure.never.onRead ∨ bad⟩ : Failure) = ⟨bad, bad⟩ := by
      simp [Failure.never]
    rw [hF] at h2
    exact h2

theorem C55_gzip_wrong_magic {c : List UInt8} {soft : Prop} {input : σ}
    (hP : IsStream P c Failure.never soft input)
    (hx : ¬ ([0x1f, 0x8b] : List UInt8) <+: c.drop (P.position input).toNat) :
    ∃ s, GZip.new P D true input = .ok s ∧ s.status = .error ∧ P.position s.prod.input = P.position input ∧
      IsStream P c Failure.never soft s.prod.input := by
  obtain ⟨i, b, e, hS, hp, hb⟩ := gzip_magic hP
  have hb : b = false := by
    cases b with
    | true => exact absurd (hb.mp rfl) hx
    | false => rfl
  subst hb
  refine ⟨broken D i, ?_, rfl, hp, hS⟩
  unfold GZip.new
  simp only [if_true]
  rw [e]
  simp

/-- The bytes `BZ`, `h` or `0`, any byte, and the magic of the first block. -/
def BZ2Magic (l : List UInt8) : Prop :=
  ∃ b d, (b = 0x68 ∨ b = 0x30) ∧ [0x42, 0x5a, b, d, 0x31, 0x41, 0x59, 0x26, 0x53, 0x59] <+: l

theorem bz2_checkHeader {l : List UInt8} (hl : 10 ≤ l.length) :
    ∃ r, BZ2.checkHeader l 10 = .ok r ∧ (r = true ↔ BZ2Magic l) := by
  rcases l with _ | ⟨a0, _ | ⟨a1, _ | ⟨a2, _ | ⟨a3, _ | ⟨a4, _ | ⟨a5, _ | ⟨a6, _ | ⟨a7, _ | ⟨a8, _ | ⟨a9, l⟩⟩⟩⟩⟩⟩⟩⟩⟩⟩ <;>
    simp only [List.length_cons, List.length_nil] at hl <;> try omega
  unfold BZ2.checkHeader BZ2Magic
  rw [if_neg (by omega)]
  have e2 : aget (a0 :: a1 :: a2 :: a3 :: a4 :: a5 :: a6 :: a7 :: a8 :: a9 :: l) 2 = .ok a2 := rfl
  have e1 : memEq (a0 :: a1 :: a2 :: a3 :: a4 :: a5 :: a6 :: a7 :: a8 :: a9 :: l) [0x42, 0x5a] =
      .ok ([a0, a1] == [0x42, 0x5a]) := by
    unfold memEq
    rw [if_pos (by simp)]
    rfl
  have e3 : memEq (List.drop 4 (a0 :: a1 :: a2 :: a3 :: a4 :: a5 :: a6 :: a7 :: a8 :: a9 :: l))
      [0x31, 0x41, 0x59, 0x26, 0x53, 0x59] =
      .ok ([a4, a5, a6, a7, a8, a9] == [0x31, 0x41, 0x59, 0x26, 0x53, 0x59]) := by
    unfold memEq
    rw [if_pos (by simp)]
    rfl
  rw [e1, e2, e3]
  simp only [Res.bind_ok, List.cons_prefix_cons, List.nil_prefix, and_true]
  by_cases h1 : ([a0, a1] == ([0x42, 0x5a] : List UInt8)) = false
  · rw [if_pos h1]
    refine ⟨false, rfl, by simp, ?_⟩
    rintro ⟨b, d, _, z1, z2, _⟩
    rw [← z1, ← z2] at h1
    simp at h1
  · rw [if_neg h1]
    have h1 : a0 = 0x42 ∧ a1 = 0x5a := by simpa using h1
    by_cases h2 : a2 ≠ 0x68 ∧ a2 ≠ 0x30
    · rw [if_pos h2]
      refine ⟨false, rfl, by simp, ?_⟩
      rintro ⟨b, d, hb, _, _, z, _⟩
      rcases hb with rfl | rfl
      · exact absurd z.symm h2.1
      · exact absurd z.symm h2.2
    · rw [if_neg h2]
      have hz : a2 = 0x68 ∨ a2 = 0x30 := by
        by_cases z : a2 = 0x68
        · exact Or.inl z
        · exact Or.inr (Decidable.byContradiction fun z2 => h2 ⟨z, z2⟩)
      refine ⟨_, rfl, ?_⟩
      simp only [beq_iff_eq, List.cons.injEq, and_true]
      constructor
      · rintro ⟨z1, z2, z3, z4, z5, z6⟩
        exact ⟨a2, a3, hz, h1.1.symm, h1.2.symm, rfl, rfl, z1.symm, z2.symm, z3.symm, z4.symm, z5.symm, z6.symm⟩
      · rintro ⟨b, d, _, _, _, _, _, z1, z2, z3, z4, z5, z6⟩
        exact ⟨z1.symm, z2.symm, z3.symm, z4.symm, z5.symm, z6.symm⟩

/-- The magic of a bz2 file is found and the input is left where it was. -/
theorem bz2_magic {c : List UInt8} {soft : Prop} {input : σ} (hP : IsStream P c Failure.never soft input) :
    ∃ input' b, BZ2.checkMagic P input = .ok (input', b) ∧ IsStream P c Failure.never soft input' ∧
      P.position input' = P.position input ∧ (b = true ↔ BZ2Magic (c.drop (P.position input).toNat)) := by
  have C := Contract.of_behaves P c Failure.never soft
  have hrg := C.range hP
  obtain ⟨i, n, d, er, hro, hk⟩ := C.read hP (min := 10) (max := 0) (by omega) (Or.inl rfl)
  have hst : P.status i ≠ .error := by
    cases hro with
    | data _ _ _ _ _ _ st => exact st
    | ended _ _ _ _ st => rw [st]; decide
    | failed a _ _ => exact absurd a id
  have hrg2 := C.range (hk hst)
  obtain ⟨i2, er2, hp2, _, _, hb2⟩ := C.reset (hk hst) (q := P.position input) (by omega) (by omega)
  have hS : IsStream P c Failure.never soft i2 := by
    intro l; rw [hp2]; exact hb2 l
  unfold BZ2.checkMagic
  simp only
  rw [er]
  simp only [Res.bind_ok]
  rw [er2]
  simp only [Res.bind_ok]
  have hshort : (c.drop (P.position input).toNat).length < 10 → ¬ BZ2Magic (c.drop (P.position input).toNat) := by
    rintro h ⟨b, d, _, hp⟩
    have := hp.length_le
    simp only [List.length_cons, List.length_nil] at this
    omega
  by_cases hn : n < 10
  · rw [if_pos hn]
    refine ⟨i2, false, rfl, hS, hp2, ?_⟩
    simp only [Bool.false_eq_true, false_iff]
    apply hshort
    rw [List.length_drop]
    cases hro with
    | data pos items inside adv limit enough st => rcases enough with x | x <;> omega
    | ended none _ hend _ _ => omega
    | failed a _ _ => exact absurd a id
  · rw [if_neg hn]
    cases hro with
    | data pos items inside adv limit enough st =>
      have hl : (d.length : Int) = n := by
        rw [items]; exact slice_length (by omega) (by omega) (by omega)
      obtain ⟨r, e, hr⟩ := bz2_checkHeader (l := d) (by omega)
      rw [e]
      refine ⟨i2, r, rfl, hS, hp2, hr.trans ?_⟩
      obtain ⟨t, ht⟩ : d <+: c.drop (P.position input).toNat := by
        rw [items]; exact List.take_prefix _ _
      rw [← ht]
      constructor
      · rintro ⟨b, e, hb, hp⟩
        exact ⟨b, e, hb, hp.trans (List.prefix_append _ _)⟩
      · rintro ⟨b, e, hb, hp⟩
        refine ⟨b, e, hb, List.prefix_of_prefix_length_le hp (List.prefix_append _ _) ?_⟩
        simp only [List.length_cons, List.length_nil]; omega
    | ended none _ _ _ _ => omega
    | failed a _ _ => exact absurd a id

/-- **C55** for bz2 files. -/
theorem C55_bz2 {c x y rest : List UInt8} {soft : Prop} {input : σ}
    (hP : IsStream P c Failure.never soft input) (hD : Unpacks D bad R)
    (hc : c.drop (P.position input).toNat = x ++ rest) (hR : R D.init x y)
    (hx : BZ2Magic x) (N : Nat) (hN : 2 * (x.length + y.length) + 1 < N) :
    ∃ s, BZ2.new P D input = .ok s ∧ s.pos = 0 ∧
      IsStream (BZ2.ops P D N) y ⟨bad, bad⟩ True s ∧
      ∀ s' lo hi, Reaches (BZ2.ops P D N) s s' lo hi → s'.status = .eof →
        P.position s'.prod.input = P.position input + x.length ∧
          IsStream P c Failure.never soft s'.prod.input := by
  obtain ⟨i, b, e, hS, hp, hb⟩ := bz2_magic hP
  have hb : b = true := hb.mpr (by
    obtain ⟨b, d, h, h2⟩ := hx
    rw [hc]; exact ⟨b, d, h, h2.trans (List.prefix_append _ _)⟩)
  subst hb
  have hne : x ≠ [] := by
    intro z; rw [z] at hx
    obtain ⟨b, d, h, h2⟩ := hx
    have := h2.length_le; simp at this
  have := unpack_spec false hS hD (by rw [hp]; exact hc) hR hne N hN
  obtain ⟨s, e2, h1, h2, h3⟩ := this
  rw [hp] at h3
  refine ⟨s, ?_, h1, ?_, h3⟩
  · unfold BZ2.new
    rw [e]
    simp only [Res.bind_ok, if_true]
    exact e2
  · have hF : (⟨Failure.never.onRead ∨ bad, Failure.never.onRead ∨ bad⟩ : Failure) = ⟨bad, bad⟩ := by
      simp [Failure.never]
    rw [hF] at h2
    exact h2

theorem C55_bz2_wrong_magic {c : List UInt8} {soft : Prop} {input : σ}
    (hP : IsStream P c Failure.never soft input)
    (hx : ¬ BZ2Magic (c.drop (P.position input).toNat)) :
    ∃ s, BZ2.new P D input = .ok s ∧ s.status = .error ∧ P.position s.prod.input = P.position input ∧
      IsStream P c Failure.never soft s.prod.input := by
  obtain ⟨i, b, e, hS, hp, hb⟩ := bz2_magic hP
  have hb : b = false := by
    cases b with
    | true => exact absurd (hb.mp rfl) hx
    | false => rfl
  subst hb
  refine ⟨broken D i, ?_, rfl, hp, hS⟩
  unfold BZ2.new
  rw [e]
  simp

/-- **C55**, damaged files: if the input ends before the compressed data does, the stream behaves like a
stream over `y` followed by anything (`t`): so it never delivers anything but the bytes of `y`, and never
reports `Eof`; it fails instead. -/
theorem C55_truncated {c x y : List UInt8} {F : Failure} {soft : Prop} {input : σ} (keep : Bool)
    (hP : IsStream P c F soft input) (hD : Unpacks D bad R)
    (hc : c.drop (P.position input).toNat <+: x)
    (hlt : (c.drop (P.position input).toNat).length < x.length) (hR : R D.init x y)
    (N : Nat) (hN : 2 * (x.length + y.length) + 1 < N) :
    ∃ s, openStream D input = .ok s ∧ s.pos = 0 ∧
      ∀ t, IsStream (BufferedStream.ops (producer P D keep N)) (y ++ t) Failure.always True s := by
  have hx : x ≠ [] := by intro z; rw [z] at hlt; simp at hlt
  have key := fun t => opened (keep := keep) (Contract.of_behaves P c F soft) hD True t hP
    (Or.inr ⟨trivial, hc, hlt⟩) hR hx hN
  obtain ⟨C', S', s, e, hp, hH⟩ := key []
  refine ⟨s, e, hp, fun t => ?_⟩
  obtain ⟨C', S', s2, e2, hp2, hH⟩ := key t
  rw [e] at e2; cases e2
  have hF : (⟨F.onRead ∨ bad ∨ True, F.onRead ∨ bad ∨ True⟩ : Failure) = Failure.always := by
    simp [Failure.always]
  rw [hF] at C'
  have h0 : (BufferedStream.ops (producer P D keep N)).position s = 0 := hp
  exact C'.isStream (fun _ => S') (by rw [h0]; exact hH)

/-- For the examples: a "decompressor" for data that is stored as it is and ends with a NUL. -/
def storedDecompressor : Decompressor Unit where
  init := ()
  run _ inp space :=
    let a := (inp.takeWhile (· ≠ 0)).take space.toNat
    if (a.length : Int) = space then ((), a.length, a, .more)
    else if a.length < inp.length then ((), a.length + 1, a, .ended)
    else ((), a.length, a, .more)

theorem stored_unpacks :
    Unpacks storedDecompressor False (fun _ x y => x = y ++ [0] ∧ 0 ∉ y) := by
  rintro z x y ⟨rfl, hy⟩ inp hin space hs
  -- what is left of `y` before the first NUL of `inp`
  have hT : inp.takeWhile (· ≠ 0) <+: y ∧
      (inp.length = (inp.takeWhile (· ≠ 0)).length ∨
        (inp.takeWhile (· ≠ 0) = y ∧ y ++ [0] <+: inp)) := by
    have hall : ∀ a ∈ y, (decide (a ≠ 0)) = true := by
      intro a ha; simp only [decide_eq_true_eq]; intro z; exact hy (z ▸ ha)
    have hlong : ∀ t, (y ++ [0] ++ t).takeWhile (fun a => decide (a ≠ 0)) = y := by
      intro t
      rw [List.append_assoc, List.takeWhile_append_of_pos hall]
      simp
    rcases hin with h | ⟨t, rfl⟩
    · by_cases hl : inp.length ≤ y.length
      · have hp := List.prefix_of_prefix_length_le h (List.prefix_append y [0]) hl
        have : inp.takeWhile (fun a => decide (a ≠ 0)) = inp := by
          have h := List.takeWhile_append_of_pos (p := fun a => decide (a ≠ 0)) (l₁ := inp) (l₂ := [])
            (fun a ha => hall a (hp.subset ha))
          simpa using h
        rw [this]
        exact ⟨hp, Or.inl rfl⟩
      · have : inp = y ++ [0] := by
          apply h.eq_of_length
          have := h.length_le
          simp only [List.length_append, List.length_singleton] at this ⊢
          omega
        subst this
        have := hlong []
        rw [List.append_nil] at this
        rw [this]
        exact ⟨List.prefix_rfl, Or.inr ⟨rfl, List.prefix_rfl⟩⟩
    · rw [hlong t]
      exact ⟨List.prefix_rfl, Or.inr ⟨rfl, List.prefix_append _ _⟩⟩
  obtain ⟨h1, h2⟩ := hT
  have hpre : inp.takeWhile (· ≠ 0) <+: inp := List.takeWhile_prefix _
  generalize hw : inp.takeWhile (· ≠ 0) = w at *
  have hla : (w.take space.toNat).length = min space.toNat w.length := List.length_take
  have ha1 : w.take space.toNat <+: y := (List.take_prefix _ _).trans h1
  have ha2 : w.take space.toNat <+: inp := (List.take_prefix _ _).trans hpre
  have hrun : storedDecompressor.run z inp space =
    if ((w.take space.toNat).length : Int) = space then
      ((), (w.take space.toNat).length, w.take space.toNat, .more)
    else if (w.take space.toNat).length < inp.length then
      ((), (w.take space.toNat).length + 1, w.take space.toNat, .ended)
    else ((), (w.take space.toNat).length, w.take space.toNat, .more) := by
    rw [← hw]; rfl
  have hwl := hpre.length_le
  have hfull : ((w.take space.toNat).length : Int) ≠ space → w.take space.toNat = w := by
    intro hne
    apply List.take_of_length_le
    omega
  obtain ⟨y', hy'⟩ := ha1
  have htake : inp.take (w.take space.toNat).length = w.take space.toNat := (List.prefix_iff_eq_take.mp ha2).symm
  by_cases c1 : ((w.take space.toNat).length : Int) = space
  · rw [if_pos c1] at hrun
    refine ⟨_, _, _, _, hrun, ha2.length_le, by omega, y', hy'.symm, Or.inr (Or.inl ⟨rfl, y' ++ [0], ?_, ⟨rfl, ?_⟩, Or.inl c1⟩)⟩
    · rw [htake, ← List.append_assoc, hy']
    · intro z; exact hy (by rw [← hy']; exact List.mem_append_right _ z)
  · rw [if_neg c1] at hrun
    have hf := hfull c1
    rw [hf] at hrun hy' htake
    by_cases c2 : w.length < inp.length
    · rw [if_pos c2] at hrun
      rcases h2 with h2 | ⟨rfl, h2⟩
      · omega
      · refine ⟨_, _, _, _, hrun, by omega, by rw [hf] at hla; omega, y', hy'.symm, Or.inl ⟨rfl, ?_, ?_⟩⟩
        · have := List.prefix_iff_eq_take.mp h2
          rw [List.length_append, List.length_singleton] at this
          exact this
        · simpa using hy'
    · rw [if_neg c2] at hrun
      refine ⟨_, _, _, _, hrun, by omega, by rw [hf] at hla; omega, y', hy'.symm, Or.inr (Or.inl ⟨rfl, y' ++ [0], ?_, ⟨rfl, ?_⟩, Or.inr ⟨by omega, by simp⟩⟩)⟩
      · rw [htake, ← List.append_assoc, hy']
      · intro z; exact hy (by rw [← hy']; exact List.mem_append_right _ z)

/-- Magic, data, end mark and something behind it: a string stream over it meets the hypotheses, so that the
stream delivers the data (the magic belongs to it here). -/
example : ∃ s, GZip.new StringStream.ops storedDecompressor true
      (StringStream.new [0x1f, 0x8b, 5, 6, 0, 7, 7]) = .ok s ∧ s.pos = 0 ∧
    IsStream (GZip.ops StringStream.ops storedDecompressor 30) [0x1f, 0x8b, 5, 6] .never True s := by
  obtain ⟨s, e, hp, h, _⟩ := C55_gzip_file (x := [0x1f, 0x8b, 5, 6, 0]) (y := [0x1f, 0x8b, 5, 6]) (rest := [7, 7])
    (C01_isStream [0x1f, 0x8b, 5, 6, 0, 7, 7]) stored_unpacks rfl ⟨rfl, by decide⟩ ⟨[5, 6, 0], rfl⟩ 30 (by decide)
  exact ⟨s, e, hp, h⟩

/-- The same for bz2. -/
example : ∃ s, BZ2.new StringStream.ops storedDecompressor
      (StringStream.new [0x42, 0x5a, 0x68, 0x39, 0x31, 0x41, 0x59, 0x26, 0x53, 0x59, 1, 0, 7]) = .ok s ∧ s.pos = 0 ∧
    IsStream (BZ2.ops StringStream.ops storedDecompressor 60)
      [0x42, 0x5a, 0x68, 0x39, 0x31, 0x41, 0x59, 0x26, 0x53, 0x59, 1] .never True s := by
  obtain ⟨s, e, hp, h, _⟩ := C55_bz2
    (x := [0x42, 0x5a, 0x68, 0x39, 0x31, 0x41, 0x59, 0x26, 0x53, 0x59, 1, 0])
    (y := [0x42, 0x5a, 0x68, 0x39, 0x31, 0x41, 0x59, 0x26, 0x53, 0x59, 1]) (rest := [7])
    (C01_isStream _) stored_unpacks rfl ⟨rfl, by decide⟩ ⟨0x68, 0x39, Or.inl rfl, [1, 0], rfl⟩ 60 (by decide)
  exact ⟨s, e, hp, h⟩

/-- Truncated data: the hypotheses of `C55_truncated` are met by data without the end mark. -/
example : ∃ s, Unpack.openStream storedDecompressor (StringStream.new ([5, 6] : List UInt8)) = .ok s ∧ s.pos = 0 ∧
    ∀ t, IsStream (GZip.ops StringStream.ops storedDecompressor 30) ([5, 6, 8] ++ t) .always True s :=
  C55_truncated (x := [5, 6, 8, 0]) true (C01_isStream [5, 6]) stored_unpacks ⟨[8, 0], rfl⟩ (by decide)
    ⟨rfl, by decide⟩ 30 (by decide)

end Strigi.Props
