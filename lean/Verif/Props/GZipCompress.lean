import Verif.Model.GZipCompress
import Verif.Props.Decompress
import Verif.Props.BufferedStream

/-!
# Properties C112-C113: `GZipCompressInputStream`
-/

namespace Strigi.GZipCompress

variable {σ ζ : Type} {P : StreamOps σ UInt8} {K : Compressor ζ} {R : ζ → List UInt8 → List UInt8 → Prop}
  {c : List UInt8} {F : Failure} {H : σ → Int → Int → Prop}

/-- What is left to be delivered. -/
def Rest (P : StreamOps σ UInt8) (H : σ → Int → Int → Prop) (R : ζ → List UInt8 → List UInt8 → Prop) (c : List UInt8) (N : Nat)
    (s : State σ ζ) (rest : List UInt8) (m : Nat) : Prop :=
  m < N ∧ match s.z with
    | none => rest = []
    | some z => ∃ lo hi, H s.input lo hi ∧ R z (s.availIn ++ c.drop (P.position s.input).toNat) rest ∧
        m = (s.availIn ++ c.drop (P.position s.input).toNat).length + rest.length + 1

theorem feed_step (hK : Packs K R) {N : Nat} {s : State σ ζ} {z : ζ} {rest : List UInt8} {lo hi : Int} {m : Nat}
    (hN : m < N) (hH : H s.input lo hi) (hR : R z (s.availIn ++ c.drop (P.position s.input).toNat) rest)
    (hm : m = (s.availIn ++ c.drop (P.position s.input).toNat).length + rest.length + 1) (ha : s.availIn ≠ []) {space : Int} (hsp : 0 < space) :
    ∃ f' r, feed K s z space = (f', r) ∧ r.error = false ∧ r.n = r.data.length ∧ r.n ≤ space ∧
      ∃ rest' m', rest = r.data ++ rest' ∧ m' < m ∧ Rest P H R c N f' rest' m' := by
  obtain ⟨z', k, out, code, e, hk, ho, y', hy, hR', hstop⟩ := hK.feed hR (List.prefix_append _ _) ha hsp
  unfold feed
  simp only
  rw [e]
  simp only
  rw [List.drop_append_of_le_length hk] at hR'
  have hlen := congrArg List.length hy
  rw [List.length_append] at hlen
  have hal := List.length_pos_iff.mpr ha
  refine ⟨_, _, rfl, rfl, rfl, ho, y', _, hy, ?_, ?_, lo, hi, hH, hR', rfl⟩
  · simp only [List.length_append, List.length_drop] at hm ⊢
    omega
  · simp only [List.length_append, List.length_drop] at hm ⊢
    omega

theorem produces (C : Contract P c F H) (hK : Packs K R) (N : Nat) :
    Produces (producer P K N) F.onRead (Rest P H R c N) where
  fuel h := h.1
  step {s rest m} h space hsp := by
    obtain ⟨hN, h⟩ := h
    simp only [producer]
    unfold fill
    rcases hz : s.z with _ | z
    · rw [hz] at h
      simp only at h ⊢
      exact ⟨_, _, rfl, Or.inr (Or.inl ⟨rfl, by simp, rfl, h⟩)⟩
    · rw [hz] at h
      simp only at h ⊢
      obtain ⟨lo, hi, hH, hR, hm⟩ := h
      by_cases ha : s.availIn = []
      · rw [if_pos ha]
        rw [ha, List.nil_append] at hR hm
        have hrg := C.range hH
        obtain ⟨i, n, d, er, hro, hk⟩ := C.read hH (min := 1) (max := 0) (by omega) (Or.inl rfl)
        rw [er]
        simp only [Res.bind_ok]
        cases hro with
        | failed a b st =>
          rw [if_pos b]
          exact ⟨_, _, rfl, Or.inr (Or.inr (Or.inl ⟨a, rfl, by simp, by simp; omega⟩))⟩
        | ended hn hd hend stay st =>
          rw [if_neg (by omega), if_pos (by omega)]
          have hc : c.drop (P.position s.input).toNat = [] := List.drop_of_length_le (by omega)
          rw [hc] at hR hm
          obtain ⟨z', k, out, code, e, ho, y', hy, hcase⟩ := hK.finish hR hsp
          have hlen := congrArg List.length hy
          rw [List.length_append] at hlen
          rw [List.length_nil] at hm
          rcases hcase with ⟨rfl, rfl⟩ | ⟨rfl, hR', hfull⟩
          · have ef : finish K { s with input := i } z space = ({ s with input := i, z := none }, ⟨out.length, out, false⟩) := by
              unfold finish
              simp only
              rw [e]
            refine ⟨_, _, congrArg Res.ok ef, Or.inl ⟨rfl, rfl, ho, [], 0, hy, by omega, by omega, rfl⟩⟩
          · have ef : finish K { s with input := i } z space = ({ s with input := i, z := some z' }, ⟨out.length, out, false⟩) := by
              unfold finish
              simp only
              rw [e]
            have hci : c.drop (P.position i).toNat = [] := by rw [stay]; exact hc
            refine ⟨_, _, congrArg Res.ok ef, Or.inl ⟨rfl, rfl, ho, y', y'.length + 1, hy, by omega, by omega, _, _, hk (by rw [st]; decide), ?_, ?_⟩⟩
            · simp only
              rw [ha, List.nil_append, hci]; exact hR'
            · simp only
              rw [ha, List.nil_append, hci]; simp
        | data pos items inside adv limit enough st =>
          rw [if_neg (by omega), if_neg (by omega)]
          have hd : slice d 0 n = slice c (P.position s.input) n := by
            rw [items]
            unfold slice
            rw [Int.toNat_zero, List.drop_zero, List.take_take, Nat.min_self]
          have hsplit : c.drop (P.position s.input).toNat = slice d 0 n ++ c.drop (P.position i).toNat := by
            rw [hd, adv]
            unfold slice
            rw [show (P.position s.input + n).toNat = (P.position s.input).toNat + n.toNat by omega, ← List.drop_drop, List.take_append_drop]
          rw [hsplit] at hR hm
          obtain ⟨f', r, e, h1, h2, h3, h4⟩ := feed_step (P := P) (N := N) (s := { s with input := i, availIn := slice d 0 n }) hK hN (hk st) hR hm
            (by
              intro z
              have := slice_length (c := c) (p := P.position s.input) (n := n) (by omega) (by omega) (by omega)
              rw [← hd, show slice d 0 n = [] from z] at this
              simp at this; omega) hsp
          exact ⟨f', r, congrArg Res.ok e, Or.inl ⟨h1, h2, h3, h4⟩⟩
      · rw [if_neg ha]
        obtain ⟨f', r, e, h1, h2, h3, h4⟩ := feed_step hK hN hH hR hm ha hsp
        exact ⟨f', r, congrArg Res.ok e, Or.inl ⟨h1, h2, h3, h4⟩⟩

end Strigi.GZipCompress

namespace Strigi.Props

open GZipCompress

variable {σ ζ : Type} {P : StreamOps σ UInt8} {K : Compressor ζ} {R : ζ → List UInt8 → List UInt8 → Prop}
  {c : List UInt8} {F : Failure} {soft : Prop} {input : σ}

/-- **C112**: over any input stream, and for any compressor that turns what is left of the input into `y`, the
`GZipCompressInputStream` is a stream over `y`; it only fails if the input does. -/
theorem C112_stream {y : List UInt8} (hP : IsStream P c F soft input) (hK : Packs K R)
    (hR : R K.init (c.drop (P.position input).toNat) y) (N : Nat) (hN : c.length + y.length + 1 < N) :
    (GZipCompress.ops P K N).position (GZipCompress.new K input) = 0 ∧
    IsStream (GZipCompress.ops P K N) y ⟨F.onRead, F.onRead⟩ True (GZipCompress.new K input) := by
  have C := Contract.of_behaves P c F soft
  have hp := produces C hK N
  have hH : (fun s lo hi => ∀ l, Behaves P c F soft s lo hi l) input (P.position input) (P.position input) := hP
  have h0 : Rest P (fun s lo hi => ∀ l, Behaves P c F soft s lo hi l) R c N ⟨input, some K.init, []⟩ y
      ((c.drop (P.position input).toNat).length + y.length + 1) := by
    refine ⟨by rw [List.length_drop]; omega, P.position input, P.position input, hH, ?_, ?_⟩
    · simpa using hR
    · simp
  have C1 := BufferedStream.contract hp y (-1)
  have S1 := BufferedStream.softReset (Rest P (fun s lo hi => ∀ l, Behaves P c F soft s lo hi l) R c N) (producer P K N) y (-1)
  have hF : BufferedStream.fails F.onRead y (-1) = ⟨F.onRead, F.onRead⟩ := by simp [BufferedStream.fails]
  rw [hF] at C1
  exact ⟨rfl, C1.isStream (fun _ => S1) (BufferedStream.healthy_new h0 (-1))⟩

/-- **C113**: what `GZipCompressInputStream` compresses, `GZipInputStream` in the format `ZLIBFORMAT` decompresses again. -/
theorem C113_roundtrip {ζd : Type} {D : Decompressor ζd} {Rd : ζd → List UInt8 → List UInt8 → Prop} {y : List UInt8}
    (hP : IsStream P c Failure.never soft input) (hK : Packs K R) (hR : R K.init (c.drop (P.position input).toNat) y)
    (hD : Unpacks D False Rd) (hRd : Rd D.init y (c.drop (P.position input).toNat)) (hy : y ≠ [])
    (N M : Nat) (hN : c.length + y.length + 1 < N) (hM : 2 * (y.length + c.length) + 1 < M) :
    ∃ s, GZip.new (GZipCompress.ops P K N) D false (GZipCompress.new K input) = .ok s ∧ s.pos = 0 ∧
      IsStream (GZip.ops (GZipCompress.ops P K N) D M) (c.drop (P.position input).toNat) Failure.never True s := by
  obtain ⟨h0, h1⟩ := C112_stream hP hK hR N hN
  have := C55_gzip (x := y) (rest := []) h1 hD (by rw [h0]; simp) hRd hy M (by rw [List.length_drop]; omega)
  obtain ⟨s, e, h2, h3, _⟩ := this
  refine ⟨s, e, h2, ?_⟩
  have hF : (⟨(⟨Failure.never.onRead, Failure.never.onRead⟩ : Failure).onRead ∨ False, (⟨Failure.never.onRead, Failure.never.onRead⟩ : Failure).onRead ∨ False⟩ : Failure) = Failure.never := by
    simp [Failure.never]
  rw [hF] at h3
  exact h3

/-- **C113** (refuted claim: the class writes gzip files, as its name and a comment in the constructor say): its output is
in the zlib format, whose first byte has 8 in its lower half; `GZipInputStream` in its default format rejects it. -/
theorem C113_not_gzip {ζd : Type} {D : Decompressor ζd} {y : List UInt8} {b : UInt8} {t : List UInt8}
    (hP : IsStream P c Failure.never soft input) (hK : Packs K R) (hR : R K.init (c.drop (P.position input).toNat) y)
    (hy : y = b :: t) (hb : b.toNat % 16 = 8) (N : Nat) (hN : c.length + y.length + 1 < N) :
    ∃ s, GZip.new (GZipCompress.ops P K N) D true (GZipCompress.new K input) = .ok s ∧ s.status = .error := by
  obtain ⟨h0, h1⟩ := C112_stream hP hK hR N hN
  obtain ⟨s, e, h, _⟩ := C55_gzip_wrong_magic (D := D) (c := y) (soft := True) (input := GZipCompress.new K input) h1 (by
    rw [h0, hy]
    simp only [Int.toNat_zero, List.drop_zero, List.cons_prefix_cons]
    rintro ⟨rfl, _⟩
    exact absurd hb (by decide))
  exact ⟨s, e, h⟩

/-! ## Examples -/

/-- For the examples: the data is stored as it is, and a NUL ends it. -/
def storedCompressor : Compressor Unit where
  init := ()
  run _ inp space finish :=
    if finish then ((), 0, [0], .ended) else ((), (inp.take space.toNat).length, inp.take space.toNat, .ok)

theorem stored_packs : Packs storedCompressor (fun _ x y => y = x ++ [0]) := by
  constructor
  · rintro z x y rfl inp ⟨t, rfl⟩ hne space hsp
    refine ⟨_, _, _, _, rfl, ?_, ?_, inp.drop space.toNat ++ (t ++ [0]), ?_, ?_, ?_⟩
    · simp only [List.length_take]; omega
    · simp only [List.length_take]; omega
    · rw [← List.append_assoc (List.take _ _), List.take_append_drop, List.append_assoc]
    · simp only [List.length_take]
      rw [List.drop_append_of_le_length (by omega), List.append_assoc]
      congr 1
      by_cases h : space.toNat ≤ inp.length
      · rw [Nat.min_eq_left h]
      · rw [Nat.min_eq_right (by omega), List.drop_of_length_le (by omega), List.drop_of_length_le (by omega)]
    · simp only [List.length_take]; omega
  · rintro z y rfl space hsp
    exact ⟨_, _, _, _, rfl, by simp; omega, [], by simp, Or.inl ⟨rfl, rfl⟩⟩

/-- **C112**, **C113**: the hypotheses are met. -/
example : (GZipCompress.ops StringStream.ops storedCompressor 20).position (GZipCompress.new storedCompressor (StringStream.new [0x78, 1, 2])) = 0 ∧
    IsStream (GZipCompress.ops StringStream.ops storedCompressor 20) [0x78, 1, 2, 0] ⟨False, False⟩ True
      (GZipCompress.new storedCompressor (StringStream.new [0x78, 1, 2])) :=
  C112_stream (y := [0x78, 1, 2, 0]) (C01_isStream [0x78, 1, 2]) stored_packs (by decide) 20 (by decide)

example : ∃ s, GZip.new (GZipCompress.ops StringStream.ops storedCompressor 20) storedDecompressor false
      (GZipCompress.new storedCompressor (StringStream.new [0x78, 1, 2])) = .ok s ∧ s.pos = 0 ∧
    IsStream (GZip.ops (GZipCompress.ops StringStream.ops storedCompressor 20) storedDecompressor 30) [0x78, 1, 2] .never True s :=
  C113_roundtrip (y := [0x78, 1, 2, 0]) (C01_isStream [0x78, 1, 2]) stored_packs (by decide) stored_unpacks ⟨by decide, by decide⟩
    (by simp) 20 30 (by decide) (by decide)

example : ∃ s, GZip.new (GZipCompress.ops StringStream.ops storedCompressor 20) storedDecompressor true
      (GZipCompress.new storedCompressor (StringStream.new [0x78, 1, 2])) = .ok s ∧ s.status = .error :=
  C113_not_gzip (y := [0x78, 1, 2, 0]) (C01_isStream [0x78, 1, 2]) stored_packs (by decide) rfl (by decide) 20 (by decide)

end Strigi.Props
