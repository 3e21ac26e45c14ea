import Verif.Proofs.LzmaStream
import Verif.Props.Magic
import Verif.Props.ProcessErrors

/-!
# Properties C106-C108: `LZMAInputStream`
-/

namespace Strigi.Props

open LzmaStream

/-- The 13 bytes at the beginning of an lzma file that `LZMAInputStream` supports, with the size of the data (-1 if it is
not known). -/
def LzmaHeader (hdr : List UInt8) (size : Int) : Prop :=
  hdr.length = 13 ∧ LzmaMagic hdr ∧ size = Text.signed 64 (Text.leValue (hdr.drop 5))

section
variable {σ ζ : Type} {P : StreamOps σ UInt8} {D : LzmaDecoder ζ} {R : ζ → List UInt8 → List UInt8 → Prop}
  {bad soft : Prop} {c : List UInt8} {input : σ}

theorem lzma_size {hdr : List UInt8} (h : hdr.length = 13) :
    TextUtils.readLittleEndianInt64 (hdr.drop 5) = .ok (Text.signed 64 (Text.leValue (hdr.drop 5))) := by
  rcases hdr with _ | ⟨d0, _ | ⟨d1, _ | ⟨d2, _ | ⟨d3, _ | ⟨d4, _ | ⟨d5, _ | ⟨d6, _ | ⟨d7, _ | ⟨d8, _ |
      ⟨d9, _ | ⟨d10, _ | ⟨d11, _ | ⟨d12, _ | ⟨_, _⟩⟩⟩⟩⟩⟩⟩⟩⟩⟩⟩⟩⟩⟩ <;> simp only [List.length_cons, List.length_nil] at h <;> try omega
  exact (C31_64 d5 d6 d7 d8 d9 d10 d11 d12 []).2.1

/-- The constructor reads the header. -/
theorem lzma_new {rest hdr : List UInt8} {size : Int} (hP : IsStream P c Failure.never soft input)
    (hc : c.drop (P.position input).toNat = hdr ++ rest) (hh : LzmaHeader hdr size) {z : ζ} (z0 : ζ)
    (hz : D.init (hdr.take 5) = .ok z) :
    ∃ i, IsStream P c Failure.never soft i ∧ P.position i = P.position input + 13 ∧
      c.drop (P.position i).toNat = rest ∧
      LzmaStream.new P D z0 input = BufferedStream.setMinBufSize (BufferedStream.new
        ({ input := i, z := z, availIn := [], msize := size, done := 0, failed := false, marked := false } : State σ ζ) size) 262144 := by
  have C := Contract.of_behaves P c Failure.never soft
  have hrg := C.range hP
  obtain ⟨hl, hm, hs⟩ := hh
  have hlen := congrArg List.length hc
  rw [List.length_drop, List.length_append, hl] at hlen
  obtain ⟨i, n, d, er, hro, hk⟩ := C.read hP (min := 13) (max := 13) (by omega) (Or.inr (by omega))
  cases hro with
  | ended _ _ hend _ _ => omega
  | failed a _ _ => exact absurd a id
  | data pos items inside adv limit enough st =>
    have hn : n = 13 := by
      have := limit (by omega)
      rcases enough with x | x <;> omega
    subst hn
    have hd : d = hdr := by
      rw [items]
      unfold slice
      rw [hc, show (13 : Int).toNat = hdr.length from by rw [hl]; rfl, List.take_left]
    subst hd
    have hrg2 := C.range (hk st)
    refine ⟨i, fun l => ?_, adv, ?_, ?_⟩
    · exact C.narrow (hk st) (by omega) (by omega) (by omega) (by omega) l
    · rw [adv, show (P.position input + 13).toNat = (P.position input).toNat + d.length by rw [hl]; omega, ← List.drop_drop, hc,
        List.drop_left]
    · unfold LzmaStream.new
      rw [er]
      simp only [Res.bind_ok, if_true]
      obtain ⟨b, eb, hb⟩ := C59_lzma d
      rw [hl] at eb
      have hb := hb.mpr hm
      subst hb
      rw [show ((13 : Nat) : Int) = 13 from rfl] at eb
      rw [eb]
      simp only [Res.bind_ok, if_true]
      rw [hz, lzma_size hl]
      simp only [Res.bind_ok]
      rw [← hs]

/-- **C106**, data with an end mark (size -1 in the header): over any input stream that stands at the header and the
compressed data `x`, and for any decoder that turns `x` into `y`, the `LZMAInputStream` is a stream over `y`.  It only
fails if the decoder does. -/
theorem C106_marked {x y rest hdr : List UInt8} (hP : IsStream P c Failure.never soft input)
    (hc : c.drop (P.position input).toNat = hdr ++ (x ++ rest)) (hh : LzmaHeader hdr (-1)) {z : ζ} (z0 : ζ)
    (hz : D.init (hdr.take 5) = .ok z) (hD : LzmaMarked D bad R) (hR : R z x y) (N : Nat) (hN : x.length + y.length + 1 < N) :
    ∃ s, LzmaStream.new P D z0 input = .ok s ∧ s.pos = 0 ∧ IsStream (LzmaStream.ops P D N) y ⟨bad, bad⟩ True s := by
  obtain ⟨i, hS, hp, hd, e⟩ := lzma_new hP hc hh z0 hz
  have C := Contract.of_behaves P c Failure.never soft
  obtain ⟨C', S', s, e', hp', hH⟩ := opened (sized := false) (prompt := True) (trunc := False) (t := []) (LzmaMarked.decodes hD) C
    (fun _ {_ _ _} h => hD.needs h) (fun h => by cases h) (fun h => by cases h) hS (Or.inl ⟨⟨rest, by rw [hd]⟩, rfl⟩) hR (Or.inl trivial) hN
    (size := -1) rfl
  have hF : (⟨Failure.never.onRead ∨ bad ∨ False, Failure.never.onRead ∨ bad ∨ False⟩ : Failure) = ⟨bad, bad⟩ := by
    simp [Failure.never]
  rw [hF, List.append_nil] at C'
  rw [List.append_nil] at S' hH
  exact ⟨s, by rw [e]; exact e', hp', C'.isStream (fun _ => S') (by rw [show (LzmaStream.ops P D N).position s = 0 from hp']; exact hH)⟩

/-- **C106**, data of known size: the same, if the decoder never has output pending without needing input
(`prompt`), or if the input goes on after the compressed data. -/
theorem C106_sized {x y rest hdr : List UInt8} (hP : IsStream P c Failure.never soft input)
    (hc : c.drop (P.position input).toNat = hdr ++ (x ++ rest)) (hh : LzmaHeader hdr y.length) {z : ζ} (z0 : ζ)
    (hz : D.init (hdr.take 5) = .ok z) (hD : LzmaSized D bad R) (hR : R z x y)
    (hprompt : (∀ {z x y}, R z x y → x ≠ []) ∨ rest ≠ []) (N : Nat) (hN : x.length + y.length + 1 < N) :
    ∃ s, LzmaStream.new P D z0 input = .ok s ∧ s.pos = 0 ∧ IsStream (LzmaStream.ops P D N) y ⟨bad, bad⟩ True s := by
  obtain ⟨i, hS, hp, hd, e⟩ := lzma_new hP hc hh z0 hz
  have C := Contract.of_behaves P c Failure.never soft
  obtain ⟨C', S', s, e', hp', hH⟩ := opened (sized := true) (prompt := ∀ {z x y}, R z x y → x ≠ []) (trunc := False) (t := [])
    (LzmaSized.decodes hD) C (fun h => h) (fun _ => rfl) (fun _ {_ _ _} h => hD.rest h) hS (Or.inl ⟨⟨rest, by rw [hd]⟩, rfl⟩) hR
    (by
      rcases hprompt with h | h
      · exact Or.inl h
      · right
        rw [hd, List.length_append]
        have := List.length_pos_iff.mpr h
        omega) hN (size := y.length) rfl
  have hF : (⟨Failure.never.onRead ∨ bad ∨ False, Failure.never.onRead ∨ bad ∨ False⟩ : Failure) = ⟨bad, bad⟩ := by
    simp [Failure.never]
  rw [hF, List.append_nil] at C'
  rw [List.append_nil] at S' hH
  exact ⟨s, by rw [e]; exact e', hp', C'.isStream (fun _ => S') (by rw [show (LzmaStream.ops P D N).position s = 0 from hp']; exact hH)⟩

/-- **C106**, damaged files: if the input ends before the end mark, the stream behaves like a stream over `y` followed by
anything (`t`): it never delivers anything but the bytes of `y`, and never reports `Eof`; it fails instead. -/
theorem C106_truncated {x x1 y hdr : List UInt8} (hP : IsStream P c Failure.never soft input)
    (hc : c.drop (P.position input).toNat = hdr ++ x1) (hh : LzmaHeader hdr (-1)) (hx : x1 <+: x) (hlt : x1.length < x.length) {z : ζ} (z0 : ζ)
    (hz : D.init (hdr.take 5) = .ok z) (hD : LzmaMarked D bad R) (hR : R z x y) (N : Nat) (hN : x.length + y.length + 1 < N) :
    ∃ s, LzmaStream.new P D z0 input = .ok s ∧ s.pos = 0 ∧ ∀ t, IsStream (LzmaStream.ops P D N) (y ++ t) Failure.always True s := by
  obtain ⟨i, hS, hp, hd, e⟩ := lzma_new hP hc hh z0 hz
  have C := Contract.of_behaves P c Failure.never soft
  have key := fun t => opened (sized := false) (prompt := True) (trunc := True) (t := t) (LzmaMarked.decodes hD) C
    (fun _ {_ _ _} h => hD.needs h) (fun h => by cases h) (fun h => by cases h) hS (Or.inr ⟨trivial, by rw [hd]; exact hx, by rw [hd]; exact hlt⟩) hR (Or.inl trivial) hN
    (size := -1) rfl
  obtain ⟨_, _, s, e', hp', _⟩ := key []
  refine ⟨s, by rw [e]; exact e', hp', fun t => ?_⟩
  obtain ⟨C', S', s2, e2, _, hH⟩ := key t
  rw [e'] at e2; cases e2
  have hF : (⟨Failure.never.onRead ∨ bad ∨ True, Failure.never.onRead ∨ bad ∨ True⟩ : Failure) = Failure.always := by
    simp [Failure.always]
  rw [hF] at C'
  exact C'.isStream (fun _ => S') (by rw [show (LzmaStream.ops P D N).position s = 0 from hp']; exact hH)

/-- **C107**: if the input does not start with a supported header, the stream is in state `Error` from the start.  (The
input is not put back, but can be.) -/
theorem C107_wrong_header (hP : IsStream P c Failure.never soft input) (z0 : ζ)
    (hx : ∀ hdr rest, c.drop (P.position input).toNat = hdr ++ rest → hdr.length = 13 → ¬ LzmaMagic hdr) :
    ∃ s, LzmaStream.new P D z0 input = .ok s ∧ s.status = .error ∧
      ∀ l, Behaves P c Failure.never soft s.prod.input (P.position input) (P.position s.prod.input) l := by
  have C := Contract.of_behaves P c Failure.never soft
  have hrg := C.range hP
  obtain ⟨i, n, d, er, hro, hk⟩ := C.read hP (min := 13) (max := 13) (by omega) (Or.inr (by omega))
  have hst : P.status i ≠ .error := by
    cases hro with
    | data _ _ _ _ _ _ st => exact st
    | ended _ _ _ _ st => rw [st]; decide
    | failed a _ _ => exact absurd a id
  unfold LzmaStream.new
  rw [er]
  simp only [Res.bind_ok]
  by_cases hn : n = 13
  · rw [if_pos hn]
    cases hro with
    | ended z _ _ _ _ => omega
    | failed a _ _ => exact absurd a id
    | data pos items inside adv limit enough st =>
      subst hn
      have hl : d.length = 13 := by
        have := slice_length (c := c) (p := P.position input) (n := 13) (by omega) (by omega) (by omega)
        rw [← items] at this; omega
      obtain ⟨b, eb, hb⟩ := C59_lzma d
      rw [hl] at eb
      rw [show ((13 : Nat) : Int) = 13 from rfl] at eb
      have hbf : b = false := by
        cases b with
        | false => rfl
        | true =>
          exact absurd (hb.mp rfl) (hx d ((c.drop (P.position input).toNat).drop 13)
            (by rw [items]; unfold slice; rw [show (13 : Int).toNat = 13 from rfl, List.take_append_drop]) hl)
      subst hbf
      rw [eb]
      simp only [Res.bind_ok, Bool.false_eq_true, if_false]
      exact ⟨_, rfl, rfl, hk hst⟩
  · rw [if_neg hn]
    simp only [Res.bind_ok, Bool.false_eq_true, if_false]
    exact ⟨_, rfl, rfl, hk hst⟩

/-- **C108** (refuted claim: a stream that the decoder can finish is delivered completely): whenever the buffered data is not
sufficient, the decoder's input is used up and the input stream is at its end, the next read fails, although the decoder
may still have output pending (a match that did not fit into the buffer) or may be able to go on without input. -/
theorem C108_pending_lost {s s' : BufferedStream (State σ ζ) UInt8} {i : σ} {n mn mx r : Int} {d out : List UInt8} {N : Nat}
    (hst : s.status = .ok) (hfin : s.finished = false) (hb : s.buf.avail < mn)
    (hf : s.prod.failed = false) (hd : s.prod.done ≠ s.prod.msize) (ha : s.prod.availIn = [])
    (hi : P.read s.prod.input 1 0 = .ok (i, n, d)) (hn : n < 1)
    (h : (LzmaStream.ops P D N).read s mn mx = .ok (s', r, out)) : r = -2 ∧ s'.status = .error := by
  refine BufferedStream.read_error (P := producer P D N) hst hfin hb ?_ h
  intro space f' rr e
  simp only [producer] at e
  unfold fill at e
  rw [if_neg (by simp [hf]), if_neg (by omega), if_pos ha] at e
  unfold readFromStream at e
  rw [hi] at e
  simp only [Res.bind_ok] at e
  rw [if_pos hn] at e
  simp only [Res.bind_ok, if_true] at e
  cases e
  rfl

end

/-! ## Examples -/

/-- For the examples: data that is stored as it is and ends with a NUL, which is the mark. -/
def storedLzma : LzmaDecoder Unit where
  init _ := .ok ()
  run _ inp space _ :=
    let r := storedDecompressor.run () inp space
    .ok ((), r.2.1, r.2.2.1, if r.2.2.2 = .ended then .mark else if r.2.2.2 = .more then .more else .failed)

theorem stored_marked : LzmaMarked storedLzma False (fun _ x y => x = y ++ [0] ∧ 0 ∉ y) where
  needs h := by rw [h.1]; simp
  run {z x y} h inp hin space hsp := by
    obtain ⟨z', k, out, code, e, hk, ho, y', hy, hc⟩ := stored_unpacks (z := ()) h hin hsp
    refine ⟨(), k, out, if code = .ended then .mark else if code = .more then .more else .failed, ?_, hk, ho, y', hy, ?_⟩
    · unfold storedLzma
      simp only [e]
    · rcases hc with ⟨rfl, h1, h2⟩ | ⟨rfl, x', h1, h2, h3⟩ | ⟨h1, _⟩
      · exact Or.inl ⟨rfl, h1, h2⟩
      · exact Or.inr (Or.inl ⟨rfl, x', h1, h2, h3.imp id (fun h => h.1)⟩)
      · exact absurd h1 id

/-- Stored data of known size. -/
def plainLzma : LzmaDecoder Unit where
  init _ := .ok ()
  run _ inp space _ := .ok ((), (inp.take space.toNat).length, inp.take space.toNat, .more)

theorem plain_sized : LzmaSized plainLzma False (fun _ x y => x = y ∧ y ≠ []) where
  rest h := h.2
  run {z x y} h inp hin space hsp hle fin _ := by
    obtain ⟨rfl, hne⟩ := h
    refine ⟨(), _, _, _, rfl, by rw [List.length_take]; omega, by rw [List.length_take]; omega, ?_⟩
    have hpre : inp.take space.toNat <+: x := by
      rcases hin with h | h
      · exact (List.take_prefix _ _).trans h
      · exact List.prefix_of_prefix_length_le (List.take_prefix _ _) h (by rw [List.length_take]; omega)
    obtain ⟨y', hy⟩ := hpre
    refine ⟨y', hy.symm, ?_⟩
    by_cases hz : y' = []
    · exact Or.inl ⟨hz, by decide⟩
    · refine Or.inr (Or.inl ⟨rfl, y', ?_, ⟨rfl, hz⟩, ?_⟩)
      · rw [← List.prefix_iff_eq_take.mp (List.take_prefix _ inp)]; exact hy.symm
      · rw [List.length_take]
        omega

/-- The header of a file with a dictionary of 64K and unknown size. -/
def markedHeader : List UInt8 := [0x5d, 0, 0, 1, 0, 0xff, 0xff, 0xff, 0xff, 0xff, 0xff, 0xff, 0xff]

theorem markedHeader_ok : LzmaHeader markedHeader (-1) :=
  ⟨rfl, ⟨[0, 1, 0], List.replicate 8 0xff, [], rfl, rfl, rfl, by decide, Or.inl (by decide)⟩, by decide⟩

/-- The header of a file with the smallest dictionary and 4097 bytes. -/
def sizedHeader : List UInt8 := [0x5d, 0, 0, 0, 0, 1, 0x10, 0, 0, 0, 0, 0, 0]

theorem sizedHeader_ok : LzmaHeader sizedHeader 4097 :=
  ⟨rfl, ⟨[0, 0, 0], [1, 0x10, 0, 0, 0, 0, 0, 0], [], rfl, rfl, rfl, by decide, Or.inr (by decide)⟩, by decide⟩

/-- Non-vacuity of C106: with an end mark, of known size, and truncated. -/
example : ∃ s, LzmaStream.new StringStream.ops storedLzma () (StringStream.new (markedHeader ++ ([5, 6, 0] ++ [9]))) = .ok s ∧ s.pos = 0 ∧
    IsStream (LzmaStream.ops StringStream.ops storedLzma 30) [5, 6] ⟨False, False⟩ True s :=
  C106_marked (hdr := markedHeader) (x := [5, 6, 0]) (rest := [9]) (C01_isStream _) rfl markedHeader_ok () rfl stored_marked ⟨rfl, by decide⟩ 30 (by decide)

example (y : List UInt8) (h : y.length = 4097) : ∃ s, LzmaStream.new StringStream.ops plainLzma () (StringStream.new (sizedHeader ++ (y ++ []))) = .ok s ∧ s.pos = 0 ∧
    IsStream (LzmaStream.ops StringStream.ops plainLzma 8200) y ⟨False, False⟩ True s := by
  have hh : LzmaHeader sizedHeader y.length := by
    rw [show (y.length : Int) = 4097 by omega]; exact sizedHeader_ok
  have hne : y ≠ [] := by intro z; rw [z] at h; simp at h
  exact C106_sized (hdr := sizedHeader) (x := y) (rest := []) (C01_isStream _) rfl hh () rfl plain_sized
    ⟨rfl, hne⟩ (Or.inl fun h => by rw [h.1]; exact h.2) 8200 (by omega)

example : ∃ s, LzmaStream.new StringStream.ops storedLzma () (StringStream.new (markedHeader ++ [5])) = .ok s ∧ s.pos = 0 ∧
    ∀ t, IsStream (LzmaStream.ops StringStream.ops storedLzma 30) ([5, 6] ++ t) Failure.always True s :=
  C106_truncated (hdr := markedHeader) (x1 := [5]) (x := [5, 6, 0]) (C01_isStream _) rfl markedHeader_ok ⟨[6, 0], rfl⟩ (by decide) () rfl stored_marked ⟨rfl, by decide⟩ 30 (by decide)

/-- A decoder whose data is one byte, to be repeated: the output is pending after the byte has been consumed. -/
def repeatLzma : LzmaDecoder (Option UInt8) where
  init _ := .ok none
  run z inp space _ := match z with
    | some b => .ok (some b, 0, List.replicate space.toNat b, .more)
    | none => match inp with
      | [] => .ok (none, 0, [], .more)
      | b :: _ => .ok (some b, 1, List.replicate space.toNat b, .more)

/-- It decodes correctly. -/
theorem repeat_sized : LzmaSized repeatLzma False (fun z x y => y ≠ [] ∧ ((∃ b n, z = some b ∧ x = [] ∧ y = List.replicate n b) ∨
    ∃ b n, z = none ∧ x = [b] ∧ y = List.replicate n b)) where
  rest h := h.1
  run {z x y} h inp hin space hsp hle fin _ := by
    obtain ⟨hne, h⟩ := h
    have split : ∀ (b : UInt8) (n : Nat), space ≤ n → List.replicate n b = List.replicate space.toNat b ++ List.replicate (n - space.toNat) b := by
      intro b n h
      rw [List.replicate_append_replicate]; congr 1; omega
    rcases h with ⟨b, n, rfl, rfl, rfl⟩ | ⟨b, n, rfl, rfl, rfl⟩
    · refine ⟨some b, 0, List.replicate space.toNat b, .more, rfl, by simp, by simp; omega, _, split b n (by simpa using hle), ?_⟩
      by_cases hz : n - space.toNat = 0
      · left; simp [hz]
      · exact Or.inr (Or.inl ⟨rfl, [], by simp, ⟨by simp [hz], Or.inl ⟨b, _, rfl, rfl, rfl⟩⟩, Or.inl (by simp; omega)⟩)
    · rcases inp with _ | ⟨a, inp⟩
      · exact ⟨none, 0, [], .more, rfl, by simp, by simp; omega, _, rfl, Or.inr (Or.inl ⟨rfl, [b], by simp, ⟨hne, Or.inr ⟨b, n, rfl, rfl, rfl⟩⟩, Or.inr rfl⟩)⟩
      · have hab : a = b := by
          rcases hin with h | h
          · simpa using (List.cons_prefix_cons.mp h).1
          · simpa using (List.cons_prefix_cons.mp h).1.symm
        subst hab
        refine ⟨some a, 1, List.replicate space.toNat a, .more, rfl, by simp, by simp; omega, _, split a n (by simpa using hle), ?_⟩
        by_cases hz : n - space.toNat = 0
        · left; simp [hz]
        · exact Or.inr (Or.inl ⟨rfl, [], by simp, ⟨by simp [hz], Or.inl ⟨a, _, rfl, rfl, rfl⟩⟩, Or.inl (by simp; omega)⟩)

/-- Non-vacuity of C108: a complete file, read byte by byte, fails at the second byte.  (The buffer is not allocated in
advance here, to keep the computation small.) -/
example : (do
    let s ← LzmaStream.new StringStream.ops repeatLzma none (StringStream.new (sizedHeader ++ [7]))
    let r ← (LzmaStream.ops StringStream.ops repeatLzma 5000).read { s with buf := StreamBuffer.empty } 1 1
    let q ← (LzmaStream.ops StringStream.ops repeatLzma 5000).read r.1 1 1
    Res.ok (r.2.1, r.2.2, q.2.1, q.1.status)) = .ok (1, [7], -2, .error) := by decide +kernel

/-- **C108** (refuted claim: data that is shorter than the header says is an error): a file whose header declares 4097
bytes and whose mark comes after two bytes is delivered as a stream of two bytes that ends with `Eof`; `size()` changes from
4097 to 2 as soon as the mark has been decoded.  (The buffer has 16 bytes here, to keep the computation small.) -/
theorem C108_early_mark : (do
    let s ← LzmaStream.new StringStream.ops storedLzma () (StringStream.new (sizedHeader ++ [5, 6, 0, 9]))
    let s ← BufferedStream.setMinBufSize { s with buf := StreamBuffer.empty } 16
    let L := LzmaStream.ops StringStream.ops storedLzma 50
    let r ← L.read s 1 0
    let q ← L.read r.1 1 0
    Res.ok ((L.size s, L.size r.1, L.size q.1), (r.2.1, r.2.2, q.2.1), [L.status r.1, L.status q.1])) =
      .ok ((4097, 2, 2), (2, [5, 6], -1), [.ok, .eof]) := by decide +kernel

end Strigi.Props
