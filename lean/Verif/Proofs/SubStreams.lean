import Verif.WalkSpec
import Verif.Proofs.Isolate

/-!
# A listing of bytes
-/

namespace Strigi
namespace Walk

open Nest
open Props (BZ2Magic LzmaMagic)

variable {σ : Type} {P : StreamOps σ UInt8} {c : List UInt8} {α : Type}

/-! ## Two invariants at once -/

/-- The view of a stream with the content `c`, with a second restriction on `reset`. -/
def bothView (P : StreamOps σ UInt8) (c : List UInt8) (W : View σ) : View σ where
  total := c.length
  loc := P.position
  dead _ := False
  fin s := P.position s = c.length
  gives p d := 0 ≤ p ∧ d = slice c p d.length
  allowed q := q ≤ c.length ∧ W.allowed q
  back := False

theorem both_sturdy {e : σ} (hI : IsStream P c Failure.never True e) (L : Lenient P c (Proper P c e)) {G : σ → Prop} {W : View σ}
    (S : Sturdy P 1 G W) : Sturdy P 1 (fun s => G s ∧ Proper P c e s) (bothView P c W) where
  sync _ _ := ⟨id, rfl⟩
  range h _ := by
    have hp := h.2.health hI
    obtain ⟨a, b⟩ := S.sync h.1 hp.2.2
    obtain ⟨_, _, _, r⟩ := S.range h.1 a
    exact ⟨hp.1, hp.2.1, Int.le_refl _, hp.2.1, by show W.allowed (P.position _); rw [b]; exact r⟩
  ended h hs := absurd hs (h.2.health hI).2.2
  below h1 h2 := ⟨Int.le_trans h1 h2.1, S.below h1 h2.2⟩
  read := by
    rintro s ⟨hG, h⟩ mn mx h1 h2
    obtain ⟨s', n, d, e1, h', g⟩ := (proper_sturdy hI L).read h mn mx h1 h2
    obtain ⟨s2, n2, d2, e2, hG', _⟩ := S.read hG mn mx h1 h2
    rw [e1] at e2; cases e2
    exact ⟨s', n, d, e1, ⟨hG', h'⟩, g⟩
  skip := by
    rintro s ⟨hG, h⟩ k hk
    obtain ⟨s', r, e1, h', g⟩ := (proper_sturdy hI L).skip h k hk
    obtain ⟨s2, r2, e2, hG', _⟩ := S.skip hG k hk
    rw [e1] at e2; cases e2
    exact ⟨s', r, e1, ⟨hG', h'⟩, g⟩
  reset := by
    rintro s ⟨hG, h⟩ q hq ha
    obtain ⟨h3, h4⟩ := ha.resolve_right id
    obtain ⟨s', r, e1, h', g1, g2⟩ := (proper_sturdy hI L).reset h q hq (Or.inl h3)
    obtain ⟨s2, r2, e2, hG', _⟩ := S.reset hG q hq (Or.inl h4)
    rw [e1] at e2; cases e2
    refine ⟨s', r, e1, ⟨hG', h'⟩, fun z => z.elim, fun z => ?_⟩
    obtain ⟨k1, k2, k3, _⟩ := g2 id
    exact ⟨k1, k2, k3, fun b => b.elim⟩

theorem both_meets {e : σ} (hI : IsStream P c Failure.never True e) (L : Lenient P c (Proper P c e)) {G : σ → Prop} {W : View σ}
    (S : Sturdy P 1 G W) : Meets (sliceFacts c) P (fun s => G s ∧ Proper P c e s) (bothView P c W) :=
  ⟨both_sturdy hI L S, Nat.le_refl _, ⟨0, fun p d z => by rw [Int.add_zero]; exact z⟩, fun z => z.elim, fun z => z.elim⟩

theorem slice_meets {e : σ} (hI : IsStream P c Failure.never True e) (L : Lenient P c (Proper P c e)) :
    Meets (sliceFacts c) P (Proper P c e) (entryView P c e) :=
  ⟨proper_sturdy hI L, Nat.le_refl _, ⟨0, fun p d z => by rw [Int.add_zero]; exact z⟩, fun z => z.elim, fun z => z.elim⟩

/-! ## What is done with a stream -/

/-- The stream is handed back with the result `t`; if `nested`, whatever was known of it is still so. -/
def Does (nested : Bool) (u : Use α) (c : List UInt8) (t : α) : Prop :=
  ∀ (σ : Type) (P : StreamOps σ UInt8) (s : σ), IsStream P c Failure.never True s → P.position s = 0 →
    ∃ s', u σ P s = .ok (s', t) ∧ (nested = true → ∀ H V, Meets (sliceFacts c) P H V → H s → H s')

/-- The start of the stream is read, and the stream is put back. -/
theorem peek {s : σ} (hI : IsStream P c Failure.never True s) (h0 : P.position s = 0) (mn : Nat) (h1 : 1 ≤ mn) (h2 : mn < 2 ^ 31) :
    ∃ s1 n d s2 r, P.read s mn 0 = .ok (s1, n, d) ∧ P.reset s1 0 = .ok (s2, r) ∧ Start mn c d n ∧ IsStream P c Failure.never True s2 ∧
      P.position s2 = 0 ∧ ∀ H V, Meets (sliceFacts c) P H V → H s → H s2 := by
  have C := Contract.of_behaves P c Failure.never True
  obtain ⟨s1, n, d, e, rk, hk⟩ := C.read hI (min := mn) (max := 0) (by omega) (Or.inl rfl)
  have hst : P.status s1 ≠ .error := by
    cases rk with
    | data _ _ _ _ _ _ st => exact st
    | ended _ _ _ _ st => rw [st]; decide
    | failed a _ _ => exact absurd a id
  have hB := hk hst
  have hr := C.range hB
  obtain ⟨s2, e2, hp2, _, _, hB2⟩ := C.reset hB (q := 0) (by omega) (by omega)
  refine ⟨s1, n, d, s2, 0, e, e2, ?_, fun l => by rw [hp2]; exact hB2 l, hp2, ?_⟩
  · rw [h0] at rk
    cases rk with
    | data pos items inside adv limit enough st =>
      have hdl : (d.length : Int) = n := by rw [items]; exact slice_length (by omega) (by omega) (by omega)
      refine Or.inl ⟨?_, hdl.symm, by omega, ?_⟩
      · rw [items, slice]; exact List.take_prefix _ _
      · rcases enough with y | y
        · left; omega
        · right; rw [items, slice]; exact List.take_of_length_le (by simp; omega)
    | ended none nodata atEnd stay st => exact Or.inr ⟨List.length_eq_zero_iff.mp (by omega), nodata, by omega⟩
    | failed a _ _ => exact absurd a id
  · intro H V M hs
    obtain ⟨s1', n', d', e', hs1, _⟩ := M.sturdy.read hs mn 0 (by omega) (by omega)
    rw [e] at e'; cases e'
    obtain ⟨s2', r', e2', hs2⟩ := reset_back M.sturdy hs1 (q := 0) (by omega) (by omega)
    rw [e2] at e2'; cases e2'
    exact hs2

theorem start_prefix {mn : Nat} {h : List UInt8} {n : Int} (H : Start mn c h n) : h <+: c := by
  rcases H with ⟨a, _⟩ | ⟨a, b, _⟩
  · exact a
  · rw [a, b]; exact List.prefix_refl _

theorem start_bz2 {h : List UInt8} {n : Int} (H : Start 16 c h n) : ∃ b, BZ2.checkHeader h n = .ok b ∧ (b = true ↔ BZ2Magic c) := by
  rcases H with ⟨a, rfl, _, a3⟩ | ⟨a, b, hn⟩
  · obtain ⟨b, e, hb⟩ := Props.C59_bz2 h
    refine ⟨b, e, hb.trans ⟨fun ⟨x, y, hx, hp⟩ => ⟨x, y, hx, hp.trans a⟩, fun ⟨x, y, hx, hp⟩ => ⟨x, y, hx, ?_⟩⟩⟩
    rcases a3 with a3 | a3
    · exact List.prefix_of_prefix_length_le hp a (by simp; omega)
    · rw [a3]; exact hp
  · subst a b
    refine ⟨false, ?_, ?_⟩
    · unfold BZ2.checkHeader; rw [if_pos (by omega)]
    · simp only [Bool.false_eq_true, false_iff]
      rintro ⟨x, y, _, hp⟩
      have := hp.length_le
      simp at this

theorem start_gzip {h : List UInt8} {n : Int} (H : Start 2 c h n) : ∃ b, gzipMagic h n = .ok b ∧ (b = true ↔ [0x1f, 0x8b] <+: c) := by
  unfold gzipMagic
  rcases H with ⟨a, rfl, _, a3⟩ | ⟨a, b, hn⟩
  · by_cases hl : (h.length : Int) ≥ 2
    · rw [if_pos hl]
      obtain ⟨t, rfl⟩ := a
      rcases h with _ | ⟨x, _ | ⟨y, l⟩⟩ <;> simp only [List.length_cons, List.length_nil] at hl <;> try omega
      have e0 : aget (x :: y :: l) 0 = .ok x := rfl
      have e1 : aget (x :: y :: l) 1 = .ok y := rfl
      rw [e0, e1]
      simp only [Res.bind_ok]
      by_cases hx : x = 0x1f
      · rw [if_neg (by simp [hx])]
        refine ⟨_, rfl, ?_⟩
        simp [hx]
        exact ⟨fun z => z.symm, fun z => z.symm⟩
      · rw [if_pos hx]
        refine ⟨_, rfl, ?_⟩
        simp
        intro z; exact absurd z.symm hx
    · rw [if_neg hl]
      refine ⟨_, rfl, ?_⟩
      simp only [Bool.false_eq_true, false_iff]
      intro hp
      have := hp.length_le
      rcases a3 with a3 | a3
      · omega
      · rw [← a3] at this; simp at this; omega
  · subst a b
    rw [if_neg (by omega)]
    refine ⟨_, rfl, ?_⟩
    simp

theorem start_lzma {h : List UInt8} {n : Int} (H : Start 2 c h n) (hc : ¬ LzmaMagic c) : Lzma.checkHeader h n = .ok false := by
  rcases H with ⟨⟨t, rfl⟩, rfl, _, _⟩ | ⟨a, b, hn⟩
  · obtain ⟨b, e, hb⟩ := Props.C59_lzma h
    rw [e]
    cases b with
    | false => rfl
    | true =>
      obtain ⟨dic, size, rest, e, h⟩ := hb.mp rfl
      exact absurd ⟨dic, size, rest ++ t, by rw [e]; simp, h⟩ hc
  · unfold Lzma.checkHeader; rw [if_pos (by omega)]

/-! ## The layers -/

variable {K : Kit} {nested : Bool} {k : Bool → Use α} {t : α}

theorem tryBz2_no (hc : ¬ BZ2Magic c) (hk : Does nested (k false) c t) : Does nested (tryBz2 K k) c t := by
  intro σ P s hI h0
  obtain ⟨s1, n, d, s2, r, e1, e2, hs, hI2, h02, hH⟩ := peek hI h0 16 (by omega) (by omega)
  obtain ⟨b, eb, hb⟩ := start_bz2 hs
  have : b = false := by
    cases b with
    | false => rfl
    | true => exact absurd (hb.mp rfl) hc
  subst this
  obtain ⟨s', e, hk⟩ := hk σ P s2 hI2 h02
  refine ⟨s', ?_, fun z H V M h => hk z H V M (hH H V M h)⟩
  unfold tryBz2
  rw [show P.read s 16 0 = _ from e1, Res.bind_ok, e2, Res.bind_ok, eb, Res.bind_ok, if_neg (by decide)]
  exact e

theorem tryGzip_no (hc : ¬ [0x1f, 0x8b] <+: c) (hk : Does nested (k false) c t) : Does nested (tryGzip K k) c t := by
  intro σ P s hI h0
  obtain ⟨s1, n, d, s2, r, e1, e2, hs, hI2, h02, hH⟩ := peek hI h0 2 (by omega) (by omega)
  obtain ⟨b, eb, hb⟩ := start_gzip hs
  have : b = false := by
    cases b with
    | false => rfl
    | true => exact absurd (hb.mp rfl) hc
  subst this
  obtain ⟨s', e, hk⟩ := hk σ P s2 hI2 h02
  refine ⟨s', ?_, fun z H V M h => hk z H V M (hH H V M h)⟩
  unfold tryGzip
  rw [show P.read s 2 0 = _ from e1, Res.bind_ok, e2, Res.bind_ok, eb, Res.bind_ok, if_neg (by decide)]
  exact e

theorem tryLzma_no (hc : ¬ LzmaMagic c) (hk : Does nested (k false) c t) : Does nested (tryLzma K k) c t := by
  intro σ P s hI h0
  obtain ⟨s1, n, d, s2, r, e1, e2, hs, hI2, h02, hH⟩ := peek hI h0 2 (by omega) (by omega)
  obtain ⟨s', e, hk⟩ := hk σ P s2 hI2 h02
  refine ⟨s', ?_, fun z H V M h => hk z H V M (hH H V M h)⟩
  unfold tryLzma
  rw [show P.read s 2 0 = _ from e1, Res.bind_ok, e2, Res.bind_ok, start_lzma hs hc, Res.bind_ok, if_neg (by decide)]
  exact e


theorem tryBz2_yes {x rest y : List UInt8} (hm : Makes K.bz x y) (hx : BZ2Magic x) (hy : y ≠ []) (hl : y.length < 2 ^ 31)
    (hN : 2 * (x.length + y.length) + 1 < K.N) (hf : nested = true → ∃ g w, (Nest.bz2 K.bz g w K.N).fits (sliceFacts (x ++ rest)))
    (hk : Does nested (k true) y t) : Does nested (tryBz2 K k) (x ++ rest) t := by
  intro σ P s hI h0
  obtain ⟨s1, n, d, s2, r, e1, e2, hs, hI2, h02, hH⟩ := peek hI h0 16 (by omega) (by omega)
  obtain ⟨b, eb, hb⟩ := start_bz2 hs
  have : b = true := hb.mpr (by
    obtain ⟨x1, x2, h1, h2⟩ := hx
    exact ⟨x1, x2, h1, h2.trans (List.prefix_append _ _)⟩)
  subst this
  obtain ⟨R, hD, hR⟩ := hm
  obtain ⟨q, eq, hq0, hqI, _⟩ := Props.C55_bz2 hI2 hD (x := x) (y := y) (rest := rest) (by rw [h02]; rfl) hR hx K.N hN
  have hqI : IsStream (BZ2.ops P K.bz K.N) y Failure.never True q := hqI
  have hst : q.status = .ok := by
    have C := Contract.of_behaves (BZ2.ops P K.bz K.N) y Failure.never True
    have h1 : q.status ≠ .error ∧ (q.status = .eof → q.pos = y.length) := C.status hqI
    have h2 := List.length_pos_iff.mpr hy
    cases hh : q.status with
    | ok => rfl
    | eof => have := h1.2 hh; omega
    | error => exact absurd hh h1.1
  obtain ⟨q', e, hk⟩ := hk _ (BZ2.ops P K.bz K.N) q hqI hq0
  refine ⟨q'.prod.input, ?_, fun z H V M h => ?_⟩
  · unfold tryBz2
    rw [show P.read s 16 0 = _ from e1, Res.bind_ok, e2, Res.bind_ok, eb, Res.bind_ok, if_pos rfl, eq, Res.bind_ok, if_pos hst, e]
    rfl
  · obtain ⟨g, w, hf⟩ := hf z
    have hst2 : P.status s2 ≠ .error := ((Contract.of_behaves P _ Failure.never True).status hI2).1
    obtain ⟨p, I, ep, N, hI0⟩ := reader_ok (.bz2 K.bz g w K.N) hf M (hH H V M h) hst2
    have ep : BZ2.new P K.bz s2 = .ok p := ep
    rw [eq] at ep; cases ep
    obtain ⟨G, W, S, hG, _, _, _, hset, _⟩ := N.entry hI0 (e := q) rfl
    have S : Sturdy (BZ2.ops P K.bz K.N) 1 G W := S
    have hb := hk z _ _ (both_meets hqI (buffered_lenient (B := Unpack.producer P K.bz false K.N) hqI hl) S) ⟨hG, _, _, .start⟩
    exact N.under (hset q' hb.1)

theorem tryGzip_yes {x rest y : List UInt8} (hm : Makes K.gz x y) (hx : [0x1f, 0x8b] <+: x) (hy : y ≠ []) (hl : y.length < 2 ^ 31)
    (hN : 2 * (x.length + y.length) + 1 < K.N) (hf : nested = true → ∃ g w, (Nest.gzip K.gz g w true K.N).fits (sliceFacts (x ++ rest)))
    (hk : Does nested (k true) y t) : Does nested (tryGzip K k) (x ++ rest) t := by
  intro σ P s hI h0
  obtain ⟨s1, n, d, s2, r, e1, e2, hs, hI2, h02, hH⟩ := peek hI h0 2 (by omega) (by omega)
  obtain ⟨b, eb, hb⟩ := start_gzip hs
  have : b = true := hb.mpr (hx.trans (List.prefix_append _ _))
  subst this
  obtain ⟨R, hD, hR⟩ := hm
  obtain ⟨q, eq, hq0, hqI, _⟩ := Props.C55_gzip_file hI2 hD (x := x) (y := y) (rest := rest) (by rw [h02]; rfl) hR hx K.N hN
  have hqI : IsStream (GZip.ops P K.gz K.N) y Failure.never True q := hqI
  have hst : q.status = .ok := by
    have C := Contract.of_behaves (GZip.ops P K.gz K.N) y Failure.never True
    have h1 : q.status ≠ .error ∧ (q.status = .eof → q.pos = y.length) := C.status hqI
    have h2 := List.length_pos_iff.mpr hy
    cases hh : q.status with
    | ok => rfl
    | eof => have := h1.2 hh; omega
    | error => exact absurd hh h1.1
  obtain ⟨q', e, hk⟩ := hk _ (GZip.ops P K.gz K.N) q hqI hq0
  refine ⟨q'.prod.input, ?_, fun z H V M h => ?_⟩
  · unfold tryGzip
    rw [show P.read s 2 0 = _ from e1, Res.bind_ok, e2, Res.bind_ok, eb, Res.bind_ok, if_pos rfl, eq, Res.bind_ok, if_pos hst, e]
    rfl
  · obtain ⟨g, w, hf⟩ := hf z
    have hst2 : P.status s2 ≠ .error := ((Contract.of_behaves P _ Failure.never True).status hI2).1
    obtain ⟨p, I, ep, N, hI0⟩ := reader_ok (.gzip K.gz g w true K.N) hf M (hH H V M h) hst2
    have ep : GZip.new P K.gz true s2 = .ok p := ep
    rw [eq] at ep; cases ep
    obtain ⟨G, W, S, hG, _, _, _, hset, _⟩ := N.entry hI0 (e := q) rfl
    have S : Sturdy (GZip.ops P K.gz K.N) 1 G W := S
    have hb := hk z _ _ (both_meets hqI (buffered_lenient (B := Unpack.producer P K.gz true K.N) hqI hl) S) ⟨hG, _, _, .start⟩
    exact N.under (hset q' hb.1)

/-- The magics exclude each other. -/
theorem packed_lzma {j : Nat} {z : List UInt8} (h : Packed K nested j c z) : ¬ LzmaMagic c := by
  cases h with
  | plain h => exact h.lzma
  | bz2 _ hx =>
    rintro ⟨dic, size, rest, e, _⟩
    obtain ⟨_, _, _, ⟨t, rfl⟩⟩ := hx
    simp at e
  | gzip _ hx =>
    rintro ⟨dic, size, rest, e, _⟩
    obtain ⟨t, rfl⟩ := hx
    simp at e

theorem bz2_not_gzip {x rest : List UInt8} (hx : BZ2Magic x) : ¬ [0x1f, 0x8b] <+: x ++ rest := by
  obtain ⟨_, _, _, ⟨t, rfl⟩⟩ := hx
  simp

theorem gzip_not_bz2 {x rest : List UInt8} (hx : [0x1f, 0x8b] <+: x) : ¬ BZ2Magic (x ++ rest) := by
  obtain ⟨t, rfl⟩ := hx
  rintro ⟨_, _, _, ⟨t', e⟩⟩
  simp at e

/-- The loop takes away all layers, if there are not more than rounds. -/
theorem unpack_ok {u : Use α} {z : List UInt8} (hu : Does nested u z t) : ∀ (m j : Nat) (c : List UInt8), Packed K nested j c z → j ≤ m → Does nested (unpack K u m) c t := by
  intro m
  induction m with
  | zero =>
    intro j c h hj
    cases h with
    | plain _ => exact hu
    | bz2 => omega
    | gzip => omega
  | succ m ih =>
    intro j c h hj
    show Does nested (tryBz2 K _) c t
    have hl := packed_lzma h
    cases h with
    | plain b =>
      exact tryBz2_no b.bz2 (tryGzip_no b.gzip (tryLzma_no b.lzma hu))
    | bz2 m1 hx hy hyl hN hf hp =>
      refine tryBz2_yes m1 hx hy hyl hN hf ?_
      have hl := packed_lzma hp
      cases hp with
      | plain b =>
        exact tryGzip_no b.gzip (tryLzma_no b.lzma (ih _ _ (.plain b) (by omega)))
      | bz2 m2 hx2 hy2 hyl2 hN2 hf2 hp2 =>
        exact tryGzip_no (bz2_not_gzip hx2) (tryLzma_no hl (ih _ _ (.bz2 m2 hx2 hy2 hyl2 hN2 hf2 hp2) (by omega)))
      | gzip m2 hx2 hy2 hyl2 hN2 hf2 hp2 =>
        exact tryGzip_yes m2 hx2 hy2 hyl2 hN2 hf2 (tryLzma_no (packed_lzma hp2) (ih _ _ hp2 (by omega)))
    | gzip m1 hx hy hyl hN hf hp =>
      exact tryBz2_no (gzip_not_bz2 hx) (tryGzip_yes m1 hx hy hyl hN hf (tryLzma_no (packed_lzma hp) (ih _ _ hp (by omega))))

/-! ## The entries -/

theorem Archive.known {untold : Bool} {L : Reader} (h : Archive untold L) : Known L := by
  cases h with
  | tar f => exact .tar f
  | cpio f => exact .cpio f
  | ar f => exact .ar f
  | sdf f => exact .sdf f
  | zip D g w m N f => exact .zip D g w m N f

/-- An entry of which the size is told, or of which it is known when it was read to the end. -/
def Tells {ε : Type} (Q : StreamOps ε UInt8) (c : List UInt8) (size : Int) (e : ε) : Prop :=
  (0 ≤ size ∧ ∀ e', Proper Q c e e' → Q.size e' = c.length) ∨ (size < 0 ∧ ∀ e', Proper Q c e e' → Q.status e' = .eof → Q.size e' = c.length)

theorem size_cases {ε : Type} {Q : StreamOps ε UInt8} {e e' : ε} (hI : IsStream Q c Failure.never True e) (h : Proper Q c e e') :
    Q.size e' = -1 ∨ Q.size e' = c.length := by
  have := (Contract.of_behaves Q c Failure.never True).size (h.isStream hI)
  simpa [Failure.never] using this

/-- What is used of the entries of a reader: their size does not change, and they tolerate the calls of other readers. -/
theorem entry_plain {untold : Bool} {L : Reader} (hL : Archive untold L) {p p' : L.State σ} {e : L.Entry σ} {a : ArchiveEntry} (h1 : (L.ops P).nextEntry p = .ok p')
    (h2 : (L.ops P).entry p' = some e) (h3 : (L.ops P).info p' = a.info) (h4 : (L.ops P).stream.size e = a.info.size) (h5 : 0 ≤ a.info.size ∨ untold = true)
    (h6 : a.content.length < 2 ^ 31) (hI : IsStream (L.ops P).stream a.content Failure.never True e) :
    Lenient (L.ops P).stream a.content (Proper (L.ops P).stream a.content e) ∧ Tells (L.ops P).stream a.content a.info.size e := by
  have sub : ∀ {τ : Type} {Q : StreamOps τ UInt8} {e : SubInputStream τ}, IsStream (SubInputStream.ops Q) a.content Failure.never True e → e.size = a.info.size →
      0 ≤ a.info.size → Lenient (SubInputStream.ops Q) a.content (Proper (SubInputStream.ops Q) a.content e) ∧ Tells (SubInputStream.ops Q) a.content a.info.size e := by
    intro τ Q e hI hs h5
    refine ⟨sub_lenient hI (by omega) h6, Or.inl ⟨h5, fun e' hp => ?_⟩⟩
    rcases size_cases hI hp with z | z
    · obtain ⟨_, _, u⟩ := hp
      have h : e'.size = e.size := sub_size (by omega) u
      have z : e'.size = -1 := z
      omega
    · exact z
  cases hL with
  | tar fuel => exact sub hI h4 (h5.resolve_right fun z => by cases z)
  | cpio fuel => exact sub hI h4 (h5.resolve_right fun z => by cases z)
  | ar fuel => exact sub hI h4 (h5.resolve_right fun z => by cases z)
  | sdf fuel => exact sub hI h4 (h5.resolve_right fun z => by cases z)
  | zip D g w mktime N fuel =>
    have h1 : Zip.nextEntry P D mktime N fuel p = .ok p' := h1
    have h4 : (Zip.entryOps P D N).size e = a.info.size := h4
    have hI : IsStream (Zip.entryOps P D N) a.content Failure.never True e := hI
    have h3 : p'.info = a.info := h3
    rcases Zip.entry_kinds h1 h2 with ⟨h5, hk⟩ | ⟨h5, b, rfl, input, eb⟩
    · refine ⟨Zip.entry_lenient hI h6 (Or.inl (by rw [h4, ← h3]; omega)), Or.inl ⟨by rw [← h3]; exact h5, fun e' hp => ?_⟩⟩
      have hI2 : IsStream (Zip.entryOps P D N) a.content Failure.never True e := hI
      have hp : Proper (Zip.entryOps P D N) a.content e e' := hp
      show (Zip.entryOps P D N).size e' = _
      rcases size_cases hI2 hp with z | z
      · obtain ⟨_, _, u⟩ := hp
        cases e with
        | stored e =>
          obtain ⟨e2, rfl, u2⟩ := Zip.embeds_stored.uses u
          have h4 : e.size = a.info.size := h4
          have z : e2.size = -1 := z
          have : e2.size = e.size := sub_size (by rw [h4, ← h3]; omega) u2
          rw [z, h4, ← h3] at this; omega
        | deflated e =>
          obtain ⟨e2, rfl, u2⟩ := Zip.embeds_deflated.uses u
          have h4 : e.size = a.info.size := h4
          have z : e2.size = -1 := z
          have : e2.size = e.size := sub_size (by rw [h4, ← h3]; omega) u2
          rw [z, h4, ← h3] at this; omega
        | streamed e => exact absurd rfl (hk e)
      · exact z
    · refine ⟨Zip.entry_lenient hI h6 (Or.inr ⟨b, rfl⟩), Or.inr ⟨by rw [← h3]; exact h5, fun e' hp => ?_⟩⟩
      have hI2 : IsStream (Zip.entryOps P D N) a.content Failure.never True (.streamed b) := hI
      have hp : Proper (Zip.entryOps P D N) a.content (.streamed b) e' := hp
      show (Zip.entryOps P D N).status e' = .eof → (Zip.entryOps P D N).size e' = _
      intro he
      rcases size_cases hI2 hp with z | z
      · obtain ⟨_, _, u⟩ := hp
        obtain ⟨e2, rfl, u2⟩ := Zip.embeds_streamed.uses u
        have hb : BufferedStream.SizeKnown b := by
          have eb : BufferedStream.setMinBufSize (BufferedStream.new (Unpack.start D input)) 262144 = .ok b := eb
          unfold BufferedStream.setMinBufSize at eb
          obtain ⟨⟨b1, b2⟩, _, eb⟩ := BufferedStream.bind_eq_ok eb
          cases eb
          exact ⟨Int.le_refl _, fun z => by cases z⟩
        exact absurd z ((hb.uses (B := Unpack.producer P D true N) u2).2 he)
      · exact z

/-- `while (es->read(c, 1, 0) > 0) {}` -/
theorem toEnd_ok {ε : Type} {Q : StreamOps ε UInt8} {e : ε} (hI : IsStream Q c Failure.never True e) :
    ∀ (fuel : Nat) (s : ε), Proper Q c e s → c.length - Q.position s < fuel →
      ∃ s', readToEnd Q fuel s = .ok s' ∧ Q.status s' = .eof ∧ Proper Q c e s' ∧ ∀ H V, Sturdy Q 1 H V → H s → H s' := by
  intro fuel
  induction fuel with
  | zero => intro s hp hf; have := (hp.health hI).2.1; omega
  | succ fuel ih =>
    intro s hp hf
    have C := Contract.of_behaves Q c Failure.never True
    obtain ⟨s1, n, d, e1, ro, _⟩ := C.read (hp.isStream hI) (min := 1) (max := 0) (by omega) (Or.inl rfl)
    have hp1 : Proper Q c e s1 := by
      obtain ⟨lo, hi, u⟩ := hp
      exact ⟨_, _, .read u (by omega) (Or.inl rfl) e1⟩
    have hk : ∀ H V, Sturdy Q 1 H V → H s → H s1 := by
      intro H V S h
      obtain ⟨s2, _, _, e2, h', _⟩ := S.read h 1 0 (by omega) (by omega)
      rw [e1] at e2; cases e2; exact h'
    unfold readToEnd
    rw [e1, Res.bind_ok]
    cases ro with
    | data pos items inside adv limit enough st =>
      rw [if_pos (show n > 0 by omega)]
      obtain ⟨s', e', h1, h2, h3⟩ := ih s1 hp1 (by omega)
      exact ⟨s', e', h1, h2, fun H V S h => h3 H V S (hk H V S h)⟩
    | ended none nodata atEnd stay st =>
      rw [if_neg (show ¬ n > 0 by omega)]
      exact ⟨s1, rfl, st, hp1, hk⟩
    | failed a _ _ => exact absurd a id

theorem measure_ok {ε : Type} {Q : StreamOps ε UInt8} {e e' : ε} {size : Int} {N : Nat} (hI : IsStream Q c Failure.never True e) (hT : Tells Q c size e)
    (hp : Proper Q c e e') (hN : c.length < N) :
    ∃ e'', measure Q N size e' = .ok (e'', c.length) ∧ Proper Q c e e'' ∧ ∀ H V, Sturdy Q 1 H V → H e' → H e'' := by
  unfold measure
  rcases hT with ⟨h0, hT⟩ | ⟨h0, hT⟩
  · rw [if_neg (by omega), hT e' hp]
    exact ⟨e', rfl, hp, fun _ _ _ h => h⟩
  · rw [if_pos h0]
    obtain ⟨s', e1, h1, h2, h3⟩ := toEnd_ok hI N e' hp (by have := (hp.health hI).1; omega)
    rw [e1, Res.bind_ok, hT s' h2 h1]
    exact ⟨s', rfl, h2, h3⟩

/-- What `inner` finds in the entries of an archive. -/
inductive Found (K : Kit) (inner : Use Contents) (untold : Bool) : List ArchiveEntry → Contents → Prop
  | nil : Found K inner untold [] .nil
  | cons {a : ArchiveEntry} {l : List ArchiveEntry} {sub rest : Contents} : 0 ≤ a.info.size ∨ untold = true → a.content.length < 2 ^ 31 → a.content.length < K.N →
      Does true inner a.content sub → Found K inner untold l rest → Found K inner untold (a :: l) (.entry (attrOf a.info) a.content.length sub rest)

/-- All that a reader needs is still so. -/
def Kept (L : Reader) (P : StreamOps σ UInt8) (p p' : L.State σ) : Prop :=
  ∀ (V : View σ) (H : σ → Prop) (B : L.Entry σ → Nat) (I : Nat → L.State σ → Prop) (n : Nat),
    Nests V H (L.ops P) L.under B L.stored L.limit I → I n p → ∃ n', I n' p'

theorem Kept.trans {L : Reader} {p p' p'' : L.State σ} (h1 : Kept L P p p') (h2 : Kept L P p' p'') : Kept L P p p'' := by
  intro V H B I n N h
  obtain ⟨n', h⟩ := h1 V H B I n N h
  exact h2 V H B I n' N h

theorem Kept.next {L : Reader} {p p' : L.State σ} (h : (L.ops P).nextEntry p = .ok p') : Kept L P p p' := by
  intro V H B I n N hI
  obtain ⟨p2, e2, hI2⟩ := N.next hI
  rw [h] at e2; cases e2
  exact ⟨_, hI2⟩

/-- One entry. -/
theorem entry_ok {inner : Use Contents} {untold : Bool} {L : Reader} (hL : Archive untold L) {a : ArchiveEntry} {sub : Contents} {p0 p : L.State σ} {e : L.Entry σ}
    (h0 : (L.ops P).nextEntry p0 = .ok p) (h1 : (L.ops P).entry p = some e) (h2 : (L.ops P).info p = a.info) (h3 : (L.ops P).stream.position e = 0)
    (h4 : (L.ops P).stream.size e = a.info.size) (h5 : IsStream (L.ops P).stream a.content Failure.never True e)
    (f1 : 0 ≤ a.info.size ∨ untold = true) (f2 : a.content.length < 2 ^ 31) (fN : a.content.length < K.N) (f3 : Does true inner a.content sub) :
    ∃ x e', inner _ (L.ops P).stream e = .ok (x, sub) ∧ measure (L.ops P).stream K.N a.info.size x = .ok (e', a.content.length) ∧
      (∃ lo hi, Uses (L.ops P).stream a.content True e e' lo hi) ∧ Kept L P p ((L.ops P).setEntry p e') := by
  obtain ⟨hLen, hT⟩ := entry_plain hL h0 h1 h2 h4 f1 f2 h5
  obtain ⟨x, ee, hk⟩ := f3 _ _ e h5 h3
  have hk := hk rfl
  have hp := hk _ _ (slice_meets h5 hLen) ⟨_, _, .start⟩
  obtain ⟨e', em, hp', hkm⟩ := measure_ok (N := K.N) h5 hT hp fN
  refine ⟨x, e', ee, em, hp', ?_⟩
  intro V H B I n N hI
  obtain ⟨G, W, S, hG, _, _, _, hset, _⟩ := N.entry hI h1
  exact ⟨n, hset e' (hkm _ _ S (hk _ _ (both_meets h5 hLen S) ⟨hG, _, _, .start⟩).1)⟩

/-- The entries from the current one on. -/
theorem entries_ok {inner : Use Contents} {untold : Bool} {L : Reader} (hL : Archive untold L) {last : Status} : ∀ (l : List ArchiveEntry) (a : ArchiveEntry) (t : Contents) (p0 p : L.State σ) (e : L.Entry σ) (m : Nat),
    (L.ops P).nextEntry p0 = .ok p → (L.ops P).entry p = some e → (L.ops P).info p = a.info → (L.ops P).stream.position e = 0 →
    (L.ops P).stream.size e = a.info.size → IsStream (L.ops P).stream a.content Failure.never True e →
    (∀ e' lo hi, Uses (L.ops P).stream a.content True e e' lo hi → Presents (L.ops P) Failure.never True last ((L.ops P).setEntry p e') l) →
    Found K inner untold (a :: l) t → l.length + 1 < m → ∃ p', entries K inner L P m p = .ok (p', t) ∧ Kept L P p p' := by
  intro l
  induction l with
  | nil =>
    intro a t p0 p e m h0 h1 h2 h3 h4 h5 h6 hF hm
    cases hF with
    | cons f1 f2 fN f3 f4 =>
      cases f4
      obtain ⟨x, e', ee, em, ⟨lo, hi, u⟩, k1⟩ := entry_ok hL h0 h1 h2 h3 h4 h5 f1 f2 fN f3
      obtain ⟨p', hn, hfin, _, _⟩ := h6 e' lo hi u
      refine ⟨p', ?_, k1.trans (Kept.next hn)⟩
      obtain ⟨m, rfl⟩ : ∃ m', m = m' + 2 := ⟨m - 2, by simp at hm; omega⟩
      unfold entries
      rw [h1]
      dsimp only
      rw [ee, Res.bind_ok, h2, em, Res.bind_ok, hn, Res.bind_ok]
      unfold entries
      rw [hfin]
      rfl
  | cons b l ih =>
    intro a t p0 p e m h0 h1 h2 h3 h4 h5 h6 hF hm
    cases hF with
    | cons f1 f2 fN f3 f4 =>
      obtain ⟨x, e', ee, em, ⟨lo, hi, u⟩, k1⟩ := entry_ok hL h0 h1 h2 h3 h4 h5 f1 f2 fN f3
      obtain ⟨p1, e1, hn, g1, g2, _, g3, g4, g5, g6⟩ := h6 e' lo hi u
      obtain ⟨m, rfl⟩ : ∃ m', m = m' + 1 := ⟨m - 1, by omega⟩
      obtain ⟨p', er, k2⟩ := ih b _ _ p1 e1 m hn g1 g2 g3 g4 g5 g6 f4 (by simp at hm ⊢; omega)
      refine ⟨p', ?_, k1.trans ((Kept.next hn).trans k2)⟩
      unfold entries
      rw [h1]
      dsimp only
      rw [ee, Res.bind_ok, h2, em, Res.bind_ok, hn, Res.bind_ok, er, Res.bind_ok]

/-! ## The choice of the reader -/

/-- A stream of which only the start was read can be reset to its start. -/
theorem Looks.window {s s' : σ} (h : Looks P s s') (hI : IsStream P c Failure.never True s) (h0 : P.position s = 0) :
    ∃ hi, ∀ l, Behaves P c Failure.never True s' 0 hi l := by
  have C := Contract.of_behaves P c Failure.never True
  induction h with
  | start => exact ⟨0, fun l => by have := hI l; rw [h0] at this; exact this⟩
  | @read _ x mn mx n d _ hp h1 h2 h3 e ih =>
    obtain ⟨hi, hB⟩ := ih
    obtain ⟨_, _, _, e', rk, hk⟩ := C.read hB h1 h3
    rw [e] at e'; cases e'
    have hst : P.status x ≠ .error := by
      cases rk with
      | data _ _ _ _ _ _ st => exact st
      | ended _ _ _ _ st => rw [st]; decide
      | failed a _ _ => exact absurd a id
    have := hk hst
    rw [hp] at this
    exact ⟨_, this⟩
  | back _ e ih =>
    obtain ⟨hi, hB⟩ := ih
    have hr := C.range hB
    obtain ⟨s2, e2, _, _, hB2, _⟩ := C.reset hB (q := 0) (by omega) (by omega)
    rw [e] at e2; cases e2
    exact ⟨hi, hB2 (by omega)⟩

theorem Looks.kept {s s' : σ} (h : Looks P s s') (hI : IsStream P c Failure.never True s) (h0 : P.position s = 0) {H : σ → Prop} {V : View σ}
    (M : Meets (sliceFacts c) P H V) (hs : H s) : H s' := by
  induction h with
  | start => exact hs
  | read _ hp h1 h2 h3 e ih =>
    obtain ⟨s2, n, d, e', hs2, _⟩ := M.sturdy.read ih _ _ h1 h2
    rw [e] at e'; cases e'
    exact hs2
  | back h e ih =>
    obtain ⟨hi, hB⟩ := h.window hI h0
    have hr := (Contract.of_behaves P c Failure.never True).range hB
    obtain ⟨s2, r2, e2, hs2⟩ := reset_back M.sturdy ih (q := 0) (by omega) (by omega)
    rw [e] at e2; cases e2
    exact hs2

/-- Nothing is done with the stream but what leaves it usable, and it is put back at its start. -/
def Again (P : StreamOps σ UInt8) (c : List UInt8) (s s' : σ) : Prop :=
  IsStream P c Failure.never True s' ∧ P.position s' = 0 ∧ ∀ H V, Meets (sliceFacts c) P H V → H s → H s'

/-- Formats that do not take the content are passed over. -/
theorem choose_passes {none' : α} {k : (F : Format) → F.reader.State σ → Res (σ × α)} {l2 : List Format} {mn mn' : Nat} {l : List Format} (hl : Passes c mn l mn') :
    ∀ {s : σ} {h : List UInt8} {n : Int}, 1 ≤ mn → IsStream P c Failure.never True s → P.position s = 0 → Start mn c h n →
      ∃ s' h' n', choose P none' k (l ++ l2) s h n = choose P none' k l2 s' h' n' ∧ Again P c s s' ∧ Start mn' c h' n' := by
  induction hl with
  | nil => intro s h n _ hI h0 hs; exact ⟨s, h, n, rfl, ⟨hI, h0, fun _ _ _ h => h⟩, hs⟩
  | @no mn mn' F l ha _ ih =>
    intro s h n h1 hI h0 hs
    obtain ⟨s', h', n', e, g⟩ := ih h1 hI h0 hs
    refine ⟨s', h', n', ?_, g⟩
    show choose P none' k (F :: (l ++ l2)) s h n = _
    conv_lhs => unfold choose
    rw [ha h n hs, Res.bind_ok, if_neg (by decide)]
    exact e
  | @vain mn mn' F l ha hv _ ih =>
    intro s h n h1 hI h0 hs
    obtain ⟨p, p', e1, e2, e3, hlook⟩ := hv σ P s hI h0
    obtain ⟨hi, hB⟩ := hlook.window hI h0
    have C := Contract.of_behaves P c Failure.never True
    have hr := C.range hB
    obtain ⟨s1, er, hp1, _, _, hB1⟩ := C.reset hB (q := 0) (by omega) (by omega)
    have hI1 : IsStream P c Failure.never True s1 := fun l => by rw [hp1]; exact hB1 l
    obtain ⟨s2, n3, d3, s3, r3, e4, e5, hst, hI3, h03, hH⟩ := peek hI1 hp1 1 (by omega) (by omega)
    obtain ⟨s', h', n', e, ⟨g1, g2, g3⟩, g4⟩ := ih (by omega) hI3 h03 hst
    refine ⟨s', h', n', ?_, ⟨g1, g2, fun H V M hs => g3 H V M (hH H V M (Looks.kept (.back hlook er) hI h0 M hs))⟩, g4⟩
    show choose P none' k (F :: (l ++ l2)) s h n = _
    conv_lhs => unfold choose
    rw [ha h n hs, Res.bind_ok, if_pos rfl, e1, Res.bind_ok, e2, Res.bind_ok, e3]
    dsimp only
    rw [er, Res.bind_ok]
    rw [show P.read s1 1 0 = _ from e4, Res.bind_ok, e5, Res.bind_ok]
    exact e

theorem choose_some {none' : α} {k : (F : Format) → F.reader.State σ → Res (σ × α)} {s : σ} {h : List UInt8} {n : Int} {F : Format} {l2 : List Format} (hF : F.check h n = .ok true)
    {p p' : F.reader.State σ} {e : F.reader.Entry σ} (h1 : F.reader.new P s = .ok p) (h2 : (F.reader.ops P).nextEntry p = .ok p') (h3 : (F.reader.ops P).entry p' = some e) :
    choose P none' k (F :: l2) s h n = k F p' := by
  unfold choose
  rw [hF, Res.bind_ok, if_pos rfl, h1, Res.bind_ok, h2, Res.bind_ok, h3]

theorem walk_leaf {j mn : Nat} {z : List UInt8} (hp : Packed K nested j c z) (hj : j ≤ 33) (hs : Passes z 1024 K.subs mn) (d : Nat) :
    Does nested (walk K (d + 1)) c .nil := by
  refine unpack_ok (z := z) ?_ 33 j c hp hj
  intro σ P s hI h0
  obtain ⟨s1, n, h, s2, r, e1, e2, hst, hI2, h02, hH⟩ := peek hI h0 1024 (by omega) (by omega)
  obtain ⟨s', h', n', e, ⟨_, _, g3⟩, _⟩ := choose_passes (none' := Contents.nil) (k := fun F p => do
        let x ← entries K (walk K d) F.reader P K.N p
        .ok (F.reader.under x.1, x.2)) (l2 := []) hs (by omega) hI2 h02 hst
  rw [List.append_nil] at e
  refine ⟨s', ?_, fun _ H V M hs => g3 H V M (hH H V M hs)⟩
  dsimp only
  rw [show P.read s 1024 0 = _ from e1, Res.bind_ok, e2, Res.bind_ok]
  exact e

theorem walk_archive {j : Nat} {z : List UInt8} {F : Format} {untold : Bool} {l : List ArchiveEntry} {t : Contents} (hp : Packed K nested j c z) (hj : j ≤ 33)
    (hT : Takes K.subs z F) (hL : Archive untold F.reader) (hS : Shows F.reader z l) (hl : l ≠ []) (hN : l.length < K.N)
    (hf : nested = true → F.reader.fits (sliceFacts z)) (d : Nat) (hF : Found K (walk K d) untold l t) : Does nested (walk K (d + 1)) c t := by
  refine unpack_ok (z := z) ?_ 33 j c hp hj
  intro σ P s hI h0
  obtain ⟨s1, n, h, s2, r, e1, e2, hst, hI2, h02, hH⟩ := peek hI h0 1024 (by omega) (by omega)
  obtain ⟨l1, l2, mn, es, hr, ha⟩ := hT
  obtain ⟨s3, h3, n3, ec, ⟨hI3, h03, hH3⟩, hst3⟩ := choose_passes (none' := Contents.nil) (k := fun F p => do
        let x ← entries K (walk K d) F.reader P K.N p
        .ok (F.reader.under x.1, x.2)) (l2 := F :: l2) hr (by omega) hI2 h02 hst
  obtain ⟨p, last, hnew, hP⟩ := hS σ P s3 hI3 h03
  rcases l with _ | ⟨a, l⟩
  · exact absurd rfl hl
  obtain ⟨p1, e, hn, g1, g2, _, g3, g4, g5, g6⟩ := hP
  obtain ⟨p', er, hk⟩ := entries_ok (K := K) hL l a t p p1 e K.N hn g1 g2 g3 g4 g5 g6 hF (by simpa using hN)
  refine ⟨F.reader.under p', ?_, fun y H V M hs => ?_⟩
  · dsimp only
    rw [show P.read s 1024 0 = _ from e1, Res.bind_ok, e2, Res.bind_ok, es, ec]
    rw [choose_some (ha h3 n3 hst3) hnew hn g1, er, Res.bind_ok]
  · have hst2 : P.status s3 ≠ .error := ((Contract.of_behaves P _ Failure.never True).status hI3).1
    obtain ⟨p2, I, ep, N, hI0⟩ := reader_ok hL.known (hf y) M (hH3 H V M (hH H V M hs)) hst2
    rw [hnew] at ep; cases ep
    obtain ⟨n1, hI1⟩ := Kept.next hn V H _ I 0 N hI0
    obtain ⟨n2, hI2⟩ := hk V H _ I n1 N hI1
    exact N.under hI2

mutual
theorem walk_holds : ∀ {nested : Bool} {c : List UInt8} {t : Contents}, Holds K nested c t → ∃ D, ∀ d, D ≤ d → Does nested (walk K d) c t
  | _, _, _, .leaf hp hj hs => ⟨1, fun d hd => by
      obtain ⟨d, rfl⟩ : ∃ d', d = d' + 1 := ⟨d - 1, by omega⟩
      exact walk_leaf hp hj hs d⟩
  | _, _, _, .archive hp hj hT hL hS hl hN hf hF => by
    obtain ⟨D, h⟩ := walk_holdsAll hF
    refine ⟨D + 1, fun d hd => ?_⟩
    obtain ⟨d, rfl⟩ : ∃ d', d = d' + 1 := ⟨d - 1, by omega⟩
    exact walk_archive hp hj hT hL hS hl hN hf d (h d (by omega))
theorem walk_holdsAll : ∀ {untold : Bool} {l : List ArchiveEntry} {t : Contents}, HoldsAll K untold l t → ∃ D, ∀ d, D ≤ d → Found K (walk K d) untold l t
  | _, _, _, .nil => ⟨0, fun _ _ => .nil⟩
  | _, _, _, .cons h1 h2 hN h3 h4 => by
    obtain ⟨D1, k1⟩ := walk_holds h3
    obtain ⟨D2, k2⟩ := walk_holdsAll h4
    exact ⟨max D1 D2, fun d hd => (.cons h1 h2 hN (k1 d (by omega)) (k2 d (by omega)))⟩
end

end Walk
end Strigi
