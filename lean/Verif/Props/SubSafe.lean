import Verif.Proofs.SubEnds
import Verif.Props.Nest

/-!
# A listing looks into a file whose bytes may be anything: C153
-/

namespace Strigi.Props

open Nest Walk

variable {σ : Type} {P : StreamOps σ UInt8} {c : List UInt8} {input : σ} {H : σ → Prop} {lo : Int} {K : Kit} {B : Bounds K}

/-- **C153**, without the readers of mails and RPM packages: whatever the bytes of a file are, a listing that goes through it -- takes away layers of
compression, looks for a format, opens a reader, and does the same with each entry -- touches no memory outside of objects and fails no assertion.
What the readers require (see C126, C127, C130, C134) has to hold wherever one is opened. -/
theorem C153_partial (R : Robust P c lo H) (hlo : lo ≤ 1) (hi : H input) (hk : K.Sober) (d : Nat) (hf : Walk.Fits K B c.length P input (100 * d)) (f : Fault) :
    walk K d σ P input ≠ .fault f := by
  obtain ⟨G, V, M, h⟩ := meets_file R hlo hi (Nat.le_refl _)
  exact (walk_harmless hk hf d 0 _ σ P G V input (by omega) ⟨.file .rest, M, h⟩).1 f

/-! ## The checks of the library -/

/-- The checks of the formats of the library. -/
theorem C153_checks {F : Format} (hr : Known F.reader)
    (hF : F.check = Ar.checkHeader ∨ F.check = Zip.checkHeader ∨ F.check = Tar.checkHeader ∨ F.check = Sdf.checkHeader ∨ F.check = Cpio.checkHeader) :
    Known F.reader ∧ ∀ (h : List UInt8) (n : Int), n < 0 ∨ n = h.length → ∃ b, F.check h n = .ok b ∧ (b = true → 0 < n) := by
  refine ⟨hr, fun h n hn => ?_⟩
  rcases hF with z | z | z | z | z <;> rw [z]
  · exact check_calm hn (C59_ar h) fun k hk => by unfold Ar.checkHeader; rw [if_pos (by omega)]
  · exact check_calm hn (C59_zip h) fun k hk => by unfold Zip.checkHeader; rw [if_pos (by omega)]
  · exact check_calm hn (C59_tar h) fun k hk => by unfold Tar.checkHeader; rw [if_pos (by omega)]
  · exact check_calm hn (C50_checkHeader h) fun k hk => by unfold Sdf.checkHeader; rw [if_pos (by omega)]
  · exact check_calm hn (C59_cpio h) fun k hk => by unfold Cpio.checkHeader; rw [if_pos (by omega)]

/-! ## Any bytes in any layers of compression -/

/-- A bound for the number of bytes of what is in `n` layers of compression. -/
def unpacked (K : Kit) (B : Bounds K) (T : Nat) : Nat → Nat
  | 0 => T
  | n + 1 => let s := unpacked K B T n
    s + (B.wg K.gz.init + B.gg * s) + (B.wb K.bz.init + B.gb * s) + Lzma.most s

theorem unpacked_mono (T : Nat) {n m : Nat} (h : n ≤ m) : unpacked K B T n ≤ unpacked K B T m := by
  induction h with
  | refl => exact Nat.le_refl _
  | step _ ih =>
    refine Nat.le_trans ih ?_
    simp only [unpacked]
    omega

theorem unpack_fits (hK : K.subs = []) (hg : Tidy K.gz B.gg B.wg) (hb : Tidy K.bz B.gb B.wb)
    (d : Nat) (hN : 2 * unpacked K B c.length (100 * d + 1) + 1 < K.N) : Walk.Fits K B c.length P input (100 * d) := by
  have size : ∀ {n : Nat} {C : Facts} {τ : Type} {Q : StreamOps τ UInt8} {t : τ}, Inside K B c.length P input n C Q t → C.size ≤ unpacked K B c.length n := by
    intro n C τ Q t i
    induction i with
    | file _ => exact Nat.le_refl _
    | @entry n C _ _ _ _ _ _ _ _ _ o _ _ _ _ ih =>
      have mul : ∀ g, g * C.size ≤ g * unpacked K B c.length n := fun g => Nat.mul_le_mul_left g ih
      have m1 := mul B.gg
      have m2 := mul B.gb
      have m3 : Lzma.most C.size ≤ Lzma.most (unpacked K B c.length n) := by unfold Lzma.most; exact Nat.mul_le_mul_left _ (by omega)
      simp only [unpacked]
      cases o with
      | format hF => rw [hK] at hF; cases hF
      | gzip => show B.wg K.gz.init + B.gg * C.size ≤ _; omega
      | bz2 => show B.wb K.bz.init + B.gb * C.size ≤ _; omega
      | lzma => show Lzma.most C.size ≤ _; omega
  intro n C τ Q t L hn i o
  have s1 := size i
  have s2 := unpacked_mono (K := K) (B := B) c.length (show n + 1 ≤ 100 * d + 1 by omega)
  have mul : ∀ g, g * C.size ≤ g * unpacked K B c.length n := fun g => Nat.mul_le_mul_left g s1
  have m1 := mul B.gg
  have m2 := mul B.gb
  have m3 : Lzma.most C.size ≤ Lzma.most (unpacked K B c.length n) := by unfold Lzma.most; exact Nat.mul_le_mul_left _ (by omega)
  rw [show unpacked K B c.length (n + 1) = unpacked K B c.length n + (B.wg K.gz.init + B.gg * unpacked K B c.length n) +
    (B.wb K.bz.init + B.gb * unpacked K B c.length n) + Lzma.most (unpacked K B c.length n) from rfl] at s2
  cases o with
  | format hF => rw [hK] at hF; cases hF
  | gzip => exact ⟨by rw [Nat.add_mul, Nat.one_mul]; omega, hg⟩
  | bz2 => exact ⟨by rw [Nat.add_mul, Nat.one_mul]; omega, hb⟩
  | lzma => show C.size + Lzma.most C.size + 1 < K.N; omega

/-- If no format is registered, there are just layers of compression: nothing is required of the file, and the listing ends. -/
theorem C153_unpack (R : Robust P c lo H) (hlo : lo ≤ 1) (hi : H input) (hK : K.subs = []) (hg : Tidy K.gz B.gg B.wg) (hb : Tidy K.bz B.gb B.wb)
    (d : Nat) (hd : 1 ≤ d) (hN : 2 * unpacked K B c.length (100 * d + 1) + 1 < K.N) : ∃ r, walk K d σ P input = .ok r := by
  obtain ⟨G, V, M, h⟩ := meets_file R hlo hi (Nat.le_refl _)
  obtain ⟨d, rfl⟩ : ∃ k, d = k + 1 := ⟨d - 1, by omega⟩
  have hf := unpack_fits (P := P) (input := input) hK hg hb (d + 1) hN
  have hk : K.Sober := by intro F hF; rw [hK] at hF; cases hF
  refine (unpack_harmless (may := False) (c := 1) hk hf ?_ 33 0 _ σ P G V input (by omega) ⟨.file .rest, M, h⟩).returns
  intro n C σ P H V s hn h
  rw [hK]
  exact look h (by omega) (by omega) fun s1 m d' t r er u ht hm hst => Calm.ok u

/-! ## Archives without compressed parts -/

/-- No part of the file looks like compressed data. -/
def NotPacked (c : List UInt8) : Prop := ∀ d, d <:+: c → ¬ BZ2Magic d ∧ ¬ [0x1f, 0x8b] <+: d ∧ ¬ LzmaMagic d

/-- The readers `tar`, `cpio`, `ar` and `sdf` for a file `c` that has what they require. -/
inductive Suits (c : List UInt8) (back : Prop) : Reader → Prop
  | tar {fuel : Nat} : c.length + 1 < fuel → (∀ p, (c.drop p).take 13 ≠ [46, 47, 46, 47, 64, 76, 111, 110, 103, 76, 105, 110, 107]) → Suits c back (tar fuel)
  | cpio {fuel : Nat} : c.length + 1 < fuel → CpioSpec.Sane c → Suits c back (cpio fuel)
  | ar {fuel : Nat} : c.length + 1 < fuel → ArTables c → Suits c back (ar fuel)
  | sdf {fuel : Nat} : c.length + 1 < fuel → c.length < 2 ^ 31 → back → Suits c back (sdf fuel)

theorem Suits.known {back : Prop} {L : Reader} (h : Suits c back L) : Known L := by
  cases h with
  | tar => exact .tar _
  | cpio => exact .cpio _
  | ar => exact .ar _
  | sdf => exact .sdf _

theorem gzipMagic_iff (d : List UInt8) : gzipMagic d d.length = .ok true ↔ [0x1f, 0x8b] <+: d := by
  match d with
  | [] => simp [gzipMagic]
  | [a] => simp [gzipMagic]
  | a :: b :: l =>
    unfold gzipMagic
    have e0 : aget (a :: b :: l) 0 = .ok a := rfl
    have e1 : aget (a :: b :: l) 1 = .ok b := rfl
    rw [if_pos (by simp only [List.length_cons]; omega), e0, Res.bind_ok]
    by_cases ha : a = 0x1f
    · subst ha
      rw [if_neg (fun h => h rfl), e1, Res.bind_ok]
      simp only [List.cons_prefix_cons]
      constructor
      · intro h
        injection h with h
        exact ⟨trivial, (beq_iff_eq.1 h).symm, List.nil_prefix⟩
      · rintro ⟨_, h, _⟩
        rw [h]; simp
    · rw [if_pos ha]
      simp only [List.cons_prefix_cons]
      constructor
      · intro h; cases h
      · rintro ⟨h, _⟩; exact absurd h.symm ha

/-- What does not look like compressed data is not taken for it. -/
theorem nothing_packed (hc : NotPacked c) {C : Facts} {τ : Type} {Q : StreamOps τ UInt8} {t : τ} (hg : ∀ p d, C.gives p d → 0 ≤ p ∧ d = slice c p d.length)
    (hm : ∃ G V, Meets C Q G V ∧ G t) : ¬ Recognised Q t gzipMagic ∧ ¬ Recognised Q t BZ2.checkHeader ∧ ¬ Recognised Q t Lzma.checkHeader := by
  obtain ⟨G, V, M, g⟩ := hm
  have found : ∀ (check : List UInt8 → Int → Res Bool), Recognised Q t check → (∀ k d, check d k = .ok true → 0 ≤ k) →
      ∃ d, d <:+: c ∧ check d d.length = .ok true := by
    rintro check ⟨mn, s', k, d, h1, h2, e, hy⟩ h0
    obtain ⟨s1, k1, d1, e1, _, _, _, _, _, gd, _⟩ := M.sturdy.read g mn 0 h1 h2
    rw [e] at e1; cases e1
    have k0 := h0 k d hy
    obtain ⟨_, hl, hv, _⟩ := gd k0
    obtain ⟨o, ho⟩ := M.gives
    obtain ⟨_, hd⟩ := hg _ _ (ho _ _ hv)
    refine ⟨d, ?_, by rw [hl]; exact hy⟩
    rw [hd]
    exact (List.take_prefix _ _).isInfix.trans (List.drop_suffix _ _).isInfix
  refine ⟨fun h => ?_, fun h => ?_, fun h => ?_⟩
  · obtain ⟨d, h1, h2⟩ := found _ h fun k d z => by
      unfold gzipMagic at z
      by_cases hk : k ≥ 2
      · omega
      · rw [if_neg hk] at z; cases z
    exact absurd ((gzipMagic_iff d).1 h2) (hc d h1).2.1
  · obtain ⟨d, h1, h2⟩ := found _ h fun k d z => by
      by_cases hk : 0 ≤ k
      · exact hk
      · unfold BZ2.checkHeader at z; rw [if_pos (by omega)] at z; cases z
    obtain ⟨b, e, hb⟩ := C59_bz2 d
    rw [h2] at e; cases e
    exact absurd (hb.1 rfl) (hc d h1).1
  · obtain ⟨d, h1, h2⟩ := found _ h fun k d z => by
      by_cases hk : 0 ≤ k
      · exact hk
      · unfold Lzma.checkHeader at z; rw [if_pos (by omega)] at z; cases z
    obtain ⟨b, e, hb⟩ := C59_lzma d
    rw [h2] at e; cases e
    exact absurd (hb.1 rfl) (hc d h1).2.2

/-- What is known of the streams that appear: what they deliver is delivered by the file, so only the formats are found. -/
theorem stored_key (R : Robust P c lo H) (hlo : lo ≤ 1) (hi : H input) (hc : NotPacked c)
    (hs : ∀ F ∈ K.subs, Suits c (GoesBack P input) F.reader) : ∀ {n : Nat} {C : Facts} {τ : Type} {Q : StreamOps τ UInt8} {t : τ}, Inside K B c.length P input n C Q t →
      (C.size = c.length ∧ (∀ p d, C.gives p d → 0 ≤ p ∧ d = slice c p d.length) ∧ (GoesBack P input → C.back)) ∧
      (∃ G V, Meets C Q G V ∧ G t) ∧ ¬ Recognised Q t gzipMagic ∧ ¬ Recognised Q t BZ2.checkHeader ∧ ¬ Recognised Q t Lzma.checkHeader := by
  intro n C τ Q t i
  induction i with
  | file u =>
    obtain ⟨G, V, M, g⟩ := meets_file R hlo hi (Nat.le_refl c.length)
    have hg : ∀ p d, (fileFacts P c.length input).gives p d → 0 ≤ p ∧ d = slice c p d.length := fun p d z => delivers_robust R hlo hi z
    exact ⟨⟨rfl, hg, id⟩, ⟨G, V, M, used_ok u M g⟩, nothing_packed hc hg ⟨G, V, M, used_ok u M g⟩⟩
  | @entry n C σ P s s' L p e e' i o u v he u' ih =>
    obtain ⟨⟨h1, h2, h3⟩, ⟨G, V, M, g⟩, h5⟩ := ih
    obtain ⟨F, hF, rfl⟩ : ∃ F ∈ K.subs, L = F.reader := by
      cases o with
      | format hF _ => exact ⟨_, hF, rfl⟩
      | gzip h => exact absurd h h5.1
      | bz2 h => exact absurd h h5.2.1
      | lzma h => exact absurd h h5.2.2
    have hst : ∀ (e : F.reader.Entry σ), F.reader.stored e := by
      have := hs F hF
      revert v he u' p e e'
      generalize F.reader = L at this ⊢
      intro _ _ _ _ _ _ e
      cases this <;> exact trivial
    obtain ⟨I, m, N, hI⟩ := session_ok v M (used_ok u M g)
    obtain ⟨G', V', M', g', _⟩ := meets_entry rfl M N hI he
    have hg : ∀ p d, (F.reader.entryFacts C P e).gives p d → 0 ≤ p ∧ d = slice c p d.length := by
      rintro p d (z | z)
      · exact h2 p d z.2
      · exact absurd (hst e) z.1
    have hm : ∃ G V, Meets (F.reader.entryFacts C P e) (F.reader.ops P).stream G V ∧ G e' := ⟨G', V', M', used_ok u' M' g'⟩
    exact ⟨⟨by rw [← h1]; exact out_stored (hs F hF).known (hst e) _, hg, fun z => ⟨hst e, h3 z⟩⟩, hm, nothing_packed hc hg hm⟩

theorem stored_fits (R : Robust P c lo H) (hlo : lo ≤ 1) (hi : H input) (hc : NotPacked c)
    (hs : ∀ F ∈ K.subs, Suits c (GoesBack P input) F.reader) (M : Nat) : Walk.Fits K B c.length P input M := by
  intro n C τ Q t L _ i o
  obtain ⟨⟨h1, h2, h3⟩, _, h5⟩ := stored_key R hlo hi hc hs i
  cases o with
  | gzip h => exact absurd h h5.1
  | bz2 h => exact absurd h h5.2.1
  | lzma h => exact absurd h h5.2.2
  | @format F hF _ =>
    have := hs F hF
    generalize F.reader = L at this ⊢
    cases this with
    | tar k1 k2 => exact (parts_fit h1 h2 h3 _ k1).1 k2
    | cpio k1 k2 => exact (parts_fit h1 h2 h3 _ k1).2.1 k2
    | ar k1 k2 => exact (parts_fit h1 h2 h3 _ k1).2.2.1 k2
    | sdf k1 k2 k3 => exact (parts_fit h1 h2 h3 _ k1).2.2.2.1 k2 k3

/-- Archives with stored entries only, at any depth, in a file in which no compressed data is found: what is required is required of the file. -/
theorem C153_stored (R : Robust P c lo H) (hlo : lo ≤ 1) (hi : H input) (hc : NotPacked c) (hk : K.Sober)
    (hs : ∀ F ∈ K.subs, Suits c (GoesBack P input) F.reader) (d : Nat) (f : Fault) : walk K d σ P input ≠ .fault f := by
  exact C153_partial (B := ⟨0, fun _ => 0, 0, fun _ => 0⟩) R hlo hi hk d (stored_fits R hlo hi hc hs _) f

/-- And it ends: an entry is shorter than what it is a part of, so the depth is bounded by the number of bytes of the file. -/
theorem C153_ends (R : Robust P c lo H) (hlo : lo ≤ 1) (hi : H input) (hc : NotPacked c) (hk : K.Sober)
    (hs : ∀ F ∈ K.subs, Suits c (GoesBack P input) F.reader) (hN : c.length < K.N) (d : Nat) (hd : c.length < d) : ∃ r, walk K d σ P input = .ok r := by
  let B : Bounds K := ⟨0, fun _ => 0, 0, fun _ => 0⟩
  have hL : ∀ F ∈ K.subs, Flat F.reader := by
    intro F hF
    have := hs F hF
    generalize F.reader = L at this ⊢
    cases this with
    | tar => exact .tar _
    | cpio => exact .cpio _
    | ar => exact .ar _
    | sdf => exact .sdf _
  obtain ⟨G, V, M, h, hS⟩ := file_sharp R hlo hi
  have ht : V.total ≤ c.length := M.total
  refine (walk_ends (B := B) hk (stored_fits R hlo hi hc hs (100 * d)) (fun n C τ Q t i => (stored_key R hlo hi hc hs i).2.2) hL (fun n C τ Q t i => ?_) d 0 _ σ P G V input
    (by omega) (by omega) hS ⟨.file .rest, M, h⟩).returns
  rw [(stored_key R hlo hi hc hs i).1.1]
  exact hN

/-! ## Why something is required -/

/-- Without the requirements a listing fails: in an `ar` archive in an `ar` archive there is an empty table of long names. -/
theorem C153_empty_table :
    (do
      let f ← FileInputStream.new (arInAr [55, 50] (arMember [47, 47] [48] ++ [1, 2, 3, 4])) 1000 true
      let r ← walk ⟨[⟨Ar.checkHeader, ar 200⟩], Unit, storedDecompressor, Unit, storedDecompressor, LzmaDec.init ⟨0, 0, 0, 4096⟩, 200⟩ 3 _ fileOps f
      .ok r.2) = .fault .assertion := by decide +kernel

/-! ## Examples -/

/-- Any file, with decompressors for which the bounds are known. -/
example (c : List UInt8) (d : Nat) (hd : 1 ≤ d) (z : LzmaDec.Dec) : ∃ N r, walk ⟨[], Unit, storedDecompressor, Unit, storedDecompressor, z, N⟩ d _ MMapStream.ops
    (MMapStream.new c) = .ok r := by
  obtain ⟨H, R, hi⟩ := (C128_streams c 0).2.1
  have step : ∀ n N, unpacked ⟨[], Unit, storedDecompressor, Unit, storedDecompressor, z, N⟩ ⟨1, fun _ => 0, 1, fun _ => 0⟩ c.length n =
      unpacked ⟨[], Unit, storedDecompressor, Unit, storedDecompressor, z, 0⟩ ⟨1, fun _ => 0, 1, fun _ => 0⟩ c.length n := by
    intro n N
    induction n with
    | zero => rfl
    | succ n ih => simp only [unpacked, ih]
  refine ⟨2 * unpacked ⟨[], Unit, storedDecompressor, Unit, storedDecompressor, z, 0⟩ ⟨1, fun _ => 0, 1, fun _ => 0⟩ c.length (100 * d + 1) + 2, ?_⟩
  refine C153_unpack (B := ⟨1, fun _ => 0, 1, fun _ => 0⟩) R (by omega) hi rfl stored_tidy stored_tidy d hd ?_
  rw [step]
  show _ < _ + 2
  omega

theorem goodNested_notPacked : NotPacked goodNested := by
  have key : (0x1f : UInt8) ∉ goodNested ∧ (0x42 : UInt8) ∉ goodNested ∧ (0x5d : UInt8) ∉ goodNested := by decide +kernel
  intro d hd
  have mem : ∀ x, x ∈ d → x ∈ goodNested := fun x hx => hd.subset hx
  refine ⟨?_, ?_, ?_⟩
  · rintro ⟨b, e, _, t, rfl⟩
    exact key.2.1 (mem _ (by simp))
  · rintro ⟨t, rfl⟩
    exact key.1 (mem _ (by simp))
  · rintro ⟨a, b, r, rfl, _⟩
    exact key.2.2 (mem _ (by simp))

/-- The numbers of bytes of the entries that a listing finds. -/
def sizes : Contents → List Int
  | .nil => []
  | .entry _ n sub rest => n :: sizes sub ++ sizes rest

/-- An archive in an archive: the listing finds both members. -/
example : (walk ⟨[⟨Ar.checkHeader, ar 200⟩], Unit, storedDecompressor, Unit, storedDecompressor, LzmaDec.init ⟨0, 0, 0, 4096⟩, 200⟩ 3 _ MMapStream.ops
    (MMapStream.new goodNested) >>= fun r => .ok (sizes r.2)) = .ok [71, 3] := by decide +kernel

/-- No listing of it, however deep, fails. -/
example (z : LzmaDec.Dec) (d : Nat) (f : Fault) : walk ⟨[⟨Ar.checkHeader, ar 200⟩], Unit, storedDecompressor, Unit, storedDecompressor, z, 200⟩ d _ MMapStream.ops
    (MMapStream.new goodNested) ≠ .fault f := by
  obtain ⟨H, R, hi⟩ := (C128_streams goodNested 0).2.1
  have hl : goodNested.length + 1 < 200 := by decide +kernel
  refine C153_stored R (by omega) hi goodNested_notPacked ?_ ?_ d f
  · intro F hF
    rw [List.mem_singleton] at hF; subst hF
    exact C153_checks (.ar _) (Or.inl rfl)
  · intro F hF
    rw [List.mem_singleton] at hF; subst hF
    exact .ar hl goodNested_tables

/-- Any listing of it that goes deep enough ends. -/
example (z : LzmaDec.Dec) (d : Nat) (hd : 200 ≤ d) : ∃ r, walk ⟨[⟨Ar.checkHeader, ar 200⟩], Unit, storedDecompressor, Unit, storedDecompressor, z, 200⟩ d _ MMapStream.ops
    (MMapStream.new goodNested) = .ok r := by
  obtain ⟨H, R, hi⟩ := (C128_streams goodNested 0).2.1
  have hl : goodNested.length + 1 < 200 := by decide +kernel
  refine C153_ends R (by omega) hi goodNested_notPacked ?_ ?_ (show _ < 200 by omega) d (by omega)
  · intro F hF
    rw [List.mem_singleton] at hF; subst hF
    exact C153_checks (.ar _) (Or.inl rfl)
  · intro F hF
    rw [List.mem_singleton] at hF; subst hF
    exact .ar hl goodNested_tables

end Strigi.Props
