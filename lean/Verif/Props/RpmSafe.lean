import Verif.Proofs.RpmSafe
import Verif.Props.LzmaSafe

/-!
# C144: `RpmInputStream` on arbitrary bytes
-/

namespace Strigi.Props

open Nest Rpm

variable {σ ζg ζb : Type} {P : StreamOps σ UInt8} {c : List UInt8} {input : σ} {H : σ → Prop} {lo : Int}
  {C : Codecs ζg ζb LzmaDec.Dec} {g g' : Nat} {w : ζg → Nat} {w' : ζb → Nat} {N T B fuel : Nat}

/-- The bounds: `N` for the number of calls of `fillBuffer`, `B` for the size of the payload, if the file has at most `T` bytes. -/
structure RpmBounds (C : Codecs ζg ζb LzmaDec.Dec) (g g' : Nat) (w : ζg → Nat) (w' : ζb → Nat) (N T B : Nat) : Prop where
  gz : Tidy C.gz g w
  bz : Tidy C.bz g' w'
  lz : C.lz = LzmaDec.decoder
  calls : T + Lzma.most T + 1 < N ∧ 2 * (w C.gz.init + (g + 1) * T) < N ∧ 2 * (w' C.bz.init + (g' + 1) * T) < N
  size : Lzma.most T ≤ B ∧ w C.gz.init + g * T ≤ B ∧ w' C.bz.init + g' * T ≤ B

/-- What the payload of the RPM file, if it has one, delivers meets the requirement of the cpio reader (C127). -/
def PayloadFits (P : StreamOps σ UInt8) (C : Codecs ζg ζb LzmaDec.Dec) (N B fuel : Nat) (s : Rpm.State σ ζg ζb LzmaDec.Dec) : Prop :=
  ∀ k, s.cpio = some k → (cpio fuel).fits ⟨B, Delivers (payloadOps P C N) (fun _ => True) k.input, True, False⟩

theorem rejected_visits {p : Rpm.State σ ζg ζb LzmaDec.Dec} {n : Nat} (h : Visits (Rpm.ops P C N fuel) rejected n p) : p = rejected ∧ n = 0 := by
  induction h with
  | start => exact ⟨rfl, rfl⟩
  | next _ e he ih => obtain ⟨rfl, rfl⟩ := ih; cases e; cases he
  | last _ e _ ih => obtain ⟨rfl, rfl⟩ := ih; cases e; exact ⟨rfl, rfl⟩
  | read _ he _ _ ih => obtain ⟨rfl, rfl⟩ := ih; cases he
  | skip _ he _ _ ih => obtain ⟨rfl, rfl⟩ := ih; cases he
  | reset _ he _ _ _ ih => obtain ⟨rfl, rfl⟩ := ih; cases he

/-- For streams of which nothing is known but that they may be used in any way. -/
theorem rpm_sturdy {V : View σ} (S : Sturdy P lo H V) (hlo : lo ≤ 1) (hi : H input) (hv : ∀ p b, V.gives p b → IsIntro b → Sane b) (hT : V.total ≤ T)
    (hB : RpmBounds C g g' w w' N T B) :
    ∃ s, Rpm.new P C N input = .ok s ∧ (PayloadFits P C N B fuel s →
      ∀ n p, Visits (Rpm.ops P C N fuel) s n p → Smooth (Rpm.ops P C N fuel) p ∧ 110 * n ≤ B) := by
  obtain ⟨s, e, h⟩ := new_made S hlo hB.lz hv hT hB.calls.1 hB.calls.2.1 hB.calls.2.2 hB.size.2.1 hB.size.2.2 hi
  refine ⟨s, e, fun hf n p hv => ?_⟩
  have G := payload_growing (N := N) S hlo hB.lz hB.gz hB.bz hB.size.1
  rcases h with rfl | ⟨u, rfl, hu⟩
  · obtain ⟨rfl, rfl⟩ := rejected_visits hv
    exact ⟨⟨⟨_, rfl⟩, fun e he => by cases he⟩, by omega⟩
  · obtain ⟨f1, f2⟩ := hf _ rfl
    have St := (Growing.sturdy (K := fun _ _ => True) G (fun _ _ _ _ => trivial)).restrict (by omega) (lim := fun _ => True) (fun _ _ => trivial) u
      (B := False) (fun z => z.elim)
    obtain ⟨h1, h2⟩ := (tame (Cpio.tame St (by omega) (fun p b z => f2 p b z) (fuel := fuel) (by exact f1))).smooth St (by omega) (fun _ => trivial)
      (Or.inr ⟨_, rfl, rfl, Cpio.new_ok St ⟨⟨_, hu⟩, Or.inr .rest⟩⟩) hv
    refine ⟨h2, ?_⟩
    rcases h1 with ⟨_, rfl⟩ | ⟨k, _, _, h1⟩
    · omega
    · exact h1.1.bound

/-- **C144**: whatever the bytes of a file are, provided that the numbers behind every magic of a block are sane (C110 tells what
happens otherwise) and that what the payload delivers meets the requirement of the cpio reader (C127), and whatever a client does: the constructor
and all further calls return; and the number of entries is limited by the size of the payload. -/
theorem C144_rpm (R : Robust P c lo H) (hlo : lo ≤ 1) (hi : H input) (hc : ∀ (p : Nat) b, b = (c.drop p).take 16 → IsIntro b → Sane b)
    (hB : RpmBounds C g g' w w' N c.length B) :
    ∃ s, Rpm.new P C N input = .ok s ∧ (PayloadFits P C N B fuel s →
      ∀ n p, Visits (Rpm.ops P C N fuel) s n p → Smooth (Rpm.ops P C N fuel) p ∧ 110 * n ≤ B) := by
  obtain ⟨H', V, M, h⟩ := meets_file R hlo hi (Nat.le_refl _)
  obtain ⟨o, hg⟩ := M.gives
  refine rpm_sturdy M.sturdy (by omega) h (fun p b z hI => ?_) M.total hB
  obtain ⟨h0, h1⟩ := delivers_robust R hlo hi (hg p b z)
  refine hc (p + o).toNat b ?_ hI
  rw [hI.1] at h1
  exact h1

/-- **C144**, nested: the same for an RPM file inside of archives and compressed files, at any depth. -/
theorem C144_nested (R : Robust P c lo H) (hlo : lo ≤ 1) (hi : H input) {F : Facts} {τ : Type} {Q : StreamOps τ UInt8} {t : τ}
    (o : Open c.length P input F Q t) (hc : ∀ p b, F.gives p b → IsIntro b → Sane b) (hB : RpmBounds C g g' w w' N F.size B) :
    ∃ s, Rpm.new Q C N t = .ok s ∧ (PayloadFits Q C N B fuel s →
      ∀ n p, Visits (Rpm.ops Q C N fuel) s n p → Smooth (Rpm.ops Q C N fuel) p ∧ 110 * n ≤ B) := by
  obtain ⟨G, W, M, h⟩ := open_meets R hlo hi (Nat.le_refl _) o
  obtain ⟨u, hg⟩ := M.gives
  exact rpm_sturdy M.sturdy (by omega) h (fun p b z hI => hc _ _ (hg p b z) hI) M.total hB

/-! ## Example -/

theorem delivers_growing {T : Nat} {G : List UInt8 → σ → Prop} (S : Growing P T G) {s : σ} {c : List UInt8} (h : G c s) {p : Int} {d : List UInt8}
    (z : Delivers P (fun _ => True) s p d) : d.length ≤ T := by
  obtain ⟨s1, s2, mn, mx, n, r, h1, h2, e, hn, hp⟩ := z
  have hr : ∃ c, G c s1 := by
    clear e hp
    induction r with
    | rest => exact ⟨c, h⟩
    | read _ k1 k2 e ih =>
      obtain ⟨c', h'⟩ := ih
      obtain ⟨t, n, d, c'', e', _, g, _⟩ := S.read h' _ _ k1
      rw [e] at e'; cases e'; exact ⟨_, g⟩
    | skip _ k1 e ih =>
      obtain ⟨c', h'⟩ := ih
      obtain ⟨t, r, c'', e', _, g, _⟩ := S.skip h' _ k1
      rw [e] at e'; cases e'; exact ⟨_, g⟩
    | reset _ k1 _ e ih =>
      obtain ⟨c', h'⟩ := ih
      obtain ⟨t, r, e', g, _⟩ := S.reset h' _ k1
      rw [e] at e'; cases e'; exact ⟨_, g⟩
  obtain ⟨c', h'⟩ := hr
  obtain ⟨t, n', d', c'', e', _, g, _, _, _, _, gd, _⟩ := S.read h' mn mx h1
  rw [e] at e'; cases e'
  obtain ⟨q1, q2, q3⟩ := gd hn
  have := S.range g q1
  have h3 : d.length ≤ c''.length := by rw [q2]; unfold slice; rw [List.length_take, List.length_drop]; omega
  omega

theorem growing_gz {T : Nat} {G : List UInt8 → BufferedStream (Unpack.State σ ζg) UInt8 → Prop} (S : Growing (GZip.ops P C.gz N) T G) :
    Growing (payloadOps P C N) T (fun c u => ∃ s, u = .gz s ∧ G c s) where
  range := by
    rintro c _ ⟨s, rfl, h⟩ hs
    exact S.range h hs
  read := by
    rintro c _ ⟨s, rfl, h⟩ mn mx hmn
    obtain ⟨s', n, d, c', e, p, h', k⟩ := S.read h mn mx hmn
    exact ⟨.gz s', n, d, c', by show (GZip.ops P C.gz N).read s mn mx >>= _ = _; rw [e]; rfl, p, ⟨_, rfl, h'⟩, k⟩
  skip := by
    rintro c _ ⟨s, rfl, h⟩ k hk
    obtain ⟨s', r, c', e, p, h', q⟩ := S.skip h k hk
    exact ⟨.gz s', r, c', by show (GZip.ops P C.gz N).skip s k >>= _ = _; rw [e]; rfl, p, ⟨_, rfl, h'⟩, q⟩
  reset := by
    rintro c _ ⟨s, rfl, h⟩ q hq
    obtain ⟨s', r, e, h', k1, k2⟩ := S.reset h q hq
    exact ⟨.gz s', r, by show (GZip.ops P C.gz N).reset s q >>= _ = _; rw [e]; rfl, ⟨_, rfl, h'⟩, k1,
      fun z => ⟨(k2 z).1, (k2 z).2.1, (k2 z).2.2.imp id (fun y => ⟨y.1, by rw [y.2]⟩)⟩⟩

theorem counted_tidy (l : Nat) : Tidy (countedDecompressor l) 0 (fun z => z.2) := by
  intro z inp space hs
  refine ⟨_, _, _, _, rfl, ?_, ?_, ?_⟩
  · omega
  · rw [List.length_take]; omega
  · simp only [List.length_take, List.length_drop]; omega

/-- Decompressors for the example: the payload is cut off after 20 bytes. -/
def shortCodecs : Codecs (Nat × Nat) (Nat × Nat) LzmaDec.Dec := ⟨countedDecompressor 20, countedDecompressor 0, LzmaDec.decoder, LzmaDec.init ⟨0, 0, 0, 4096⟩⟩

theorem short_fits {c : List UInt8} (hc : ∀ (p : Nat) b, b = (c.drop p).take 16 → IsIntro b → Sane b) {N B fuel : Nat} (h20 : 20 ≤ c.length)
    (hN : c.length + Lzma.most c.length + 1 < N) (hB : Lzma.most c.length ≤ B) (hf : B + 1 < fuel)
    (hrun : ∃ s t r, Rpm.new MMapStream.ops shortCodecs 0 (MMapStream.new c) = .ok s ∧ s.status = .ok ∧ s.cpio = some r ∧ r.input = .gz t) :
    ∃ s, Rpm.new MMapStream.ops shortCodecs N (MMapStream.new c) = .ok s ∧ s.status = .ok ∧
      ∀ n p, Visits (Rpm.ops MMapStream.ops shortCodecs N fuel) s n p → Smooth (Rpm.ops MMapStream.ops shortCodecs N fuel) p ∧ 110 * n ≤ B := by
  obtain ⟨s0, t, r, e0, hs0, hr, ht⟩ := hrun
  change Rpm.new MMapStream.ops shortCodecs N (MMapStream.new c) = .ok s0 at e0
  obtain ⟨H, R, hi⟩ := (C128_streams c 0).2.1
  have hm : c.length ≤ Lzma.most c.length := by
    unfold Lzma.most
    have : c.length + 1 ≤ 273 * 2 ^ 32 * (c.length + 1) := Nat.le_mul_of_pos_left _ (by decide)
    omega
  have hn1 : 2 * (20 + (0 + 1) * c.length) < N := by
    have : 3 * (c.length + 1) ≤ Lzma.most c.length := by unfold Lzma.most; exact Nat.mul_le_mul_right _ (by decide)
    omega
  have hb : RpmBounds shortCodecs 0 0 (fun z => z.2) (fun z => z.2) N c.length B :=
    ⟨counted_tidy 20, counted_tidy 0, rfl, ⟨hN, hn1, by show 2 * (0 + (0 + 1) * c.length) < N; omega⟩,
      ⟨hB, by show 20 + 0 * c.length ≤ B; omega, by show 0 + 0 * c.length ≤ B; omega⟩⟩
  obtain ⟨s, e, h⟩ := C144_rpm (fuel := fuel) R (by omega) hi hc hb
  rw [e0] at e; cases e
  refine ⟨s0, e0, hs0, h fun k hk => ⟨hf, fun p b z hl => ?_⟩⟩
  rw [hr] at hk; cases hk
  obtain ⟨H', V, M, hi'⟩ := meets_file R (by omega) hi (Nat.le_refl _)
  obtain ⟨o, hg⟩ := M.gives
  obtain ⟨s1, e1, h1⟩ := new_made (C := shortCodecs) (N := N) (g := 0) (g' := 0) (w := fun z => z.2) (w' := fun z => z.2) (B := 20) M.sturdy (by omega) rfl
    (fun p b z hI => by
      obtain ⟨h0, h1⟩ := delivers_robust R (by omega) hi (hg p b z)
      refine hc (p + o).toNat b ?_ hI
      rw [hI.1] at h1
      exact h1) M.total hN hn1 (by show 2 * (0 + (0 + 1) * c.length) < N; omega) (by show 20 + 0 * c.length ≤ 20; omega)
    (by show 0 + 0 * c.length ≤ 20; omega) hi'
  rw [e0] at e1; cases e1
  rcases h1 with h1 | ⟨u, h1, hu⟩
  · rw [h1] at hs0; cases hs0
  · subst h1
    cases hr
    change u = Payload.gz t at ht
    subst ht
    have := delivers_growing (growing_gz (C := shortCodecs) (N := N)
      (Unpack.runs_growing M.sturdy (by omega) (counted_tidy 20) true (Int.le_refl 0) N 20)) ⟨t, rfl, hu⟩ z
    omega

theorem exampleRpm_sane : ∀ (p : Nat) b, b = (exampleRpm.bytes.drop p).take 16 → IsIntro b → Sane b := by
  have h : ∀ p, p < exampleRpm.bytes.length → ([0x8e, 0xad, 0xe8, 0x01] : List UInt8) <+: (exampleRpm.bytes.drop p).take 16 →
      0 ≤ blockCount ((exampleRpm.bytes.drop p).take 16) ∧ 0 ≤ blockStore ((exampleRpm.bytes.drop p).take 16) ∧
      1 ≤ blockCount ((exampleRpm.bytes.drop p).take 16) * 16 + blockStore ((exampleRpm.bytes.drop p).take 16) ∧
      blockCount ((exampleRpm.bytes.drop p).take 16) * 16 + blockStore ((exampleRpm.bytes.drop p).take 16) + 8 ≤ 2 ^ 31 := by decide +kernel
  rintro p b rfl hI
  refine h p ?_ hI.2
  have := hI.1
  rw [List.length_take, List.length_drop] at this
  omega

/-- The RPM file of the examples in Props/Rpm, with a payload that is cut off: all calls return. -/
example (N B fuel : Nat) (hN : exampleRpm.bytes.length + Lzma.most exampleRpm.bytes.length + 1 < N) (hB : Lzma.most exampleRpm.bytes.length ≤ B)
    (hf : B + 1 < fuel) :
    ∃ s, Rpm.new MMapStream.ops shortCodecs N (MMapStream.new exampleRpm.bytes) = .ok s ∧ s.status = .ok ∧
      ∀ n p, Visits (Rpm.ops MMapStream.ops shortCodecs N fuel) s n p → Smooth (Rpm.ops MMapStream.ops shortCodecs N fuel) p ∧ 110 * n ≤ B := by
  refine short_fits exampleRpm_sane (by decide +kernel) hN hB hf ?_
  have h : (match Rpm.new MMapStream.ops shortCodecs 0 (MMapStream.new exampleRpm.bytes) with
      | .ok s => decide (s.status = .ok) && (match s.cpio with | some r => (match r.input with | .gz _ => true | _ => false) | none => false)
      | _ => false) = true := by decide +kernel
  generalize Rpm.new MMapStream.ops shortCodecs 0 (MMapStream.new exampleRpm.bytes) = res at h
  cases res with
  | ok s =>
    simp only [Bool.and_eq_true, decide_eq_true_eq] at h
    obtain ⟨h1, h2⟩ := h
    cases hc : s.cpio with
    | none => rw [hc] at h2; cases h2
    | some r =>
      rw [hc] at h2
      cases hr : r.input with
      | gz t => exact ⟨s, t, r, rfl, h1, hc, hr⟩
      | bz t => dsimp only at h2; rw [hr] at h2; cases h2
      | lz t => dsimp only at h2; rw [hr] at h2; cases h2
  | fault _ => cases h
  | diverge => cases h

end Strigi.Props
