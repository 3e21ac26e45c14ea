import Verif.NestSpec
import Verif.Proofs.SdfSafe
import Verif.Proofs.ZipSafe
import Verif.Proofs.LzmaSafe

/-!
# Archives inside of archives
-/

namespace Strigi

variable {σ : Type} {P : StreamOps σ UInt8} {lo : Int} {H : σ → Prop} {V : View σ}

open Nest

/-- What is delivered is what the stream can be made to deliver. -/
theorem Sturdy.restrict (S : Sturdy P lo H V) (hlo : lo ≤ 1) {lim : Int → Prop} (hl : ∀ q, V.allowed q → lim q) (s₀ : σ) {B : Prop}
    (hB : B → ∀ {s s' : σ} {q r : Int}, H s → Reached P lim s₀ s → ¬ V.dead s → 0 ≤ q → q ≤ V.loc s → P.reset s q = .ok (s', r) → r = q) :
    Sturdy P 1 (fun s => H s ∧ (V.dead s ∨ Reached P lim s₀ s)) { V with gives := Delivers P lim s₀, back := B } where
  sync h hs := S.sync h.1 hs
  range h hs := S.range h.1 hs
  ended h hs := S.ended h.1 hs
  below := S.below
  read := by
    rintro s ⟨h, hr⟩ mn mx h1 h2
    obtain ⟨s', n, d, e, h', g1, g2, g3, g4, g5, g6, g7⟩ := S.read h mn mx (by omega) h2
    refine ⟨s', n, d, e, ⟨h', ?_⟩, g1, g2, g3, g4, fun n0 => ?_, g6, g7⟩
    · by_cases hd : V.dead s'
      · exact Or.inl hd
      · exact Or.inr (.read (hr.resolve_left (g7 hd).1) h1 h2 e)
    · obtain ⟨k1, k2, k3, k4⟩ := g5 n0
      have hs : P.status s ≠ .error := fun z => by have := (g1 z).1; omega
      obtain ⟨x1, x2⟩ := S.sync h hs
      exact ⟨k1, k2, ⟨s, s', mn, mx, n, hr.resolve_left x1, h1, h2, e, n0, x2⟩, k4⟩
  skip := by
    rintro s ⟨h, hr⟩ k hk
    obtain ⟨s', r, e, h', g1, g2, g3, g4, g5⟩ := S.skip h k hk
    refine ⟨s', r, e, ⟨h', ?_⟩, g1, g2, g3, g4, g5⟩
    by_cases hd : V.dead s'
    · exact Or.inl hd
    · exact Or.inr (.skip (hr.resolve_left (g5 hd).1) hk e)
  reset := by
    rintro s ⟨h, hr⟩ q hq ha
    obtain ⟨s', r, e, h', g1, g2⟩ := S.reset h q hq ha
    refine ⟨s', r, e, ⟨h', ?_⟩, g1, fun z => ?_⟩
    · by_cases hd : V.dead s
      · exact Or.inl (g1 hd).1
      · exact Or.inr (.reset (hr.resolve_left hd) hq (hl q (ha.resolve_right hd)) e)
    · obtain ⟨k1, k2, k3, _⟩ := g2 z
      exact ⟨k1, k2, k3, fun b hq' => hB b h (hr.resolve_left z) z hq hq' e⟩

theorem Nests.mono {π ε : Type} {A : ProviderOps π ε} {under : π → σ} {B B' : ε → Nat} {plain : ε → Prop}
    {limit : ε → Int → Prop} {I : Nat → π → Prop} (N : Nests V H A under B plain limit I) (h : ∀ e, B e ≤ B' e) : Nests V H A under B' plain limit I where
  next := N.next
  under := N.under
  entry hI he := by
    obtain ⟨G, W, a1, a2, a3, a4⟩ := N.entry hI he
    exact ⟨G, W, a1, a2, Nat.le_trans a3 (h _), a4⟩

namespace Nest

/-- The facts hold for the stream. -/
structure Meets (C : Facts) (P : StreamOps σ UInt8) (H : σ → Prop) (V : View σ) : Prop where
  sturdy : Sturdy P 1 H V
  total : V.total ≤ C.size
  gives : ∃ o, ∀ p d, V.gives p d → C.gives (p + o) d
  whole : C.whole → ∀ q, V.allowed q
  back : C.back → V.back

variable {C : Facts}

/-- A file. -/
theorem meets_file {c : List UInt8} (R : Robust P c lo H) (hlo : lo ≤ 1) {input : σ} (h : H input) {T : Nat} (hT : c.length ≤ T) :
    ∃ H' V, Meets (fileFacts P T input) P H' V ∧ H' input := by
  refine ⟨_, _, ⟨R.sturdy.restrict hlo (lim := fun _ => True) (fun _ _ => trivial) input (B := GoesBack P input) ?_, hT, ⟨0, fun p d z => ?_⟩, fun _ _ => trivial, id⟩,
    ⟨h, Or.inr .rest⟩⟩
  · intro hb s s' q r _ h2 h3 h4 h5 h6
    exact hb s s' q r h2 h3 h4 h5 h6
  · rw [Int.add_zero]; exact z

/-- An entry. -/
theorem meets_entry {L : Reader} {A : ProviderOps (L.State σ) (L.Entry σ)} (hA : A = L.ops P) {I : Nat → L.State σ → Prop}
    (M : Meets C P H V) (N : Nests V H A L.under (fun e => L.out e C.size) L.stored L.limit I) {n : Nat} {p : L.State σ} {e : L.Entry σ} (hI : I n p)
    (he : A.entry p = some e) : ∃ G W, Meets (L.entryFacts C P e) A.stream G W ∧ G e ∧ ∀ e', G e' → I n (A.setEntry p e') := by
  subst hA
  obtain ⟨G, W, S, hG, hB, hs, hn, hset, _⟩ := N.entry hI he
  by_cases hp : L.stored e
  · obtain ⟨hb, o, hg⟩ := hs hp
    obtain ⟨u, hu⟩ := M.gives
    refine ⟨G, W, ⟨S, hB, ⟨o + u, fun p d z => Or.inl ⟨hp, ?_⟩⟩, fun z => absurd hp z.1, fun z => hb (M.back z.2)⟩, hG, hset⟩
    rw [← Int.add_assoc]
    exact hu _ _ (hg p d z)
  · refine ⟨_, _, ⟨S.restrict (by omega) (fun q z => (hn hp q).1 z) e (B := False) (fun z => z.elim), hB,
      ⟨0, fun p d z => Or.inr ⟨hp, by rw [Int.add_zero]; exact z⟩⟩, fun z q => (hn hp q).2 (z.2 q), fun z => absurd z.1 hp⟩,
      ⟨hG, Or.inr .rest⟩, fun e' z => hset e' z.1⟩

theorem unpack_nests {ζ : Type} {D : Decompressor ζ} {g : Nat} {w : ζ → Nat} (S : Sturdy P lo H V) (hlo : lo ≤ 1) (hD : Tidy D g w) (keep : Bool) (N T : Nat)
    {A : ProviderOps (BufferedStream (Unpack.State σ ζ) UInt8) (BufferedStream (Unpack.State σ ζ) UInt8)}
    (h1 : A.stream = BufferedStream.ops (Unpack.producer P D keep N)) (h2 : A.nextEntry = fun p => .ok p) (h3 : A.entry = some)
    (h4 : A.setEntry = fun _ e => e) :
    Nests V H A (fun p => p.prod.input) (fun _ => T) (fun _ => False) (fun _ _ => True) (fun _ s => ∃ c, Unpack.Runs P H V 0 g w N T c s) where
  next h := by
    rw [h2]
    exact ⟨_, rfl, h⟩
  under h := by
    obtain ⟨c, h⟩ := h
    exact Unpack.runs_under h
  entry := by
    intro n p e h he
    rw [h3] at he; cases he
    rw [h1]
    refine ⟨_, _, Growing.sturdy (K := fun _ _ => True) (Unpack.runs_growing S hlo hD keep (Int.le_refl 0) N T) (fun _ _ _ _ => trivial), h,
      Nat.le_refl _, (fun z => z.elim), (fun _ _ => ⟨fun _ => trivial, fun _ => trivial⟩), ?_, (fun _ _ _ => trivial)⟩
    intro e' z
    rw [h4]; exact z

theorem lzma_nests (S : Sturdy P lo H V) (hlo : lo ≤ 1) (z : LzmaDec.Dec) (N T : Nat) :
    Nests V H ((lzma z N).ops P) (lzma z N).under (fun _ => Lzma.most T) (lzma z N).stored (lzma z N).limit (fun _ s => ∃ c, LzmaStream.Runs H V N T c s) where
  next h := ⟨_, rfl, h⟩
  under h := by
    obtain ⟨c, h⟩ := h
    exact LzmaStream.runs_under h
  entry := by
    intro n p e h he
    change some p = some e at he
    cases he
    exact ⟨_, _, Growing.sturdy (K := fun _ _ => True) (LzmaStream.runs_growing S hlo N T) (fun _ _ _ _ => trivial), h,
      Nat.le_refl _, (fun z => z.elim), (fun _ _ => ⟨fun _ => trivial, fun _ => trivial⟩), (fun _ z => z), (fun _ _ _ => trivial)⟩

/-- Every reader preserves what it needs. -/
theorem reader_ok {L : Reader} (hL : Known L) (hf : L.fits C) (M : Meets C P H V) {s : σ} (h : H s) (hs : P.status s ≠ .error) :
    ∃ p I, L.new P s = .ok p ∧ Nests V H (L.ops P) L.under (fun e => L.out e C.size) L.stored L.limit I ∧ I 0 p := by
  have S := M.sturdy
  have hT := M.total
  obtain ⟨o, hg⟩ := M.gives
  cases hL with
  | tar fuel =>
    obtain ⟨f1, f2⟩ := hf
    exact ⟨_, _, rfl, ((Tar.tame S (by omega) (fun p d z => f2 _ _ (hg p d z)) (fuel := fuel) (by omega)).nests S (by omega) (tar fuel).under
      (fun {n p} z he => by
        have he : p.entry = none := he
        simp only [tar, he]; exact (z.1.input he).1)
      (fun {p e} he => by
        have he : p.entry = some e := he
        simp only [tar, he]) (tar fuel).limit).mono (fun _ => hT), Tar.new_ok S h⟩
  | cpio fuel =>
    obtain ⟨f1, f2⟩ := hf
    refine ⟨_, _, rfl, ((Cpio.tame S (by omega) (fun p b z => ?_) (fuel := fuel) (by omega)).nests S (by omega) (cpio fuel).under
      (fun {n p} z he => by
        have he : p.entry = none := he
        simp only [cpio, he]; exact (z.1.input he).1)
      (fun {p e} he => by
        have he : p.entry = some e := he
        simp only [cpio, he]) (cpio fuel).limit).mono (fun _ => hT), Cpio.new_ok S h⟩
    intro hl hm
    obtain ⟨size, ns, k1, k2, k3, k4, k5⟩ := f2 _ _ (hg p b z) hl hm
    refine ⟨size, ns, k1, k2, k3, k4, fun b' z' => k5 b' ?_⟩
    have := hg _ _ z'
    rwa [show p + 110 + o = p + o + 110 by omega] at this
  | ar fuel =>
    obtain ⟨f1, f2⟩ := hf
    obtain ⟨p, e, i⟩ := Ar.new_total S (by omega) h
    exact ⟨p, _, e, ((Ar.tame S (by omega) (Or.inr fun p b z => f2 _ _ (hg p b z)) (fuel := fuel) (by omega)).nests S (by omega) (ar fuel).under
      (fun {n p} z he => by
        have he : p.entry = none := he
        simp only [ar, he]; exact (z.input he).1)
      (fun {p e} he => by
        have he : p.entry = some e := he
        simp only [ar, he]) (ar fuel).limit).mono (fun _ => hT), i⟩
  | sdf fuel =>
    obtain ⟨f1, f2, f3⟩ := hf
    obtain ⟨hd, hp⟩ := S.sync h hs
    obtain ⟨r1, _, _, r4⟩ := S.range h hd
    exact ⟨_, _, rfl, ((Sdf.tame (sharp := False) S (by omega) (f3.elim (fun z => Or.inr (M.whole z)) (fun z => Or.inl (M.back z))) (S.below r1 r4) (fun z => z.elim) (by omega) fuel (by omega)).nests S (by omega) (sdf fuel).under
      (fun {n p} z he => by
        have he : p.entry = none := he
        simp only [sdf, he]; exact (z.none he).1)
      (fun {p e} he => by
        have he : p.entry = some e := he
        simp only [sdf, he]) (sdf fuel).limit).mono (fun _ => hT), Sdf.new_ok h⟩
  | zip D g w mktime N fuel =>
    obtain ⟨f1, f2, f3, f4⟩ := hf
    have m1 := Nat.mul_le_mul_left (g + 1) hT
    have m2 := Nat.mul_le_mul_left g hT
    have := (Zip.nests f3 S (by omega) (fun p b z => f4 _ _ (hg p b z)) mktime (N := N) (T := w D.init + g * C.size) (by omega) (by omega) (fuel := fuel) (by omega)).mono
      (B' := Zip.Entry.bound C.size (w D.init + g * C.size)) (fun e => by cases e <;> simp only [Zip.Entry.bound] <;> omega)
    have e1 : (zip D g w mktime N fuel).under (σ := σ) = Zip.under := by
      funext p; obtain ⟨_, _, e, _⟩ := p; cases e <;> rfl
    have e2 : (zip D g w mktime N fuel).stored (σ := σ) = Zip.Entry.Plain := by
      funext e; cases e <;> rfl
    have e3 : (zip D g w mktime N fuel).limit (σ := σ) = Zip.Entry.limit := by
      funext e q; cases e <;> rfl
    have e4 : (fun e => (zip D g w mktime N fuel).out (σ := σ) e C.size) = Zip.Entry.bound C.size (w D.init + g * C.size) := by
      funext e; cases e <;> rfl
    rw [e1, e2, e3, e4]
    exact ⟨_, _, rfl, this, Zip.new_ok S h⟩
  | gzip D g w format N =>
    obtain ⟨f1, f2⟩ := hf
    have m1 := Nat.mul_le_mul_left (g + 1) hT
    have m2 := Nat.mul_le_mul_left g hT
    obtain ⟨p, e, i⟩ := GZip.new_any (D := D) (g := g) (w := w) (N := N) (T := w D.init + g * C.size) S (by omega) h hs format (by omega) (by omega)
    exact ⟨p, _, e, unpack_nests S (by omega) f2 true N _ rfl rfl rfl rfl, _, i⟩
  | bz2 D g w N =>
    obtain ⟨f1, f2⟩ := hf
    have m1 := Nat.mul_le_mul_left (g + 1) hT
    have m2 := Nat.mul_le_mul_left g hT
    obtain ⟨p, e, i⟩ := BZ2.new_any (D := D) (g := g) (w := w) (N := N) (T := w D.init + g * C.size) S (by omega) h hs (by omega) (by omega)
    exact ⟨p, _, e, unpack_nests S (by omega) f2 false N _ rfl rfl rfl rfl, _, i⟩
  | lzma z N =>
    obtain ⟨p, e, i⟩ := LzmaStream.new_any (N := N) (T := C.size) S (by omega) h z hT hf
    exact ⟨p, _, e, lzma_nests S (by omega) z N C.size, _, i⟩

/-- A reset to a position that is not ahead is allowed. -/
theorem reset_back (S : Sturdy P lo H V) {s : σ} (h : H s) {q : Int} (h0 : 0 ≤ q) (hq : q = 0 ∨ q ≤ P.position s) :
    ∃ s' r, P.reset s q = .ok (s', r) ∧ H s' := by
  by_cases hd : V.dead s
  · obtain ⟨s', r, e, h', _⟩ := S.reset h q h0 (Or.inr hd)
    exact ⟨s', r, e, h'⟩
  · obtain ⟨g1, _, g3, g4⟩ := S.range h hd
    obtain ⟨s', r, e, h', _⟩ := S.reset h q h0 (Or.inl (S.below (by omega) g4))
    exact ⟨s', r, e, h'⟩

/-- What holds of the state of a reader. -/
def Fine (L : Reader) (C : Facts) (P : StreamOps σ UInt8) (H : σ → Prop) (V : View σ) (p : L.State σ) : Prop :=
  ∃ I n, Nests V H (L.ops P) L.under (fun e => L.out e C.size) L.stored L.limit I ∧ I n p

mutual
theorem used_ok : ∀ {C : Facts} {σ : Type} {P : StreamOps σ UInt8} {s s' : σ}, Used C P s s' →
    ∀ {H : σ → Prop} {V : View σ}, Meets C P H V → H s → H s'
  | _, _, _, _, _, .rest, _, _, _, h => h
  | _, _, _, _, _, .read u h1 h2 e, _, _, M, h => by
    have i := used_ok u M h
    obtain ⟨s1, n, d, e1, h', _⟩ := M.sturdy.read i _ _ h1 h2
    rw [e] at e1; cases e1; exact h'
  | _, _, _, _, _, .skip u h1 e, _, _, M, h => by
    have i := used_ok u M h
    obtain ⟨s1, r, e1, h', _⟩ := M.sturdy.skip i _ h1
    rw [e] at e1; cases e1; exact h'
  | _, _, _, _, _, .reset u h1 h2 e, _, _, M, h => by
    have i := used_ok u M h
    obtain ⟨s1, r, e1, h'⟩ := reset_back M.sturdy i h1 h2
    rw [e] at e1; cases e1; exact h'
  | _, _, _, _, _, .inside u v, _, _, M, h => by
    obtain ⟨I, n, N, i⟩ := session_ok v M (used_ok u M h)
    exact N.under i
theorem session_ok : ∀ {L : Reader} {C : Facts} {σ : Type} {P : StreamOps σ UInt8} {s : σ} {p : L.State σ}, Session L C P s p →
    ∀ {H : σ → Prop} {V : View σ}, Meets C P H V → H s → Fine L C P H V p
  | _, _, _, _, _, _, .start k f hs e, _, _, M, h => by
    obtain ⟨p', I, e', N, i⟩ := reader_ok k f M h hs
    rw [e] at e'; cases e'
    exact ⟨I, 0, N, i⟩
  | L, _, _, P, _, _, .next (p' := q) v e, _, _, M, h => by
    obtain ⟨I, n, N, i⟩ := session_ok v M h
    obtain ⟨p', e', i'⟩ := N.next i
    rw [e] at e'; cases e'
    exact ⟨I, _, N, i'⟩
  | _, _, _, _, _, _, .entry v he u, _, _, M, h => by
    obtain ⟨I, n, N, i⟩ := session_ok v M h
    obtain ⟨G, W, M', hG, hset⟩ := meets_entry rfl M N i he
    exact ⟨I, n, N, hset _ (used_ok u M' hG)⟩
end

theorem meets_safe (M : Meets C P H V) {s : σ} (h : H s) : Safe C P s := by
  refine ⟨fun mn mx h1 h2 => ?_, fun k hk => ?_, fun q h0 hq => ?_, fun L hL hf => ⟨fun hs => ?_, fun p hp => ?_⟩⟩
  · obtain ⟨s1, n, d, e1, _⟩ := M.sturdy.read h mn mx h1 h2
    exact ⟨_, e1⟩
  · obtain ⟨s1, r, e1, _⟩ := M.sturdy.skip h k hk
    exact ⟨_, e1⟩
  · obtain ⟨s1, r, e1, _⟩ := reset_back M.sturdy h h0 hq
    exact ⟨_, e1⟩
  · obtain ⟨p, _, e, _⟩ := reader_ok hL hf M h hs
    exact ⟨p, e⟩
  · obtain ⟨I, n, N, i⟩ := session_ok hp M h
    obtain ⟨p', e, _⟩ := N.next i
    exact ⟨p', e⟩

theorem open_meets {c : List UInt8} (R : Robust P c lo H) (hlo : lo ≤ 1) {input : σ} (h : H input) {T : Nat} (hT : c.length ≤ T)
    {τ : Type} {Q : StreamOps τ UInt8} {t : τ} (o : Open T P input C Q t) : ∃ G W, Meets C Q G W ∧ G t := by
  induction o with
  | file u =>
    obtain ⟨G, W, M, g⟩ := meets_file R hlo h hT
    exact ⟨G, W, M, used_ok u M g⟩
  | entry _ v he ih =>
    obtain ⟨G, W, M, g⟩ := ih
    obtain ⟨I, n, N, i⟩ := session_ok v M g
    obtain ⟨G', W', M', hG, _⟩ := meets_entry rfl M N i he
    exact ⟨G', W', M', hG⟩

end Nest
end Strigi
