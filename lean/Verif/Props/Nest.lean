import Verif.Proofs.Nest
import Verif.Proofs.Within
import Verif.Props.UnpackSafe

/-!
# Archives inside of archives, to any depth: C134, C135
-/

namespace Strigi.Props

open Nest

variable {σ : Type} {P : StreamOps σ UInt8} {c : List UInt8} {input : σ} {H : σ → Prop} {lo : Int}

/-- **C134**: whatever the bytes of a file are, and however a client uses the file, the readers it opens on it, the entries of
those, the readers it opens on the entries, and so on: no call touches memory outside of objects, fails an assertion or
loops for ever.  It may go on with an outer reader whatever it has done with the inner ones. -/
theorem C134_nested (R : Robust P c lo H) (hlo : lo ≤ 1) (hi : H input) {C : Facts} {τ : Type} {Q : StreamOps τ UInt8} {t : τ}
    (o : Open c.length P input C Q t) : Safe C Q t := by
  obtain ⟨G, W, M, g⟩ := open_meets R hlo hi (Nat.le_refl _) o
  exact meets_safe M g

mutual
theorem used_known : ∀ {C : Facts} {σ : Type} {P : StreamOps σ UInt8} {s s' : σ}, Used C P s s' → True
  | _, _, _, _, _, _ => trivial
theorem session_known : ∀ {L : Reader} {C : Facts} {σ : Type} {P : StreamOps σ UInt8} {s : σ} {p : L.State σ}, Session L C P s p → Known L
  | _, _, _, _, _, _, .start k _ _ _ => k
  | _, _, _, _, _, _, .next v _ => session_known v
  | _, _, _, _, _, _, .entry v _ _ => session_known v
end

theorem out_stored {L : Reader} (k : Known L) {σ : Type} {e : L.Entry σ} (h : L.stored e) (n : Nat) : L.out e n = n := by
  cases k with
  | tar => rfl
  | cpio => rfl
  | ar => rfl
  | sdf => rfl
  | zip D g w mktime N fuel =>
    change Zip.Entry _ _ at e
    cases e with
    | stored => rfl
    | deflated => exact False.elim h
    | streamed => exact False.elim h
  | gzip => exact h.elim
  | bz2 => exact h.elim
  | lzma => exact h.elim

theorem reached_robust (R : Robust P c lo H) (hlo : lo ≤ 1) {s s' : σ} (h : H s) (r : Reached P (fun _ => True) s s') : H s' := by
  induction r with
  | rest => exact h
  | read _ h1 h2 e ih =>
    obtain ⟨s1, n, d, e1, h', _⟩ := R.read ih _ _ (by omega) h2
    rw [e] at e1; cases e1; exact h'
  | skip _ h1 e ih =>
    obtain ⟨s1, r, e1, h', _⟩ := R.skip ih _ h1
    rw [e] at e1; cases e1; exact h'
  | reset _ h1 _ e ih =>
    obtain ⟨s1, r, e1, h', _⟩ := R.reset ih _ h1
    rw [e] at e1; cases e1; exact h'

theorem delivers_robust (R : Robust P c lo H) (hlo : lo ≤ 1) {s : σ} (h : H s) {p : Int} {d : List UInt8} (z : Delivers P (fun _ => True) s p d) :
    0 ≤ p ∧ d = slice c p d.length := by
  obtain ⟨s1, s2, mn, mx, n, r, h1, h2, e, hn, hp⟩ := z
  have i := reached_robust R hlo h r
  obtain ⟨s3, n', d', e', h', g1, g2⟩ := R.sturdy.read i mn mx (by omega) h2
  rw [e] at e'; cases e'
  have := (g2.2.2.2.1 hn).2.2.1
  rw [show (Robust.view P c H).loc s1 = P.position s1 from rfl, hp] at this
  exact this

/-- What is known of the streams inside of a file through stored entries. -/
theorem stored_facts (R : Robust P c lo H) (hlo : lo ≤ 1) (hi : H input) {C : Facts} {τ : Type} {Q : StreamOps τ UInt8} {t : τ}
    (o : OpenStored c.length P input C Q t) : C.size = c.length ∧ (∀ p d, C.gives p d → 0 ≤ p ∧ d = slice c p d.length) ∧
      (GoesBack P input → C.back) := by
  induction o with
  | file _ => exact ⟨rfl, fun p d z => delivers_robust R hlo hi z, id⟩
  | entry _ v _ hs ih =>
    obtain ⟨h1, h2, h3⟩ := ih
    refine ⟨?_, fun p d z => ?_, fun z => ⟨hs, h3 z⟩⟩
    · rw [← h1]; exact out_stored (session_known v) hs _
    · rcases z with z | z
      · exact h2 p d z.2
      · exact absurd hs z.1

/-- What the readers require, of a stream with bytes of the file only. -/
theorem parts_fit {C : Facts} (h1 : C.size = c.length) (h2 : ∀ p d, C.gives p d → 0 ≤ p ∧ d = slice c p d.length) {B : Prop} (h3 : B → C.back)
    (fuel : Nat) (hf : c.length + 1 < fuel) :
    ((∀ p, (c.drop p).take 13 ≠ [46, 47, 46, 47, 64, 76, 111, 110, 103, 76, 105, 110, 107]) → (tar fuel).fits C) ∧
    (CpioSpec.Sane c → (cpio fuel).fits C) ∧ (ArTables c → (ar fuel).fits C) ∧
    (c.length < 2 ^ 31 → B → (sdf fuel).fits C) ∧
    (ZipSpec.Sane c → ∀ {ζ : Type} (D : Decompressor ζ) (g : Nat) (w : ζ → Nat) (mktime : TextUtils.Tm → Int) (N : Nat), Tidy D g w →
      2 * (w D.init + (g + 1) * c.length) < N → c.length + (w D.init + g * c.length) + 1 < fuel →
      (zip D g w mktime N fuel).fits C) := by
  let V : View Unit := ⟨0, fun _ => 0, fun _ => True, fun _ => True, C.gives, fun _ => True, True⟩
  have hV : V.Within c := ⟨0, fun p d z => by rw [Int.add_zero]; exact h2 p d z⟩
  refine ⟨fun k => ⟨by omega, Tar.within hV k⟩, fun k => ⟨by omega, Cpio.within hV k⟩, fun k => ⟨by omega, ?_⟩,
    fun k k' => ⟨by omega, by omega, Or.inr (h3 k')⟩, fun k ζ D g w mktime N k1 k2 k3 => ⟨by rw [h1]; exact k2, by rw [h1]; exact k3, k1, Zip.within hV k⟩⟩
  intro p b z hl
  obtain ⟨hp, hb⟩ := h2 p b z
  refine k p.toNat b ?_ hl
  rw [hb, hl]
  rfl

/-- **C135**: on a stream that is inside of a file through entries that are stored, at any depth, the requirements of the
readers are met if the file as a whole meets them: no `././@LongLink` for `tar`, the conditions of C127 for `cpio` and of
C130 for `zip`, no empty table of long names for `ar`; for SD files less than 2 GB and a file in which one can go back. -/
theorem C135_stored (R : Robust P c lo H) (hlo : lo ≤ 1) (hi : H input) {C : Facts} {τ : Type} {Q : StreamOps τ UInt8} {t : τ}
    (o : OpenStored c.length P input C Q t) (fuel : Nat) (hf : c.length + 1 < fuel) :
    ((∀ p, (c.drop p).take 13 ≠ [46, 47, 46, 47, 64, 76, 111, 110, 103, 76, 105, 110, 107]) → (tar fuel).fits C) ∧
    (CpioSpec.Sane c → (cpio fuel).fits C) ∧ (ArTables c → (ar fuel).fits C) ∧
    (c.length < 2 ^ 31 → GoesBack P input → (sdf fuel).fits C) ∧
    (ZipSpec.Sane c → ∀ {ζ : Type} (D : Decompressor ζ) (g : Nat) (w : ζ → Nat) (mktime : TextUtils.Tm → Int) (N : Nat), Tidy D g w →
      2 * (w D.init + (g + 1) * c.length) < N → c.length + (w D.init + g * c.length) + 1 < fuel →
      (zip D g w mktime N fuel).fits C) := by
  obtain ⟨h1, h2, h3⟩ := stored_facts R hlo hi o
  exact parts_fit h1 h2 h3 fuel hf

/-- A stored entry is an entry. -/
theorem stored_open {T : Nat} {C : Facts} {τ : Type} {Q : StreamOps τ UInt8} {t : τ} (o : OpenStored T P input C Q t) : Open T P input C Q t := by
  induction o with
  | file u => exact .file u
  | entry _ v he _ ih => exact .entry ih v he

/-! ## Why something is required -/

/-- Header of a member of an `ar` archive. -/
def arMember (name size : List UInt8) : List UInt8 :=
  name ++ List.replicate (16 - name.length) 32 ++ [49] ++ List.replicate 31 32 ++ size ++ List.replicate (10 - size.length) 32 ++ [96, 10]

/-- An `ar` archive with the member `a/`, which is an `ar` archive with the given content. -/
def arInAr (size inner : List UInt8) : List UInt8 :=
  Ar.magic ++ arMember [97, 47] size ++ (Ar.magic ++ inner)

abbrev fileOps : StreamOps (BufferedStream (Option (CFile UInt8)) UInt8) UInt8 := BufferedStream.ops FileInputStream.producer

/-- A file is opened, its first bytes are looked at, and the entry of the entry is opened. -/
def openInner (c : List UInt8) : Res (Ar.State (SubInputStream (BufferedStream (Option (CFile UInt8)) UInt8))) := do
  let f ← FileInputStream.new c 1000 true
  let (f, _, _) ← fileOps.read f 1024 0
  let (f, _) ← fileOps.reset f 0
  let p ← Ar.new fileOps f
  let p ← Ar.nextEntry fileOps 200 p
  match p.entry with
  | none => .diverge
  | some e =>
    let q ← Ar.new (SubInputStream.ops fileOps) e
    Ar.nextEntry (SubInputStream.ops fileOps) 200 q

/-- **C134**, why an empty table of long names is excluded: in an archive inside of an archive it fails an assertion of the
substream, which is asked for no bytes and gets more. -/
theorem C134_empty_table : (openInner (arInAr [55, 50] (arMember [47, 47] [48] ++ [1, 2, 3, 4])) >>= fun q => .ok q.status) = .fault .assertion := by decide +kernel

/-- **C134**, why `reset` must not go ahead in nested archives: the inner member tells 9 bytes but its archive ends after 3 of
them; after a `reset` to position 8, which is inside of what the member tells, `read` fails an assertion. -/
theorem C134_reset_ahead :
    (do
      let q ← openInner (arInAr [55, 49] (arMember [98, 47] [57] ++ [1, 2, 3]) ++ List.replicate 20 7)
      match q.entry with
      | none => .diverge
      | some d =>
        let (d, _) ← SubInputStream.reset (SubInputStream.ops fileOps) d 8
        let (_, n, x) ← SubInputStream.read (SubInputStream.ops fileOps) d 1 1
        .ok (n, x)) = .fault .assertion := by decide +kernel

/-! ## Examples -/

/-- An `ar` archive with a member of 3 bytes inside of an `ar` archive. -/
def goodNested : List UInt8 := arInAr [55, 49] (arMember [98, 47] [51] ++ [1, 2, 3])

theorem goodNested_tables : ArTables goodNested := by
  intro p b hb hl
  have hp : p < goodNested.length := by
    by_cases h : p < goodNested.length
    · exact h
    · rw [List.drop_eq_nil_of_le (by omega)] at hb; subst hb; simp at hl
  have key : ∀ p < goodNested.length, ((goodNested.drop p).take 60)[0]? = some 32 ∨ ((goodNested.drop p).take 60)[0]? = some 47 ∨
      ((goodNested.drop p).take 60)[0]? = some 0 → ((goodNested.drop p).take 60)[1]? ≠ some 47 := by decide +kernel
  subst hb
  intro h1 h2
  exact absurd h2 (key p hp h1)

theorem bind_inv {α β : Type} {x : Res α} {f : α → Res β} {v : β} (h : x >>= f = .ok v) : ∃ a, x = .ok a ∧ f a = .ok v := by
  cases x with
  | ok a => exact ⟨a, rfl, h⟩
  | fault _ => cases h
  | diverge => cases h

/-- A client gets at the inner member, and is safe there. -/
example : ∃ (C : Facts) (t : SubInputStream (SubInputStream (MMapStream UInt8))),
    Open goodNested.length MMapStream.ops (MMapStream.new goodNested) C (SubInputStream.ops (SubInputStream.ops MMapStream.ops)) t ∧
    Safe C (SubInputStream.ops (SubInputStream.ops MMapStream.ops)) t ∧ t.size = 3 ∧
    SubInputStream.read (SubInputStream.ops MMapStream.ops) t 1 0 >>= (fun r => .ok r.2) = .ok (3, [1, 2, 3]) := by
  obtain ⟨H, R, hi⟩ := (C128_streams goodNested 0).2.1
  let f : MMapStream UInt8 := MMapStream.new goodNested
  have o0 : OpenStored goodNested.length MMapStream.ops f (fileFacts MMapStream.ops goodNested.length f) MMapStream.ops f := .file .rest
  have hl : goodNested.length + 1 < 200 := by decide +kernel
  have f0 := (C135_stored R (by omega) hi o0 200 hl).2.2.1 goodNested_tables
  have run : ∃ p1 p2 e q1 q2 t, Ar.new MMapStream.ops f = .ok p1 ∧ Ar.nextEntry MMapStream.ops 200 p1 = .ok p2 ∧ p2.entry = some e ∧ e.status = .ok ∧
      Ar.new (SubInputStream.ops MMapStream.ops) e = .ok q1 ∧ Ar.nextEntry (SubInputStream.ops MMapStream.ops) 200 q1 = .ok q2 ∧ q2.entry = some t ∧
      t.size = 3 ∧ SubInputStream.read (SubInputStream.ops MMapStream.ops) t 1 0 >>= (fun r => .ok r.2) = .ok (3, [1, 2, 3]) := by
    have h : (Ar.new MMapStream.ops f >>= fun p1 => Ar.nextEntry MMapStream.ops 200 p1 >>= fun p2 => (match p2.entry with
        | none => .diverge
        | some e => if e.status = .ok then Ar.new (SubInputStream.ops MMapStream.ops) e >>= fun q1 =>
            Ar.nextEntry (SubInputStream.ops MMapStream.ops) 200 q1 >>= fun q2 => (match q2.entry with
              | none => .diverge
              | some t => SubInputStream.read (SubInputStream.ops MMapStream.ops) t 1 0 >>= fun r => .ok (t.size, r.2))
          else .diverge)) = .ok (3, 3, [1, 2, 3]) := by decide +kernel
    obtain ⟨p1, r1, h⟩ := bind_inv h
    obtain ⟨p2, r2, h⟩ := bind_inv h
    cases r3 : p2.entry with
    | none => rw [r3] at h; cases h
    | some e =>
      rw [r3] at h
      dsimp only at h
      by_cases r4 : e.status = .ok
      · rw [if_pos r4] at h
        obtain ⟨q1, r5, h⟩ := bind_inv h
        obtain ⟨q2, r6, h⟩ := bind_inv h
        cases r7 : q2.entry with
        | none => rw [r7] at h; cases h
        | some t =>
          rw [r7] at h
          obtain ⟨r, r9, h⟩ := bind_inv h
          injection h with h
          injection h with h1 h2
          exact ⟨p1, p2, e, q1, q2, t, r1, r2, r3, r4, r5, r6, r7, h1, by rw [r9, Res.bind_ok, h2]⟩
      · rw [if_neg r4] at h; cases h
  obtain ⟨p1, p2, e, q1, q2, t, r1, r2, r3, r4, r5, r6, r7, r8, r9⟩ := run
  have v1 : Session (ar 200) (fileFacts MMapStream.ops goodNested.length f) MMapStream.ops f p2 :=
    .next (.start (.ar 200) f0 (by simp [f, MMapStream.ops, MMapStream.new]) r1) r2
  have o1 := OpenStored.entry o0 v1 r3 trivial
  have f1 := (C135_stored R (by omega) hi o1 200 hl).2.2.1 goodNested_tables
  have v2 := Session.next (.start (.ar 200) f1 (by rw [show (SubInputStream.ops MMapStream.ops).status e = e.status from rfl, r4]; simp) r5) r6
  have o2 := OpenStored.entry o1 v2 r7 trivial
  exact ⟨_, t, stored_open o2, C134_nested R (by omega) hi (stored_open o2), r8, r9⟩

/-- Any file, mapped, decompressed, and decompressed again: every call on the resulting stream returns. -/
example (c : List UInt8) : ∃ (C : Facts) (τ : Type) (Q : StreamOps τ UInt8) (t : BufferedStream (Unpack.State τ Unit) UInt8),
    Open c.length MMapStream.ops (MMapStream.new c) C (GZip.ops Q storedDecompressor (4 * c.length + 1)) t ∧
    Safe C (GZip.ops Q storedDecompressor (4 * c.length + 1)) t := by
  obtain ⟨H, R, hi⟩ := (C128_streams c 0).2.1
  let f : MMapStream UInt8 := MMapStream.new c
  let L : Reader := gzip storedDecompressor 1 (fun _ => 0) false (4 * c.length + 1)
  have k : Known L := .gzip _ _ _ _ _
  have o0 : Open c.length MMapStream.ops f (fileFacts MMapStream.ops c.length f) MMapStream.ops f := .file .rest
  have f0 : L.fits (fileFacts MMapStream.ops c.length f) :=
    ⟨by show 2 * (0 + (1 + 1) * c.length) < 4 * c.length + 1; omega, stored_tidy⟩
  obtain ⟨p, hp⟩ := ((C134_nested R (by omega) hi o0).2.2.2 L k f0).1 (by simp [f, MMapStream.ops, MMapStream.new])
  have o1 := Open.entry o0 (.start k f0 (by simp [f, MMapStream.ops, MMapStream.new]) hp) (show (L.ops MMapStream.ops).entry p = some p from rfl)
  have f1 : L.fits (L.entryFacts (fileFacts MMapStream.ops c.length f) MMapStream.ops p) :=
    ⟨by show 2 * (0 + (1 + 1) * (0 + 1 * c.length)) < 4 * c.length + 1; omega, stored_tidy⟩
  have hs : (L.ops MMapStream.ops).stream.status p ≠ .error := by
    obtain ⟨x, _, e⟩ := bind_inv (show (BufferedStream.new (Unpack.start storedDecompressor f)).buf.makeSpace 262144 >>= _ = .ok p from hp)
    injection e with e
    rw [← e]
    show Status.ok ≠ .error
    simp
  obtain ⟨q, hq⟩ := ((C134_nested R (by omega) hi o1).2.2.2 L k f1).1 hs
  have o2 := Open.entry o1 (.start k f1 hs hq) (show (L.ops (L.ops MMapStream.ops).stream).entry q = some q from rfl)
  exact ⟨_, _, _, q, o2, C134_nested R (by omega) hi o2⟩

end Strigi.Props
