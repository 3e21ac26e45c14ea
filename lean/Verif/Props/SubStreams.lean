import Verif.Proofs.SubMail
import Verif.Props.Ar
import Verif.Props.Tar
import Verif.Props.Zip
import Verif.Props.Cpio
import Verif.Props.Sdf
import Verif.Props.MailText
import Verif.Props.Listing
import Verif.Props.UnpackSafe

/-!
# Property C152: what a listing finds in a file

`Holds` (see `Verif/WalkSpec.lean`) says what there is in a file, `walk` (see `Verif/Model/SubStreams.lean`) is what the library does with it.
-/

namespace Strigi.Props

open Walk Nest
open Listing (listAll State findBelow)

variable {σ : Type} {P : StreamOps σ UInt8} {c : List UInt8} {K : Kit}

/-- **C152**: in a file, whatever the stream in which it comes, exactly the entries are found that it has. -/
theorem C152_walk {t : Contents} (h : Holds K false c t) : ∃ D, ∀ d, D ≤ d → ∀ (σ : Type) (P : StreamOps σ UInt8) (s : σ),
    IsStream P c Failure.never True s → P.position s = 0 → ∃ s', walk K d σ P s = .ok (s', t) := by
  obtain ⟨D, hD⟩ := walk_holds h
  refine ⟨D, fun d hd σ P s hI h0 => ?_⟩
  obtain ⟨s', e, _⟩ := hD d hd σ P s hI h0
  exact ⟨s', e⟩

/-- **C152**: so it is in the entries of archives, and afterwards the stream is as usable as before. -/
theorem C152_nested {t : Contents} (h : Holds K true c t) : ∃ D, ∀ d, D ≤ d → ∀ (σ : Type) (P : StreamOps σ UInt8) (s : σ),
    IsStream P c Failure.never True s → P.position s = 0 → ∃ s', walk K d σ P s = .ok (s', t) ∧
      ∀ H V, Meets (sliceFacts c) P H V → H s → H s' := by
  obtain ⟨D, hD⟩ := walk_holds h
  refine ⟨D, fun d hd σ P s hI h0 => ?_⟩
  obtain ⟨s', e, hk⟩ := hD d hd σ P s hI h0
  exact ⟨s', e, hk rfl⟩

/-- **C152** with C87: the listing of a file shows exactly the entries that the archives in it have, up to nine levels deep. -/
theorem C152_listing {t : Contents} (h : Holds K false c t) (a : Attr) (hd : t.depth ≤ 9) : ∃ D, ∀ d, D ≤ d →
    ∀ (σ : Type) (P : StreamOps σ UInt8) (s : σ), IsStream P c Failure.never True s → P.position s = 0 →
      ∃ s' found, walk K d σ P s = .ok (s', found) ∧ ∀ fuel n : Nat, t.count < fuel → t.count < n →
        ∃ r, listAll fuel n (State.new a found) = .ok r ∧ r.root.attr = { a with isDir := a.isDir || decide (t ≠ .nil) } ∧
          ∀ root rest, ∃ o, findBelow r.root root (root ++ 47 :: rest) = .ok o ∧ o.map Tree.attr = shownAt (t.entries []).reverse (components rest) := by
  obtain ⟨D, hD⟩ := C152_walk h
  refine ⟨D, fun d hd' σ P s hI h0 => ?_⟩
  obtain ⟨s', e⟩ := hD d hd' σ P s hI h0
  refine ⟨s', t, e, fun fuel n hf hn => ?_⟩
  obtain ⟨r, e1, _, e2, e3⟩ := C87_complete a t hd fuel n hf hn
  exact ⟨r, e1, e2, e3⟩

/-! ## The formats of the library -/

theorem kind_check (k : Kind) (h : List UInt8) : ∃ b, k.check h h.length = .ok b ∧ (b = true ↔ k.Like h) := by
  cases k with
  | mail => exact C44_checkHeader h
  | rpm => exact C59_rpm h
  | ar => exact C59_ar h
  | zip => exact C59_zip h
  | tar => exact C59_tar h
  | sdf => exact C50_checkHeader h

theorem accepts_of {k : Kind} {F : Format} (hF : F.check = k.check) {mn : Nat} (hc : c ≠ []) (h : ∀ h, Lead mn c h → k.Like h) : F.Accepts mn true c := by
  intro h' n hs
  rcases hs with ⟨h1, rfl, h3, h4⟩ | ⟨h1, _⟩
  · obtain ⟨b, e, hb⟩ := kind_check k h'
    rw [hF, e, hb.mpr (h h' ⟨h1, List.length_pos_iff.mp h3, h4⟩)]
  · exact absurd h1 hc

theorem rejects_of {k : Kind} {F : Format} (hF : F.check = k.check) {mn : Nat} (hc : c ≠ []) (h : ∀ h, Lead mn c h → ¬ k.Like h) : F.Accepts mn false c := by
  intro h' n hs
  rcases hs with ⟨h1, rfl, h3, h4⟩ | ⟨h1, _⟩
  · obtain ⟨b, e, hb⟩ := kind_check k h'
    rw [hF, e]
    cases b with
    | false => rfl
    | true => exact absurd (hb.mp rfl) (h h' ⟨h1, List.length_pos_iff.mp h3, h4⟩)
  · exact absurd h1 hc

theorem takes_first {F : Format} : ∀ (l : List Format), (∀ E ∈ l, E = F ∨ E.Accepts 1024 false c) → F ∈ l → F.Accepts 1024 true c → Takes l c F := by
  intro l
  induction l with
  | nil => intro _ h; simp at h
  | cons E l ih =>
    intro hE hF ha
    rcases hE E (by simp) with rfl | h
    · exact ⟨[], l, 1024, rfl, .nil, ha⟩
    · rcases List.mem_cons.mp hF with rfl | hF
      · exact ⟨[], l, 1024, rfl, .nil, ha⟩
      · obtain ⟨l1, l2, mn, rfl, h1, h2⟩ := ih (fun E' h' => hE E' (by simp [h'])) hF ha
        exact ⟨E :: l1, l2, mn, rfl, .no h h1, h2⟩

/-- **C152**: what looks like a file of one format, and not like one of another, is given to the reader of this format, in whatever order the
formats are tried. -/
theorem C152_kind {subs : List Format} {R : Kind → Reader} (hL : Library subs R) (hc : c ≠ []) (k : Kind) (h1 : ∀ h, Lead 1024 c h → k.Like h)
    (h2 : ∀ k', k' ≠ k → ∀ h, Lead 1024 c h → ¬ k'.Like h) : Takes subs c ⟨k.check, R k⟩ := by
  obtain ⟨order, rfl, hall⟩ := hL
  refine takes_first _ (fun E hE => ?_) (List.mem_map.mpr ⟨k, hall k, rfl⟩) (accepts_of (k := k) rfl hc h1)
  obtain ⟨k', _, rfl⟩ := List.mem_map.mp hE
  by_cases hk : k' = k
  · exact Or.inl (by rw [hk])
  · exact Or.inr (rejects_of (k := k') rfl hc (h2 k' hk))

theorem passes_all {mn : Nat} : ∀ (l : List Format), (∀ E ∈ l, E.Accepts mn false c) → Passes c mn l mn := by
  intro l
  induction l with
  | nil => intro _; exact .nil
  | cons E l ih => intro h; exact .no (h E (by simp)) (ih (fun E' h' => h E' (by simp [h'])))

/-- **C152**: what does not look like a file of any of the formats is not taken for an archive. -/
theorem C152_none {subs : List Format} {R : Kind → Reader} (hL : Library subs R) (hc : c ≠ []) (h : ∀ (k : Kind) h, Lead 1024 c h → ¬ k.Like h) :
    Passes c 1024 subs 1024 := by
  obtain ⟨order, rfl, _⟩ := hL
  refine passes_all _ (fun E hE => ?_)
  obtain ⟨k, _, rfl⟩ := List.mem_map.mp hE
  exact rejects_of (k := k) rfl hc (h k)

theorem accepts_weaken {F : Format} {mn mn' : Nat} {b : Bool} (h : F.Accepts mn b c) (hm : mn ≤ mn') : F.Accepts mn' b c := by
  intro h' n hs
  refine h h' n ?_
  rcases hs with ⟨h1, h2, h3, h4⟩ | hs
  · exact Or.inl ⟨h1, h2, h3, h4.imp (fun z => by omega) id⟩
  · exact Or.inr hs

theorem passes_vain {M : Format} (hM : Vain M.reader c) (h1 : M.Accepts 1 true c) : ∀ (l : List Format) {mn : Nat}, 1 ≤ mn →
    (∀ E ∈ l, E = M ∨ E.Accepts 1 false c) → ∃ mn', Passes c mn l mn' := by
  intro l
  induction l with
  | nil => intro mn _ _; exact ⟨mn, .nil⟩
  | cons E l ih =>
    intro mn hmn h
    have hl := fun E' h' => h E' (List.mem_cons_of_mem E h')
    rcases h E (by simp) with rfl | hE
    · obtain ⟨mn', hp⟩ := ih (Nat.le_refl 1) hl
      exact ⟨mn', .vain (accepts_weaken h1 hmn) hM hp⟩
    · obtain ⟨mn', hp⟩ := ih hmn hl
      exact ⟨mn', .no (accepts_weaken hE hmn) hp⟩

/-- **C152**: a text without a line break that might be the start of a mail is opened as a mail; since there is no mail, it is not taken for an archive
either, in whatever order the formats are tried. -/
theorem C152_text {subs : List Format} {R : Kind → Reader} (hL : Library subs R) (hc : c ≠ []) {conv : List UInt8 → List UInt8 → List UInt8} {stale : Int} {N fuel : Nat}
    (hR : R .mail = mailReader conv stale N fuel) (hf : c.length + 1 < fuel) (hl : Mime.LastLine c) (hm : ∃ t, MailSpec.Mail (c ++ t))
    (h : ∀ k : Kind, k ≠ .mail → ∀ h, Lead 1 c h → ¬ k.Like h) : ∃ mn, Passes c 1024 subs mn := by
  obtain ⟨order, rfl, _⟩ := hL
  refine passes_vain (M := ⟨Kind.check .mail, R .mail⟩) (by rw [hR]; exact mail_vain conv stale N hf hl) ?_ _ (by omega) (fun E hE => ?_)
  · refine accepts_of (k := .mail) rfl hc (fun h hh => ?_)
    obtain ⟨t, ht⟩ := hm
    obtain ⟨u, rfl⟩ := hh.1
    exact ⟨u ++ t, by rw [← List.append_assoc]; exact ht⟩
  · obtain ⟨k, _, rfl⟩ := List.mem_map.mp hE
    by_cases hk : k = .mail
    · exact Or.inl (by rw [hk])
    · exact Or.inr (rejects_of (k := k) rfl hc (h k hk))

theorem last_nil : Mime.LastLine [] := by
  refine ⟨by simp, fun l rest h => ?_⟩
  obtain ⟨st, p, _, _, h3, _⟩ := Mail.scan_line h
  simp at h3

/-- **C152**: an empty file is opened as a mail as well, and is not taken for an archive. -/
theorem C152_empty {subs : List Format} {R : Kind → Reader} (hL : Library subs R) {conv : List UInt8 → List UInt8 → List UInt8} {stale : Int} {N fuel : Nat}
    (hR : R .mail = mailReader conv stale N fuel) (hf : 1 < fuel) : ∃ mn, Passes [] 1024 subs mn := by
  obtain ⟨order, rfl, _⟩ := hL
  have start : ∀ {h : List UInt8} {n : Int}, Walk.Start 1 [] h n → h = [] ∧ (n = 0 ∨ n = -1) := by
    intro h n hs
    rcases hs with ⟨h1, h2, h3, _⟩ | ⟨_, h2, h3⟩
    · rw [List.prefix_nil.mp h1] at h3; simp at h3
    · exact ⟨h2, h3⟩
  refine passes_vain (M := ⟨Kind.check .mail, R .mail⟩) (by rw [hR]; exact mail_vain conv stale N (by simpa using hf) last_nil) ?_ _ (by omega) (fun E hE => ?_)
  · intro h n hs
    obtain ⟨rfl, rfl | rfl⟩ := start hs <;> rfl
  · obtain ⟨k, _, rfl⟩ := List.mem_map.mp hE
    by_cases hk : k = .mail
    · exact Or.inl (by rw [hk])
    · refine Or.inr (fun h n hs => ?_)
      obtain ⟨rfl, rfl | rfl⟩ := start hs <;> cases k <;> first | exact absurd rfl hk | rfl

/-! ## Archives -/

/-- A tar archive. -/
theorem C152_tar {entries : List ArchiveEntry} {k fuel : Nat} (hk : 3 ≤ k) (h : TarSpec.Archive (List.replicate (512 * k) 0) entries c) (hf : c.length < fuel) :
    Shows (Nest.tar fuel) c entries := by
  intro σ P s hI h0
  exact ⟨_, _, rfl, C36_roundtrip hI entries c k hk h (by rw [h0]; rfl) fuel hf⟩

/-- An ar archive. -/
theorem C152_ar {entries : List ArchiveEntry} {bytes : List UInt8} {fuel : Nat} (h : ArSpec.Archive [] entries bytes) (hf : bytes.length < fuel) :
    Shows (Nest.ar fuel) (ArSpec.magic ++ bytes) entries := by
  intro σ P s hI h0
  obtain ⟨p, e, hp⟩ := C37_roundtrip hI (by rw [h0]; rfl) entries bytes h (by rw [h0]; rfl) fuel hf
  exact ⟨p, _, e, hp⟩

/-- A zip archive. -/
theorem C152_zip {ζ : Type} {D : Decompressor ζ} {R : ζ → List UInt8 → List UInt8 → Prop} (hD : Unpacks D False R) (g : Nat) (w : ζ → Nat)
    (mktime : TextUtils.Tm → Int) {ms : List ZipSpec.Member} {dir : List UInt8} (hdir : ZipSpec.Directory dir) (hms : ∀ m ∈ ms, m.WellFormed (R D.init)) {N fuel : Nat}
    (hN : ∀ m ∈ ms, 2 * (m.data.length + m.content.length) + 1 < N ∧ m.content.length + 2 < fuel) :
    Shows (Nest.zip D g w mktime N fuel) (ms.flatMap ZipSpec.Member.bytes ++ dir) (ms.map (ZipSpec.Member.entry (mktimeOf mktime))) := by
  intro σ P s hI h0
  exact ⟨_, _, rfl, C41_roundtrip hI hD mktime ms dir hdir hms (by rw [h0]; rfl) N fuel hN⟩

theorem lead_short {mn : Nat} {h : List UInt8} (hc : c.length ≤ mn) (h1 : Lead mn c h) : h = c := by
  obtain ⟨h1, _, h3 | h3⟩ := h1
  · exact h1.eq_of_length (Nat.le_antisymm h1.length_le (by omega))
  · exact h3

theorem like_of_check {k : Kind} {b : Bool} {h : List UInt8} (e : k.check h h.length = .ok b) : k.Like h ↔ b = true := by
  obtain ⟨b', e', hb⟩ := kind_check k h
  rw [e] at e'; cases e'
  exact hb.symm

/-- What is required of an `ar` archive in an archive. -/
theorem ar_fits {fuel : Nat} (hf : c.length < fuel) (h1 : ¬ [32, 47] <:+: c) (h2 : ¬ [47, 47] <:+: c) (h3 : ¬ [0, 47] <:+: c) :
    (Nest.ar fuel).fits (sliceFacts c) := by
  refine ⟨hf, ?_⟩
  rintro p b ⟨hp, hb⟩ hl hs h47
  exfalso
  obtain ⟨x, y, u, rfl⟩ : ∃ x y u, b = x :: y :: u := by
    rcases b with _ | ⟨x, _ | ⟨y, u⟩⟩ <;> simp at hl
    exact ⟨x, y, u, rfl⟩
  simp only [List.getElem?_cons_zero, List.getElem?_cons_succ, Option.some.injEq] at hs h47
  subst h47
  have hin : [x, 47] <:+: c := by
    have : x :: 47 :: u <:+: c := by rw [hb, slice]; exact (List.take_prefix _ _).isInfix.trans (List.drop_suffix _ _).isInfix
    exact (show [x, 47] <+: x :: 47 :: u from ⟨u, rfl⟩).isInfix.trans this
  rcases hs with rfl | rfl | rfl
  · exact h1 hin
  · exact h2 hin
  · exact h3 hin

/-- For the example: a "compressed" file consists of two bytes, the data, and a NUL. -/
def skippingDecompressor : Decompressor Nat where
  init := 2
  run z inp space :=
    if inp.length < z then (z - inp.length, inp.length, [], .more)
    else
      let r := storedDecompressor.run () (inp.drop z) space
      (0, z + r.2.1, r.2.2.1, r.2.2.2)

theorem skipping_unpacks : Unpacks skippingDecompressor False (fun z x y => ∃ m, m.length = z ∧ x = m ++ (y ++ [0]) ∧ 0 ∉ y) := by
  rintro z x y ⟨m, rfl, rfl, hy⟩ inp hin space hs
  by_cases hz : inp.length < m.length
  · have hp : inp <+: m := by
      rcases hin with h | h
      · exact List.prefix_of_prefix_length_le h (List.prefix_append _ _) (by omega)
      · have := h.length_le; simp at this; omega
    obtain ⟨m', rfl⟩ := hp
    refine ⟨m'.length, inp.length, [], .more, ?_, Nat.le_refl _, by simp; omega, y, rfl, Or.inr (Or.inl ⟨rfl, m' ++ (y ++ [0]), ?_, ⟨m', rfl, rfl, hy⟩, Or.inr ⟨rfl, by simp⟩⟩)⟩
    · show (if inp.length < (inp ++ m').length then _ else _) = _
      rw [if_pos hz]
      simp
    · simp
  · have hm : ∃ i, inp = m ++ i ∧ (i <+: y ++ [0] ∨ y ++ [0] <+: i) := by
      rcases hin with h | h
      · have h2 : m <+: inp := List.prefix_of_prefix_length_le (List.prefix_append _ _) h (by omega)
        obtain ⟨i, rfl⟩ := h2
        exact ⟨i, rfl, Or.inl ((List.prefix_append_right_inj m).mp h)⟩
      · have h2 : m <+: inp := (List.prefix_append _ _).trans h
        obtain ⟨i, rfl⟩ := h2
        exact ⟨i, rfl, Or.inr ((List.prefix_append_right_inj m).mp h)⟩
    obtain ⟨i, rfl, hi⟩ := hm
    obtain ⟨z', k, out, code, e, hk, ho, y', hy', h⟩ := stored_unpacks (z := ()) (x := y ++ [0]) (y := y) ⟨rfl, hy⟩ hi hs
    refine ⟨0, m.length + k, out, code, ?_, by simp; omega, ho, y', hy', ?_⟩
    · show (if (m ++ i).length < m.length then _ else _) = _
      rw [if_neg hz]
      simp [e]
    · rcases h with ⟨h1, h2, h3⟩ | ⟨h1, x', h2, h3, h4⟩ | h
      · exact Or.inl ⟨h1, by rw [List.take_length_add_append, ← h2], h3⟩
      · refine Or.inr (Or.inl ⟨h1, x', ?_, ⟨[], rfl, ?_, h3.2⟩, ?_⟩)
        · rw [List.take_length_add_append, List.append_assoc, ← h2]
        · simpa using h3.1
        · rcases h4 with h4 | ⟨h4, h5⟩
          · exact Or.inl h4
          · exact Or.inr ⟨by simp; omega, h5⟩
      · exact Or.inr (Or.inr h)

theorem skipping_tidy : Tidy skippingDecompressor 1 (fun _ => 0) := by
  intro z inp space hs
  by_cases hz : inp.length < z
  · exact ⟨z - inp.length, inp.length, [], .more, by show (if _ then _ else _) = _; rw [if_pos hz], Nat.le_refl _, by simp; omega, by simp⟩
  · obtain ⟨z', k, out, code, e, h1, h2, h3⟩ := stored_tidy () (inp.drop z) space hs
    rw [List.length_drop] at h1
    exact ⟨0, z + k, out, code, by show (if _ then _ else _) = _; rw [if_neg hz]; simp [e], by omega, h2, by simp only at h3 ⊢; omega⟩

theorem exampleArField (d : List UInt8) (w n : Nat) (h1 : d ≠ []) (h : ArSpec.decimal d = some n) :
    ArSpec.Field (d ++ List.replicate w 32) (w + d.length) n :=
  ⟨d, w, rfl, by have := List.length_pos_iff.mpr h1; simp; omega, h, by simp; omega⟩

/-- An archive. -/
def innerBytes : List UInt8 :=
  (((([98, 47] ++ List.replicate 14 32) ++ (([55] ++ List.replicate 10 32) ++ [32]) ++ List.replicate 20 32 ++
      ([51] ++ List.replicate 9 32) ++ [96, 10]) ++ [1, 2, 3] ++ [10]) ++
  (((([120, 47] ++ List.replicate 14 32) ++ (([55] ++ List.replicate 10 32) ++ [32]) ++ List.replicate 20 32 ++
      ([49] ++ List.replicate 9 32) ++ [96, 10]) ++ [9] ++ []) ++ []))

theorem innerArchive : ArSpec.Archive [] [⟨⟨[98], 3, 7, .file⟩, [1, 2, 3]⟩, ⟨⟨[120], 1, 7, .file⟩, [9]⟩] innerBytes := by
  refine ArSpec.Archive.entry (field := [98, 47] ++ List.replicate 14 32) (content := [1, 2, 3]) (mtime := 7)
    (Or.inl ⟨by simp, by simp, by decide, Or.inr ⟨47, List.replicate 14 32, rfl, by decide⟩⟩)
    ⟨_, _, _, rfl, rfl, exampleArField [55] 10 7 (by simp) rfl, by simp, exampleArField [51] 9 3 (by simp) rfl, by decide, by decide⟩
    (Or.inl rfl) ?_
  exact ArSpec.Archive.entry (field := [120, 47] ++ List.replicate 14 32) (content := [9]) (mtime := 7)
    (Or.inl ⟨by simp, by simp, by decide, Or.inr ⟨47, List.replicate 14 32, rfl, by decide⟩⟩)
    ⟨_, _, _, rfl, rfl, exampleArField [55] 10 7 (by simp) rfl, by simp, exampleArField [49] 9 1 (by simp) rfl, by decide, by decide⟩
    (Or.inr ⟨rfl, rfl⟩) .done

/-- This archive in a compressed file. -/
def innerFile : List UInt8 := [0x1f, 0x8b] ++ (ArSpec.magic ++ innerBytes ++ [0])

/-- An archive with this file and a text. -/
def outerBytes : List UInt8 :=
  (((([97, 47] ++ List.replicate 14 32) ++ (([55] ++ List.replicate 10 32) ++ [32]) ++ List.replicate 20 32 ++
      ([49, 51, 54] ++ List.replicate 7 32) ++ [96, 10]) ++ innerFile ++ []) ++
  (((([120, 47] ++ List.replicate 14 32) ++ (([55] ++ List.replicate 10 32) ++ [32]) ++ List.replicate 20 32 ++
      ([50] ++ List.replicate 9 32) ++ [96, 10]) ++ [72, 105] ++ []) ++ []))

theorem inner_length : innerFile.length = 136 := by decide +kernel

theorem outerArchive : ArSpec.Archive [] [⟨⟨[97], innerFile.length, 7, .file⟩, innerFile⟩, ⟨⟨[120], 2, 7, .file⟩, [72, 105]⟩] outerBytes := by
  refine ArSpec.Archive.entry (field := [97, 47] ++ List.replicate 14 32) (content := innerFile) (mtime := 7)
    (Or.inl ⟨by simp, by simp, by decide, Or.inr ⟨47, List.replicate 14 32, rfl, by decide⟩⟩)
    ⟨_, _, _, rfl, rfl, exampleArField [55] 10 7 (by simp) rfl, by simp, inner_length ▸ exampleArField [49, 51, 54] 7 136 (by simp) rfl, by decide, by rw [inner_length]; decide⟩
    (Or.inl (by rw [inner_length]; rfl)) ?_
  exact ArSpec.Archive.entry (field := [120, 47] ++ List.replicate 14 32) (content := [72, 105]) (mtime := 7)
    (Or.inl ⟨by simp, by simp, by decide, Or.inr ⟨47, List.replicate 14 32, rfl, by decide⟩⟩)
    ⟨_, _, _, rfl, rfl, exampleArField [55] 10 7 (by simp) rfl, by simp, exampleArField [50] 9 2 (by simp) rfl, by decide, by decide⟩
    (Or.inl rfl) .done

/-- The readers of the examples (those for `rpm`, `zip` and `sdf` do not matter). -/
def exampleReader (R : Kind → Reader) : Kind → Reader
  | .mail => mailReader (fun _ b => b) 0 3000 3000
  | .ar => Nest.ar 3000
  | .tar => Nest.tar 3000
  | k => R k

/-- What there is in the file. -/
def exampleContents : Contents :=
  .entry ⟨[97], innerFile.length, 7, false, true⟩ innerFile.length
    (.entry ⟨[98], 3, 7, false, true⟩ 3 .nil (.entry ⟨[120], 1, 7, false, true⟩ 1 .nil .nil))
    (.entry ⟨[120], 2, 7, false, true⟩ 2 .nil .nil)

theorem bare_of {a : UInt8} {l : List UInt8} (h1 : a ≠ 0x42) (h2 : a ≠ 0x1f) (h3 : a ≠ 0x5d) : Bare (a :: l) where
  bz2 := by
    rintro ⟨x, y, _, t, e⟩
    simp at e
    exact h1 e.1.symm
  gzip := by
    rintro ⟨t, e⟩
    simp at e
    exact h2 e.1.symm
  lzma := by
    rintro ⟨dic, size, rest, e, _⟩
    simp at e
    exact h3 e.1

theorem kind_only {subs : List Format} {R : Kind → Reader} (hL : Library subs R) (hc : c ≠ []) (hl : c.length ≤ 1024) (k : Kind)
    (h : ∀ k' : Kind, k'.check c c.length = .ok (decide (k' = k))) : Takes subs c ⟨k.check, R k⟩ := by
  refine C152_kind hL hc k (fun h' hh => ?_) (fun k' hk h' hh => ?_)
  · rw [lead_short hl hh]; exact (like_of_check (h k)).mpr (by simp)
  · rw [lead_short hl hh]
    intro z
    have := (like_of_check (h k')).mp z
    simp [hk] at this

theorem kind_none {subs : List Format} {R : Kind → Reader} (hL : Library subs R) (hc : c ≠ []) (hl : c.length ≤ 1024)
    (h : ∀ k : Kind, k.check c c.length = .ok false) : Passes c 1024 subs 1024 := by
  refine C152_none hL hc (fun k h' hh => ?_)
  rw [lead_short hl hh]
  intro z
  have := (like_of_check (h k)).mp z
  cases this

/-- **C152**, an example: an `ar` archive with a compressed `ar` archive and a text in it.  The formats may be tried in any order. -/
theorem C152_example {subs : List Format} {R : Kind → Reader} (hL : Library subs (exampleReader R)) (lz : LzmaDec.Dec) :
    Holds ⟨subs, Nat, skippingDecompressor, Unit, storedDecompressor, lz, 3000⟩ false (ArSpec.magic ++ outerBytes) exampleContents := by
  have hleaf : ∀ (c : List UInt8) (a : UInt8) (l : List UInt8), c = a :: l → a ≠ 0x42 → a ≠ 0x1f → a ≠ 0x5d → c.length ≤ 1024 →
      (∀ k : Kind, k.check c c.length = .ok false) →
      Holds ⟨subs, Nat, skippingDecompressor, Unit, storedDecompressor, lz, 3000⟩ true c .nil := by
    rintro c a l rfl h1 h2 h3 h4 h5
    exact .leaf (.plain (bare_of h1 h2 h3)) (by omega) (kind_none hL (by simp) h4 h5)
  -- the inner archive
  have hin : Takes subs (ArSpec.magic ++ innerBytes) ⟨Kind.check .ar, exampleReader R .ar⟩ :=
    kind_only hL (by decide) (by decide +kernel) .ar (fun k => by cases k <;> decide +kernel)
  have hinner : Holds ⟨subs, Nat, skippingDecompressor, Unit, storedDecompressor, lz, 3000⟩ true innerFile
      (.entry ⟨[98], 3, 7, false, true⟩ 3 .nil (.entry ⟨[120], 1, 7, false, true⟩ 1 .nil .nil)) := by
    refine .archive (j := 1) (z := ArSpec.magic ++ innerBytes) ?_ (by omega) hin (.ar 3000) (C152_ar innerArchive (by decide +kernel)) (by simp)
      (show 2 < 3000 by omega) (fun _ => ?_) ?_
    · have := Packed.gzip (K := ⟨subs, Nat, skippingDecompressor, Unit, storedDecompressor, lz, 3000⟩) (nested := true) (x := innerFile) (rest := [])
        (y := ArSpec.magic ++ innerBytes)
        ⟨_, skipping_unpacks, [0x1f, 0x8b], rfl, rfl, by decide +kernel⟩ ⟨_, rfl⟩ (by decide) (by decide +kernel) (show 2 * (innerFile.length + (ArSpec.magic ++ innerBytes).length) + 1 < 3000 by decide +kernel)
        (fun _ => ⟨1, fun _ => 0, by
          refine ⟨?_, skipping_tidy⟩
          simp [sliceFacts, inner_length]⟩) (.plain (bare_of (a := 0x21) (by decide) (by decide) (by decide)))
      rw [List.append_nil] at this
      exact this
    · exact ar_fits (by decide +kernel) (by decide +kernel) (by decide +kernel) (by decide +kernel)
    · exact .cons (Or.inl (by decide)) (by decide) (show 3 < 3000 by omega) (hleaf [1, 2, 3] 1 _ rfl (by decide) (by decide) (by decide) (by decide) (fun k => by cases k <;> decide))
        (.cons (Or.inl (by decide)) (by decide) (show 1 < 3000 by omega) (hleaf [9] 9 _ rfl (by decide) (by decide) (by decide) (by decide) (fun k => by cases k <;> decide)) .nil)
  have hout : Takes subs (ArSpec.magic ++ outerBytes) ⟨Kind.check .ar, exampleReader R .ar⟩ :=
    kind_only hL (by decide) (by decide +kernel) .ar (fun k => by cases k <;> decide +kernel)
  obtain ⟨mn, htext⟩ := C152_text (c := [72, 105]) hL (by simp) (conv := fun _ b => b) (stale := 0) (N := 3000) (fuel := 3000) rfl (by simp) ⟨by simp, fun l rest h => by
      obtain ⟨st, p, h1, _⟩ := Mail.scan_line h
      exact absurd h1 (by rw [show Mail.scanLine .ok 0 [72, 105] = (.ok, 2, none) from rfl]; simp)⟩
    ((like_of_check (k := .mail) (b := true) (by decide)).mpr rfl)
    (fun k hk h hh => by
      obtain ⟨h1, h2, _⟩ := hh
      have : h = [72] ∨ h = [72, 105] := by
        rcases h with _ | ⟨x, _ | ⟨y, _ | ⟨z, u⟩⟩⟩
        · exact absurd rfl h2
        · left; simpa using h1
        · right; obtain ⟨t, e⟩ := h1; simp at e; simp [e]
        · obtain ⟨t, e⟩ := h1; simp at e
      intro z
      rcases this with rfl | rfl <;> cases k <;> first | exact absurd rfl hk | exact absurd ((like_of_check (b := false) (by decide)).mp z) (by decide))
  refine .archive (j := 0) (.plain (bare_of (a := 0x21) (by decide) (by decide) (by decide))) (by omega) hout (.ar 3000)
    (C152_ar outerArchive (by decide +kernel)) (by simp) (show 2 < 3000 by omega) (fun h => by cases h) ?_
  refine .cons (Or.inl (by simp)) (by rw [inner_length]; omega) (show innerFile.length < 3000 by rw [inner_length]; omega) hinner ?_
  exact .cons (Or.inl (by decide)) (by decide) (show 2 < 3000 by omega) (.leaf (.plain (bare_of (by decide) (by decide) (by decide))) (by omega) htext) .nil

/-! ## What goes wrong -/

/-- A tar archive with one file, called `a:b`, in which there is an empty line. -/
def colonTar : List UInt8 :=
  exampleTarHead [97, 58, 98] 52 48 ++ [120, 10, 10, 121] ++ List.replicate 508 0 ++ List.replicate (512 * 3) 0

theorem colonArchive : TarSpec.Archive (List.replicate (512 * 3) 0) [⟨⟨[97, 58, 98], 4, 7, .file⟩, [120, 10, 10, 121]⟩] colonTar := by
  have h1 := exampleTarHeader [97, 58, 98] 52 48 (by decide) (by decide) (by decide) 4 rfl (by omega)
  have hp : TarSpec.Pads ([120, 10, 10, 121] : List UInt8).length (List.replicate 508 (0 : UInt8)).length := by
    rw [List.length_replicate]; exact ⟨by decide, rfl⟩
  unfold colonTar
  exact TarSpec.Archive.entry (content := [120, 10, 10, 121]) h1 (by decide) (by decide) hp .done

theorem colon_length : colonTar.length = 2560 := by decide +kernel

theorem colon_mail : ∃ t, MailSpec.Mail (colonTar ++ t) := by
  simp only [MailText.mail_iff]
  exact (MailText.accepts_iff colonTar _).mp (by decide +kernel)

theorem colon_tar : TarSpec.Plausible colonTar :=
  (like_of_check (k := .tar) (b := true) (h := colonTar) (by decide +kernel)).mpr rfl

/-- The first entry that is found if the archive is read as a mail: its name and size. -/
def colonMail (fuel : Nat) : Option (List UInt8 × Int) :=
  match Mail.new StringStream.ops (fun _ b => b) 0 fuel (StringStream.new colonTar) with
  | .ok p => match Mail.nextEntry StringStream.ops (fun _ b => b) 0 fuel p with
    | .ok p => some (p.info.filename, p.info.size)
    | _ => none
  | _ => none

/-- **C152** needs that the file does not look like one of another format: a tar archive of which the first file has a colon in its name looks like the start of a
mail as well.  Which of the two readers it is given to depends on the order of the formats in the map, that is, on the addresses of functions: that for tar shows the
file, that for mails a "body". -/
theorem C152_colon (R : Kind → Reader) (l : List Format) : Takes (⟨Kind.check .tar, R .tar⟩ :: l) colonTar ⟨Kind.check .tar, R .tar⟩ ∧
    Takes (⟨Kind.check .mail, R .mail⟩ :: l) colonTar ⟨Kind.check .mail, R .mail⟩ ∧
    (∀ fuel, 2560 < fuel → Shows (Nest.tar fuel) colonTar [⟨⟨[97, 58, 98], 4, 7, .file⟩, [120, 10, 10, 121]⟩]) ∧
    colonMail 3000 = some ([98, 111, 100, 121], -1) := by
  have hne : colonTar ≠ [] := by intro z; have := colon_length; rw [z] at this; simp at this
  have hlen : ∀ h, Lead 1024 colonTar h → 1024 ≤ h.length := by
    rintro h ⟨_, _, h3 | rfl⟩
    · exact h3
    · rw [colon_length]; omega
  have first : ∀ (k : Kind), (∀ h, Lead 1024 colonTar h → k.Like h) → Takes (⟨k.check, R k⟩ :: l) colonTar ⟨k.check, R k⟩ := fun k h =>
    ⟨[], l, 1024, rfl, .nil, accepts_of (k := k) rfl hne h⟩
  refine ⟨first .tar fun h hh => ?_, first .mail fun h hh => ?_, ?_, by decide +kernel⟩
  · have hp : TarSpec.Plausible colonTar := colon_tar
    have hl := hlen h hh
    obtain ⟨u, hu⟩ := hh.1
    have get : ∀ i, i < 1024 → h[i]? = colonTar[i]? := fun i hi => by
      rw [← hu, List.getElem?_append_left (by omega)]
    refine ⟨by omega, fun i j hij hj z => ?_, ?_, ?_, ?_, ?_, ?_, ?_, ?_⟩
    · rw [get j (by omega)]; rw [get i (by omega)] at z; exact hp.name i j hij hj z
    · obtain ⟨i, h1, h2, h3⟩ := hp.fields
      exact ⟨i, h1, h2, by rw [get i (by omega)]; exact h3⟩
    · rw [get _ (by omega)]; exact hp.mode
    · rw [get _ (by omega)]; exact hp.owner
    · rw [get _ (by omega)]; exact hp.group
    · rw [get _ (by omega)]; exact hp.size
    · rw [get _ (by omega)]; exact hp.time
    · rw [get _ (by omega)]; exact hp.link
  · obtain ⟨t, ht⟩ := colon_mail
    obtain ⟨u, hu⟩ := hh.1
    exact ⟨u ++ t, by rw [← List.append_assoc, hu]; exact ht⟩
  · intro fuel hf
    exact C152_tar (k := 3) (by omega) colonArchive (by rw [colon_length]; exact hf)

/-- To count the bytes of an entry that is a `SubInputStream` of unknown size (this is so for the body of a mail) does not work: reading byte by byte to the end
leaves the size at -1, whatever the stream below does. -/
theorem C152_untold {e e' : SubInputStream σ} {N : Nat} {n : Int} (hs : e.size = -1) (h : Walk.measure (SubInputStream.ops P) N (-1) e = .ok (e', n)) : n = -1 := by
  have one : ∀ (e e1 : SubInputStream σ) (n : Int) (d : List UInt8), e.size = -1 → SubInputStream.read P e 1 0 = .ok (e1, n, d) → e1.size = -1 := by
    intro e e1 n d hs h1
    unfold SubInputStream.read at h1
    rw [if_neg (fun h => h hs)] at h1
    unfold SubInputStream.readParent at h1
    obtain ⟨⟨p', m, d'⟩, h2, h1⟩ := BufferedStream.bind_eq_ok h1
    dsimp only at h1
    obtain ⟨_, h3, h1⟩ := BufferedStream.bind_eq_ok h1
    by_cases ha : m < -1
    · rw [if_pos ha] at h1; cases h1; exact hs
    · rw [if_neg ha] at h1
      by_cases hb : m < 1
      · rw [if_pos hb, if_pos hs, if_neg (show ¬ m > 0 by omega)] at h1; cases h1; exact hs
      · rw [if_neg hb] at h1; cases h1; exact hs
  have step : ∀ (fuel : Nat) (e e' : SubInputStream σ), e.size = -1 → readToEnd (SubInputStream.ops P) fuel e = .ok e' → e'.size = -1 := by
    intro fuel
    induction fuel with
    | zero => intro e e' _ h; cases h
    | succ fuel ih =>
      intro e e' hs h
      unfold readToEnd at h
      obtain ⟨⟨e1, n, d⟩, h1, h⟩ := BufferedStream.bind_eq_ok h
      have hk := one _ _ _ _ hs h1
      dsimp only at h
      by_cases hn : n > 0
      · rw [if_pos hn] at h
        exact ih _ _ hk h
      · rw [if_neg hn] at h
        cases h; exact hk
  unfold Walk.measure at h
  rw [if_pos (by omega)] at h
  obtain ⟨e1, h1, h⟩ := BufferedStream.bind_eq_ok h
  cases h
  exact step _ _ _ hs h1

/-- LZMA files are not recognised if the stream delivers just the two bytes that are asked for. -/
theorem C152_lzma {k : Bool → Use Contents} {s s1 s2 : σ} {d : List UInt8} {r : Int} (h1 : P.read s 2 0 = .ok (s1, 2, d)) (h2 : P.reset s1 0 = .ok (s2, r)) :
    tryLzma K k σ P s = k false σ P s2 := by
  unfold tryLzma
  rw [h1, Res.bind_ok, h2, Res.bind_ok]
  rfl

end Strigi.Props
