import Verif.Proofs.MailParts

namespace Strigi.Mail

open StringTerminated (Cut Inv SearchOk)
open Kmp (Occ)
open Mime (Line LastLine Header PartHeader CutHeader delimiter closing Searchable IsEntry Body Boundaries FileName IsBase64)

variable {σ : Type} {P : StreamOps σ UInt8} {c : List UInt8} {H : σ → Int → Int → Prop}
  {conv : List UInt8 → List UInt8 → List UInt8} {N : Nat}

/-- The header of a part. -/
theorem handle_header (C : Contract P c .never H) (stale : Int) {s : State σ} {r text' : List UInt8} {lines new : List (List UInt8)}
    (hon : On P H c s r) (hst : s.status = .ok) {fuel : Nat} (hf : r.length + 1 < fuel) (hh : PartHeader r lines text')
    (hb : Boundaries lines new) :
    ∃ i d n q h', partHeader P conv stale fuel fuel (clearHeaders s) =
        .ok { s with input := i, line := d, len := n, nextLine := q, header := h', boundary := new ++ s.boundary } ∧
      Steps conv lines (clearHeaders s).header h' ∧
      On P H c { s with input := i, line := d, len := n, nextLine := q, header := h', boundary := new ++ s.boundary } text' ∧ 1 ≤ q := by
  have hlen := partHeader_length hh
  obtain ⟨s2, e2, g⟩ := partHeader_spec (conv := conv) C stale hh fuel fuel (clearHeaders s) (on_congr hon rfl rfl) hst hf (by omega)
  obtain ⟨⟨i, d, n, q, h', rfl, hs⟩, g1, g2, g3, g4⟩ := g
  rw [boundariesOf_eq hb (partHeader_zero hh)] at e2
  refine ⟨i, d, n, q, h', e2, hs, on_congr g1 rfl rfl, ?_⟩
  simp only at g3; omega

theorem handle_nested (C : Contract P c .never H) (stale : Int) {s : State σ} {r text' : List UInt8} {lines new : List (List UInt8)}
    (hon : On P H c s r) (hst : s.status = .ok) {fuel : Nat} (hf : r.length + 1 < fuel) (hh : PartHeader r lines text')
    (hb : Boundaries lines new) (hne : new ≠ []) :
    ∃ i d n q h', handleBodyLine P conv stale fuel s =
        .ok ({ s with input := i, line := d, len := n, nextLine := q, header := h', boundary := new ++ s.boundary }, false) ∧
      On P H c { s with input := i, line := d, len := n, nextLine := q, header := h', boundary := new ++ s.boundary } text' := by
  obtain ⟨i, d, n, q, h', e, _, g, _⟩ := handle_header (conv := conv) C stale hon hst hf hh hb
  refine ⟨i, d, n, q, h', ?_, g⟩
  unfold handleBodyLine
  rw [e]
  simp only [Res.bind_ok]
  have := List.length_pos_iff.mpr hne
  rw [if_pos (by simp only [List.length_append]; omega)]

theorem handle_lost (C : Contract P c .never H) (stale : Int) {s : State σ} {r text' : List UInt8} {lines : List (List UInt8)}
    (hon : On P H c s r) (hst : s.status = .ok) (he : s.entry = none) {fuel : Nat} (hf : r.length + 1 < fuel) (hh : PartHeader r lines text')
    (hb : Boundaries lines []) (hl : LastLine text') :
    ∃ s', handleBodyLine P conv stale fuel s = .ok (s', false) ∧ s'.status = .eof ∧ s'.entry = none := by
  have hlen := partHeader_length hh
  obtain ⟨i, d, n, q, h', e, _, g, _⟩ := handle_header (conv := conv) C stale hon hst hf hh hb
  obtain ⟨s2, e2, g2⟩ := last_read C stale g hl (fuel := fuel) (by omega)
  have hst2 : s2.status = .eof := by obtain ⟨_, _, _, rfl⟩ := g2.eq; rfl
  have hen2 : s2.entry = none := by obtain ⟨_, _, _, rfl⟩ := g2.eq; exact he
  refine ⟨s2, ?_, hst2, hen2⟩
  unfold handleBodyLine
  rw [e]
  simp only [Res.bind_ok]
  rw [if_neg (by simp), e2]
  simp only [Res.bind_ok]
  rw [if_pos (by rw [hst2]; decide)]

theorem handle_unfinished (C : Contract P c .never H) (stale : Int) {s : State σ} {r : List UInt8}
    (hon : On P H c s r) (hst : s.status = .ok) (he : s.entry = none) {fuel : Nat} (hf : r.length + 1 < fuel) (hh : CutHeader r) :
    ∃ s', handleBodyLine P conv stale fuel s = .ok (s', false) ∧ s'.status = .eof ∧ s'.entry = none := by
  obtain ⟨s1, rest, e1, h1, h2, h3, h4, h5⟩ := partHeader_cut (conv := conv) C stale hh fuel fuel (clearHeaders s) (on_congr hon rfl rfl) hst hf (by omega)
  obtain ⟨s2, e2, g2⟩ := last_read C stale h3 h4 (fuel := fuel) (by omega)
  have hst2 : s2.status = .eof := by obtain ⟨_, _, _, rfl⟩ := g2.eq; rfl
  have hen2 : s2.entry = none := by obtain ⟨_, _, _, rfl⟩ := g2.eq; exact h2.trans he
  unfold handleBodyLine
  rw [e1]
  simp only [Res.bind_ok]
  split
  · exact ⟨s1, rfl, h1, h2.trans he⟩
  · rw [e2]
    simp only [Res.bind_ok]
    rw [if_pos (by rw [hst2]; decide)]
    exact ⟨s2, rfl, hst2, hen2⟩

/-- A part is opened. -/
theorem handle_part (C : Contract P c .never H) (stale : Int) {s : State σ} {r text' : List UInt8} {lines : List (List UInt8)}
    (hon : On P H c s r) (hst : s.status = .ok) {fuel : Nat} (hf : r.length + 1 < fuel) (hh : PartHeader r lines text')
    (hb : Boundaries lines []) {b : List UInt8} {bs : List (List UInt8)} (hbd : s.boundary = b :: bs) {l' r' : List UInt8}
    (hl : Line text' l' r') (hq : Searchable (delimiter b)) {content : List UInt8} (hbf : BeforeFirst (delimiter b) text' content)
    {name : List UInt8} (hname : FileName lines name) :
    ∃ s' k, ∃ sub : StringTerminated σ, ∃ en, ∃ o : Int, handleBodyLine P conv stale fuel s = .ok (s', true) ∧
      SearchOk k (delimiter b) ∧ Cut (delimiter b) c o content.length ∧ slice c o content.length = content ∧ c.drop o.toNat = text' ∧ 1 ≤ o ∧
      (OccursAt (delimiter b) text' content.length → Occ (delimiter b) c (o + content.length)) ∧
      Inv P H k (delimiter b) c o content.length sub 0 0 ∧ sub.pos = 0 ∧ sub.size = -1 ∧
      (IsBase64 lines → en = .base64 (BufferedStream.new (Base64.State.new sub))) ∧ (¬ IsBase64 lines → en = .plain sub) ∧
      s'.entry = some en ∧ s'.status = .ok ∧ s'.boundary = s.boundary ∧ s'.number = s.number ∧
      s'.info = { s.info with filename := name } := by
  have hlen := partHeader_length hh
  obtain ⟨i, d, n, q, h', e, hs, g, hq1⟩ := handle_header (conv := conv) C stale hon hst hf hh hb
  have hr := g.range C
  obtain ⟨s2, brk, ht, e2, g2⟩ := (readLine C stale g (fuel := fuel) (by omega)).1 _ _ hl
  have hdrop : c.drop q.toNat = text' := g.2
  obtain ⟨i2, d2, h2⟩ := g2.eq
  have hpos : P.position s2.input = q := g2.pos
  obtain ⟨lo, hi, hH, _, _⟩ := g2.win
  obtain ⟨k, ek, hk⟩ := Props.searchOk_of_good (q := delimiter b) ⟨by simp [delimiter], hq⟩
  have hqn : (q.toNat : Int) = q := by omega
  simp only at hr
  rw [← hdrop] at hbf
  obtain ⟨hcut, hsl, hocc⟩ := Props.cut_of_beforeFirst (o := q.toNat) (by omega) hbf
  rw [hqn, hdrop] at hocc
  rw [hqn] at hcut hsl
  have hcut' := hcut
  rw [← hpos] at hcut'
  have hinv := StringTerminated.inv_new (k := k) C hH hcut'
  rw [hpos] at hinv
  have hn := fileName_eq hs (partHeader_zero hh) rfl rfl hname
  have h64 := base64_iff hs (partHeader_zero hh) rfl
  have hbd2 : s2.boundary = b :: bs := by rw [h2]; simpa using hbd
  have hhead : s2.header = h' := by rw [h2]
  have hst2 : s2.status = .ok := by rw [h2]; exact hst
  refine ⟨{ s2 with
      info := { s2.info with filename := name },
      entry := some (if (caseFind Mime.base64Key (cstr (h' .encoding))).isSome then
        Entry.base64 (BufferedStream.new (Base64.State.new ⟨s2.input, k, q, 0, 0, -1, .ok⟩))
      else .plain ⟨s2.input, k, q, 0, 0, -1, .ok⟩) }, k, ⟨s2.input, k, q, 0, 0, -1, .ok⟩, _, q, ?_, hk, hcut, hsl, hdrop, hq1, hocc, hinv,
      rfl, rfl, ?_, ?_, rfl, hst2, ?_, ?_, ?_⟩
  · unfold handleBodyLine
    rw [e]
    simp only [Res.bind_ok]
    rw [if_neg (by simp), e2]
    simp only [Res.bind_ok]
    rw [if_neg (by rw [hst2]; decide)]
    unfold openPart
    rw [hbd2]
    simp only [StringTerminated.new]
    have ek' : Kmp.setQuery (45 :: 45 :: b) = .ok k := ek
    rw [ek', hn, hhead, hpos]
    rfl
  · intro z; rw [if_pos (h64.mpr z)]
  · intro z; rw [if_neg (fun y => z (h64.mp y))]
  · rw [h2]; simp
  · rw [h2]
  · rw [h2]

/-! ## The scan -/

/-- A line of a preamble or an epilogue. -/
theorem scan_other (C : Contract P c .never H) (stale : Int) {s : State σ} {text l rest : List UInt8} (hon : On P H c s text)
    (hl : Line text l rest) {fuel : Nat} (hf : text.length + 1 < fuel) (hst : s.status = .ok) {b : List UInt8} {bs : List (List UInt8)}
    (hb : s.boundary = b :: bs) (h0 : 0 ∉ b) (hne : b ≠ []) (h1 : l ≠ delimiter b) (h2 : l ≠ closing b) (m : Nat) :
    ∃ i d n q, scanBody P conv stale fuel (m + 1) s = scanBody P conv stale fuel m { s with input := i, line := d, len := n, nextLine := q } ∧
      On P H c { s with input := i, line := d, len := n, nextLine := q } rest := by
  obtain ⟨s1, brk, _, e1, g⟩ := (readLine C stale hon hf).1 _ _ hl
  obtain ⟨e2, _, _⟩ := body_line (conv := conv) stale fuel g hb h0 hne
  have g3 := g.on
  obtain ⟨i, d, h⟩ := g.eq
  refine ⟨i, d, _, _, ?_, h ▸ g3⟩
  rw [scanBody, if_pos hst, e1]
  simp only [Res.bind_ok]
  rw [e2 h1 h2]
  simp only [Res.bind_ok]
  rw [if_neg (by decide), h]

/-- No delimiter: there are no more entries. -/
theorem scan_nothing (C : Contract P c .never H) (stale : Int) {b : List UInt8} {bs : List (List UInt8)} (h0 : 0 ∉ b) (hne : b ≠ []) {fuel : Nat} :
    ∀ (m : Nat) (s : State σ) (text : List UInt8), On P H c s text → (∀ i, ¬ OccursAt (delimiter b) text i) → text.length < 2 ^ 20 →
      text.length + 1 < fuel → s.status = .ok → s.entry = none → s.boundary = b :: bs → text.length + 1 < m →
      ∃ s', scanBody P conv stale fuel m s = .ok s' ∧ s'.status = .eof ∧ s'.entry = none := by
  intro m
  induction m with
  | zero => intro s text _ _ _ _ _ _ _ h; omega
  | succ m ih =>
    intro s text hon hno hlen hf hst he hb hm
    by_cases hl : LastLine text
    · obtain ⟨m, rfl⟩ : ∃ k, m = k + 1 := ⟨m - 1, by omega⟩
      exact scan_ended C stale hon hl hf hst he hb h0 m
    · obtain ⟨l, rest, hl⟩ : ∃ l rest, Line text l rest := by
        by_contra z
        exact hl ⟨hlen, fun l rest y => z ⟨l, rest, y⟩⟩
      have hs := line_shorter hl
      have hl' := hl
      obtain ⟨brk, x, t, ht, hr, _⟩ := hl'
      obtain ⟨i, d, n, q, e, g⟩ := scan_other (conv := conv) C stale hon hl hf hst hb h0 hne
        (by rintro rfl; exact hno 0 ⟨[], brk ++ rest, by rw [ht]; simp, rfl⟩)
        (by rintro rfl; exact hno 0 ⟨[], [45, 45] ++ brk ++ rest, by rw [ht]; simp [closing, delimiter], rfl⟩) m
      rw [e]
      refine ih _ rest g ?_ (by omega) (by omega) hst he hb (by omega)
      rintro j ⟨pre, post, e, hp⟩
      exact hno _ ⟨l ++ brk ++ pre, post, by rw [ht, e]; simp, rfl⟩

/-- The input stays at its end. -/
theorem scan_at_end (C : Contract P c .never H) (stale : Int) {s : State σ} {i : σ} {r lo hi : Int} (hr : P.reset s.input s.nextLine = .ok (i, r))
    (hi : H i lo hi) (hp : P.position i = c.length) (hst : s.status = .ok) (he : s.entry = none) {fuel : Nat} (hf : 0 < fuel) (m : Nat) :
    ∃ s', scanBody P conv stale fuel (m + 2) s = .ok s' ∧ s'.status = .eof ∧ s'.entry = none := by
  obtain ⟨fuel', rfl⟩ : ∃ k, fuel = k + 1 := ⟨fuel - 1, by omega⟩
  obtain ⟨i2, n, d, e, rd, _⟩ := C.read hi (min := 1) (max := maxLineSize) (by omega) (Or.inr (by unfold maxLineSize; omega))
  have hn : n = -1 ∨ n = 0 := by
    cases rd with
    | data pos items inside adv limit enough st => omega
    | ended none _ _ _ _ => exact none
    | failed a _ _ => exact absurd a id
  refine ⟨{ s with input := i2, line := d, len := n, status := .eof }, ?_, rfl, he⟩
  rw [scanBody, if_pos hst]
  have e1 : readHeaderLine P stale (fuel' + 1) s = .ok { s with input := i2, line := d, len := n, status := .eof } := by
    unfold readHeaderLine
    rw [hr]
    simp only [Res.bind_ok]
    rw [lineLoop]
    simp only [Int.zero_add, e, Res.bind_ok]
    rw [if_pos (by omega)]
  rw [e1]
  simp only [Res.bind_ok]
  have e2 : bodyLine P conv stale (fuel' + 1) { s with input := i2, line := d, len := n, status := .eof } =
      .ok ({ s with input := i2, line := d, len := n, status := .eof }, false) := by
    unfold bodyLine isDashed
    rw [if_neg (by simp only; omega)]
    rfl
  rw [e2]
  simp only [Res.bind_ok]
  rw [if_neg (by decide), scanBody, if_neg (by simp)]

/-- What a scan has to achieve. -/
def Goal (P : StreamOps σ UInt8) (conv : List UInt8 → List UInt8 → List UInt8) (stale : Int) (N fuel : Nat) (s : State σ) :
    List ArchiveEntry → Prop
  | [] => s.status = .eof ∧ s.entry = none
  | e :: es => s.status = .ok ∧ ∃ en, s.entry = some en ∧ (found s).info = e.info ∧ e.info.size = -1 ∧ (entryOps P N).position en = 0 ∧
      (entryOps P N).size en = -1 ∧ IsStream (entryOps P N) e.content .never False en ∧
      ∀ x lo hi, Uses (entryOps P N) e.content False en x lo hi →
        Presents (ops P conv stale N fuel) .never False .eof { found s with entry := some x } es

/-- From the scan to the provider. -/
theorem presents_of_scan {stale : Int} {fuel : Nat} {s s1 s2 : State σ} (hst : s.status = .ok) (hb : s.boundary ≠ [])
    (hl : leave P fuel s = .ok s1) (hst1 : s1.status = .ok) (hs : scanBody P conv stale fuel fuel s1 = .ok s2) {es : List ArchiveEntry}
    (hg : Goal P conv stale N fuel s2 es) : Presents (ops P conv stale N fuel) .never False .eof s es := by
  have e : nextEntry P conv stale fuel s = .ok (found s2) := by
    unfold nextEntry
    rw [if_neg (by rw [hst]; decide), if_neg hb, hl]
    simp only [Res.bind_ok]
    rw [if_neg (by rw [hst1]; decide), hs]
    rfl
  cases es with
  | nil =>
    obtain ⟨h1, h2⟩ := hg
    refine ⟨found s2, e, ?_, ?_, ?_⟩
    · simp [ops, found, ensureFileName, h2]
    · simp [ops, found, ensureFileName, h2]
    · show nextEntry P conv stale fuel (found s2) = _
      unfold nextEntry
      rw [if_pos (by simp [found, ensureFileName, h2])]
      simp [found, ensureFileName, h2]
  | cons a es =>
    obtain ⟨h1, en, h2, h3, h4, h5, h6, h7, h8⟩ := hg
    refine ⟨found s2, en, e, ?_, h3, ?_, h5, by rw [h4]; exact h6, h7, h8⟩
    · simp [ops, found, ensureFileName, h2]
    · simp [ops, found, ensureFileName, h2, h1]

end Strigi.Mail
