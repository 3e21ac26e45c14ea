import Verif.Proofs.MailRender

/-!
# Mails: C60, C79 - C85

In all theorems the mail is read from any contract-respecting stream `P` that is at position 0.  `conv` is the character set
conversion; `stale` is the value that `lineend - linestart` has after an error (it is arbitrary).
-/

namespace Strigi.Props

open Strigi.Mail
open Mime (Line LastLine Header Headless PartHeader CutHeader delimiter closing Searchable IsEntry Body Boundaries FileName IsBase64 LastField FieldValue IsField)

variable {σ : Type} {P : StreamOps σ UInt8} {c : List UInt8} {soft : Prop} {input : σ}

/-- The state in which the constructor starts. -/
theorem mail_on (hP : IsStream P c Failure.never soft input) (h0 : P.position input = 0) :
    On P (fun i lo hi => ∀ l, Behaves P c Failure.never soft i lo hi l) c (⟨.ok, input, none, {}, 0, 0, fun _ => [], [], [], 0⟩ : State σ) c := by
  have h : ∀ l, Behaves P c Failure.never soft input 0 0 l := by intro l; have := hP l; rw [h0] at this; exact this
  have := On.of_window (Contract.of_behaves P c Failure.never soft)
    (s := (⟨.ok, input, none, {}, 0, 0, fun _ => [], [], [], 0⟩ : State σ)) h (Int.le_refl 0) (Int.le_refl 0)
  simpa using this

theorem mail_new (hP : IsStream P c Failure.never soft input) (h0 : P.position input = 0) {lines : List (List UInt8)} {rest : List UInt8}
    (hh : Header c lines rest) (conv : List UInt8 → List UInt8 → List UInt8) (stale : Int) {fuel : Nat} (hf : c.length + 1 < fuel) :
    ∃ s, Mail.new P conv stale fuel input = .ok s ∧
      Done P (fun i lo hi => ∀ l, Behaves P c Failure.never soft i lo hi l) c conv ⟨.ok, input, none, {}, 0, 0, fun _ => [], [], [], 0⟩ s lines rest := by
  have hl := header_length hh
  obtain ⟨s1, s2, e1, e2, g⟩ := headerLoop_spec (conv := conv) (Contract.of_behaves P c Failure.never soft) stale hh fuel fuel
    ⟨.ok, input, none, {}, 0, 0, fun _ => [], [], [], 0⟩ (mail_on hP h0) rfl hf (by omega)
  refine ⟨s2, ?_, g⟩
  unfold Mail.new readHeader
  rw [e1]
  exact e2

/-- **C79**: the entries of a multipart mail are its parts. -/
theorem C79_multipart (hP : IsStream P c Failure.never soft input) (h0 : P.position input = 0) (hlen : c.length < 2 ^ 31)
    {lines bs : List (List UInt8)} {rest : List UInt8} {es : List ArchiveEntry} (hh : Header c lines rest) (hb : Boundaries lines bs)
    (hne : bs ≠ []) (hbody : Body soft bs 0 rest es) (conv : List UInt8 → List UInt8 → List UInt8) (stale : Int) {N fuel : Nat}
    (hN : c.length + 1 < N) (hf : c.length + 1 < fuel) :
    ∃ s, Mail.new P conv stale fuel input = .ok s ∧ s.status = .ok ∧ Presents (Mail.ops P conv stale N fuel) Failure.never False .eof s es := by
  have C := Contract.of_behaves P c Failure.never soft
  obtain ⟨s, e, g⟩ := mail_new hP h0 hh conv stale hf
  have hon := g.on
  obtain ⟨i, d, n, q, h', rfl, _⟩ := g.eq
  have hbs := boundariesOf_eq hb (header_zero hh)
  simp only [List.append_nil] at e hon
  rw [hbs] at e hon
  have hl := header_length hh
  refine ⟨_, e, rfl, ?_⟩
  obtain ⟨s2, e2, hg⟩ := scan_body (conv := conv) (N := N) C (fun hs => SoftReset.of_behaves P c Failure.never soft hs) stale (by omega) hf hN hbody fuel
    _ hon rfl rfl rfl rfl rfl rfl (boundaries_good hb (header_zero hh)) (by omega)
  refine presents_of_scan ?_ ?_ ?_ ?_ e2 hg
  · rfl
  · exact hne
  · rfl
  · rfl

/-- **C80**: what the accessors `subject()`, `to()`, ..., `contentType()` return after construction. -/
theorem C80_fields (hP : IsStream P c Failure.never soft input) (h0 : P.position input = 0) {lines : List (List UInt8)} {rest : List UInt8}
    (hh : Header c lines rest) (conv : List UInt8 → List UInt8 → List UInt8) (stale : Int) {fuel : Nat} (hf : c.length + 1 < fuel) :
    ∃ s, Mail.new P conv stale fuel input = .ok s ∧ s.status = .ok ∧
      (∀ p ∈ [(Mime.subject, Field.subject), (Mime.to, .to), (Mime.from, .from), (Mime.cc, .cc), (Mime.bcc, .bcc), (Mime.messageId, .messageId),
          (Mime.inReplyTo, .inReplyTo), (Mime.references, .references)],
        (LastField p.1 lines none → s.header p.2 = []) ∧
        ∀ l v, LastField p.1 lines (some l) → FieldValue p.1 l v → MailSpec.HeaderText conv v (s.header p.2)) ∧
      (LastField Mime.contentType lines none → s.header .contentType = []) ∧
      ∀ l v, LastField Mime.contentType lines (some l) → FieldValue Mime.contentType l v → s.header .contentType = v := by
  obtain ⟨s, e, g⟩ := mail_new hP h0 hh conv stale hf
  obtain ⟨i, d, n, q, h', rfl, hs⟩ := g.eq
  refine ⟨_, e, rfl, ?_, ?_, ?_⟩
  · intro p hp
    have hpf : p ∈ Mail.fields := by
      simp only [List.mem_cons, List.not_mem_nil, or_false] at hp
      rcases hp with rfl | rfl | rfl | rfl | rfl | rfl | rfl | rfl <;> decide
    refine ⟨fun hl => steps_none hs hpf hl, fun l v hl hv => ?_⟩
    have := steps_some hs hpf hl
    rw [fieldValue_unique hv]
    simp only [List.mem_cons, List.not_mem_nil, or_false] at hp
    rcases hp with rfl | rfl | rfl | rfl | rfl | rfl | rfl | rfl <;> exact this
  · exact fun hl => steps_none hs (p := (Mime.contentType, .contentType)) (by decide) hl
  · intro l v hl hv
    rw [fieldValue_unique hv]
    exact steps_some hs (p := (Mime.contentType, .contentType)) (by decide) hl

/-- **C80**: a field is lost if its line has less than 8 bytes (`To: a@b`). -/
theorem C80_short_field (hP : IsStream P c Failure.never soft input) (h0 : P.position input = 0) {lines : List (List UInt8)} {rest : List UInt8}
    (hh : Header c lines rest) (conv : List UInt8 → List UInt8 → List UInt8) (stale : Int) {fuel : Nat} (hf : c.length + 1 < fuel)
    (hshort : ∀ l ∈ lines, Mime.SameCase (l.take 3) Mime.to → l.length < 8) :
    ∃ s, Mail.new P conv stale fuel input = .ok s ∧ s.header .to = [] := by
  obtain ⟨s, e, _, h, _⟩ := C80_fields hP h0 hh conv stale hf
  refine ⟨s, e, (h (Mime.to, .to) (by simp)).1 ?_⟩
  intro l hl hi
  have := hshort l hl hi.2.1
  have := hi.1
  omega

/-- **C81**: a mail that is not multipart has one entry, `body`.  It starts with the empty line in front of the text.  From then on
there are no entries any more, whatever the client did with the first. -/
theorem C81_body (hP : IsStream P c Failure.never soft input) (h0 : P.position input = 0) (hlen : c.length < 2 ^ 31)
    {lines : List (List UInt8)} {rest : List UInt8} (hh : Header c lines rest) (hb : Boundaries lines [])
    (conv : List UInt8 → List UInt8 → List UInt8) (stale : Int) {N fuel : Nat} (hf : c.length + 1 < fuel) :
    ∃ s s' e content, Mail.new P conv stale fuel input = .ok s ∧ s.status = .ok ∧ (Mail.ops P conv stale N fuel).nextEntry s = .ok s' ∧
      (Mail.ops P conv stale N fuel).entry s' = some e ∧ (Mail.ops P conv stale N fuel).info s' = ⟨[98, 111, 100, 121], -1, 0, .unknown⟩ ∧
      content <:+ c ∧ Line content [] rest ∧ (Mail.ops P conv stale N fuel).stream.position e = 0 ∧
      IsStream (Mail.ops P conv stale N fuel).stream content ⟨False, True⟩ soft e ∧
      ∀ e', (Mail.ops P conv stale N fuel).status ((Mail.ops P conv stale N fuel).setEntry s' e') = .eof ∧
        Presents (Mail.ops P conv stale N fuel) Failure.never False .eof ((Mail.ops P conv stale N fuel).setEntry s' e') [] := by
  have C := Contract.of_behaves P c Failure.never soft
  obtain ⟨s, e, g⟩ := mail_new hP h0 hh conv stale hf
  have hexit : s.status ≠ .ok ∨ s.len = 0 := by
    unfold Mail.new readHeader at e
    obtain ⟨s1, _, e1⟩ := BufferedStream.bind_eq_ok e
    exact headerLoop_exit _ _ _ e1
  obtain ⟨l, hl, hlen0⟩ := g.blank
  have hback := g.back
  have hon := g.on
  obtain ⟨lo, hi, hw⟩ := g.win
  obtain ⟨i, d, n, q, h', rfl, _⟩ := g.eq
  simp only [List.append_nil] at e hon
  rw [boundariesOf_eq hb (header_zero hh)] at e hon
  simp only at hexit hlen0 hl hback hw hon
  have hl0 : l = [] := by
    rcases hexit with z | z
    · exact absurd rfl z
    · exact List.length_eq_zero_iff.mp (by omega)
  subst hl0
  have hS : IsStream P c Failure.never soft i := by
    have hr := C.range hw
    intro l
    exact C.narrow hw (by omega) (by omega) (by omega) (by omega) l
  have hr := C.range hw
  have hlt : P.position i < c.length := by
    have := (line_shorter hl).1
    rw [List.length_drop] at this
    omega
  obtain ⟨e0, he0, his⟩ := C14_rest hS hlen hlt
  have hp0 : e0.pos = 0 := by
    obtain ⟨s', e', _, p'⟩ := SubInputStream.inv_new C hw (l := -1) (by omega)
    rw [he0] at e'; cases e'; exact p'
  refine ⟨_, { status := .eof, input := i, entry := some (.body e0), info := ⟨[98, 111, 100, 121], -1, 0, .unknown⟩, nextLine := q, number := 0, header := h', boundary := [], line := d, len := n }, .body e0, c.drop (P.position i).toNat, e, rfl, ?_, rfl, rfl,
    List.drop_suffix _ _, hl, hp0, embeds_body.isStream his, fun e' => ⟨rfl, ?_⟩⟩
  · rw [show (Mail.ops P conv stale N fuel).nextEntry = Mail.nextEntry P conv stale fuel from rfl]
    unfold Mail.nextEntry
    rw [if_neg (by simp), if_pos rfl, he0]
    rfl
  · refine ⟨{ status := .eof, input := i, entry := none, info := ⟨[98, 111, 100, 121], -1, 0, .unknown⟩, nextLine := q, number := 0, header := h', boundary := [], line := d, len := n }, ?_, rfl, rfl, ?_⟩ <;>
    · rw [show (Mail.ops P conv stale N fuel).nextEntry = Mail.nextEntry P conv stale fuel from rfl]
      unfold Mail.nextEntry
      rw [if_pos (by simp [Mail.ops])]
      try rfl

/-- **C82**: a mail that ends before an empty line has no entries. -/
theorem C82_headless (hP : IsStream P c Failure.never soft input) (h0 : P.position input = 0) (hh : Headless c)
    (conv : List UInt8 → List UInt8 → List UInt8) (stale : Int) {N fuel : Nat} (hf : c.length + 1 < fuel) :
    ∃ s, Mail.new P conv stale fuel input = .ok s ∧ s.status = .eof ∧ Presents (Mail.ops P conv stale N fuel) Failure.never False .eof s [] := by
  obtain ⟨s1, s2, e1, e2, h1, h2⟩ := headless_spec (conv := conv) (Contract.of_behaves P c Failure.never soft) stale hh fuel fuel
    ⟨.ok, input, none, {}, 0, 0, fun _ => [], [], [], 0⟩ (mail_on hP h0) rfl hf (by omega)
  have e : nextEntry P conv stale fuel s2 = .ok s2 := by
    unfold nextEntry
    rw [if_pos (by rw [h1]; decide)]
    have h2 : s2.entry = none := h2
    congr 1
    cases s2
    simp only at h2
    subst h2
    rfl
  refine ⟨s2, ?_, h1, s2, e, h2, h1, e⟩
  unfold Mail.new readHeader
  rw [e1]
  exact e2

/-- **C60**: a line is read up to its end, whatever the chunks in which the stream delivers it; the next line starts behind the line break. -/
theorem C60_line {s : State σ} (hP : IsStream P c Failure.never soft s.input) (h0 : P.position s.input = s.nextLine) (stale : Int)
    {l rest : List UInt8} (hl : Line (c.drop s.nextLine.toNat) l rest) {fuel : Nat} (hf : c.length + 1 < fuel) :
    ∃ s', readHeaderLine P stale fuel s = .ok s' ∧ s'.status = s.status ∧ s'.len = l.length ∧ s'.line.take l.length = l ∧
      0 ≤ s'.nextLine ∧ c.drop s'.nextLine.toNat = rest := by
  have C := Contract.of_behaves P c Failure.never soft
  have h : ∀ l, Behaves P c Failure.never soft s.input s.nextLine s.nextLine l := by intro l; have := hP l; rw [h0] at this; exact this
  have hon := On.of_window C (s := s) h (Int.le_refl _) (Int.le_refl _)
  obtain ⟨s', brk, e0, e, g⟩ := (readLine C stale hon (fuel := fuel) (by rw [List.length_drop]; omega)).1 l rest hl
  have hr := g.on.range C
  obtain ⟨t, ht, _⟩ := g.mem
  refine ⟨s', e, ?_, ?_, by rw [ht]; simp, hr.1, g.on.2⟩ <;> obtain ⟨i, d, rfl⟩ := g.eq <;> rfl

/-- **C60**: at the end of the stream, when there is no line any more, the status is `Eof`. -/
theorem C60_last_line {s : State σ} (hP : IsStream P c Failure.never soft s.input) (h0 : P.position s.input = s.nextLine) (stale : Int)
    (hl : LastLine (c.drop s.nextLine.toNat)) {fuel : Nat} (hf : c.length + 1 < fuel) :
    ∃ s', readHeaderLine P stale fuel s = .ok s' ∧ s'.status = .eof ∧ s'.nextLine = s.nextLine := by
  have C := Contract.of_behaves P c Failure.never soft
  have h : ∀ l, Behaves P c Failure.never soft s.input s.nextLine s.nextLine l := by intro l; have := hP l; rw [h0] at this; exact this
  have hon := On.of_window C (s := s) h (Int.le_refl _) (Int.le_refl _)
  obtain ⟨s', e, g⟩ := (readLine C stale hon (fuel := fuel) (by rw [List.length_drop]; omega)).2 hl
  refine ⟨s', e, ?_, ?_⟩ <;> obtain ⟨i, d, n, rfl⟩ := g.eq <;> rfl

/-- **C60**: there is only one way to split a text into a line and the rest. -/
theorem C60_unique {text l l' rest rest' : List UInt8} (h : Line text l rest) (h' : Line text l' rest') : l = l' ∧ rest = rest' :=
  line_unique h h'

/-- **C60**: a text with a line break that is followed by a character that is not white space starts with a line (if it is short enough). -/
theorem C60_first {body : List UInt8} (h : body.length + 3 ≤ 2 ^ 20) : ∃ l r, Line (body ++ Mime.crlf ++ [45]) l r := first_line h

open Mime (PlainLine PartLine Part SimplePart Entries Epilogue crlf joined multipart mail) in
/-- **C83**: for every mail that is written as RFC 2046 says: the entries are the parts.  The line break in front of a delimiter, which does
not belong to the part according to the RFC, is presented as part of the content. -/
theorem C83_written {hdr preamble : List (List UInt8)} {b epilogue : List UInt8} {parts : List Part} {es : List ArchiveEntry}
    (hP : IsStream P (mail hdr (multipart b preamble parts epilogue)) Failure.never soft input) (h0 : P.position input = 0)
    (hlen : (mail hdr (multipart b preamble parts epilogue)).length < 2 ^ 31)
    (hhdr : ∀ l ∈ hdr, PlainLine l ∧ l ≠ [] ∧ 0 ∉ l) (hb : Boundaries hdr [b]) (hq : Searchable (delimiter b))
    (hpre : ∀ l ∈ preamble, PlainLine l ∧ l ≠ delimiter b ∧ l ≠ closing b) (hparts : ∀ p ∈ parts, SimplePart b p) (hepi : Epilogue epilogue)
    (hes : Entries 0 parts es) (conv : List UInt8 → List UInt8 → List UInt8) (stale : Int) {N fuel : Nat}
    (hN : (mail hdr (multipart b preamble parts epilogue)).length + 1 < N)
    (hf : (mail hdr (multipart b preamble parts epilogue)).length + 1 < fuel) :
    ∃ s, Mail.new P conv stale fuel input = .ok s ∧ s.status = .ok ∧ Presents (Mail.ops P conv stale N fuel) Failure.never False .eof s es := by
  obtain ⟨l, hl, hsub, hbl⟩ := boundaries_sub hb b (by simp)
  obtain ⟨g1, g2, g3, g4⟩ := (hhdr l hl).1
  obtain ⟨k1, rest, k2⟩ := body_written (soft := soft) (fun z => g1 (hsub _ z)) (fun z => g2 (hsub _ z)) (by omega) hq hepi hparts hes
  have hstart : Starts (parts.flatMap (fun p => delimiter b ++ crlf ++ p.text) ++ closing b ++ epilogue) := by
    rw [k2]
    exact ⟨45, _, rfl, Or.inr (by unfold Mime.Space; decide)⟩
  have hbody := preamble_written hstart k1 hpre
  have e : multipart b preamble parts epilogue =
      joined preamble ++ (parts.flatMap (fun p => delimiter b ++ crlf ++ p.text) ++ closing b ++ epilogue) := by
    simp [multipart]
  refine C79_multipart hP h0 hlen (header_written hhdr ?_) hb (by simp) (by rw [e]; exact hbody) conv stale hN hf
  rw [e]
  intro z
  exact starts_ne hstart (List.append_eq_nil_iff.mp z).2

open Mime (PlainLine crlf mail) in
/-- **C84**: if lines end with LF and the text of a part starts with a blank, the first line of the text is taken for a continuation of the empty
line and is lost. -/
theorem C84_lost_line {hdr : List (List UInt8)} {b w text epilogue : List UInt8} {x : UInt8}
    (hP : IsStream P (mail hdr (delimiter b ++ [10] ++ ([10] ++ x :: w ++ [10] ++ (text ++ crlf ++ closing b ++ epilogue)))) Failure.never soft input)
    (h0 : P.position input = 0)
    (hlen : (mail hdr (delimiter b ++ [10] ++ ([10] ++ x :: w ++ [10] ++ (text ++ crlf ++ closing b ++ epilogue)))).length < 2 ^ 31)
    (hhdr : ∀ l ∈ hdr, PlainLine l ∧ l ≠ [] ∧ 0 ∉ l) (hb : Boundaries hdr [b]) (hq : Searchable (delimiter b)) (hepi : Mime.Epilogue epilogue)
    (hx : x = 32 ∨ x = 9) (hw : 13 ∉ w ∧ 10 ∉ w ∧ 58 ∉ w) (hwl : w.length + 3 < 2 ^ 20)
    (htext : ∃ y t, text = y :: t ∧ ¬ Mime.Space y) (hno : ∀ i, ¬ OccursAt (delimiter b) text i) (htl : text.length + 3 ≤ 2 ^ 20)
    (conv : List UInt8 → List UInt8 → List UInt8) (stale : Int) {N fuel : Nat}
    (hN : (mail hdr (delimiter b ++ [10] ++ ([10] ++ x :: w ++ [10] ++ (text ++ crlf ++ closing b ++ epilogue)))).length + 1 < N)
    (hf : (mail hdr (delimiter b ++ [10] ++ ([10] ++ x :: w ++ [10] ++ (text ++ crlf ++ closing b ++ epilogue)))).length + 1 < fuel) :
    ∃ s, Mail.new P conv stale fuel input = .ok s ∧ s.status = .ok ∧
      Presents (Mail.ops P conv stale N fuel) Failure.never False .eof s [⟨⟨[49], -1, 0, .file⟩, text ++ crlf⟩] := by
  obtain ⟨l, hl, hsub, hbl⟩ := boundaries_sub hb b (by simp)
  obtain ⟨g1, g2, g3, g4⟩ := (hhdr l hl).1
  have b13 : 13 ∉ b := fun z => g1 (hsub _ z)
  have b10 : 10 ∉ b := fun z => g2 (hsub _ z)
  have hdp := plain_delimiter b13 b10 (by omega)
  obtain ⟨k1, _⟩ := body_written (soft := soft) (n := 1) (parts := []) (es := []) b13 b10 (by omega) hq hepi (by simp) .nil
  obtain ⟨l', r', hl'⟩ := first_line htl
  refine C79_multipart hP h0 hlen (header_written hhdr (by simp [delimiter])) hb (by simp) ?_ conv stale hN hf
  have hx' : x ≠ 13 ∧ x ≠ 10 ∧ x ≠ 58 ∧ Mime.Space x := by
    rcases hx with rfl | rfl <;> exact ⟨by decide, by decide, by decide, by unfold Mime.Space; decide⟩
  refine .part (content := text ++ crlf) (rest := [45, 45] ++ epilogue) (lines := []) (r := [10] ++ x :: w ++ [10] ++ (text ++ crlf ++ closing b ++ epilogue)) (l' := l')
    (r' := r' ++ (45 :: b ++ ([45, 45] ++ epilogue))) ?_ ?_ .nil (no_delimiter b13 hno) ?_ hq ?_ ?_
  · exact ⟨[10], 10, _, rfl, rfl, text_plain hdp.1 hdp.2.1, by simp [delimiter], Or.inr (Or.inl ⟨rfl, Or.inl rfl⟩), by have := hdp.2.2.2; simp; omega⟩
  · obtain ⟨y, t, rfl, hy⟩ := htext
    refine .last (l := [10] ++ x :: w) ?_ ?_
    · refine ⟨[10], y, t ++ crlf ++ closing b ++ epilogue, ?_, ?_, ?_, ?_, Or.inr (Or.inl ⟨rfl, Or.inr hy⟩), ?_⟩
      · simp [closing, delimiter]
      · simp [closing, delimiter]
      · exact .fold (brk := [10]) ⟨hx'.2.2.2, Or.inr (Or.inl ⟨rfl, hx'.2.1⟩)⟩ (text_plain hw.1 hw.2.1)
      · rintro ⟨m, hm⟩; simp at hm
      · simp; omega
    · rintro ⟨_, h | h | h⟩
      · simp only [List.singleton_append, List.mem_cons] at h
        rcases h with z | z | z
        · exact absurd z (by decide)
        · exact hx'.2.2.1 z.symm
        · exact hw.2.2 z
      · simp at h
      · simp at h
  · have := line_append hl' (45 :: b ++ ([45, 45] ++ epilogue))
    simpa [delimiter] using this
  · exact ⟨⟨[], fileName_nil, rfl⟩, fun z => absurd z base64_nil, fun _ => rfl⟩
  · have e : delimiter b ++ ([45, 45] ++ epilogue) = closing b ++ epilogue := by simp [delimiter, closing]
    rw [e]
    simpa using k1

/-- `Content-Type: multipart/mixed; boundary="`, `b`, `"`, then `tail`. -/
def quotedBoundary (b tail : List UInt8) : List UInt8 :=
  Mime.contentType ++ [32] ++ ([109, 117, 108, 116, 105, 112, 97, 114, 116, 47, 109, 105, 120, 101, 100, 59, 32] ++ Mime.boundaryKey ++ [61] ++ (34 :: b ++ 34 :: tail))

theorem quoted_key {t : List UInt8} : ∀ a, Mime.Occurs Mime.boundaryKey
    ([109, 117, 108, 116, 105, 112, 97, 114, 116, 47, 109, 105, 120, 101, 100, 59, 32] ++ Mime.boundaryKey ++ t) a → 17 ≤ a.length := by
  intro a ho
  by_contra hlt
  obtain ⟨key, u, e, hk⟩ := ho
  have hkl := sameCase_length hk
  have h8 : Mime.boundaryKey.length = 8 := rfl
  have e1 := congrArg (List.take 25) e
  rw [show ([109, 117, 108, 116, 105, 112, 97, 114, 116, 47, 109, 105, 120, 101, 100, 59, 32] ++ Mime.boundaryKey ++ t : List UInt8).take 25 =
    [109, 117, 108, 116, 105, 112, 97, 114, 116, 47, 109, 105, 120, 101, 100, 59, 32] ++ Mime.boundaryKey by
      rw [show (25 : Nat) = ([109, 117, 108, 116, 105, 112, 97, 114, 116, 47, 109, 105, 120, 101, 100, 59, 32] ++ Mime.boundaryKey : List UInt8).length from rfl,
        List.take_left]] at e1
  have e2 := congrArg (fun l => (l.drop a.length).take 8) e1
  have e3 : (((a ++ key ++ u).take 25).drop a.length).take 8 = key := by
    rw [List.drop_take, List.append_assoc, List.drop_left, List.take_take, List.take_append, Nat.min_eq_left (by omega), show 8 - key.length = 0 by omega,
      List.take_of_length_le (by omega)]
    simp
  rw [e3] at e2
  rw [← e2] at hk
  unfold Mime.SameCase at hk
  have : ∀ n < 17, ¬ ((([109, 117, 108, 116, 105, 112, 97, 114, 116, 47, 109, 105, 120, 101, 100, 59, 32] ++ Mime.boundaryKey : List UInt8).drop n).take 8).map Mime.lower =
      Mime.boundaryKey.map Mime.lower := by decide +kernel
  exact this a.length (by omega) hk

/-- The declared boundary, given what `w` is before the semicolon. -/
theorem quoted_boundaries {b tail w v : List UInt8} (hw : BeforeFirst [59] (34 :: b ++ 34 :: tail) w) (hu : Mime.Unquoted w v) (hv : v ≠ []) :
    Boundaries [quotedBoundary b tail] [v] := by
  have h1 : IsField Mime.contentType (quotedBoundary b tail) := by
    refine ⟨?_, ?_, ?_⟩
    · simp [quotedBoundary, Mime.contentType]
    · unfold quotedBoundary
      rw [List.append_assoc, List.take_left]
      exact rfl
    · simp [quotedBoundary]
  refine .some (v := [109, 117, 108, 116, 105, 112, 97, 114, 116, 47, 109, 105, 120, 101, 100, 59, 32] ++ Mime.boundaryKey ++ [61] ++ (34 :: b ++ 34 :: tail)) (bs := []) h1
    ⟨[32], ?_, by simp [Mime.Space], ?_⟩ (Or.inr ⟨[109, 117, 108, 116, 105, 112, 97, 114, 116, 47, 109, 105, 120, 101, 100, 59, 32], Mime.boundaryKey, [61],
      34 :: b ++ 34 :: tail, w, rfl, rfl, ?_, by simp [Mime.Filler], ?_, hw, hu⟩) hv .nil
  · unfold quotedBoundary
    rw [List.append_assoc, List.drop_left]
  · intro x t h
    simp only [List.cons_append, List.cons.injEq] at h
    rw [← h.1]
    unfold Mime.Space; decide
  · intro a' ha'
    rw [List.append_assoc] at ha'
    exact quoted_key a' ha'
  · intro x u h
    simp only [List.cons_append, List.cons.injEq] at h
    rw [← h.1]
    unfold Mime.Filler; decide

/-- **C85**: a quoted boundary is understood at the end of the line and in front of a semicolon ... -/
theorem C85_quoted {b tail : List UInt8} (hb : b ≠ []) (hs : 59 ∉ b) (ht : tail = [] ∨ ∃ t, tail = 59 :: t) : Boundaries [quotedBoundary b tail] [b] := by
  refine quoted_boundaries (w := 34 :: b ++ [34]) ?_ (Or.inl ⟨by simp, ?_, by simp⟩) hb
  · have hno : ∀ p, OccursAt [59] (34 :: b ++ [34]) p → False := by
      rintro p ⟨pre, post, e, _⟩
      have : (59 : UInt8) ∈ 34 :: b ++ [34] := by rw [e]; simp
      simp at this
      exact hs this
    rcases ht with rfl | ⟨t, rfl⟩
    · exact Or.inr ⟨rfl, fun p => hno p⟩
    · refine Or.inl ⟨t, by simp, ?_⟩
      rintro p hp ⟨pre, post, e, hl⟩
      have : (34 :: b ++ 34 :: 59 :: t)[p]? = some 59 := by rw [e, ← hl]; simp
      have h2 : (34 :: b ++ 34 :: 59 :: t) = (34 :: b ++ [34]) ++ 59 :: t := by simp
      rw [h2, List.getElem?_append_left hp] at this
      have := List.mem_of_getElem? this
      simp at this
      exact hs this
  · have := List.length_pos_iff.mpr hb; simp; omega

open Mime (PlainLine mail) in
/-- **C85**: ... but not if there is a blank between the quote and the semicolon: then the closing quote is taken for a part of the boundary, and
no part of the mail is found (unless the text contains the delimiter with the quote). -/
theorem C85_blank {b tail body : List UInt8} (hP : IsStream P (mail [quotedBoundary b (32 :: 59 :: tail)] body) Failure.never soft input)
    (h0 : P.position input = 0) (hlen : (mail [quotedBoundary b (32 :: 59 :: tail)] body).length < 2 ^ 31)
    (hline : 13 ∉ b ++ tail ∧ 10 ∉ b ++ tail ∧ 0 ∉ b ++ tail ∧ b.length + tail.length < 2 ^ 19) (hs : 59 ∉ b)
    (hbody : body ≠ []) (hbl : body.length < 2 ^ 20) (hno : ∀ i, ¬ OccursAt (delimiter (b ++ [34])) body i)
    (conv : List UInt8 → List UInt8 → List UInt8) (stale : Int) {N fuel : Nat}
    (hN : (mail [quotedBoundary b (32 :: 59 :: tail)] body).length + 1 < N)
    (hf : (mail [quotedBoundary b (32 :: 59 :: tail)] body).length + 1 < fuel) :
    ∃ s, Mail.new P conv stale fuel input = .ok s ∧ s.status = .ok ∧ Presents (Mail.ops P conv stale N fuel) Failure.never False .eof s [] := by
  have hB : Boundaries [quotedBoundary b (32 :: 59 :: tail)] [b ++ [34]] := by
    refine quoted_boundaries (w := 34 :: b ++ [34, 32]) ?_ (Or.inl ⟨by simp, by simp, ?_⟩) (by simp)
    · refine Or.inl ⟨tail, by simp, ?_⟩
      rintro p hp ⟨pre, post, e, hl⟩
      have : (34 :: b ++ 34 :: 32 :: 59 :: tail)[p]? = some 59 := by rw [e, ← hl]; simp
      have h2 : (34 :: b ++ 34 :: 32 :: 59 :: tail) = (34 :: b ++ [34, 32]) ++ 59 :: tail := by simp
      rw [h2, List.getElem?_append_left hp] at this
      have := List.mem_of_getElem? this
      simp at this
      exact hs this
    · simp [List.dropLast_append_of_ne_nil]
  refine C79_multipart hP h0 hlen (header_written ?_ hbody) hB (by simp) (body_nothing body.length (Nat.le_refl _) hbl hno) conv stale hN hf
  intro l hl
  simp only [List.mem_singleton] at hl
  subst hl
  obtain ⟨h1, h2, h3, h4⟩ := hline
  simp only [List.mem_append, not_or] at h1 h2 h3
  refine ⟨⟨?_, ?_, ?_, ?_⟩, ?_, ?_⟩
  · simp [quotedBoundary, Mime.contentType, Mime.boundaryKey, h1]
  · simp [quotedBoundary, Mime.contentType, Mime.boundaryKey, h2]
  · intro x t h
    simp only [quotedBoundary, Mime.contentType, List.cons_append, List.cons.injEq] at h
    rw [← h.1]
    unfold Mime.Space; decide
  · simp only [quotedBoundary, Mime.contentType, Mime.boundaryKey, List.length_append, List.length_cons, List.length_nil]; omega
  · simp [quotedBoundary, Mime.contentType]
  · simp [quotedBoundary, Mime.contentType, Mime.boundaryKey, h3]

open Mime (PlainLine crlf mail) in
/-- **C86**: if a mail ends in the first line of a part (there is no line break in its text), the part is not presented. -/
theorem C86_last_part {hdr : List (List UInt8)} {b text : List UInt8}
    (hP : IsStream P (mail hdr (delimiter b ++ crlf ++ (crlf ++ text))) Failure.never soft input) (h0 : P.position input = 0)
    (hlen : (mail hdr (delimiter b ++ crlf ++ (crlf ++ text))).length < 2 ^ 31)
    (hhdr : ∀ l ∈ hdr, PlainLine l ∧ l ≠ [] ∧ 0 ∉ l) (hb : Boundaries hdr [b]) (ht : text ≠ []) (h13 : 13 ∉ text) (h10 : 10 ∉ text)
    (htl : text.length < 2 ^ 20) (conv : List UInt8 → List UInt8 → List UInt8) (stale : Int) {N fuel : Nat}
    (hN : (mail hdr (delimiter b ++ crlf ++ (crlf ++ text))).length + 1 < N)
    (hf : (mail hdr (delimiter b ++ crlf ++ (crlf ++ text))).length + 1 < fuel) :
    ∃ s, Mail.new P conv stale fuel input = .ok s ∧ s.status = .ok ∧ Presents (Mail.ops P conv stale N fuel) Failure.never False .eof s [] := by
  obtain ⟨l, hl, hsub, hbl⟩ := boundaries_sub hb b (by simp)
  obtain ⟨g1, g2, g3, g4⟩ := (hhdr l hl).1
  have hdp := plain_delimiter (fun z => g1 (hsub _ z)) (fun z => g2 (hsub _ z)) (by omega)
  refine C79_multipart hP h0 hlen (header_written hhdr (by simp [delimiter])) hb (by simp) ?_ conv stale hN hf
  refine .lost (line_plain hdp (starts_crlf _)) (.last (line_blank ht) (fun z => z.1 rfl)) .nil (last_of_scan htl ?_)
  have := scan_text (text_plain h13 h10) 0 [] (by omega) (fun _ => by rintro ⟨m, rfl⟩; simp at h13)
  rw [List.append_nil] at this
  rw [this]
  simp [scanLine]

/-! ## An example -/

/-- `Content-Type: text/plain; name=a` -/
def exampleType : List UInt8 :=
  [67, 111, 110, 116, 101, 110, 116, 45, 84, 121, 112, 101, 58, 32, 116, 101, 120, 116, 47, 112, 108, 97, 105, 110, 59, 32, 110, 97, 109, 101, 61, 97]
/-- `Content-Transfer-Encoding: base64` -/
def exampleEncoding : List UInt8 :=
  [67, 111, 110, 116, 101, 110, 116, 45, 84, 114, 97, 110, 115, 102, 101, 114, 45, 69, 110, 99, 111, 100, 105, 110, 103, 58, 32, 98, 97, 115, 101, 54, 52]

/-- The parts `hello` (with the name `a`) and `aGk=` (base64). -/
def exampleParts : List Mime.Part := [⟨[exampleType], [104, 101, 108, 108, 111]⟩, ⟨[exampleEncoding], [97, 71, 107, 61]⟩]

/-- A line of the preamble: `preamble`. -/
def examplePreamble : List (List UInt8) := [[112, 114, 101, 97, 109, 98, 108, 101], []]

def exampleMail : List UInt8 := Mime.mail [quotedBoundary [120, 121] []] (Mime.multipart [120, 121] examplePreamble exampleParts [13, 10])

theorem example_plain {l : List UInt8} (h : (13 ∉ l ∧ 10 ∉ l ∧ l.length + 2 < 2 ^ 20) ∧ (l = [] ∨ CLib.isSpace l.head! = false)) : Mime.PlainLine l := by
  refine ⟨h.1.1, h.1.2.1, ?_, h.1.2.2⟩
  rintro x t rfl
  rcases h.2 with z | z
  · simp at z
  · rw [← isSpace_false]; exact z

theorem example_entries : Mime.Entries 0 exampleParts
    [⟨⟨[97], -1, 0, .file⟩, [104, 101, 108, 108, 111, 13, 10]⟩, ⟨⟨[50], -1, 0, .file⟩, [104, 105]⟩] := by
  refine .cons ⟨⟨[97], ?_, rfl⟩, ?_, fun _ => rfl⟩ (.cons ⟨⟨[], ?_, rfl⟩, fun _ => by decide, ?_⟩ .nil)
  · refine ⟨none, some exampleType, [], fieldValue Mime.contentType exampleType, [], [97], by intro l hl; simp at hl; subst hl; decide, rfl,
      param_nil (by decide), ⟨[], [], rfl, by decide, by simp⟩, by simp, fun l hl => ?_, ?_, rfl⟩
    · cases hl; exact fieldValue_spec _ _
    · have := param_value (n := Mime.nameKey) (h := fieldValue Mime.contentType exampleType) (by decide) (by decide)
      rw [show value Mime.nameKey (fieldValue Mime.contentType exampleType) = [97] by decide] at this
      exact this
  · rintro ⟨l, ⟨a, b, e, h, _⟩, _⟩
    have : l ∈ [exampleType] := by
      have : l ∈ a ++ l :: b := by simp
      rw [← e] at this; exact this
    simp only [List.mem_singleton] at this
    subst this
    exact absurd h (by decide)
  · refine ⟨none, none, [], [], [], [], by intro l hl; simp at hl; subst hl; decide, rfl,
      param_nil (by decide), by intro l hl; simp at hl; subst hl; decide, fun _ => rfl, by simp, param_nil (by decide), rfl⟩
  · intro h
    exact absurd ⟨exampleEncoding, ⟨[], [], rfl, by decide, by simp⟩, (caseFind_isSome (by decide)).mp (by decide)⟩ h

theorem example_parts : ∀ p ∈ exampleParts, Mime.SimplePart [120, 121] p := by
  have hno : ∀ d : List UInt8, 45 ∉ d → ∀ i, ¬ OccursAt (delimiter [120, 121]) d i := by
    rintro d hd i ⟨a, b, e, _⟩
    apply hd; rw [e]; simp [delimiter]
  intro p hp
  simp only [exampleParts, List.mem_cons, List.not_mem_nil, or_false] at hp
  rcases hp with rfl | rfl
  · refine ⟨?_, boundaries_exist (lines := [exampleType]) (by decide), hno _ (by decide), first_line (by decide)⟩
    intro l hl
    simp only [List.mem_singleton] at hl
    subst hl
    exact ⟨example_plain (by decide), ⟨by decide, Or.inl (by decide)⟩, by decide⟩
  · refine ⟨?_, boundaries_exist (lines := [exampleEncoding]) (by decide), hno _ (by decide), first_line (by decide)⟩
    intro l hl
    simp only [List.mem_singleton] at hl
    subst hl
    exact ⟨example_plain (by decide), ⟨by decide, Or.inl (by decide)⟩, by decide⟩

theorem example_searchable : Searchable (delimiter [120, 121]) := by
  show ¬ Slips (delimiter [120, 121])
  decide +kernel

/-- Non-vacuity of C79, C83 and C85: a mail with a preamble, a named part and an encoded part. -/
example (conv : List UInt8 → List UInt8 → List UInt8) (stale : Int) : ∃ s, Mail.new StringStream.ops conv stale 1000 (StringStream.new exampleMail) = .ok s ∧
    s.status = .ok ∧ Presents (Mail.ops StringStream.ops conv stale 1000 1000) Failure.never False .eof s
      [⟨⟨[97], -1, 0, .file⟩, [104, 101, 108, 108, 111, 13, 10]⟩, ⟨⟨[50], -1, 0, .file⟩, [104, 105]⟩] := by
  refine C83_written (C01_isStream _) rfl (by decide +kernel) ?_ (C85_quoted (by decide) (by decide) (Or.inl rfl)) example_searchable ?_ example_parts
    (Or.inr (Or.inl rfl)) example_entries conv stale (by decide +kernel) (by decide +kernel)
  · intro l hl
    simp only [List.mem_singleton] at hl
    subst hl
    exact ⟨example_plain (by decide), by decide, by decide⟩
  · intro l hl
    simp only [examplePreamble, List.mem_cons, List.not_mem_nil, or_false] at hl
    rcases hl with rfl | rfl
    · exact ⟨example_plain (by decide), by decide, by decide⟩
    · exact ⟨example_plain (by decide), by decide, by decide⟩

/-- Non-vacuity of C80 and C81: the header `Subject: a`, the text `b`. -/
example : Header [83, 117, 98, 106, 101, 99, 116, 58, 32, 97, 13, 10, 13, 10, 98] [[83, 117, 98, 106, 101, 99, 116, 58, 32, 97]] [98] ∧
    Boundaries [[83, 117, 98, 106, 101, 99, 116, 58, 32, 97]] [] ∧
    LastField Mime.subject [[83, 117, 98, 106, 101, 99, 116, 58, 32, 97]] (some [83, 117, 98, 106, 101, 99, 116, 58, 32, 97]) ∧
    FieldValue Mime.subject [83, 117, 98, 106, 101, 99, 116, 58, 32, 97] [97] := by
  refine ⟨header_written (hdr := [[83, 117, 98, 106, 101, 99, 116, 58, 32, 97]]) (r := [98]) ?_ (by simp), boundaries_exist (lines := [[83, 117, 98, 106, 101, 99, 116, 58, 32, 97]]) (by decide),
    ⟨[], [], rfl, by decide, by simp⟩, ⟨[32], rfl, by simp [Mime.Space], ?_⟩⟩
  · intro l hl
    simp only [List.mem_singleton] at hl
    subst hl
    exact ⟨example_plain (by decide), by decide, by decide⟩
  · intro x t h
    simp only [List.cons.injEq] at h
    rw [← h.1]; unfold Mime.Space; decide

/-- Non-vacuity of C82 (and of the last line of C60): a header without an empty line. -/
example : Headless [83, 117, 98, 106, 101, 99, 116, 58, 32, 97, 13, 10, 84, 111] := by
  refine .field (l := [83, 117, 98, 106, 101, 99, 116, 58, 32, 97]) (r := [84, 111]) (line_plain (l := [83, 117, 98, 106, 101, 99, 116, 58, 32, 97]) (example_plain (by decide)) ⟨84, [111], rfl, Or.inr ?_⟩) (by simp)
    (.last (last_of_scan (by decide) (by decide)))
  unfold Mime.Space; decide

end Strigi.Props
