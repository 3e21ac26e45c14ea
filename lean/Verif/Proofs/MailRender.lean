import Verif.Proofs.MailAll

namespace Strigi.Mail

open Mime

/-! ## Lines -/

theorem line_unique {text l l' rest rest' : List UInt8} (h : Line text l rest) (h' : Line text l' rest') : l = l' ∧ rest = rest' := by
  obtain ⟨_, p, e, _, _, _, h1, _, h2, _⟩ := scan_line h
  obtain ⟨_, p', e', _, _, _, h1', _, h2', _⟩ := scan_line h'
  rw [e] at e'
  simp only [Prod.mk.injEq, Option.some.injEq, Int.natCast_inj] at e'
  obtain ⟨_, rfl, hl⟩ := e'
  exact ⟨by rw [← h2, ← h2', hl], by rw [← h1, ← h1']⟩

theorem line_append {text l rest : List UInt8} (h : Line text l rest) (more : List UInt8) : Line (text ++ more) l (rest ++ more) := by
  obtain ⟨brk, x, t, rfl, rfl, h1, h2, h3, h4⟩ := h
  exact ⟨brk, x, t ++ more, by simp, by simp, h1, h2, h3, h4⟩

theorem text_plain {l : List UInt8} (h1 : 13 ∉ l) (h2 : 10 ∉ l) : Text l := by
  induction l with
  | nil => exact .nil
  | cons x t ih =>
    simp only [List.mem_cons, not_or] at h1 h2
    exact .char (fun z => h1.1 z.symm) (fun z => h2.1 z.symm) (ih h1.2 h2.2)

/-- The text can start a new line. -/
def Starts (r : List UInt8) : Prop := ∃ x t, r = x :: t ∧ (x = 13 ∨ ¬ Space x)

theorem line_plain {l r : List UInt8} (hl : PlainLine l) (hr : Starts r) : Line (l ++ crlf ++ r) l r := by
  obtain ⟨h1, h2, _, h4⟩ := hl
  obtain ⟨x, t, rfl, hx⟩ := hr
  refine ⟨crlf, x, t, rfl, rfl, text_plain h1 h2, ?_, Or.inr (Or.inr ⟨rfl, ?_⟩), by simpa [crlf] using h4⟩
  · rintro ⟨m, rfl⟩; simp at h1
  · rcases hx with z | z
    · exact Or.inl z
    · exact Or.inr (Or.inr z)

theorem line_blank {r : List UInt8} (hr : r ≠ []) : Line (crlf ++ r) [] r := by
  obtain ⟨x, t, rfl⟩ := List.exists_cons_of_ne_nil hr
  exact ⟨crlf, x, t, rfl, rfl, .nil, by simp, Or.inr (Or.inr ⟨rfl, Or.inr (Or.inl rfl)⟩), by simp [crlf]⟩

theorem starts_append {l r : List UInt8} (hl : PlainLine l) (hne : l ≠ []) : Starts (l ++ r) := by
  obtain ⟨x, t, rfl⟩ := List.exists_cons_of_ne_nil hne
  exact ⟨x, t ++ r, rfl, Or.inr (hl.2.2.1 x t rfl)⟩

theorem starts_crlf (r : List UInt8) : Starts (crlf ++ r) := ⟨13, 10 :: r, rfl, Or.inl rfl⟩

theorem starts_line {l r : List UInt8} (hl : PlainLine l) : Starts (l ++ crlf ++ r) := by
  by_cases h : l = []
  · subst h; exact starts_crlf r
  · rw [List.append_assoc]; exact starts_append hl h

theorem starts_joined {ls : List (List UInt8)} (h : ∀ l ∈ ls, PlainLine l) {r : List UInt8} (hr : Starts r) : Starts (joined ls ++ r) := by
  rcases ls with _ | ⟨l, ls⟩
  · exact hr
  · have : joined (l :: ls) ++ r = l ++ crlf ++ (joined ls ++ r) := by simp [joined]
    rw [this]
    exact starts_line (h l (by simp))

theorem starts_ne {r : List UInt8} (h : Starts r) : r ≠ [] := by obtain ⟨x, t, rfl, _⟩ := h; simp

/-- A header as it is written. -/
theorem header_written : ∀ {hdr : List (List UInt8)}, (∀ l ∈ hdr, PlainLine l ∧ l ≠ [] ∧ 0 ∉ l) → ∀ {r : List UInt8}, r ≠ [] →
    Header (mail hdr r) hdr r := by
  intro hdr
  induction hdr with
  | nil => intro _ r hr; exact .blank (line_blank hr)
  | cons l ls ih =>
    intro h r hr
    have e : mail (l :: ls) r = l ++ crlf ++ mail ls r := by simp [mail, joined]
    rw [e]
    obtain ⟨h1, h2, h3⟩ := h l (by simp)
    refine .field (line_plain h1 ?_) h2 h3 (ih (fun l hl => h l (by simp [hl])) hr)
    unfold mail
    rw [List.append_assoc]
    exact starts_joined (fun l hl => (h l (by simp [hl])).1) (starts_crlf r)

theorem partHeader_written : ∀ {hdr : List (List UInt8)}, (∀ l ∈ hdr, PlainLine l ∧ PartLine l ∧ 0 ∉ l) → ∀ {r : List UInt8}, r ≠ [] →
    PartHeader (mail hdr r) hdr r := by
  intro hdr
  induction hdr with
  | nil => intro _ r hr; exact .last (line_blank hr) (fun z => z.1 rfl)
  | cons l ls ih =>
    intro h r hr
    have e : mail (l :: ls) r = l ++ crlf ++ mail ls r := by simp [mail, joined]
    rw [e]
    obtain ⟨h1, h2, h3⟩ := h l (by simp)
    refine .field (line_plain h1 ?_) h2 h3 (ih (fun l hl => h l (by simp [hl])) hr)
    unfold mail
    rw [List.append_assoc]
    exact starts_joined (fun l hl => (h l (by simp [hl])).1) (starts_crlf r)

theorem plain_delimiter {b : List UInt8} (h1 : 13 ∉ b) (h2 : 10 ∉ b) (h3 : b.length + 6 < 2 ^ 20) : PlainLine (delimiter b) := by
  refine ⟨by simp [delimiter, h1], by simp [delimiter, h2], ?_, by simp [delimiter]; omega⟩
  intro x t h
  simp only [delimiter, List.cons.injEq] at h
  rw [← h.1]
  unfold Space; decide

theorem plain_closing {b : List UInt8} (h1 : 13 ∉ b) (h2 : 10 ∉ b) (h3 : b.length + 6 < 2 ^ 20) : PlainLine (closing b) := by
  refine ⟨by simp [closing, h1], by simp [closing, h2], ?_, by simp [closing]; omega⟩
  intro x t h
  simp only [closing, List.cons.injEq] at h
  rw [← h.1]
  unfold Space; decide

theorem last_of_scan {text : List UInt8} (hl : text.length < 2 ^ 20) (h : (scanLine .ok 0 text).2.2 = none) : LastLine text := by
  refine ⟨hl, fun l rest hline => ?_⟩
  obtain ⟨_, p, e, _⟩ := scan_line hline
  rw [e] at h; cases h

/-- The delimiter occurs only where it is meant to. -/
theorem no_delimiter {b body rest : List UInt8} (h1 : 13 ∉ b) (h : ∀ i, ¬ OccursAt (delimiter b) body i) :
    ∀ i, i < (body ++ crlf).length → ¬ OccursAt (delimiter b) (body ++ crlf ++ delimiter b ++ rest) i := by
  rintro i hi ⟨pre, post, e, rfl⟩
  have hd : 13 ∉ delimiter b := by simp [delimiter, h1]
  simp only [List.append_assoc] at e
  by_cases hle : pre.length + (delimiter b).length ≤ body.length
  · -- within the text
    apply h pre.length
    refine ⟨pre, (body.drop (pre.length + (delimiter b).length)), ?_, rfl⟩
    have h2 : body.take (pre.length + (delimiter b).length) = pre ++ delimiter b := by
      have := congrArg (List.take (pre.length + (delimiter b).length)) e
      rw [List.take_append_of_le_length hle] at this
      rw [this, ← List.append_assoc, show pre.length + (delimiter b).length = (pre ++ delimiter b).length by simp, List.take_left]
    rw [← h2, List.take_append_drop]
  · -- it contains the line break or begins with its second half
    have hget : ∀ k, k < (delimiter b).length → (body ++ (crlf ++ (delimiter b ++ rest)))[pre.length + k]? = (delimiter b)[k]? := by
      intro k hk
      rw [e, List.getElem?_append_right (by omega), List.getElem?_append_left (by omega)]
      congr 1; omega
    by_cases hp : pre.length ≤ body.length
    · have := hget (body.length - pre.length) (by omega)
      rw [show pre.length + (body.length - pre.length) = body.length by omega, List.getElem?_append_right (by omega)] at this
      simp only [Nat.sub_self] at this
      exact hd (List.mem_of_getElem? (this.symm.trans (by simp [crlf])))
    · have hp1 : pre.length = body.length + 1 := by simp [crlf] at hi; omega
      have := hget 0 (by simp [delimiter])
      rw [Nat.add_zero, hp1, List.getElem?_append_right (by omega)] at this
      simp [crlf, delimiter] at this

theorem body_written {soft : Prop} {b epilogue : List UInt8} (h13 : 13 ∉ b) (h10 : 10 ∉ b) (hb : b.length + 6 < 2 ^ 20) (hq : Searchable (delimiter b))
    (he : Epilogue epilogue) : ∀ {parts : List Part} {n : Nat} {es : List ArchiveEntry}, (∀ p ∈ parts, SimplePart b p) → Entries n parts es →
      Body soft [b] n (parts.flatMap (fun p => delimiter b ++ crlf ++ p.text) ++ closing b ++ epilogue) es ∧
      ∃ rest, parts.flatMap (fun p => delimiter b ++ crlf ++ p.text) ++ closing b ++ epilogue = delimiter b ++ rest := by
  have hdp := plain_delimiter h13 h10 hb
  have hcp := plain_closing h13 h10 hb
  intro parts
  induction parts with
  | nil =>
    intro n es _ hes
    cases hes
    simp only [List.flatMap_nil, List.nil_append]
    refine ⟨?_, ⟨[45, 45] ++ epilogue, by simp [closing, delimiter]⟩⟩
    have htext := text_plain hcp.1 hcp.2.1
    have hlen : (closing b).length = b.length + 4 := by simp [closing]
    rcases he with rfl | rfl | ⟨x, u, rfl, hx⟩
    · refine .ended (last_of_scan (by simp; omega) ?_)
      rw [scan_text htext 0 [] (by omega) (fun _ => by simp [closing])]
      simp [scanLine]
    · refine .ended (last_of_scan (by simp [crlf]; omega) ?_)
      rw [scan_text htext 0 crlf (by omega) (fun _ => by simp [closing])]
      simp [scanLine, lineStep, crlf]
    · rw [← List.append_assoc]
      exact .closed (line_plain hcp ⟨x, u, rfl, hx⟩)
  | cons p ps ih =>
    intro n es hps hes
    cases hes with
    | cons hentry hes =>
      obtain ⟨i1, rest, i2⟩ := ih (fun p hp => hps p (by simp [hp])) hes
      obtain ⟨g1, g2, g3, l, r, g4⟩ := hps p (by simp)
      have e : (p :: ps).flatMap (fun p => delimiter b ++ crlf ++ p.text) ++ closing b ++ epilogue =
          delimiter b ++ crlf ++ mail p.header (p.body ++ crlf ++ delimiter b ++ rest) := by
        rw [List.flatMap_cons, List.append_assoc, List.append_assoc, ← List.append_assoc (List.flatMap _ ps), i2]
        simp [Part.text, mail]
      refine ⟨?_, ⟨_, by rw [e, List.append_assoc]⟩⟩
      rw [e]
      refine .part (content := p.body ++ crlf) (rest := rest) (line_plain hdp ?_) (partHeader_written g1 (by simp [crlf])) g2 (no_delimiter h13 g3)
        (l' := l) (r' := r ++ (45 :: b ++ rest)) ?_ hq hentry ?_
      · unfold mail
        rw [List.append_assoc]
        exact starts_joined (fun l hl => (g1 l hl).1) (starts_crlf _)
      · have := line_append g4 (45 :: b ++ rest)
        simpa [delimiter] using this
      · rw [← i2]; exact i1

theorem preamble_written {soft : Prop} {b : List UInt8} {n : Nat} {es : List ArchiveEntry} {rest : List UInt8} (hr : Starts rest) (hb : Body soft [b] n rest es) :
    ∀ {pre : List (List UInt8)}, (∀ l ∈ pre, PlainLine l ∧ l ≠ delimiter b ∧ l ≠ closing b) → Body soft [b] n (joined pre ++ rest) es := by
  intro pre
  induction pre with
  | nil => intro _; exact hb
  | cons l ls ih =>
    intro h
    have e : joined (l :: ls) ++ rest = l ++ crlf ++ (joined ls ++ rest) := by simp [joined]
    rw [e]
    obtain ⟨h1, h2, h3⟩ := h l (by simp)
    exact .line (line_plain h1 (starts_joined (fun l hl => (h l (by simp [hl])).1) hr)) h2 h3 (ih (fun l hl => h l (by simp [hl])))

/-! ## Parameters -/

theorem param_nil {n : List UInt8} (hn : n ≠ []) : Param n [] [] := by
  refine Or.inl ⟨rfl, ?_⟩
  rintro a ⟨key, t, e, hk⟩
  have h1 := sameCase_length hk
  have h2 := congrArg List.length e
  simp only [List.length_append, List.length_nil] at h2
  exact hn (List.length_eq_zero_iff.mp (by omega))

/-- A part without a header. -/
theorem fileName_nil : FileName [] [] :=
  ⟨none, none, [], [], [], [], by simp [LastField], rfl, param_nil (by simp [filenameKey]), by simp [LastField], fun _ => rfl, by simp,
    param_nil (by simp [nameKey]), rfl⟩

theorem base64_nil : ¬ IsBase64 [] := by
  rintro ⟨l, ⟨a, b, e, _⟩, _⟩
  simp at e

theorem unquoted_exists (w : List UInt8) : ∃ v, Unquoted w v := by
  by_cases h : w.head? = some 34 ∧ 2 < w.length
  · exact ⟨_, Or.inl ⟨h.1, h.2, rfl⟩⟩
  · exact ⟨w, Or.inr ⟨h, rfl⟩⟩

theorem param_exists (n h : List UInt8) : ∃ v, Param n h v := by
  by_cases ho : ∃ a, Occurs n h a
  · obtain ⟨a, ho⟩ := ho
    obtain ⟨a, ⟨key, t, e, hk⟩, hmin⟩ := occurs_min ho
    obtain ⟨w, hw⟩ := Props.beforeFirst_exists [59] (t.dropWhile isFiller)
    obtain ⟨v, hv⟩ := unquoted_exists w
    refine ⟨v, Or.inr ⟨a, key, t.takeWhile isFiller, t.dropWhile isFiller, w, ?_, hk, hmin, ?_, ?_, hw, hv⟩⟩
    · rw [List.append_assoc, List.takeWhile_append_dropWhile]; exact e
    · intro b hb; exact (isFiller_iff b).mp (List.mem_takeWhile_imp hb)
    · intro x u hx
      rw [← isFiller_iff]
      have := List.head?_dropWhile_not isFiller t
      rw [hx] at this
      simpa using this
  · exact ⟨[], Or.inl ⟨rfl, fun a ha => ho ⟨a, ha⟩⟩⟩

theorem param_value {n h : List UInt8} (hn : n ≠ []) (h0 : 0 ∉ h) : Param n h (value n h) := by
  obtain ⟨v, hv⟩ := param_exists n h
  rw [value_param hn h0 hv]; exact hv

theorem boundaries_exist : ∀ {lines : List (List UInt8)}, (∀ l ∈ lines, 0 ∉ l) → Boundaries lines (boundariesOf lines) := by
  intro lines
  induction lines with
  | nil => intro _; exact .nil
  | cons l ls ih =>
    intro h0
    have i := ih (fun x hx => h0 x (by simp [hx]))
    by_cases hc : IsField Mime.contentType l
    · have hp := param_value (n := Mime.boundaryKey) (by simp [Mime.boundaryKey]) (mem_fieldValue (name := Mime.contentType) (h0 l (by simp)))
      by_cases hv : value Mime.boundaryKey (fieldValue Mime.contentType l) = []
      · rw [boundariesOf, boundaryOf, if_neg (fun z => z.2 hv), List.append_nil]
        rw [hv] at hp
        exact .none hc (fieldValue_spec _ _) hp i
      · rw [boundariesOf, boundaryOf, if_pos ⟨hc, hv⟩]
        exact .some hc (fieldValue_spec _ _) hp hv i
    · rw [boundariesOf, boundaryOf, if_neg (fun z => hc z.1), List.append_nil]
      exact .other hc i

theorem param_sub {n h v : List UInt8} (hp : Param n h v) : (∀ x ∈ v, x ∈ h) ∧ v.length ≤ h.length := by
  rcases hp with ⟨rfl, _⟩ | ⟨a, key, fill, t, w, rfl, _, _, _, _, hw, hu⟩
  · simp
  · obtain ⟨t', rfl⟩ := beforeFirst_prefix hw
    have hv : v.Sublist w := by
      rcases hu with ⟨_, _, rfl⟩ | ⟨_, rfl⟩
      · exact (List.dropLast_sublist _).trans (List.tail_sublist _)
      · exact List.Sublist.refl _
    refine ⟨fun x hx => by simp [hv.subset hx], ?_⟩
    have := hv.length_le
    simp only [List.length_append]; omega

theorem boundaries_sub {lines bs : List (List UInt8)} (h : Boundaries lines bs) : ∀ b ∈ bs, ∃ l ∈ lines, (∀ x ∈ b, x ∈ l) ∧ b.length + 13 ≤ l.length := by
  induction h with
  | nil => simp
  | other _ _ ih => intro b hb; obtain ⟨l, hl, h⟩ := ih b hb; exact ⟨l, by simp [hl], h⟩
  | none _ _ _ _ ih => intro b hb; obtain ⟨l, hl, h⟩ := ih b hb; exact ⟨l, by simp [hl], h⟩
  | @some l v b lines bs hi hv hp _ _ ih =>
    intro x hx
    rcases List.mem_append.mp hx with z | z
    · obtain ⟨l, hl, h⟩ := ih x z; exact ⟨l, by simp [hl], h⟩
    · simp only [List.mem_singleton] at z
      subst z
      obtain ⟨sp, e, _⟩ := hv
      obtain ⟨p1, p2⟩ := param_sub hp
      refine ⟨l, by simp, fun y hy => List.drop_subset Mime.contentType.length l (by rw [e]; simp [p1 y hy]), ?_⟩
      have h1 := congrArg List.length e
      have h2 := hi.2.2
      rw [List.length_drop, List.length_append] at h1
      have h3 : Mime.contentType.length = 13 := rfl
      omega

/-- A text that is followed by a delimiter line has a first line. -/
theorem first_line {body : List UInt8} (h : body.length + 3 ≤ 2 ^ 20) : ∃ l r, Line (body ++ crlf ++ [45]) l r := by
  have hsome : ∃ st p k, scanLine .ok 0 (body ++ crlf ++ [45]) = (st, p, some k) := by
    rw [List.append_assoc]
    rcases scan_append (crlf ++ [45]) body .ok 0 with ⟨st, _, g⟩ | ⟨st, p, k, _, _, _, g⟩
    · rw [g]
      cases st <;> simp [scanLine, lineStep, crlf, CLib.isSpace]
    · exact ⟨st, p, k, g⟩
  obtain ⟨st, p, k, e⟩ := hsome
  have hp : p < 2 ^ 20 := by
    rcases scan_append [] (body ++ crlf ++ [45]) .ok 0 with ⟨_, g, _⟩ | ⟨_, _, _, g, _, g2, _⟩
    · rw [g] at e; cases e
    · rw [g] at e
      simp only [Prod.mk.injEq] at e
      simp only [List.length_append, crlf, List.length_cons, List.length_nil] at g2
      omega
  obtain ⟨l, r, hl, _⟩ := line_of_scan e hp
  exact ⟨l, r, hl⟩

theorem body_nothing {soft : Prop} {b : List UInt8} {bs : List (List UInt8)} {n : Nat} : ∀ (m : Nat) {text : List UInt8}, text.length ≤ m → text.length < 2 ^ 20 →
    (∀ i, ¬ OccursAt (delimiter b) text i) → Body soft (b :: bs) n text [] := by
  intro m
  induction m with
  | zero =>
    intro text hm _ _
    have : text = [] := List.length_eq_zero_iff.mp (by omega)
    subst this
    exact .ended (last_of_scan (by simp) (by simp [scanLine]))
  | succ m ih =>
    intro text hm hlen hno
    by_cases hl : LastLine text
    · exact .ended hl
    · obtain ⟨l, rest, hl⟩ : ∃ l rest, Line text l rest := by
        by_contra z
        exact hl ⟨hlen, fun l rest y => z ⟨l, rest, y⟩⟩
      have hs := line_shorter hl
      have hl' := hl
      obtain ⟨brk, x, t, ht, hr, _⟩ := hl'
      refine .line hl ?_ ?_ (ih (by omega) (by omega) ?_)
      · rintro rfl; exact hno 0 ⟨[], brk ++ rest, by rw [ht]; simp, rfl⟩
      · rintro rfl; exact hno 0 ⟨[], [45, 45] ++ brk ++ rest, by rw [ht]; simp [closing, delimiter], rfl⟩
      · rintro j ⟨pre, post, e, hp⟩
        exact hno _ ⟨l ++ brk ++ pre, post, by rw [ht, e]; simp, rfl⟩

end Strigi.Mail
