import Verif.Proofs.MailParam

namespace Strigi.Mail

open Mime (Space Line LastLine Header PartLine PartHeader CutHeader)

variable {σ : Type} {P : StreamOps σ UInt8} {c : List UInt8} {H : σ → Int → Int → Prop}
  {conv : List UInt8 → List UInt8 → List UInt8}

theorem line_shorter {text l rest : List UInt8} (h : Line text l rest) : rest.length < text.length ∧ l.length < text.length := by
  obtain ⟨_, p, _, h1, h2, _, h3, _⟩ := scan_line h
  rw [← h3, List.length_drop]; omega

theorem header_length {text rest : List UInt8} {lines : List (List UInt8)} (h : Header text lines rest) :
    lines.length + rest.length < text.length := by
  induction h with
  | blank hl => have := line_shorter hl; simp; omega
  | field hl _ _ _ ih => have := line_shorter hl; simp; omega

theorem partHeader_length {text rest : List UInt8} {lines : List (List UInt8)} (h : PartHeader text lines rest) :
    lines.length + rest.length < text.length := by
  induction h with
  | last hl _ => have := line_shorter hl; simp; omega
  | field hl _ _ _ ih => have := line_shorter hl; simp; omega

theorem partHeader_zero {text rest : List UInt8} {lines : List (List UInt8)} (h : PartHeader text lines rest) : ∀ l ∈ lines, 0 ∉ l := by
  induction h with
  | last _ _ => simp
  | field _ _ h0 _ ih =>
    intro l hl
    rcases List.mem_cons.mp hl with rfl | z
    · exact h0
    · exact ih l z

theorem header_zero {text rest : List UInt8} {lines : List (List UInt8)} (h : Header text lines rest) : ∀ l ∈ lines, 0 ∉ l := by
  induction h with
  | blank _ => simp
  | field _ _ h0 _ ih =>
    intro l hl
    rcases List.mem_cons.mp hl with rfl | z
    · exact h0
    · exact ih l z

/-- The state behind a header. -/
structure Done (P : StreamOps σ UInt8) (H : σ → Int → Int → Prop) (c : List UInt8) (conv : List UInt8 → List UInt8 → List UInt8)
    (s s' : State σ) (lines : List (List UInt8)) (rest : List UInt8) : Prop where
  eq : ∃ i d n q h', s' = { s with input := i, line := d, len := n, nextLine := q, header := h', boundary := boundariesOf lines ++ s.boundary } ∧ Steps conv lines s.header h'
  on : On P H c s' rest
  /-- The input is at the start of the last line. -/
  blank : ∃ l, Line (c.drop (P.position s'.input).toNat) l rest ∧ s'.len = l.length
  back : 0 ≤ P.position s'.input ∧ P.position s'.input < s'.nextLine
  win : ∃ lo hi, H s'.input lo hi

theorem got_blank {s s1 : State σ} {l brk text rest : List UInt8} (C : Contract P c .never H) (hon : On P H c s text)
    (hl : Line text l rest) (h : Got P H c s s1 l brk rest) : Done P H c conv s s1 [] rest := by
  have hr := hon.range C
  obtain ⟨_, ht⟩ := hon
  obtain ⟨i, d, rfl⟩ := h.eq
  obtain ⟨lo, hi, g, _⟩ := h.win
  obtain ⟨b, u, hb, _⟩ := h.brk_eq
  refine ⟨⟨i, d, _, _, s.header, rfl, .nil⟩, h.on, ⟨l, ?_, rfl⟩, ?_, lo, hi, g⟩
  · rw [h.pos, ht]; exact hl
  · rw [h.pos, hb]; simp; omega

theorem steps_cons {s s1 s2 s' : State σ} {l : List UInt8} {ls : List (List UInt8)} {rest : List UInt8} {h' : Field → List UInt8}
    (e1 : ∃ i d n q, s1 = { s with input := i, line := d, len := n, nextLine := q })
    (e2 : s2 = { s1 with header := h', boundary := boundaryOf l ++ s1.boundary }) (hs : Step conv l s1.header h')
    (hd : Done P H c conv s2 s' ls rest) : Done P H c conv s s' (l :: ls) rest := by
  obtain ⟨i, d, n, q, rfl⟩ := e1
  subst e2
  obtain ⟨⟨i2, d2, n2, q2, h2, rfl, hs2⟩, g1, g2, g3, g4⟩ := hd
  refine ⟨⟨i2, d2, n2, q2, h2, ?_, .cons hs hs2⟩, g1, g2, g3, g4⟩
  simp [boundariesOf]

theorem on_congr {s s' : State σ} {text : List UInt8} (h : On P H c s text) (h1 : s'.input = s.input) (h2 : s'.nextLine = s.nextLine) :
    On P H c s' text := by
  unfold On at h ⊢
  rw [h1, h2]; exact h

theorem got_handle {s s1 : State σ} {l brk rest : List UInt8} (h : Got P H c s s1 l brk rest) :
    ∃ h', handleHeaderLine conv s1 = .ok { s1 with header := h', boundary := boundaryOf l ++ s1.boundary } ∧ Step conv l s1.header h' := by
  obtain ⟨t, ht, _⟩ := h.mem
  obtain ⟨b, u, hb, hbb⟩ := h.brk_eq
  apply handle_spec conv s1 hbb (l := l) (r := u ++ t)
  · rw [ht, hb]; simp
  · obtain ⟨i, d, rfl⟩ := h.eq; rfl

/-- The header of the mail. -/
theorem headerLoop_spec (C : Contract P c .never H) (stale : Int) {text rest : List UInt8} {lines : List (List UInt8)}
    (hh : Header text lines rest) : ∀ (fuel n : Nat) (s : State σ), On P H c s text → s.status = .ok → text.length + 1 < fuel →
      lines.length < n → ∃ s1 s2, readHeaderLine P stale fuel s = .ok s1 ∧ headerLoop P conv stale fuel n s1 = .ok s2 ∧
        Done P H c conv s s2 lines rest := by
  induction hh with
  | @blank text rest hl =>
    intro fuel n s hon hst hf hn
    obtain ⟨s1, brk, _, e1, g⟩ := (readLine C stale hon hf).1 _ _ hl
    obtain ⟨n, rfl⟩ : ∃ k, n = k + 1 := ⟨n - 1, by omega⟩
    have hd := got_blank (conv := conv) C hon hl g
    refine ⟨s1, s1, e1, ?_, hd⟩
    rw [headerLoop, if_neg]
    obtain ⟨i, d, rfl⟩ := g.eq
    simp
  | @field text l r rest lines hl hne h0 _ ih =>
    intro fuel n s hon hst hf hn
    obtain ⟨s1, brk, _, e1, g⟩ := (readLine C stale hon hf).1 _ _ hl
    obtain ⟨n, rfl⟩ : ∃ k, n = k + 1 := ⟨n - 1, by simp at hn; omega⟩
    obtain ⟨h', e2, hs⟩ := got_handle (conv := conv) g
    have hsh := line_shorter hl
    have hon2 : On P H c { s1 with header := h', boundary := boundaryOf l ++ s1.boundary } r := on_congr g.on rfl rfl
    have hst1 : s1.status = .ok := by obtain ⟨i, d, rfl⟩ := g.eq; exact hst
    have hlen1 : s1.len = l.length := by obtain ⟨i, d, rfl⟩ := g.eq; rfl
    obtain ⟨s2, s3, e3, e4, hd⟩ := ih fuel n _ hon2 hst1 (by omega) (by simp at hn; omega)
    refine ⟨s1, s3, e1, ?_, steps_cons ?_ rfl hs hd⟩
    · have hlp := List.length_pos_iff.mpr hne
      rw [headerLoop, if_pos ⟨hst1, by omega⟩]
      simp only [e2, Res.bind_ok, e3, e4]
    · obtain ⟨i, d, hs1⟩ := g.eq
      exact ⟨i, d, _, _, hs1⟩

theorem check_line {s1 s : State σ} {l brk rest : List UInt8} (g : Got P H c s s1 l brk rest) :
    checkHeaderLine s1 = true ↔ PartLine l := by
  obtain ⟨t, ht, _⟩ := g.mem
  have hlen1 : s1.len = l.length := by obtain ⟨i, d, rfl⟩ := g.eq; rfl
  unfold checkHeaderLine PartLine
  by_cases hne : l = []
  · subst hne; simp [hlen1]
  have hlp := List.length_pos_iff.mpr hne
  have h1 : s1.line.take s1.len.toNat = l := by rw [ht, hlen1]; simp
  have h2 : s1.line.head? = l.head? := by
    rw [ht]
    rcases l with _ | ⟨y, l⟩
    · exact absurd rfl hne
    · simp
  rw [h1, h2]
  simp only [Bool.and_eq_true, decide_eq_true_eq, Bool.or_eq_true, beq_iff_eq, List.contains_iff_mem]
  constructor
  · rintro ⟨_, (z | z) | z⟩
    · exact ⟨hne, Or.inl z⟩
    · exact ⟨hne, Or.inr (Or.inl z)⟩
    · exact ⟨hne, Or.inr (Or.inr z)⟩
  · rintro ⟨_, z⟩
    exact ⟨by omega, by rcases z with z | z | z <;> simp [z]⟩

/-- The header of a part. -/
theorem partHeader_spec (C : Contract P c .never H) (stale : Int) {text rest : List UInt8} {lines : List (List UInt8)}
    (hh : PartHeader text lines rest) : ∀ (fuel n : Nat) (s : State σ), On P H c s text → s.status = .ok →
      text.length + 1 < fuel → lines.length < n → ∃ s2, partHeader P conv stale fuel n s = .ok s2 ∧ Done P H c conv s s2 lines rest := by
  induction hh with
  | @last text l rest hl hp =>
    intro fuel n s hon hst hf hn
    obtain ⟨s1, brk, _, e1, g⟩ := (readLine C stale hon hf).1 _ _ hl
    obtain ⟨n, rfl⟩ : ∃ k, n = k + 1 := ⟨n - 1, by omega⟩
    refine ⟨s1, ?_, got_blank (conv := conv) C hon hl g⟩
    rw [partHeader, e1]
    simp only [Res.bind_ok]
    rw [if_neg]
    intro z
    exact hp ((check_line g).mp z.2)
  | @field text l r rest lines hl hp h0 _ ih =>
    intro fuel n s hon hst hf hn
    obtain ⟨s1, brk, _, e1, g⟩ := (readLine C stale hon hf).1 _ _ hl
    obtain ⟨n, rfl⟩ : ∃ k, n = k + 1 := ⟨n - 1, by simp at hn; omega⟩
    obtain ⟨h', e2, hs⟩ := got_handle (conv := conv) g
    have hsh := line_shorter hl
    have hon2 : On P H c { s1 with header := h', boundary := boundaryOf l ++ s1.boundary } r := on_congr g.on rfl rfl
    have hst1 : s1.status = .ok := by obtain ⟨i, d, rfl⟩ := g.eq; exact hst
    obtain ⟨s3, e4, hd⟩ := ih fuel n _ hon2 hst1 (by omega) (by simp at hn; omega)
    refine ⟨s3, ?_, steps_cons ?_ rfl hs hd⟩
    · rw [partHeader, e1]
      simp only [Res.bind_ok]
      rw [if_pos ⟨hst1, (check_line g).mpr hp⟩, e2]
      simp only [Res.bind_ok, e4]
    · obtain ⟨i, d, hs1⟩ := g.eq
      exact ⟨i, d, _, _, hs1⟩

/-- The input ends within the header of a part. -/
theorem partHeader_cut (C : Contract P c .never H) (stale : Int) {text : List UInt8} (hh : CutHeader text) :
    ∀ (fuel n : Nat) (s : State σ), On P H c s text → s.status = .ok → text.length + 1 < fuel → text.length < n →
      ∃ s2 rest, partHeader P conv stale fuel n s = .ok s2 ∧ s2.status = .eof ∧ s2.entry = s.entry ∧ On P H c s2 rest ∧ LastLine rest ∧
        rest.length ≤ text.length := by
  induction hh with
  | @last text hl =>
    intro fuel n s hon hst hf hn
    obtain ⟨s1, e1, g⟩ := (readLine C stale hon hf).2 hl
    obtain ⟨n, rfl⟩ : ∃ k, n = k + 1 := ⟨n - 1, by omega⟩
    have hs1 : s1.status = .eof := by obtain ⟨i, d, n, rfl⟩ := g.eq; rfl
    refine ⟨s1, text, ?_, hs1, ?_, g.on, hl, Nat.le_refl _⟩
    · rw [partHeader, e1]
      simp only [Res.bind_ok]
      rw [if_neg (by rw [hs1]; simp)]
    · obtain ⟨i, d, n, rfl⟩ := g.eq; rfl
  | @field text l r hl hp h0 _ ih =>
    intro fuel n s hon hst hf hn
    obtain ⟨s1, brk, _, e1, g⟩ := (readLine C stale hon hf).1 _ _ hl
    obtain ⟨n, rfl⟩ : ∃ k, n = k + 1 := ⟨n - 1, by omega⟩
    obtain ⟨h', e2, hs⟩ := got_handle (conv := conv) g
    have hsh := line_shorter hl
    have hon2 : On P H c { s1 with header := h', boundary := boundaryOf l ++ s1.boundary } r := on_congr g.on rfl rfl
    have hst1 : s1.status = .ok := by obtain ⟨i, d, rfl⟩ := g.eq; exact hst
    obtain ⟨s3, rest, e4, g1, g2, g3, g4, g5⟩ := ih fuel n _ hon2 hst1 (by omega) (by omega)
    refine ⟨s3, rest, ?_, g1, ?_, g3, g4, by omega⟩
    · rw [partHeader, e1]
      simp only [Res.bind_ok]
      rw [if_pos ⟨hst1, (check_line g).mpr hp⟩, e2]
      simp only [Res.bind_ok, e4]
    · rw [g2]; obtain ⟨i, d, rfl⟩ := g.eq; rfl

/-! ## Delimiters -/

theorem strncmp_total : ∀ (n : Nat) (a b : List UInt8), n ≤ a.length → n ≤ b.length → ∃ r, strncmp n a b = .ok r := by
  intro n
  induction n with
  | zero => intro a b _ _; exact ⟨true, by simp [strncmp]⟩
  | succ n ih =>
    intro a b ha hb
    rcases a with _ | ⟨x, a⟩
    · simp at ha
    rcases b with _ | ⟨y, b⟩
    · simp at hb
    rw [strncmp]
    split
    · exact ⟨_, rfl⟩
    · split
      · exact ⟨_, rfl⟩
      · exact ih a b (by simpa using ha) (by simpa using hb)

theorem strncmp_spec : ∀ (b a r r' : List UInt8), a.length = b.length → 0 ∉ b → strncmp b.length (a ++ r) (b ++ r') = .ok (decide (a = b)) := by
  intro b
  induction b with
  | nil => intro a r r' ha _; simp at ha; subst ha; simp [strncmp]
  | cons y b ih =>
    intro a r r' ha h0
    rcases a with _ | ⟨x, a⟩
    · simp at ha
    simp only [List.cons_append, List.length_cons, strncmp]
    by_cases hxy : x = y
    · subst hxy
      have : x ≠ 0 := by rintro rfl; simp at h0
      rw [if_neg (by simp), if_neg this, ih a r r' (by simpa using ha) (fun z => h0 (by simp [z]))]
      simp
    · rw [if_pos hxy]
      simp [hxy]

theorem isDashed_spec (s : State σ) {l r : List UInt8} (hl : s.line = l ++ r) (hn : s.len = l.length) :
    ∃ q, isDashed s = .ok q ∧ (q = true ↔ ∃ t, l = 45 :: 45 :: t ∧ t ≠ []) := by
  unfold isDashed
  rcases l with _ | ⟨x, _ | ⟨y, _ | ⟨z, t⟩⟩⟩
  · rw [if_neg (by rw [hn]; simp)]; exact ⟨_, rfl, by simp⟩
  · rw [if_neg (by rw [hn]; simp)]; exact ⟨_, rfl, by simp⟩
  · rw [if_neg (by rw [hn]; simp)]
    exact ⟨_, rfl, by simp⟩
  · rw [if_pos (by rw [hn]; simp; omega), hl]
    have := strncmp_spec [45, 45] [x, y] (z :: t ++ r) [] rfl (by decide)
    have h2 : strncmp 2 [45, 45] (x :: y :: z :: t ++ r) = strncmp 2 (x :: y :: z :: t ++ r) [45, 45] := by
      simp only [List.cons_append, strncmp]
      by_cases e1 : x = 45
      · subst e1
        by_cases e2 : y = 45
        · subst e2; rfl
        · have : ¬ (45 : UInt8) = y := fun z => e2 z.symm
          simp [e2, this]
      · have : ¬ (45 : UInt8) = x := fun z => e1 z.symm
        simp [e1, this]
    rw [h2]
    simp only [List.length_cons, List.length_nil, List.cons_append, List.nil_append] at this
    rw [List.cons_append, List.cons_append, List.cons_append, this]
    refine ⟨_, rfl, ?_⟩
    rw [decide_eq_true_eq]
    constructor
    · intro e; simp at e; exact ⟨z :: t, by rw [e.1, e.2], by simp⟩
    · rintro ⟨t', e, _⟩; simp at e; simp [e.1, e.2.1]

theorem isOpen_spec (s : State σ) {l r b : List UInt8} (h0 : 0 ∉ b) (hd : ∃ t, l = 45 :: 45 :: t) (hl : s.line = l ++ r)
    (hn : s.len = l.length) : isOpen s b = .ok (decide (l = Mime.delimiter b)) := by
  obtain ⟨t, rfl⟩ := hd
  unfold isOpen
  by_cases hlen : t.length = b.length
  · rw [if_pos (by rw [hn]; simp; omega), hl]
    have := strncmp_spec b t r [0] hlen h0
    simp only [List.cons_append, List.drop_succ_cons, List.drop_zero, this]
    simp [Mime.delimiter]
  · rw [if_neg (by rw [hn]; simp; omega)]
    have : ¬ (45 :: 45 :: t = Mime.delimiter b) := by
      intro z; apply hlen
      simp only [Mime.delimiter, List.cons.injEq, true_and] at z; rw [z]
    rw [decide_eq_false this]

theorem isClose_spec (s : State σ) {l r b : List UInt8} (h0 : 0 ∉ b) (hd : ∃ t, l = 45 :: 45 :: t) (hl : s.line = l ++ r)
    (hn : s.len = l.length) : isClose s b = .ok (decide (l = Mime.closing b)) := by
  obtain ⟨t, rfl⟩ := hd
  unfold isClose
  by_cases hlen : t.length = b.length + 2
  · rw [if_pos (by rw [hn]; simp; omega), hl]
    obtain ⟨t1, t2, rfl, h1⟩ : ∃ t1 t2, t = t1 ++ t2 ∧ t1.length = b.length :=
      ⟨t.take b.length, t.drop b.length, by simp, by rw [List.length_take]; omega⟩
    have h2 : t2.length = 2 := by rw [List.length_append] at hlen; omega
    have hdr : (45 :: 45 :: (t1 ++ t2) ++ r).drop (2 + b.length) = t2 ++ r := by
      rw [show 2 + b.length = (45 :: 45 :: t1).length by simp; omega,
        show 45 :: 45 :: (t1 ++ t2) ++ r = (45 :: 45 :: t1) ++ (t2 ++ r) by simp, List.drop_left]
    rw [hdr]
    have := strncmp_spec [45, 45] t2 r [] (by simpa using h2) (by decide)
    simp only [List.append_nil, List.length_cons, List.length_nil] at this
    rw [this]
    simp only [Res.bind_ok]
    have h3 := strncmp_spec b t1 (t2 ++ r) [0] h1 h0
    simp only [List.cons_append, List.drop_succ_cons, List.drop_zero, List.append_assoc]
    by_cases e2 : t2 = [45, 45]
    · rw [if_pos (by simpa using e2), h3, e2]
      congr 1
      apply decide_eq_decide.mpr
      simp [Mime.closing]
    · rw [if_neg (by simpa using e2)]
      have : ¬ (45 :: 45 :: (t1 ++ t2) = Mime.closing b) := by
        intro z
        simp only [Mime.closing, List.cons.injEq, true_and] at z
        exact e2 (List.append_inj z h1).2
      rw [decide_eq_false this]
  · rw [if_neg (by rw [hn]; simp; omega)]
    have : ¬ (45 :: 45 :: t = Mime.closing b) := by
      intro z; apply hlen
      simp only [Mime.closing, List.cons.injEq, true_and] at z; rw [z]; simp
    rw [decide_eq_false this]

end Strigi.Mail
