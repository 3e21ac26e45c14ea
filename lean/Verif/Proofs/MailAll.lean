import Verif.Proofs.MailScan

namespace Strigi.Mail

open StringTerminated (Cut Inv SearchOk)
open Kmp (Occ)
open Mime (Line LastLine Header PartHeader CutHeader delimiter closing Searchable IsEntry Body Boundaries FileName IsBase64)

variable {σ : Type} {P : StreamOps σ UInt8} {c : List UInt8} {H : σ → Int → Int → Prop}
  {conv : List UInt8 → List UInt8 → List UInt8} {N : Nat}

theorem param_zero {n h v : List UInt8} (hp : Mime.Param n h v) (h0 : 0 ∉ h) : 0 ∉ v := by
  rcases hp with ⟨rfl, _⟩ | ⟨a, key, fill, t, w, rfl, _, _, _, _, hw, hu⟩
  · simp
  · have ht : 0 ∉ t := fun z => h0 (by simp [z])
    have hw0 : 0 ∉ w := by
      rcases hw with ⟨r, rfl, _⟩ | ⟨rfl, _⟩
      · exact fun z => ht (by simp [z])
      · exact ht
    rcases hu with ⟨_, _, rfl⟩ | ⟨_, rfl⟩
    · exact fun z => hw0 (List.mem_of_mem_tail (List.dropLast_subset _ z))
    · exact hw0

theorem value_zero {n l v : List UInt8} (h : Mime.FieldValue n l v) (h0 : 0 ∉ l) : 0 ∉ v := by
  obtain ⟨sp, e, _⟩ := h
  intro z
  exact h0 (List.drop_subset n.length l (by rw [e]; simp [z]))

theorem boundaries_good {lines new : List (List UInt8)} (h : Boundaries lines new) (h0 : ∀ l ∈ lines, 0 ∉ l) : ∀ b ∈ new, 0 ∉ b ∧ b ≠ [] := by
  induction h with
  | nil => simp
  | other _ _ ih => exact ih (fun l z => h0 l (by simp [z]))
  | none _ _ _ _ ih => exact ih (fun l z => h0 l (by simp [z]))
  | some _ hv hp hne _ ih =>
    intro b hb
    rcases List.mem_append.mp hb with z | z
    · exact ih (fun l z => h0 l (by simp [z])) b z
    · simp only [List.mem_singleton] at z
      subst z
      exact ⟨param_zero hp (value_zero hv (h0 _ (by simp))), hne⟩

theorem line_break {text l rest : List UInt8} (h : Line text l rest) : ∃ pre x, text = pre ++ x :: rest ∧ (x = 10 ∨ x = 13) := by
  obtain ⟨brk, _, _, e, _, _, _, he, _⟩ := h
  rcases he with ⟨rfl, _⟩ | ⟨rfl, _⟩ | ⟨rfl, _⟩
  · exact ⟨l, 13, by rw [e]; simp, Or.inr rfl⟩
  · exact ⟨l, 10, by rw [e]; simp, Or.inl rfl⟩
  · exact ⟨l ++ [13], 10, by rw [e]; simp, Or.inl rfl⟩

theorem partHeader_break {text rest : List UInt8} {lines : List (List UInt8)} (h : PartHeader text lines rest) :
    ∃ pre x, text = pre ++ x :: rest ∧ (x = 10 ∨ x = 13) := by
  induction h with
  | last hl _ => exact line_break hl
  | field hl _ _ _ ih =>
    obtain ⟨p1, x1, e1, _⟩ := line_break hl
    obtain ⟨p2, x2, e2, h2⟩ := ih
    exact ⟨p1 ++ x1 :: p2, x2, by rw [e1, e2]; simp, h2⟩

/-- A delimiter line. -/
theorem scan_delimiter (C : Contract P c .never H) (stale : Int) {s : State σ} {text r b : List UInt8} {bs : List (List UInt8)} (hon : On P H c s text)
    (hl : Line text (delimiter b) r) {fuel : Nat} (hf : text.length + 1 < fuel) (hst : s.status = .ok)
    (hb : s.boundary = b :: bs) (h0 : 0 ∉ b) (hne : b ≠ []) :
    ∃ i d n q, On P H c { s with input := i, line := d, len := n, nextLine := q } r ∧
      (∀ s' m, handleBodyLine P conv stale fuel { s with input := i, line := d, len := n, nextLine := q } = .ok (s', true) →
        scanBody P conv stale fuel (m + 1) s = .ok s') ∧
      (∀ s' m, handleBodyLine P conv stale fuel { s with input := i, line := d, len := n, nextLine := q } = .ok (s', false) →
        scanBody P conv stale fuel (m + 1) s = scanBody P conv stale fuel m s') := by
  obtain ⟨s1, brk, _, e1, g⟩ := (readLine C stale hon hf).1 _ _ hl
  obtain ⟨_, e2, _⟩ := body_line (conv := conv) stale fuel g hb h0 hne
  have g3 := g.on
  obtain ⟨i, d, h⟩ := g.eq
  refine ⟨i, d, _, _, h ▸ g3, ?_, ?_⟩
  all_goals
    intro s' m e
    rw [scanBody, if_pos hst, e1]
    simp only [Res.bind_ok]
    rw [e2 rfl, h, e]
    simp

/-- The entry of a part, and that the next one is found behind it. -/
theorem goal_part (C : Contract P c .never H) (stale : Int) (hlen : (c.length : Int) < 2 ^ 31) {fuel : Nat} (hfuel : c.length + 1 < fuel)
    (hN : c.length + 1 < N) {s s' : State σ} {k : Kmp.Searcher} {sub : StringTerminated σ} {en : Entry σ} {o : Int} {n : Nat}
    {b name content : List UInt8} {bs lines : List (List UInt8)} {e : ArchiveEntry} {es : List ArchiveEntry}
    (hk : SearchOk k (delimiter b)) (hC : Cut (delimiter b) c o content.length) (hs : slice c o content.length = content)
    (hi : Inv P H k (delimiter b) c o content.length sub 0 0) (hp : sub.pos = 0) (hz : sub.size = -1)
    (h64 : IsBase64 lines → en = .base64 (BufferedStream.new (Base64.State.new sub))) (h64' : ¬ IsBase64 lines → en = .plain sub)
    (hen : s'.entry = some en) (hst : s'.status = .ok) (hbd : s'.boundary = s.boundary) (hnum : s'.number = s.number)
    (hinfo : s'.info = { s.info with filename := name }) (hsb : s.boundary = b :: bs) (hn : s.number = n) (hsz : s.info.size = -1)
    (hmt : s.info.mtime = 0) (hname : e.info = ⟨if name = [] then SdfSpec.decimal (n + 1) else name, -1, 0, .file⟩)
    (hc1 : IsBase64 lines → e.content = B64.decoded content) (hc2 : ¬ IsBase64 lines → e.content = content)
    (next : ∀ (p : State σ) (e' : StringTerminated σ) (lo hi : Int), p.status = .ok → p.entry = none → p.boundary = b :: bs → p.number = n + 1 →
      p.info.size = -1 → p.info.mtime = 0 → p.input = e'.parent → p.nextLine = o + e'.size → e'.status = .eof →
      Inv P H k (delimiter b) c o content.length e' lo hi →
      ∃ s2, scanBody P conv stale fuel fuel p = .ok s2 ∧ Goal P conv stale N fuel s2 es) :
    Goal P conv stale N fuel s' (e :: es) := by
  have hcl : content.length ≤ c.length := by have := hC.le; have := hC.o0; omega
  obtain ⟨⟨a1, a2⟩, b1, b2⟩ := entry_spec (N := N) C hlen hk hC hs (by omega) hi hp
  have tail : ∀ x (e0 : StringTerminated σ) lo hi, substream x = some e0 → Inv P H k (delimiter b) c o content.length e0 lo hi →
      Presents (ops P conv stale N fuel) .never False .eof { found s' with entry := some x } es := by
    intro x e0 lo hi hx h
    obtain ⟨e1, lo1, hi1, d1, d2, d3⟩ := drain_spec C hlen hk hC fuel e0 lo hi h (by have := h.lo0; have := h.lo1; omega)
    have hst' : (found s').status = .ok := by simp [found, ensureFileName, hen, hst]
    have hleave : leave P fuel { found s' with entry := some x } =
        .ok { found s' with input := e1.parent, entry := none, nextLine := e1.offset + e1.size } := by
      unfold leave
      simp only [Option.bind_some, hx]
      rw [d1]
      simp only [Res.bind_ok]
      rw [if_neg (by rw [d2]; decide)]
    obtain ⟨s2, g1, g2⟩ := next { found s' with input := e1.parent, entry := none, nextLine := e1.offset + e1.size } e1 lo1 hi1 hst' rfl
      (by simp [found, ensureFileName, hen, hbd, hsb]) (by simp [found, ensureFileName, hen, hnum, hn])
      (by simp [found, ensureFileName, hen, hinfo, hsz]) (by simp [found, ensureFileName, hen, hinfo, hmt]) rfl (by rw [d3.off]) d2 d3
    refine presents_of_scan (s := { found s' with entry := some x }) hst' ?_ hleave hst' g1 g2
    simp [found, ensureFileName, hen, hbd, hsb]
  have hfi : (found s').info = e.info := by
    rw [hname]
    simp [found, ensureFileName, hen, hnum, hinfo, hsz, hmt, hn]
  refine ⟨hst, en, hen, hfi, by rw [hname], ?_⟩
  by_cases hb : IsBase64 lines
  · rw [h64 hb, hc1 hb]
    refine ⟨rfl, rfl, b1, fun x lo hi hu => ?_⟩
    obtain ⟨e0, lo0, hi0, h1, h2⟩ := b2 x lo hi hu
    exact tail x e0 lo0 hi0 h1 h2
  · rw [h64' hb, hc2 hb]
    refine ⟨hp, hz, a1, fun x lo hi hu => ?_⟩
    obtain ⟨e0, lo0, hi0, h1, h2⟩ := a2 x lo hi hu
    exact tail x e0 lo0 hi0 h1 h2

theorem scan_body (C : Contract P c .never H) {soft : Prop} (S : soft → SoftReset P c H) (stale : Int) (hlen : (c.length : Int) < 2 ^ 31) {fuel : Nat} (hfuel : c.length + 1 < fuel)
    (hN : c.length + 1 < N) {stack : List (List UInt8)} {n : Nat} {text : List UInt8} {es : List ArchiveEntry} (hb : Body soft stack n text es) :
    ∀ (m : Nat) (s : State σ), On P H c s text → s.status = .ok → s.entry = none → s.boundary = stack → s.number = n → s.info.size = -1 →
      s.info.mtime = 0 → (∀ b ∈ stack, 0 ∉ b ∧ b ≠ []) → text.length + 1 < m →
      ∃ s2, scanBody P conv stale fuel m s = .ok s2 ∧ Goal P conv stale N fuel s2 es := by
  induction hb with
  | @ended b bs n text hl =>
    intro m s hon hst hen hbd hn hsz hmt hg hm
    have hr := hon.range C
    obtain ⟨m, rfl⟩ : ∃ k, m = k + 2 := ⟨m - 2, by omega⟩
    exact scan_ended C stale hon hl (by omega) hst hen hbd (hg b (by simp)).1 m
  | @closed b n text rest hl =>
    intro m s hon hst hen hbd hn hsz hmt hg hm
    have hr := hon.range C
    obtain ⟨m, rfl⟩ : ∃ k, m = k + 2 := ⟨m - 2, by omega⟩
    obtain ⟨s1, brk, _, e1, g⟩ := (readLine C stale hon (fuel := fuel) (by omega)).1 _ _ hl
    obtain ⟨_, _, e2⟩ := body_line (conv := conv) stale fuel g hbd (hg b (by simp)).1 (hg b (by simp)).2
    refine ⟨{ s1 with boundary := [], status := .eof }, ?_, rfl, ?_⟩
    · rw [scanBody, if_pos hst, e1]
      simp only [Res.bind_ok]
      rw [e2 rfl]
      simp [scanBody]
    · obtain ⟨_, _, rfl⟩ := g.eq; exact hen
  | @line b bs n text l rest es hl h1 h2 _ ih =>
    intro m s hon hst hen hbd hn hsz hmt hg hm
    have hr := hon.range C
    have hs := line_shorter hl
    obtain ⟨m, rfl⟩ : ∃ k, m = k + 1 := ⟨m - 1, by omega⟩
    obtain ⟨i, d, n, q, e, g⟩ := scan_other (conv := conv) C stale hon hl (fuel := fuel) (by omega) hst hbd (hg b (by simp)).1 (hg b (by simp)).2 h1 h2 m
    rw [e]
    exact ih m _ g hst hen hbd hn hsz hmt hg (by omega)
  | @close b b' bs n text rest es hl _ ih =>
    intro m s hon hst hen hbd hn hsz hmt hg hm
    have hr := hon.range C
    have hs := line_shorter hl
    obtain ⟨m, rfl⟩ : ∃ k, m = k + 1 := ⟨m - 1, by omega⟩
    obtain ⟨s1, brk, _, e1, g⟩ := (readLine C stale hon (fuel := fuel) (by omega)).1 _ _ hl
    obtain ⟨_, _, e2⟩ := body_line (conv := conv) stale fuel g hbd (hg b (by simp)).1 (hg b (by simp)).2
    have g3 := g.on
    obtain ⟨i, d, rfl⟩ := g.eq
    rw [scanBody, if_pos hst, e1]
    simp only [Res.bind_ok]
    rw [e2 rfl]
    simp only [Res.bind_ok]
    rw [if_neg (by decide)]
    exact ih m _ (on_congr g3 rfl rfl) (by simpa using hst) hen rfl hn hsz hmt (fun y hy => hg y (List.mem_cons_of_mem _ hy)) (by omega)
  | @nested b bs lines new n text r rest es hl hh hbn hne _ ih =>
    intro m s hon hst hen hbd hn hsz hmt hg hm
    have hr := hon.range C
    have hs := line_shorter hl
    have hp := partHeader_length hh
    obtain ⟨m, rfl⟩ : ∃ k, m = k + 1 := ⟨m - 1, by omega⟩
    obtain ⟨i, d, n, q, g, _, e2⟩ := scan_delimiter (conv := conv) C stale hon hl (fuel := fuel) (by omega) hst hbd (hg b (by simp)).1 (hg b (by simp)).2
    obtain ⟨i2, d2, n2, q2, h2, e3, g2⟩ := handle_nested (conv := conv) C stale g hst (fuel := fuel) (by omega) hh hbn hne
    rw [e2 _ m e3]
    refine ih m _ g2 hst hen (by simp [hbd]) hn hsz hmt (fun x hx => ?_) (by omega)
    rcases List.mem_append.mp hx with z | z
    · exact boundaries_good hbn (partHeader_zero hh) x z
    · exact hg x z
  | @part b bs lines n text r content rest l' r' e es hl hh hbn hno hl' hq he _ ih =>
    intro m s hon hst hen hbd hn hsz hmt hg hm
    have hr := hon.range C
    have hs := line_shorter hl
    have hp := partHeader_length hh
    obtain ⟨m, rfl⟩ : ∃ k, m = k + 1 := ⟨m - 1, by omega⟩
    obtain ⟨i, d, n0, q, g, e2, _⟩ := scan_delimiter (conv := conv) C stale hon hl (fuel := fuel) (by omega) hst hbd (hg b (by simp)).1 (hg b (by simp)).2
    obtain ⟨⟨name, hname, hei⟩, hc1, hc2⟩ := he
    have hbf : BeforeFirst (delimiter b) (content ++ delimiter b ++ rest) content := Or.inl ⟨rest, rfl, hno⟩
    obtain ⟨s', k, sub, en, o, f1, f2, f3, f4, f5, f6, f7, f8, f9, f10, f11, f12, f13, f14, f15, f16, f17⟩ :=
      handle_part (conv := conv) C stale g hst (fuel := fuel) (by omega) hh hbn hbd hl' hq hbf hname
    refine ⟨s', e2 _ m f1, ?_⟩
    refine goal_part C stale hlen hfuel hN f2 f3 f4 f8 f9 f10 f11 f12 f13 f14 f15 f16 f17 hbd hn hsz hmt hei hc1 hc2 ?_
    intro p e' lo hi p1 p2 p3 p4 p5 p6 p7 p8 p9 p10
    have hocc := f7 ⟨content, rest, rfl, rfl⟩
    have hsz' := p10.done p9 hocc
    obtain ⟨h', w1, w2⟩ := p10.win
    have hpe := p10.eof p9
    have := p10.hi0; have := p10.lo1; have := f3.le; have := f3.o0
    have hon' : On P H c p (delimiter b ++ rest) := by
      have := On.of_window C (s := p) (by rw [p7]; exact w1) (by rw [p8, hsz']; omega) (by rw [p8, hsz']; omega)
      rw [p8, hsz', show (o + (content.length : Int)).toNat = o.toNat + content.length by omega, ← List.drop_drop, f5] at this
      simpa using this
    have hlr := hon'.range C
    exact ih fuel p hon' p1 p2 p3 p4 p5 p6 hg (by omega)
  | @cut b bs lines n text r content l' r' e hsoft hl hh hbn hno hl' hcl hq he =>
    intro m s hon hst hen hbd hn hsz hmt hg hm
    have hr := hon.range C
    have hs := line_shorter hl
    have hp := partHeader_length hh
    obtain ⟨m, rfl⟩ : ∃ k, m = k + 1 := ⟨m - 1, by omega⟩
    obtain ⟨i, d, n0, q, g, e2, _⟩ := scan_delimiter (conv := conv) C stale hon hl (fuel := fuel) (by omega) hst hbd (hg b (by simp)).1 (hg b (by simp)).2
    obtain ⟨⟨name, hname, hei⟩, hc1, hc2⟩ := he
    have hbf : BeforeFirst (delimiter b) content content := Or.inr ⟨rfl, hno⟩
    obtain ⟨s', k, sub, en, o, f1, f2, f3, f4, f5, f6, f7, f8, f9, f10, f11, f12, f13, f14, f15, f16, f17⟩ :=
      handle_part (conv := conv) C stale g hst (fuel := fuel) (by omega) hh hbn hbd hl' hq hbf hname
    refine ⟨s', e2 _ m f1, ?_⟩
    refine goal_part C stale hlen hfuel hN f2 f3 f4 f8 f9 f10 f11 f12 f13 f14 f15 f16 f17 hbd hn hsz hmt hei hc1 hc2 ?_
    intro p e' lo hi p1 p2 p3 p4 p5 p6 p7 p8 p9 p10
    obtain ⟨h', w1, w2⟩ := p10.win
    have hpe := p10.eof p9
    have hend : o + content.length = c.length := by
      have : (c.drop o.toNat).length = content.length := by rw [f5]
      rw [List.length_drop] at this
      have := f3.le; omega
    have := p10.hi0; have := p10.lo1; have := f3.le; have := f3.o0
    rcases p10.size with z | z
    · -- the reset goes to the last byte in front of the part
      have hnl : p.nextLine = o - 1 := by rw [p8, z]; omega
      have hpos : P.position p.input = c.length := by
        rw [p7]
        rcases p10.par with y | ⟨_, y, _⟩
        · omega
        · exfalso
          have y1 := y.2.1
          simp [delimiter] at y1
          omega
      obtain ⟨i3, r3, k1, k2, k3, k4, k5⟩ := (S hsoft).reset (s := p.input) (by rw [p7]; exact w1) (q := p.nextLine) (by omega) (by omega)
      by_cases hrq : r3 = p.nextLine
      · obtain ⟨pre, x, hpre, hx⟩ := partHeader_break hh
        have hc : c = (c.take q.toNat ++ pre) ++ x :: content := by
          conv_lhs => rw [← List.take_append_drop q.toNat c]
          rw [show c.drop q.toNat = r from g.2, hpre]; simp
        have hA : (c.take q.toNat ++ pre).length = p.nextLine.toNat := by
          have := congrArg List.length hc
          rw [List.length_append, List.length_cons] at this
          omega
        have hon' : On P H c p (x :: content) := by
          refine ⟨⟨i3, r3, k1, by omega, by rw [← hrq]; exact k5⟩, ?_⟩
          rw [← hA]
          generalize c.take q.toNat ++ pre = A at hc
          rw [hc, List.drop_left]
        obtain ⟨s2, v1, v2, v3⟩ := scan_nothing (conv := conv) C stale (hg b (by simp)).1 (hg b (by simp)).2 (fuel := fuel) fuel p (x :: content) hon'
          (by
            rintro i ⟨a, b', e, _⟩
            rcases a with _ | ⟨y, a⟩
            · rw [delimiter] at e
              simp only [List.nil_append, List.cons_append, List.cons.injEq] at e
              rcases hx with z | z <;> rw [z] at e <;> exact absurd e.1 (by decide)
            · simp only [List.cons_append, List.cons.injEq] at e
              exact hno _ ⟨a, b', e.2, rfl⟩)
          (by simp; omega) (by simp; omega) p1 p2 p3 (by simp; omega)
        exact ⟨s2, v1, v2, v3⟩
      · have hpe3 : P.position i3 = c.length := by omega
        obtain ⟨f, hf⟩ : ∃ f, fuel = f + 2 := ⟨fuel - 2, by omega⟩
        obtain ⟨s2, v1, v2, v3⟩ := scan_at_end (conv := conv) C stale k1 k5 hpe3 p1 p2 (fuel := fuel) (by omega) f
        exact ⟨s2, by rw [hf] at v1 ⊢; exact v1, v2, v3⟩
    · -- nothing is left
      have hon' : On P H c p [] := by
        have := On.of_window C (s := p) (by rw [p7]; exact w1) (by rw [p8, z]; omega) (by rw [p8, z]; omega)
        rw [p8, z, show (o + (content.length : Int)).toNat = o.toNat + content.length by omega, ← List.drop_drop, f5] at this
        simpa using this
      obtain ⟨s2, v1, v2, v3⟩ := scan_nothing (conv := conv) C stale (hg b (by simp)).1 (hg b (by simp)).2 (fuel := fuel) fuel p [] hon'
        (by rintro i ⟨a, b', e, _⟩; simp [delimiter] at e) (by simp) (by simp; omega) p1 p2 p3 (by simp; omega)
      exact ⟨s2, v1, v2, v3⟩
  | @lost b bs lines n text r content hl hh hbn hl' =>
    intro m s hon hst hen hbd hn hsz hmt hg hm
    have hr := hon.range C
    have hs := line_shorter hl
    obtain ⟨m, rfl⟩ : ∃ k, m = k + 2 := ⟨m - 2, by omega⟩
    obtain ⟨i, d, n, q, g, _, e2⟩ := scan_delimiter (conv := conv) C stale hon hl (fuel := fuel) (by omega) hst hbd (hg b (by simp)).1 (hg b (by simp)).2
    obtain ⟨s', e3, h1, h2⟩ := handle_lost (conv := conv) C stale g hst hen (fuel := fuel) (by omega) hh hbn hl'
    refine ⟨s', ?_, h1, h2⟩
    rw [e2 _ (m + 1) e3, scanBody, if_neg (by rw [h1]; decide)]
  | @unfinished b bs n text r hl hh =>
    intro m s hon hst hen hbd hn hsz hmt hg hm
    have hr := hon.range C
    have hs := line_shorter hl
    obtain ⟨m, rfl⟩ : ∃ k, m = k + 2 := ⟨m - 2, by omega⟩
    obtain ⟨i, d, n, q, g, _, e2⟩ := scan_delimiter (conv := conv) C stale hon hl (fuel := fuel) (by omega) hst hbd (hg b (by simp)).1 (hg b (by simp)).2
    obtain ⟨s', e3, h1, h2⟩ := handle_unfinished (conv := conv) C stale g hst hen (fuel := fuel) (by omega) hh
    refine ⟨s', ?_, h1, h2⟩
    rw [e2 _ (m + 1) e3, scanBody, if_neg (by rw [h1]; decide)]

theorem headerLoop_exit {stale : Int} {fuel : Nat} : ∀ (n : Nat) (s s' : State σ), headerLoop P conv stale fuel n s = .ok s' →
    s'.status ≠ .ok ∨ s'.len = 0 := by
  intro n
  induction n with
  | zero => intro s s' h; simp [headerLoop] at h
  | succ n ih =>
    intro s s' h
    rw [headerLoop] at h
    split at h
    · obtain ⟨s1, _, h⟩ := BufferedStream.bind_eq_ok h
      obtain ⟨s2, _, h⟩ := BufferedStream.bind_eq_ok h
      exact ih _ _ h
    · rename_i z
      cases h
      by_cases y : s.status = .ok
      · exact Or.inr (by by_contra w; exact z ⟨y, w⟩)
      · exact Or.inl y

theorem headless_spec (C : Contract P c .never H) (stale : Int) {text : List UInt8} (hh : Mime.Headless text) :
    ∀ (fuel n : Nat) (s : State σ), On P H c s text → s.status = .ok → text.length + 1 < fuel → text.length < n →
      ∃ s1 s2, readHeaderLine P stale fuel s = .ok s1 ∧ headerLoop P conv stale fuel n s1 = .ok s2 ∧ s2.status = .eof ∧ s2.entry = s.entry := by
  induction hh with
  | @last text hl =>
    intro fuel n s hon hst hf hn
    obtain ⟨s1, e1, g⟩ := last_read C stale hon hl hf
    obtain ⟨n, rfl⟩ : ∃ k, n = k + 1 := ⟨n - 1, by omega⟩
    obtain ⟨i, d, k, hs⟩ := g.eq
    have h1 : s1.status = .eof := by rw [hs]
    have h2 : s1.entry = s.entry := by rw [hs]
    exact ⟨s1, s1, e1, by rw [headerLoop, if_neg (by rw [h1]; simp)], h1, h2⟩
  | @field text l r hl hne _ ih =>
    intro fuel n s hon hst hf hn
    obtain ⟨s1, brk, _, e1, g⟩ := (readLine C stale hon hf).1 _ _ hl
    obtain ⟨n, rfl⟩ : ∃ k, n = k + 1 := ⟨n - 1, by omega⟩
    obtain ⟨h', e2, hs⟩ := got_handle (conv := conv) g
    have hsh := line_shorter hl
    have hon2 : On P H c { s1 with header := h', boundary := boundaryOf l ++ s1.boundary } r := on_congr g.on rfl rfl
    have hst1 : s1.status = .ok := by obtain ⟨i, d, rfl⟩ := g.eq; exact hst
    have hlen1 : s1.len = l.length := by obtain ⟨i, d, rfl⟩ := g.eq; rfl
    have hen1 : s1.entry = s.entry := by obtain ⟨i, d, rfl⟩ := g.eq; rfl
    obtain ⟨s2, s3, e3, e4, h1, h2⟩ := ih fuel n _ hon2 hst1 (by omega) (by omega)
    refine ⟨s1, s3, e1, ?_, h1, h2.trans hen1⟩
    have hlp := List.length_pos_iff.mpr hne
    rw [headerLoop, if_pos ⟨hst1, by omega⟩]
    simp only [e2, Res.bind_ok, e3, e4]

end Strigi.Mail
