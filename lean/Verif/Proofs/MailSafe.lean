import Verif.Proofs.MailScanSafe

/-!
# Mails of arbitrary bytes
-/

namespace Strigi

variable {σ : Type} {P : StreamOps σ UInt8} {c : List UInt8} {lo : Int} {H : σ → Prop} {W : σ → Int → Int → Prop}

namespace SubInputStream

/-- The state of a substream whose end is not known. -/
structure Free (P : StreamOps σ UInt8) (c : List UInt8) (H : σ → Prop) (e : SubInputStream σ) : Prop where
  parent : H e.parent
  off : 0 ≤ e.offset
  size : e.size = -1
  sync : e.offset ≤ P.position e.parent ∧ e.pos ≤ P.position e.parent - e.offset ∧
    (e.pos = P.position e.parent - e.offset ∨ P.position e.parent = c.length)

/-- The state of the rest of an input as a substream. -/
def RestOk (P : StreamOps σ UInt8) (c : List UInt8) (H : σ → Prop) (e : SubInputStream σ) : Prop := Free P c H e ∨ Usable P (Robust.view P c H) H e

theorem rest_new (E : Env P c lo H W) {s : σ} (h : H s) : ∃ e, SubInputStream.new P s (-1) = .ok e ∧ RestOk P c H e := by
  have hr := E.range h
  refine ⟨⟨s, P.position s, 0, -1, .ok⟩, ?_, Or.inl ⟨h, hr.1, rfl, by simp only; omega⟩⟩
  unfold SubInputStream.new
  rw [Res.assert_of (by simp), Res.bind_ok]

theorem rest_read (E : Env P c lo H W) {e : SubInputStream σ} (h : RestOk P c H e) {mn mx : Int} (h1 : 1 ≤ mn) (h2 : mn < 2 ^ 31)
    (h3 : mx = 0 ∨ mn ≤ mx) : ∃ e' n d, read P e mn mx = .ok (e', n, d) ∧ RestOk P c H e' := by
  rcases h with h | h
  · unfold SubInputStream.read
    rw [if_neg (by have := h.size; simp [this])]
    unfold readParent
    obtain ⟨s', n, d, er, h', hshort, hlim, hdata, hneg, _⟩ := E.fetch h.parent (mx := mx) h1 h2 (by omega)
    rw [er, Res.bind_ok]
    dsimp only
    have hr := E.range h.parent
    have hr' := E.range h'
    have hsm := E.small
    have hoff := h.off
    obtain ⟨y1, y2, y3⟩ := h.sync
    rw [Res.assert_of (by
      simp only [decide_eq_true_eq]
      by_cases z : mn ≤ mx
      · exact Or.inr (hlim z)
      · left; omega), Res.bind_ok]
    have hfree : n < mn → n ≤ 0 → Free P c H { e with parent := s' } := by
      intro z z'
      have := hshort z
      refine ⟨h', h.off, h.size, ?_⟩
      simp only
      omega
    by_cases n1 : n < -1
    · rw [if_pos n1]
      have hF := hfree (by omega) (by omega)
      exact ⟨_, _, _, rfl, Or.inl ⟨hF.parent, hF.off, hF.size, hF.sync⟩⟩
    rw [if_neg n1]
    by_cases n2 : n < mn
    · rw [if_pos n2, if_pos h.size]
      by_cases n3 : n > 0
      · rw [if_pos n3]
        have a1 := hshort n2
        have a2 := (hdata (by omega)).2.2
        refine ⟨_, _, _, rfl, Or.inr ⟨h', h.off, by simp only; omega, by simp only; omega, by simp only; omega, fun _ => ?_,
          fun _ => ⟨E.calm s' h', ?_⟩, fun z => by cases z⟩⟩
        · show e.offset ≤ P.position s' ∧ P.position s' ≤ e.offset + (e.pos + n) ∧ e.pos + n ≤ P.position s' - e.offset ∧
            (e.pos + n = P.position s' - e.offset ∨ (P.status s' = .error ∨ P.position s' = c.length))
          omega
        · show e.pos + n = P.position s' - e.offset
          omega
      · rw [if_neg n3]
        have hF := hfree n2 (by omega)
        exact ⟨_, _, _, rfl, Or.inl ⟨hF.parent, hF.off, hF.size, hF.sync⟩⟩
    · rw [if_neg n2]
      have a2 := (hdata (by omega)).2.2
      exact ⟨_, _, _, rfl, Or.inl ⟨h', h.off, h.size, by simp only; omega⟩⟩
  · obtain ⟨e', n, d, er, u, _⟩ := sub_read E.robust.sturdy E.low h (mx := mx) h1 h2
    exact ⟨e', n, d, er, Or.inr u⟩

theorem rest_skip (E : Env P c lo H W) {e : SubInputStream σ} (h : RestOk P c H e) {k : Int} (h1 : 0 ≤ k) :
    ∃ e' r, skip P e k = .ok (e', r) ∧ RestOk P c H e' := by
  rcases h with h | h
  · unfold SubInputStream.skip
    by_cases c1 : e.size = e.pos
    · rw [if_pos c1]
      exact ⟨_, _, rfl, Or.inl ⟨h.parent, h.off, h.size, h.sync⟩⟩
    rw [if_neg c1]
    by_cases c2 : k = 0
    · rw [if_pos c2]; exact ⟨_, _, rfl, Or.inl h⟩
    rw [if_neg c2, if_neg (by have := h.size; simp [this])]
    unfold skipParent
    obtain ⟨s', r, er, h', _, hg, _⟩ := E.robust.skip h.parent k h1
    obtain ⟨g1, g2, g3⟩ := hg (E.calm s' h')
    rw [er, Res.bind_ok]
    dsimp only
    rw [if_neg (E.calm s' h')]
    have hr := E.range h.parent
    have hr' := E.range h'
    obtain ⟨y1, y2, y3⟩ := h.sync
    have hF : ∀ p st, p ≤ P.position s' - e.offset → (p = P.position s' - e.offset ∨ P.position s' = c.length) →
        RestOk P c H ⟨s', e.offset, p, e.size, st⟩ := by
      intro p st z1 z2
      exact Or.inl ⟨h', h.off, h.size, by simp only; omega⟩
    have hm : e.pos + r ≤ P.position s' - e.offset ∧ (e.pos + r = P.position s' - e.offset ∨ P.position s' = c.length) := by
      by_cases r0 : 0 ≤ r
      · rw [show max r 0 = r by omega] at g2
        refine ⟨by omega, ?_⟩
        rcases y3 with z | z
        · left; omega
        · right; omega
      · rw [show max r 0 = 0 by omega] at g2
        have := g3 (by omega) (by omega)
        exact ⟨by omega, by omega⟩
    split
    · exact ⟨_, _, rfl, hF _ _ hm.1 hm.2⟩
    · split
      · exact ⟨_, _, rfl, hF _ _ hm.1 hm.2⟩
      · exact ⟨_, _, rfl, hF _ _ hm.1 hm.2⟩
  · obtain ⟨e', r, er, u, _⟩ := sub_skip E.robust.sturdy h h1
    exact ⟨e', r, er, Or.inr u⟩

theorem rest_reset (E : Env P c lo H W) {e : SubInputStream σ} (h : RestOk P c H e) {q : Int} (h1 : 0 ≤ q) (h2 : e.size = -1 ∨ q ≤ e.size) :
    ∃ e' r, reset P e q = .ok (e', r) ∧ RestOk P c H e' := by
  rcases h with h | h
  · unfold SubInputStream.reset
    rw [Res.assert_of (by simp; omega), Res.bind_ok]
    have hoff := h.off
    have hr := E.range h.parent
    obtain ⟨s', r, er, h', hp, hc⟩ := E.seek h.parent (q := q + e.offset) (by omega)
    rw [er, Res.bind_ok]
    dsimp only
    obtain ⟨y1, y2, y3⟩ := h.sync
    rw [if_neg (show ¬ r < e.offset by omega)]
    exact ⟨_, _, rfl, Or.inl ⟨h', h.off, h.size, by simp only; omega⟩⟩
  · obtain ⟨e', r, er, u, _⟩ := sub_reset E.robust.sturdy h h1 (Or.inl ⟨by have := h.size; omega, trivial⟩)
    exact ⟨e', r, er, Or.inr u⟩

end SubInputStream

namespace Mail

variable {N T : Nat}

theorem drain_total (E : Env P c lo H W) : ∀ (fuel : Nat) (e : StringTerminated σ), StringTerminated.PartOk P c H W e → 0 < fuel →
    (e.status = .ok → c.length - P.position e.parent + 1 < fuel) →
    ∃ e', drain P fuel e = .ok e' ∧ StringTerminated.PartOk P c H W e' ∧ e'.offset = e.offset ∧ e'.status ≠ .ok := by
  intro fuel
  induction fuel with
  | zero => intro e _ z; omega
  | succ fuel ih =>
    intro e h _ hf
    rw [drain]
    by_cases hs : e.status = .ok
    · rw [if_pos hs]
      have hf := hf hs
      have hr := E.range h.parent
      obtain ⟨e', n, d, er, h', ho, _, _, hn, hok⟩ := StringTerminated.part_read E h (mn := 1) (mx := 0) (by omega) (by omega) (Or.inl rfl)
      rw [er, Res.bind_ok]
      dsimp only
      obtain ⟨e'', g1, g2, g3, g4⟩ := ih e' h' (by omega) (fun z => by
        have := hok z
        have := (hn this).2.2 z
        omega)
      exact ⟨e'', g1, g2, by omega, g4⟩
    · rw [if_neg hs]
      exact ⟨e, rfl, h, rfl, hs⟩

/-- The terminated stream of a part. -/
theorem part_substream {o : Int} {en : Entry σ} (h : PartEntry P c H W N T o en) :
    ∃ e, substream en = some e ∧ StringTerminated.PartOk P c H W e ∧ e.offset = o := by
  cases en with
  | body e => exact h.elim
  | plain e => exact ⟨e, rfl, h⟩
  | base64 e =>
    obtain ⟨cc, L⟩ := h
    exact ⟨e.prod.input, rfl, L.weak⟩

theorem leave_total (E : Env P c lo H W) {fuel : Nat} (hf : c.length + 1 < fuel) {s : State σ} {en : Entry σ} {o : Int} (he : s.entry = some en)
    (h : PartEntry P c H W N T o en) : ∃ s', leave P fuel s = .ok s' ∧ s'.entry = none ∧ s'.boundary = s.boundary ∧
      (s'.status = .ok → s'.status = s.status ∧ Start P c H W s' ∧ o - 1 ≤ s'.nextLine) := by
  obtain ⟨e, h1, h2, h3⟩ := part_substream h
  unfold leave
  rw [he]
  simp only [Option.bind_some, h1]
  have hr := E.range h2.parent
  have ho := h2.off
  obtain ⟨e', g1, g2, g3, g4⟩ := drain_total E fuel e h2 (by omega) (fun _ => by omega)
  rw [g1, Res.bind_ok]
  by_cases hs : e'.status = .error
  · rw [if_pos hs]
    exact ⟨_, rfl, rfl, rfl, fun z => by cases z⟩
  · rw [if_neg hs]
    have heof : e'.status = .eof := by cases hst : e'.status <;> simp_all
    have hz := g2.size
    have hsm := E.small
    refine ⟨_, rfl, rfl, rfl, fun _ => ⟨rfl, ⟨g2.parent, by simp only; omega, by simp only; omega, g2.eof heof⟩, by simp only; omega⟩⟩

/-- What holds for a mail, whatever a client does; `n` entries were presented. -/
inductive Ok (P : StreamOps σ UInt8) (c : List UInt8) (H : σ → Prop) (W : σ → Int → Int → Prop) (N T : Nat) (n : Nat) (s : State σ) : Prop
  | closed : s.status ≠ .ok → (∀ e, s.entry = some e → ∃ b, e = .body b ∧ SubInputStream.RestOk P c H b) → (n ≤ 1 ∨ 4 * n ≤ c.length) → Ok P c H W N T n s
  | fresh : s.entry = none → n = 0 → Start P c H W s → Short s.boundary → Ok P c H W N T n s
  | part {e : Entry σ} {o : Int} : s.entry = some e → s.boundary ≠ [] → Short s.boundary → PartEntry P c H W N T o e → 4 * (n : Int) ≤ o → o ≤ c.length → Ok P c H W N T n s

theorem ok_count {n : Nat} {s : State σ} (h : Ok P c H W N T n s) : n ≤ 1 ∨ 4 * n ≤ c.length := by
  cases h with
  | closed _ _ h => exact h
  | fresh _ h _ _ => left; omega
  | part _ _ _ _ h1 h2 => right; omega

theorem entry_read (E : Env P c lo H W) {o : Int} {e : Entry σ} (h : PartEntry P c H W N T o e) {mn mx : Int} (hm : MildRead mn mx) :
    ∃ e' k d, (entryOps P N).read e mn mx = .ok (e', k, d) ∧ PartEntry P c H W N T o e' := by
  obtain ⟨h1, h2, h3⟩ := hm
  cases e with
  | body e => exact h.elim
  | plain e =>
    obtain ⟨e', n, d, er, h', ho, _⟩ := StringTerminated.part_read E h.1 h1 h2 h3
    refine ⟨.plain e', n, d, ?_, h', by rw [ho]; exact h.2⟩
    show (StringTerminated.read P e mn mx >>= _) = _
    rw [er]; rfl
  | base64 e =>
    obtain ⟨cc, L⟩ := h
    obtain ⟨e', n, d, cc', er, _, L', _⟩ := BufferedStream.read_any (Base64.emits E o N) L h1 mx
    refine ⟨.base64 e', n, d, ?_, cc', L'⟩
    show (BufferedStream.read (Base64.producer (StringTerminated.ops P) N) e mn mx >>= _) = _
    rw [er]; rfl

theorem entry_skip (E : Env P c lo H W) {o : Int} {e : Entry σ} (h : PartEntry P c H W N T o e) {k : Int} (hk : 0 ≤ k) :
    ∃ e' r, (entryOps P N).skip e k = .ok (e', r) ∧ PartEntry P c H W N T o e' := by
  cases e with
  | body e => exact h.elim
  | plain e =>
    obtain ⟨e', r, er, h', ho⟩ := StringTerminated.part_skip E h.1 hk
    refine ⟨.plain e', r, ?_, h', by rw [ho]; exact h.2⟩
    show (baseSkip (StringTerminated.read P) e k >>= _) = _
    rw [er]; rfl
  | base64 e =>
    obtain ⟨cc, L⟩ := h
    obtain ⟨e', r, cc', er, _, L', _⟩ := (BufferedStream.growing (Base64.emits E o N) T).skip L k hk
    refine ⟨.base64 e', r, ?_, cc', L'⟩
    show ((BufferedStream.ops (Base64.producer (StringTerminated.ops P) N)).skip e k >>= _) = _
    rw [er]; rfl

theorem entry_reset (E : Env P c lo H W) {o : Int} {e : Entry σ} (h : PartEntry P c H W N T o e) {q : Int} (hq : 0 ≤ q) :
    ∃ e' r, (entryOps P N).reset e q = .ok (e', r) ∧ PartEntry P c H W N T o e' := by
  cases e with
  | body e => exact h.elim
  | plain e =>
    obtain ⟨e', r, er, h', ho⟩ := StringTerminated.part_reset E h.1 hq
    refine ⟨.plain e', r, ?_, h', by rw [ho]; exact h.2⟩
    show (StringTerminated.reset P e q >>= _) = _
    rw [er]; rfl
  | base64 e =>
    obtain ⟨cc, L⟩ := h
    obtain ⟨e', r, er, L', _⟩ := BufferedStream.reset_any L hq
    refine ⟨.base64 e', r, ?_, cc, L'⟩
    show (BufferedStream.reset e q >>= _) = _
    rw [er]; rfl

theorem next_total (E : Env P c lo H W) (conv : List UInt8 → List UInt8 → List UInt8) (stale : Int) {fuel : Nat} (hN : 4 * c.length + 3 < N)
    (hT : 3 * c.length ≤ T) (hf : c.length + 1 < fuel) {n : Nat} {s : State σ} (h : Ok P c H W N T n s) :
    ∃ s', nextEntry P conv stale fuel s = .ok s' ∧ Ok P c H W N T (match s'.entry with | some _ => n + 1 | none => n) s' := by
  have hcount := ok_count h
  unfold nextEntry
  by_cases hs : s.status ≠ .ok
  · rw [if_pos hs]
    exact ⟨_, rfl, .closed hs (fun e z => by cases z) hcount⟩
  rw [if_neg hs]
  have hok : s.status = .ok := Classical.not_not.1 hs
  -- looking for the next part
  have hscan : ∀ (t : State σ) (k : Int), Start P c H W t → Short t.boundary → t.entry = none → t.boundary ≠ [] → k ≤ t.nextLine + 5 → 4 * ((n : Int) + 1) ≤ k →
      ∃ s', (scanBody P conv stale fuel fuel t >>= fun s => .ok (found s)) = .ok s' ∧ Ok P c H W N T (match s'.entry with | some _ => n + 1 | none => n) s' := by
    intro t k h1 h2 h3 h4 h5 h6
    have := h1.low
    obtain ⟨s', e, hh⟩ := scanBody_total E hN hT conv stale hf fuel t h1 h2 h3 (fun _ => ⟨h4, by omega⟩) (by omega)
    rw [e, Res.bind_ok]
    refine ⟨_, rfl, ?_⟩
    rcases hh with ⟨a1, a2⟩ | ⟨a1, a2, a3, en, o, a4, a5, a6, a7⟩
    · have e1 : (found s').entry = none := by simp [found, ensureFileName, a2]
      rw [e1]
      refine .closed ?_ (fun e z => ?_) hcount
      · simp [found, ensureFileName, a2]
      · rw [e1] at z; cases z
    · have e1 : (found s').entry = some en := by simp [found, ensureFileName, a4]
      rw [e1]
      refine .part e1 ?_ ?_ a5 (by dsimp only; omega) a7
      · simpa [found, ensureFileName, a4] using a2
      · simpa [found, ensureFileName, a4] using a3
  by_cases hb : s.boundary = []
  · rw [if_pos hb]
    cases h with
    | closed h1 _ _ => exact absurd hok h1
    | part _ h1 _ _ _ _ => exact absurd hb h1
    | fresh h1 h2 h3 h4 =>
      obtain ⟨e, er, hr⟩ := SubInputStream.rest_new E h3.input
      rw [er, Res.bind_ok]
      refine ⟨_, rfl, .closed (by simp) (fun e' z => ?_) (Or.inl (by dsimp only; omega))⟩
      simp only [Option.some.injEq] at z
      exact ⟨e, z.symm, hr⟩
  rw [if_neg hb]
  cases h with
  | closed h1 _ _ => exact absurd hok h1
  | fresh h1 h2 h3 h4 =>
    have e : leave P fuel s = .ok s := by
      unfold leave
      simp [h1]
    rw [e, Res.bind_ok, if_neg hs]
    have := h3.low
    exact hscan s 5 h3 h4 h1 hb (by omega) (by omega)
  | @part en o h1 h2 h3 h4 h5 h6 =>
    obtain ⟨s1, e, g1, g2, g3⟩ := leave_total E hf h1 h4
    rw [e, Res.bind_ok]
    by_cases hs1 : s1.status ≠ .ok
    · rw [if_pos hs1]
      refine ⟨s1, rfl, ?_⟩
      rw [g1]
      exact .closed hs1 (fun e z => by rw [g1] at z; cases z) hcount
    · rw [if_neg hs1]
      obtain ⟨y1, y2, y3⟩ := g3 (Classical.not_not.1 hs1)
      exact hscan s1 (o + 4) y2 (by rw [g2]; exact h3) g1 (by rw [g2]; exact hb) (by omega) (by omega)

theorem tame (E : Env P c lo H W) (conv : List UInt8 → List UInt8 → List UInt8) (stale : Int) {fuel : Nat} (hN : 4 * c.length + 3 < N)
    (hT : 3 * c.length ≤ T) (hf : c.length + 1 < fuel) : TameBy MildRead (ops P conv stale N fuel) (Ok P c H W N T) where
  next := by
    intro n p h
    obtain ⟨s', e, i⟩ := next_total E conv stale hN hT hf h
    refine ⟨s', e, ?_⟩
    cases he : s'.entry with
    | none => rw [show (ops P conv stale N fuel).entry s' = none from he]; rw [he] at i; exact i
    | some v => rw [show (ops P conv stale N fuel).entry s' = some v from he]; rw [he] at i; exact i
  read := by
    intro n s e h he mn mx hm
    have he : s.entry = some e := he
    cases h with
    | closed h1 h2 h3 =>
      obtain ⟨b, rfl, hr⟩ := h2 e he
      obtain ⟨b', k, d, er, hr'⟩ := SubInputStream.rest_read E hr hm.1 (by have := hm.2.1; omega) hm.2.2
      refine ⟨.body b', k, d, ?_, .closed h1 (fun x z => ?_) h3⟩
      · show (SubInputStream.read P b mn mx >>= _) = _
        rw [er]; rfl
      · simp only [ops, Option.some.injEq] at z
        exact ⟨b', z.symm, hr'⟩
    | fresh h1 => rw [h1] at he; cases he
    | part h1 h2 h3 h4 h5 h6 =>
      rw [h1] at he; cases he
      obtain ⟨e', k, d, er, h'⟩ := entry_read E h4 hm
      exact ⟨e', k, d, er, .part rfl h2 h3 h' h5 h6⟩
  skip := by
    intro n s e h he k hk
    have he : s.entry = some e := he
    cases h with
    | closed h1 h2 h3 =>
      obtain ⟨b, rfl, hr⟩ := h2 e he
      obtain ⟨b', r, er, hr'⟩ := SubInputStream.rest_skip E hr hk
      refine ⟨.body b', r, ?_, .closed h1 (fun x z => ?_) h3⟩
      · show (SubInputStream.skip P b k >>= _) = _
        rw [er]; rfl
      · simp only [ops, Option.some.injEq] at z
        exact ⟨b', z.symm, hr'⟩
    | fresh h1 => rw [h1] at he; cases he
    | part h1 h2 h3 h4 h5 h6 =>
      rw [h1] at he; cases he
      obtain ⟨e', r, er, h'⟩ := entry_skip E h4 hk
      exact ⟨e', r, er, .part rfl h2 h3 h' h5 h6⟩
  reset := by
    intro n s e h he q hq hq2
    have he : s.entry = some e := he
    cases h with
    | closed h1 h2 h3 =>
      obtain ⟨b, rfl, hr⟩ := h2 e he
      obtain ⟨b', r, er, hr'⟩ := SubInputStream.rest_reset E hr hq hq2
      refine ⟨.body b', r, ?_, .closed h1 (fun x z => ?_) h3⟩
      · show (SubInputStream.reset P b q >>= _) = _
        rw [er]; rfl
      · simp only [ops, Option.some.injEq] at z
        exact ⟨b', z.symm, hr'⟩
    | fresh h1 => rw [h1] at he; cases he
    | part h1 h2 h3 h4 h5 h6 =>
      rw [h1] at he; cases he
      obtain ⟨e', r, er, h'⟩ := entry_reset E h4 hq
      exact ⟨e', r, er, .part rfl h2 h3 h' h5 h6⟩

end Mail
end Strigi
