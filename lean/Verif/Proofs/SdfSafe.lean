import Verif.Proofs.Sdf
import Verif.Proofs.ZipSafe

/-!
# The reader of SD files on arbitrary bytes
-/

namespace Strigi

variable {σ : Type} {P : StreamOps σ UInt8} {V : View σ} {lo : Int} {H : σ → Prop}

namespace Sdf

theorem drain_total (R : Sturdy P lo H V) (hlo : lo ≤ 1) : ∀ (fuel : Nat) (e : SubInputStream σ),
    SubInputStream.Usable P V H e → 0 < fuel → (e.status = .ok → e.size - e.pos + 1 < fuel) →
    ∃ e', drain P fuel e = .ok e' ∧ SubInputStream.Usable P V H e' ∧ e'.offset = e.offset ∧ e'.size = e.size := by
  intro fuel
  induction fuel with
  | zero => intro e _ z; omega
  | succ fuel ih =>
    intro e u _ hf
    rw [drain]
    by_cases hs : e.status = .ok
    · rw [if_pos hs]
      have hf := hf hs
      have hle := u.le
      obtain ⟨e', n, d, er, u', z1, z2, _, _, _, g4, g5, _⟩ := SubInputStream.sub_read R hlo u (mn := 1) (mx := 0) (by omega) (by omega)
      rw [er, Res.bind_ok]
      dsimp only
      have key : e'.status = .ok → e.pos < e'.pos := by
        intro z
        by_cases hn : n < 1
        · exact absurd z (g4 hn).1
        · have h1 := (g5 (by omega)).2.2.2.2
          have h2 := (u.exact (by rw [hs]; simp)).2
          have h3 := (u'.exact (by rw [z]; simp)).2
          omega
      obtain ⟨e'', g1, g2, g3, g4⟩ := ih e' u' (by omega) (fun z => by have := key z; omega)
      exact ⟨e'', g1, g2, by omega, by omega⟩
    · rw [if_neg hs]
      exact ⟨e, rfl, u, rfl, rfl⟩

theorem eat_total (R : Sturdy P lo H V) (hlo : lo ≤ 1) : ∀ (fuel : Nat) (s : σ) (d : List UInt8), H s → 0 < fuel →
    (P.status s = .ok → d ≠ [] ∧ V.total - P.position s + 1 < fuel) →
    ∃ s', eat P fuel s d = .ok s' ∧ H s' ∧ (P.status s' ≠ .error → P.status s ≠ .error ∧ P.position s ≤ P.position s') := by
  intro fuel
  induction fuel with
  | zero => intro s d _ z; omega
  | succ fuel ih =>
    intro s d h _ hf
    rw [eat]
    by_cases hs : P.status s = .ok
    · rw [if_pos hs]
      obtain ⟨hd, hf⟩ := hf hs
      cases d with
      | nil => exact absurd rfl hd
      | cons x d =>
      rw [show aget (x :: d) 0 = .ok x from rfl, Res.bind_ok]
      by_cases hx : x = 10 ∨ x = 13
      · rw [if_pos hx]
        obtain ⟨s', n, d', e1, hH, _, hshort, hdata, hmono⟩ := R.fetch h (mn := 1) (mx := 1) (by omega) (by omega)
        replace hshort := hshort (by omega) (by omega)
        rw [e1, Res.bind_ok]
        dsimp only
        have hr := R.pos_range h (by rw [hs]; simp)
        obtain ⟨s'', g1, g2, g3⟩ := ih s' d' hH (by omega) (fun z => by
          have hn : 1 ≤ n := by
            by_cases n1 : n < 1
            · exact absurd z (hshort n1).1
            · omega
          obtain ⟨_, _, x4, _, x5⟩ := hdata (by omega)
          refine ⟨fun w => by subst w; simp at x4; omega, by omega⟩)
        refine ⟨s'', g1, g2, fun z => ⟨by rw [hs]; simp, ?_⟩⟩
        obtain ⟨y1, y2⟩ := g3 z
        have := (hmono y1).2
        omega
      · rw [if_neg hx]
        exact ⟨s, rfl, h, fun z => ⟨z, by omega⟩⟩
    · rw [if_neg hs]
      exact ⟨s, rfl, h, fun z => ⟨z, by omega⟩⟩

theorem eatDelimiter_total (R : Sturdy P lo H V) (hlo : lo ≤ 1) (fuel : Nat) {s : σ} (h : H s) (hf : V.total + 1 < fuel) :
    ∃ s', eatDelimiter P fuel s = .ok s' ∧ H s' ∧
      (P.status s' ≠ .error → P.status s ≠ .error ∧ P.position s ≤ P.position s') ∧
      (P.status s' = .ok → P.position s + 4 ≤ P.position s') := by
  unfold eatDelimiter
  by_cases hs : P.status s = .ok
  · rw [if_pos hs]
    obtain ⟨s', n, d, e1, hH, _, hshort, hdata, hmono⟩ := R.fetch h (mn := 4) (mx := 4) (by omega) (by omega)
    replace hshort := hshort (by omega) (by omega)
    rw [e1, Res.bind_ok]
    dsimp only
    by_cases hd : n = 4 ∧ d.take 4 = delimiter
    · rw [if_pos hd]
      obtain ⟨x1, x2, x4, x3, x5⟩ := hdata (by omega)
      obtain ⟨t, m, d', e2, hT, _, tshort, tdata, tmono⟩ := R.fetch hH (mn := 1) (mx := 1) (by omega) (by omega)
      replace tshort := tshort (by omega) (by omega)
      rw [e2, Res.bind_ok]
      dsimp only
      have hr := R.pos_range hH x2
      have hr0 := R.pos_range h x1
      obtain ⟨t', g1, g2, g3⟩ := eat_total R hlo fuel t d' hT (by omega) (fun z => by
        have hn : 1 ≤ m := by
          by_cases n1 : m < 1
          · exact absurd z (tshort n1).1
          · omega
        obtain ⟨_, _, y4, _, y5⟩ := tdata (by omega)
        refine ⟨fun w => by subst w; simp at y4; omega, by omega⟩)
      refine ⟨t', g1, g2, fun z => ⟨x1, ?_⟩, fun z => ?_⟩
      · obtain ⟨y1, y2⟩ := g3 z
        have := (tmono y1).2
        omega
      · obtain ⟨y1, y2⟩ := g3 (by rw [z]; simp)
        have := (tmono y1).2
        omega
    · rw [if_neg hd]
      refine ⟨s', rfl, hH, hmono, fun z => ?_⟩
      by_cases n1 : n < 4
      · exact absurd z (hshort n1).1
      · have := (hdata (by omega)).2.2.2.2
        omega
  · rw [if_neg hs]
    exact ⟨s, rfl, h, fun z => ⟨z, by omega⟩, fun z => absurd z hs⟩

theorem scan_total (R : Sturdy P lo H V) (hlo : lo ≤ 1) : ∀ (fuel : Nat) (s : σ) (total : Int), H s → 0 ≤ total → 0 < fuel →
    (P.status s = .ok → V.total - P.position s + 1 < fuel) →
    ∃ s' len, scan P fuel s total = .ok (s', len) ∧ H s' ∧ 0 ≤ len ∧
      (P.status s' ≠ .error → P.status s ≠ .error ∧ P.position s ≤ P.position s') ∧
      (0 < len → P.status s = .ok ∧ (P.status s' ≠ .error → P.position s + (len - total) + 4 ≤ P.position s')) := by
  intro fuel
  induction fuel with
  | zero => intro s total _ _ z; omega
  | succ fuel ih =>
    intro s total h ht _ hf
    rw [scan]
    by_cases hs : P.status s = .ok
    · rw [if_pos hs]
      have hf := hf hs
      obtain ⟨s', n, d, e1, hH, _, hshort, hdata, hmono⟩ := R.fetch h (mn := 1024) (mx := 0) (by omega) (by omega)
      replace hshort := hshort (by omega) (by omega)
      rw [e1, Res.bind_ok]
      dsimp only
      have hr0 := R.pos_range h (by rw [hs]; simp)
      by_cases hn : n > 0
      · rw [if_pos hn]
        obtain ⟨x1, x2, x4, x3, x5⟩ := hdata (by omega)
        have hr := R.pos_range hH x2
        rw [slice_zero (show n = (d.length : Int) by omega)]
        obtain ⟨r, er, hfirst⟩ := find_delimiter d
        rw [er, Res.bind_ok]
        cases r with
        | none =>
          dsimp only
          obtain ⟨t, len, g1, g2, g3, g4, g5⟩ := ih s' (total + n) hH (by omega) (by omega) (fun z => by
            by_cases n1 : n < 1024
            · exact absurd z (hshort n1).1
            · omega)
          refine ⟨t, len, g1, g2, g3, fun z => ⟨x1, ?_⟩, fun z => ⟨hs, ?_⟩⟩
          · have := (g4 z).2; omega
          · intro w
            have := (g5 z).2 w; omega
        | some p =>
          dsimp only
          obtain ⟨hp0, ⟨pre, post, ho, hpre⟩, _⟩ := hfirst
          have hl := congrArg List.length ho
          simp [delimiter] at hl
          exact ⟨s', _, rfl, hH, by omega, fun _ => ⟨x1, by omega⟩, fun _ => ⟨hs, fun _ => by omega⟩⟩
      · rw [if_neg hn]
        obtain ⟨t, len, g1, g2, g3, g4, g5⟩ := ih s' total hH ht (by omega) (fun z => absurd z (hshort (by omega)).1)
        refine ⟨t, len, g1, g2, g3, fun z => ⟨by rw [hs]; simp, ?_⟩, fun z => ?_⟩
        · obtain ⟨y1, y2⟩ := g4 z
          have := (hmono y1).2; omega
        · exact absurd (g5 z).1 (hshort (by omega)).1
    · rw [if_neg hs]
      exact ⟨s, 0, rfl, h, by omega, fun z => ⟨z, by omega⟩, fun z => by omega⟩

/-- The state when the next entry is looked for: at least `b` bytes of the input are behind it.  If `sharp`, nothing but the
last position is final (then the status of the reader is that of the input). -/
structure Before (P : StreamOps σ UInt8) (V : View σ) (H : σ → Prop) (sharp : Prop) (b : Int) (s : State σ) : Prop where
  input : H s.input
  status : sharp → s.status = .ok ∨ P.status s.input = .error ∨ P.position s.input = V.total
  pos : P.status s.input = .ok → b ≤ P.position s.input

/-- The state after `nextEntry`. -/
structure After (P : StreamOps σ UInt8) (V : View σ) (H : σ → Prop) (sharp : Prop) (b : Int) (s : State σ) : Prop where
  none : s.entry = none → s.status ≠ .ok ∧ H s.input
  some : ∀ e, s.entry = some e → (sharp → s.status = .ok) ∧ SubInputStream.Usable P V H e ∧ s.previous = e.offset + e.size ∧
    b ≤ e.offset ∧ b + 5 ≤ V.total ∧ e.size + 4 ≤ V.total ∧ V.allowed s.previous

variable {sharp : Prop}

theorem next_total (R : Sturdy P lo H V) (hlo : lo ≤ 1) (hv : V.back ∨ ∀ q, V.allowed q) (hc : V.total < 2 ^ 31) (fuel : Nat) (hf : V.total + 1 < fuel) {b : Int} {s : State σ}
    (h : Before P V H sharp b s) : ∃ s', next P fuel s = .ok s' ∧ After P V H sharp b s' := by
  unfold next
  obtain ⟨i, len, e1, hH, h0, hmono, hpos⟩ := scan_total R hlo fuel s.input 0 h.input (by omega) (by omega)
    (fun z => by have := (R.pos_range h.input (by rw [z]; simp)).1; omega)
  rw [e1, Res.bind_ok]
  dsimp only
  by_cases he : P.status i = .error
  · rw [if_pos he]
    exact ⟨_, rfl, fun _ => ⟨by simp, hH⟩, fun e z => by cases z⟩
  rw [if_neg he]
  obtain ⟨x1, x2⟩ := hmono he
  have hr := R.pos_range h.input x1
  obtain ⟨w1, w2⟩ := R.sync h.input x1
  obtain ⟨w3, w4⟩ := R.sync hH he
  obtain ⟨i', r, e2, hH', _, hok⟩ := R.reset hH (P.position s.input) hr.1 (Or.inl (by rw [w2]; exact (R.range h.input w1).2.2.2))
  obtain ⟨y1, y2, y3, y4⟩ := hok w3
  rw [e2, Res.bind_ok]
  dsimp only
  by_cases hl : len > 0
  · rw [if_pos hl]
    obtain ⟨z1, z2⟩ := hpos (by omega)
    have z2 := z2 he
    have hb := h.pos z1
    have hri := R.pos_range hH he
    obtain ⟨e, e3, u, hsz, hoff, _⟩ := SubInputStream.usable_new R hH' y1 (len := len) (by omega) (by omega)
    rw [e3, Res.bind_ok]
    refine ⟨_, rfl, (fun z => by cases z), fun e' z => ?_⟩
    cases z
    refine ⟨?_, u, by simp only; omega, by omega, by omega, by omega, ?_⟩
    · intro hsh
      simp only
      rcases h.status hsh with g | g | g
      · exact g
      · rw [z1] at g; cases g
      · omega
    · simp only
      rcases hv with hv | hv
      · have := y4 hv (by omega)
        refine R.below ?_ (R.range hH w3).2.2.2
        omega
      · exact hv _
  · rw [if_neg hl]
    exact ⟨_, rfl, fun _ => ⟨by simp, hH'⟩, fun e z => by cases z⟩

/-- The entry as `leave` finds it: its input is anywhere in it. -/
theorem leave_total (R : Sturdy P lo H V) (hlo : lo ≤ 1) (hsharp : sharp → ∀ {s : σ}, H s → V.fin s → ¬ V.dead s → V.loc s = V.total)
    (hc : V.total < 2 ^ 31) (fuel : Nat) (hf : V.total + 1 < fuel) {s : State σ}
    {e : SubInputStream σ} (he : s.entry = some e) (hs : s.status = .ok) (hH : H e.parent) (ho : 0 ≤ e.offset) (hz : 0 ≤ e.size)
    (hzc : e.size ≤ V.total) (hsync : ¬ V.dead e.parent → e.offset ≤ V.loc e.parent ∧ V.loc e.parent ≤ e.offset + e.size)
    (hp : s.previous = e.offset + e.size) (ha : V.allowed s.previous) :
    ∃ s', leave P fuel s = .ok s' ∧ Before P V H sharp (e.offset + 4) s' := by
  unfold leave
  rw [he]
  dsimp only
  -- to the beginning of the entry
  have key : ∃ e1 r, SubInputStream.reset P e 0 = .ok (e1, r) ∧ SubInputStream.Usable P V H e1 ∧ e1.offset = e.offset ∧ e1.size = e.size := by
    unfold SubInputStream.reset
    rw [Res.assert_of (by simp), Res.bind_ok]
    obtain ⟨s', r, er, hH', hdead, hok⟩ := R.reset hH (0 + e.offset) (by omega) (Or.inl (R.below (by omega) ha))
    rw [er, Res.bind_ok]
    dsimp only
    by_cases hd : V.dead e.parent
    · obtain ⟨z1, z2⟩ := hdead hd
      rw [if_pos (by omega)]
      exact ⟨_, _, rfl, ⟨hH', ho, hz, by simp only; omega, by simp only; omega, fun z => absurd z1 z, fun z => by simp at z,
        fun _ => ⟨R.ended hH' (R.dead_error hH' z1), by simp only; omega⟩⟩, rfl, rfl⟩
    · obtain ⟨g1, g2, g3, _⟩ := hok hd
      obtain ⟨a1, a2⟩ := hsync hd
      have hr := R.range hH hd
      obtain ⟨b1, b2⟩ := R.sync hH' g1
      rw [if_neg (by omega)]
      refine ⟨_, _, rfl, ⟨hH', ho, hz, by simp only; omega, by simp only; omega, fun _ => ?_, fun _ => ⟨g1, by simp only; omega⟩,
        fun z => absurd z g1⟩, rfl, rfl⟩
      simp only
      exact ⟨by omega, by omega, by omega, Or.inl (by omega)⟩
  obtain ⟨e1, r, er, u1, o1, z1⟩ := key
  rw [er, Res.bind_ok]
  dsimp only
  obtain ⟨e2, ed, u2, o2, z2⟩ := drain_total R hlo fuel e1 u1 (by omega) (fun z => by
    obtain ⟨w1, w2⟩ := u1.ok R (by rw [z]; simp)
    have := u1.pos R w1
    omega)
  rw [ed, Res.bind_ok]
  obtain ⟨i, r', e3, hI, hdead, hok⟩ := R.reset u2.parent s.previous (by omega) (Or.inl ha)
  rw [e3, Res.bind_ok]
  obtain ⟨i', e4, hI', hmono, hadv⟩ := eatDelimiter_total R hlo fuel hI hf
  rw [e4, Res.bind_ok]
  have hpre : P.status i ≠ .error → ¬ V.dead e2.parent := fun z w => (R.sync hI z).1 (hdead w).1
  refine ⟨_, rfl, hI', fun hsh => ?_, ?_⟩
  · simp only
    by_cases g : e2.status = .error
    · right
      by_cases w : P.status i' = .error
      · exact Or.inl w
      · right
        obtain ⟨w1, w2⟩ := hmono w
        have w3 := hpre w1
        obtain ⟨v1, v2, v3, _⟩ := hok w3
        have := hsharp hsh u2.parent (u2.failed g).1 w3
        have := R.pos_range hI' w
        have := R.pos_range hI w1
        obtain ⟨q1, q2, _⟩ := u2.sync w3
        omega
    · rw [if_neg g]
      exact Or.inl hs
  · intro w
    simp only at w ⊢
    have w0 := hadv w
    obtain ⟨w1, w2⟩ := hmono (by rw [w]; simp)
    have w3 := hpre w1
    obtain ⟨v1, v2, v3, _⟩ := hok w3
    have := R.range u2.parent w3
    obtain ⟨q1, q2, _⟩ := u2.sync w3
    omega

/-- What holds between calls, when `n` entries were seen. -/
structure Ok (P : StreamOps σ UInt8) (V : View σ) (H : σ → Prop) (sharp : Prop) (n : Nat) (s : State σ) : Prop where
  count : sharp → 4 * n ≤ V.total
  none : s.entry = none → H s.input ∧ (s.status = .ok → n = 0 ∧ s.previous = 0)
  some : ∀ e, s.entry = some e → (sharp → s.status = .ok) ∧ SubInputStream.Usable P V H e ∧ s.previous = e.offset + e.size ∧
    (sharp → 4 * (n : Int) ≤ e.offset + 4) ∧ e.size + 4 ≤ V.total ∧ V.allowed s.previous

theorem tame (R : Sturdy P lo H V) (hlo : lo ≤ 1) (hv : V.back ∨ ∀ q, V.allowed q) (hv0 : V.allowed 0)
    (hsharp : sharp → ∀ {s : σ}, H s → V.fin s → ¬ V.dead s → V.loc s = V.total)
    (hc : V.total < 2 ^ 31) (fuel : Nat) (hf : V.total + 1 < fuel) :
    Tame P V H (ops P fuel) (Ok P V H sharp) where
  stream := rfl
  entry h he := (h.some _ he).2.1
  set := by
    intro n p e e' h he u hz ho
    obtain ⟨h1, h2, h3, h4, h5, h6⟩ := h.some e he
    refine ⟨h.count, (fun z => by cases z), fun e'' z => ?_⟩
    cases z
    exact ⟨h1, u, by show p.previous = _; omega, fun w => by have := h4 w; omega, by omega, h6⟩
  next := by
    intro n s h
    show ∃ p', nextEntry P fuel s = .ok p' ∧ _
    unfold nextEntry
    by_cases hs : s.status = .ok
    · rw [if_neg (by simp [hs])]
      have fin : ∀ {b : Int} {s1 s2 : State σ}, (sharp → 4 * (n : Int) ≤ b) → After P V H sharp b s2 →
          Ok P V H sharp (match (ops P fuel).entry s2 with | .some _ => n + 1 | .none => n) s2 := by
        intro b s1 s2 hb ha
        show Ok P V H sharp (match s2.entry with | .some _ => n + 1 | .none => n) s2
        cases he : s2.entry with
        | none => exact ⟨h.count, fun _ => ⟨(ha.none he).2, fun z => absurd z (ha.none he).1⟩, fun e z => by rw [he] at z; cases z⟩
        | some e =>
          obtain ⟨a1, a2, a3, a4, a5, a6, a7⟩ := ha.some e he
          refine ⟨fun w => by have := hb w; dsimp only; omega, (fun z => by rw [he] at z; cases z), fun e' z => ?_⟩
          rw [he] at z; cases z
          exact ⟨a1, a2, a3, fun w => by have := hb w; push_cast; omega, a6, a7⟩
      cases he : s.entry with
      | none =>
        obtain ⟨hH, hn⟩ := h.none he
        obtain ⟨n0, hp⟩ := hn hs
        unfold rewind
        rw [he]
        dsimp only
        rw [hp]
        obtain ⟨i, r, e1, hI, _, _⟩ := R.reset hH 0 (by omega) (Or.inl hv0)
        rw [e1, Res.bind_ok, Res.bind_ok]
        dsimp only
        rw [show leave P fuel { s with input := i, entry := .none, previous := 0 } = .ok { s with input := i, entry := .none, previous := 0 } from rfl, Res.bind_ok]
        obtain ⟨s', e2, ha⟩ := next_total R hlo hv hc fuel hf (b := 0) (sharp := sharp) (s := { s with input := i, entry := .none, previous := 0 })
          ⟨hI, fun _ => Or.inl hs, fun z => (R.pos_range hI (by rw [show P.status i = .ok from z]; simp)).1⟩
        exact ⟨s', e2, fin (s1 := s) (fun _ => by omega) ha⟩
      | some e =>
        obtain ⟨_, u, hp, hn, hzc, ha0⟩ := h.some e he
        have ho := u.off; have hz := u.size
        unfold rewind
        rw [he]
        dsimp only
        obtain ⟨i, r, e1, hI, hdead, hok⟩ := R.reset u.parent s.previous (by omega) (Or.inl ha0)
        rw [e1, Res.bind_ok, Res.bind_ok]
        dsimp only
        obtain ⟨s1, e2, hb⟩ := leave_total R hlo hsharp hc fuel hf (s := { s with entry := .some { e with parent := i } }) (e := { e with parent := i })
          rfl hs hI ho hz (show e.size ≤ V.total by omega) (fun w => by
            simp only at w ⊢
            have w3 : ¬ V.dead e.parent := fun z => w (hdead z).1
            obtain ⟨v1, v2, v3, _⟩ := hok w3
            obtain ⟨q1, q2, _⟩ := u.sync w3
            have := (R.sync hI v1).2
            omega) hp ha0
        rw [e2, Res.bind_ok]
        obtain ⟨s', e3, ha⟩ := next_total R hlo hv hc fuel hf hb
        exact ⟨s', e3, fin (s1 := s) (fun w => by have := hn w; simp only; omega) ha⟩
    · rw [if_pos hs]
      refine ⟨s, rfl, ?_⟩
      show Ok P V H sharp (match s.entry with | .some _ => n + 1 | .none => n) s
      cases he : s.entry with
      | none => exact h
      | some e =>
        refine ⟨fun w => absurd ((h.some e he).1 w) hs, (fun z => by rw [he] at z; cases z), fun e' z => ?_⟩
        rw [he] at z; cases z
        obtain ⟨a1, a2, a3, a4, a5, a6⟩ := h.some e he
        exact ⟨a1, a2, a3, fun w => absurd (a1 w) hs, a5, a6⟩

theorem new_ok {input : σ} (h : H input) : Ok P V H sharp 0 (new input) :=
  ⟨fun _ => by omega, fun _ => ⟨h, fun _ => ⟨rfl, rfl⟩⟩, fun e z => by cases z⟩

end Sdf
end Strigi
