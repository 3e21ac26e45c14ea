import Verif.Proofs.SdfSafe
import Verif.Props.Kmp
import Verif.Model.StringTerminated

/-!
# Parts that end with a text, on arbitrary bytes
-/

namespace Strigi

variable {σ : Type} {P : StreamOps σ UInt8} {c : List UInt8} {lo : Int} {H : σ → Prop} {W : σ → Int → Int → Prop}

/-- An input that never fails. -/
structure Env (P : StreamOps σ UInt8) (c : List UInt8) (lo : Int) (H : σ → Prop) (W : σ → Int → Int → Prop) : Prop where
  robust : Robust P c lo H
  low : lo ≤ 1
  calm : ∀ s, H s → P.status s ≠ .error
  rewinds : Rewinds P H W
  small : c.length < 2 ^ 31

namespace Env

variable (E : Env P c lo H W)
include E

theorem range {s : σ} (h : H s) : 0 ≤ P.position s ∧ P.position s ≤ c.length := E.robust.range h (E.calm s h)

/-- Any `read` with a positive minimum. -/
theorem any {s : σ} (h : H s) {mn mx : Int} (h1 : 1 ≤ mn) (h2 : mn < 2 ^ 31) : ∃ s' n d, P.read s mn mx = .ok (s', n, d) ∧ H s' ∧
    (mn ≤ mx → n ≤ mx) ∧ (0 ≤ n → d = slice c (P.position s) n ∧ (d.length : Int) = n ∧ P.position s' = P.position s + n) ∧
    (n < 0 → P.position s' = P.position s) ∧ W s' (P.position s) (P.position s') := by
  obtain ⟨s', n, d, e, h', _, hlim, hdata, hneg⟩ := E.robust.read h mn mx (by have := E.low; omega) h2
  refine ⟨s', n, d, e, h', fun z => (hlim h1 z).1, ?_, fun z => (hneg z).resolve_left (E.calm s' h'), E.rewinds.read h h1 e⟩
  intro n0
  obtain ⟨_, g2, g3, _⟩ := hdata n0
  have r1 := E.range h'
  have r2 := E.range h
  exact ⟨g2, by rw [g2, slice_length_exact r2.1 n0 (by omega)], g3⟩

/-- A `read` whose maximum is not below the minimum. -/
theorem fetch {s : σ} (h : H s) {mn mx : Int} (h1 : 1 ≤ mn) (h2 : mn < 2 ^ 31) (h3 : mn ≤ mx ∨ mx < 1) :
    ∃ s' n d, P.read s mn mx = .ok (s', n, d) ∧ H s' ∧ (n < mn → P.position s' = c.length) ∧
      (mn ≤ mx → n ≤ mx) ∧ (0 ≤ n → d = slice c (P.position s) n ∧ (d.length : Int) = n ∧ P.position s' = P.position s + n) ∧
      (n < 0 → P.position s' = P.position s) ∧ W s' (P.position s) (P.position s') := by
  obtain ⟨s', n, d, e, h', g⟩ := E.any h (mx := mx) h1 h2
  exact ⟨s', n, d, e, h', fun z => ((E.robust.short h h1 h2 h3 e z).2).resolve_left (E.calm s' h'), g⟩

theorem seek {s : σ} (h : H s) {q : Int} (hq : 0 ≤ q) : ∃ s' r, P.reset s q = .ok (s', r) ∧ H s' ∧ P.position s' = r ∧
    (r = q ∨ r = P.position s ∨ (c.length < q ∧ r = c.length)) := by
  obtain ⟨s', r, e, h', _, g⟩ := E.robust.reset h q hq
  obtain ⟨_, g2, g3⟩ := g (E.calm s h)
  exact ⟨s', r, e, h', g2, g3⟩

theorem back {s : σ} (h : H s) {a b q : Int} (w : W s a b) (hq : 0 ≤ q) (h1 : a ≤ q) (h2 : q ≤ b) :
    ∃ s', P.reset s q = .ok (s', q) ∧ H s' ∧ P.position s' = q ∧ W s' a b := by
  obtain ⟨s', r, e, h', g, _⟩ := E.seek h hq
  obtain ⟨rfl, w'⟩ := E.rewinds.reset h w h1 h2 e
  exact ⟨s', e, h', g, w'⟩

end Env

namespace StringTerminated

/-- What holds for a part, whatever is done with it. -/
structure PartOk (P : StreamOps σ UInt8) (c : List UInt8) (H : σ → Prop) (W : σ → Int → Int → Prop) (e : StringTerminated σ) : Prop where
  parent : H e.parent
  off : 1 ≤ e.offset
  at_ : e.offset ≤ P.position e.parent
  query : e.searcher.query ≠ [] ∧ e.searcher.query.length ≤ 2 ^ 20 ∧ Kmp.Built e.searcher.query e.searcher
  far : 0 ≤ e.furthest ∧ e.furthest ≤ c.length
  size : -1 ≤ e.size ∧ e.size ≤ c.length - e.offset
  sync : e.status = .ok → P.position e.parent = e.offset + e.pos
  eof : e.status = .eof → P.position e.parent = c.length ∨ P.position e.parent = e.offset + e.size ∨
    ∃ a b, W e.parent a b ∧ a ≤ e.offset + e.size ∧ e.offset + e.size ≤ b

theorem part_new (E : Env P c lo H W) {s : σ} (h : H s) (hp : 1 ≤ P.position s) {q : List UInt8} (hq : q ≠ []) (hl : q.length ≤ 2 ^ 20) :
    ∃ e, StringTerminated.new P s q = .ok e ∧ PartOk P c H W e ∧ e.status = .ok ∧ e.offset = P.position s := by
  obtain ⟨k, e, hk⟩ := Kmp.setQuery_spec hq
  have hkq : k.query = q := hk.1
  have hr := E.range h
  refine ⟨⟨s, k, P.position s, 0, 0, -1, .ok⟩, by unfold StringTerminated.new; rw [e]; rfl, ⟨h, hp, Int.le_refl _, ?_, by simp only; omega,
    by simp only; omega, fun _ => by simp only; omega, fun z => by cases z⟩, rfl, rfl⟩
  exact ⟨by simpa [hkq] using hq, by simpa [hkq] using hl, by simpa [hkq] using hk⟩

/-- The `read` of a part. -/
theorem part_read (E : Env P c lo H W) {e : StringTerminated σ} (h : PartOk P c H W e) {mn mx : Int} (h1 : 1 ≤ mn) (h2 : mn ≤ 2 ^ 30)
    (h3 : mx = 0 ∨ mn ≤ mx) : ∃ e' n d, read P e mn mx = .ok (e', n, d) ∧ PartOk P c H W e' ∧ e'.offset = e.offset ∧
      (mn ≤ mx → n ≤ mx) ∧ (0 ≤ n → (d.length : Int) = n) ∧
      (0 < n → e.status = .ok ∧ P.position e.parent + n ≤ c.length ∧ (e'.status = .ok → P.position e'.parent = P.position e.parent + n)) ∧
      (e'.status = .ok → 0 < n) := by
  unfold StringTerminated.read
  by_cases s1 : e.status = .eof
  · rw [if_pos s1]
    exact ⟨e, -1, [], rfl, h, rfl, fun _ => by omega, fun z => by omega, fun z => by omega, fun z => by rw [s1] at z; cases z⟩
  rw [if_neg s1]
  by_cases s2 : e.status = .error
  · rw [if_pos s2]
    exact ⟨e, -2, [], rfl, h, rfl, fun _ => by omega, fun z => by omega, fun z => by omega, fun z => by rw [s2] at z; cases z⟩
  rw [if_neg s2]
  have hs : e.status = .ok := by cases hst : e.status <;> simp_all
  have hsync := h.sync hs
  have hr := E.range h.parent
  have hfar := h.far
  have hsm := E.small
  have hoff := h.off
  have hat := h.at_
  have hsz := h.size
  dsimp only
  rw [narrow32_of_range (show -(2 ^ 31 : Int) ≤ e.furthest - P.position e.parent by omega) (by omega)]
  by_cases hagain : mn ≤ e.furthest - P.position e.parent
  · rw [if_pos hagain]
    unfold readAgain
    obtain ⟨x, hx⟩ : ∃ x : Int, x = (if mx ≤ 0 ∨ mx > e.furthest - P.position e.parent then e.furthest - P.position e.parent else mx) := ⟨_, rfl⟩
    dsimp only
    rw [← hx]
    have hxx : mn ≤ x ∧ (mn ≤ mx → x ≤ mx) := by split at hx <;> omega
    obtain ⟨s', n, d, er, h', hshort, hlim, hdata, hneg, hw⟩ := E.fetch h.parent (mx := x) h1 (by omega) (Or.inl hxx.1)
    rw [er, Res.bind_ok]
    dsimp only
    have hn : mn ≤ n := by
      by_cases z : n < mn
      · have a1 := hshort z
        by_cases n0 : 0 ≤ n
        · have := (hdata n0).2.2; omega
        · have := hneg (by omega); omega
      · omega
    obtain ⟨g1, g2, g3⟩ := hdata (by omega)
    have hr' := E.range h'
    have hnx := hlim hxx.1
    rw [Res.assert_of (by simp; omega), Res.bind_ok, if_pos (by omega)]
    refine ⟨_, n, d, rfl, ⟨h', h.off, by simp only; omega, h.query, h.far, h.size, fun _ => by simp only; omega, ?_⟩, rfl, fun z => by have := hxx.2 z; omega,
      fun _ => g2, fun _ => ⟨hs, by omega, fun _ => by simp only; omega⟩, fun _ => by omega⟩
    intro z
    simp only at z ⊢
    by_cases hz : e.pos + n = e.size
    · exact Or.inr (Or.inl (by omega))
    · rw [if_neg hz, hs] at z; cases z
  rw [if_neg hagain]
  obtain ⟨q1, q2, q3⟩ := h.query
  have q0 : 0 < e.searcher.query.length := List.length_pos_iff.mpr q1
  obtain ⟨tl, htl⟩ : ∃ tl : Int, tl = (e.searcher.query.length : Int) := ⟨_, rfl⟩
  rw [← htl, if_neg (show ¬ mn = 0 by omega)]
  obtain ⟨x, hx⟩ : ∃ x : Int, x = (if mx > 0 ∧ mx < mn + tl then mn + tl else mx) := ⟨_, rfl⟩
  rw [← hx]
  have hxx : mn + tl ≤ x ∨ x < 1 := by split at hx <;> omega
  have hxm : mx ≠ 0 → x = mn + tl ∨ x = mx := by intro _; split at hx <;> omega
  obtain ⟨s', n, d, er, h', hshort, hlim, hdata, hneg, hw⟩ := E.fetch h.parent (mn := mn + tl) (mx := x) (by omega) (by omega) hxx
  rw [er, Res.bind_ok]
  dsimp only
  by_cases n1 : n = -1
  · rw [if_pos n1]
    have := hneg (by omega)
    have := hshort (by omega)
    refine ⟨_, n, d, rfl, ⟨h', h.off, by simp only; omega, h.query, h.far, h.size, (fun z => by cases z), fun _ => Or.inl (by simp only; omega)⟩, rfl,
      fun _ => by omega, fun z => by omega, fun z => by omega, fun z => by cases z⟩
  rw [if_neg n1]
  by_cases n2 : n < -1
  · rw [if_pos n2]
    have := hneg (by omega)
    refine ⟨_, n, d, rfl, ⟨h', h.off, by simp only; omega, h.query, h.far, h.size, (fun z => by cases z), fun z => by cases z⟩, rfl,
      fun _ => by omega, fun z => by omega, fun z => by omega, fun z => by cases z⟩
  rw [if_neg n2]
  obtain ⟨g1, g2, g3⟩ := hdata (by omega)
  have hr' := E.range h'
  obtain ⟨r, es, hocc, _⟩ := Props.search_spec (hay := d) q1 q3
  rw [es, Res.bind_ok]
  cases r with
  | some k =>
    obtain ⟨k0, k1, _⟩ := hocc k rfl
    dsimp only
    obtain ⟨t, et, ht, hpt, hwt⟩ := E.back h' hw (q := P.position e.parent + k + tl) (by omega) (by omega) (by omega)
    rw [et, Res.bind_ok]
    dsimp only
    unfold finish
    dsimp only
    refine ⟨_, k, _, rfl, ⟨ht, h.off, by simp only; omega, h.query, h.far, ?_, (fun z => by cases z), fun _ => Or.inr (Or.inr ⟨_, _, hwt, ?_⟩)⟩, rfl,
      ?_, ?_, fun _ => ⟨hs, by omega, fun z => by cases z⟩, fun z => by cases z⟩
    · simp only [if_true]
      split <;> omega
    · simp only [if_true]
      split <;> omega
    · intro z
      have hxe := hxm (by omega)
      have hnx := hlim (by omega)
      omega
    · intro _
      rw [List.length_take]
      omega
  | none =>
    dsimp only
    by_cases hfull : n ≥ mn + tl
    · rw [if_pos hfull]
      obtain ⟨t, et, ht, hpt, hwt⟩ := E.back h' hw (q := P.position e.parent + (n - tl)) (by omega) (by omega) (by omega)
      rw [et, Res.bind_ok]
      dsimp only
      unfold finish
      dsimp only
      rw [hs, if_pos (show n - tl > 0 by omega), if_neg (show ¬ (Status.ok = Status.eof) by decide)]
      refine ⟨_, n - tl, _, rfl, ⟨ht, h.off, by simp only; omega, h.query, by simp only; omega, h.size, fun _ => by simp only; omega,
        fun z => by cases z⟩, rfl, ?_, ?_, fun _ => ⟨rfl, by omega, fun _ => by simp only; omega⟩, fun _ => by omega⟩
      · intro z
        have hxe := hxm (by omega)
        have hnx := hlim (by omega)
        omega
      · intro _
        rw [List.length_take]
        omega
    rw [if_neg hfull]
    have hend := hshort (by omega)
    by_cases hmax : mx ≠ 0 ∧ n > mx
    · rw [if_pos hmax]
      obtain ⟨t, et, ht, hpt, hwt⟩ := E.back h' hw (q := P.position e.parent + mx) (by omega) (by omega) (by omega)
      rw [et, Res.bind_ok]
      dsimp only
      unfold finish
      dsimp only
      rw [hs, if_pos (show mx > 0 by omega), if_neg (show ¬ (Status.ok = Status.eof) by decide)]
      refine ⟨_, mx, _, rfl, ⟨ht, h.off, by simp only; omega, h.query, by simp only; omega, h.size, fun _ => by simp only; omega,
        fun z => by cases z⟩, rfl, fun _ => by omega, ?_, fun _ => ⟨rfl, by omega, fun _ => by simp only; omega⟩, fun _ => by omega⟩
      intro _
      rw [List.length_take]
      omega
    · rw [if_neg hmax]
      unfold finish
      dsimp only
      refine ⟨_, n, _, rfl, ⟨h', h.off, by simp only; omega, h.query, h.far, ?_, (fun z => by cases z), fun _ => Or.inl (by simpa using hend)⟩, rfl,
        ?_, ?_, fun _ => ⟨hs, by omega, fun z => by cases z⟩, fun z => by cases z⟩
      · simp only [if_true]
        split <;> omega
      · intro z; omega
      · intro _
        rw [List.length_take]
        omega

theorem part_reset (E : Env P c lo H W) {e : StringTerminated σ} (h : PartOk P c H W e) {q : Int} (hq : 0 ≤ q) :
    ∃ e' r, reset P e q = .ok (e', r) ∧ PartOk P c H W e' ∧ e'.offset = e.offset := by
  unfold StringTerminated.reset
  have hoff := h.off
  have hat := h.at_
  have hr := E.range h.parent
  obtain ⟨s', r, er, h', hp, hc⟩ := E.seek h.parent (q := q + e.offset) (by omega)
  rw [er, Res.bind_ok]
  dsimp only
  rw [if_pos (show r ≥ e.offset by omega)]
  refine ⟨_, _, rfl, ⟨h', h.off, by simp only; omega, h.query, h.far, h.size, fun _ => by simp only; omega, ?_⟩, rfl⟩
  intro z
  simp only at z ⊢
  by_cases y : r - e.offset = e.size
  · exact Or.inr (Or.inl (by omega))
  · rw [if_pos y] at z; cases z

theorem part_skipLoop (E : Env P c lo H W) : ∀ (fuel : Nat) (e : StringTerminated σ) (k sk : Int), PartOk P c H W e → 0 ≤ k → k < fuel →
    ∃ e' r, baseSkipLoop (read P) fuel e k sk = .ok (e', r) ∧ PartOk P c H W e' ∧ e'.offset = e.offset := by
  intro fuel
  induction fuel with
  | zero => intro e k sk _ _ z; omega
  | succ fuel ih =>
    intro e k sk h k0 kf
    rw [baseSkipLoop]
    by_cases hk : k > 0
    · rw [if_pos hk]
      obtain ⟨m, hm, m1⟩ : ∃ m : Int, m = (if k > 10000000 then 10000000 else k) ∧ 1 ≤ m ∧ m ≤ k := by
        refine ⟨_, rfl, ?_⟩
        split <;> omega
      dsimp only
      rw [← hm]
      obtain ⟨e', n, d, er, h', ho, hl, _⟩ := part_read E h (mn := 1) (mx := m) (by omega) (by omega) (by omega)
      rw [er, Res.bind_ok]
      dsimp only
      have := hl m1.1
      by_cases n1 : n < -1
      · rw [if_pos n1]; exact ⟨e', _, rfl, h', ho⟩
      rw [if_neg n1]
      by_cases n2 : n < 1
      · rw [if_pos n2]; exact ⟨e', _, rfl, h', ho⟩
      rw [if_neg n2]
      obtain ⟨e'', r, g1, g2, g3⟩ := ih e' (k - n) (sk + n) h' (by omega) (by omega)
      exact ⟨e'', r, g1, g2, by omega⟩
    · rw [if_neg hk]; exact ⟨e, sk, rfl, h, rfl⟩

theorem part_skip (E : Env P c lo H W) {e : StringTerminated σ} (h : PartOk P c H W e) {k : Int} (hk : 0 ≤ k) :
    ∃ e' r, baseSkip (read P) e k = .ok (e', r) ∧ PartOk P c H W e' ∧ e'.offset = e.offset :=
  part_skipLoop E _ e k 0 h hk (by omega)

end StringTerminated
end Strigi
