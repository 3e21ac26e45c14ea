import Verif.Proofs.LzmaSym

/-!
# The macros of the decoder read bits as the range coder of the format does

The decoder reads a byte before a bit if the range is small, the format after it; so the decoder may be one byte behind.
-/

namespace Strigi
namespace LzmaDec

open Lzma

variable {α β : Type}

/-- The range coder of the decoder, which may have to be normalised. -/
def Rc.coder (m : Rc) : Coder := ⟨m.range, m.code, m.buf⟩

def Rc.Raw (m : Rc) : Prop := 253952 ≤ m.range ∧ m.range < 2 ^ 32 ∧ m.code < 2 ^ 32

/-- The probabilities of rank `lo` or more are stored where they belong. -/
def Stored (L lo : Nat) (probs : Ctx → Nat) (mp : Nat → Nat) : Prop := ∀ c, c.Valid L → lo ≤ rank c → mp (idx c) = probs c

theorem Stored.set {L lo : Nat} {probs : Ctx → Nat} {mp : Nat → Nat} {c : Ctx} {v : Nat} (h : Stored L lo probs mp) (hc : c.Valid L) :
    Stored L lo (fun y => if y = c then v else probs y) (setProb mp (idx c) v) := by
  intro d hd hr
  unfold setProb
  by_cases e : d = c
  · subst e
    simp
  · dsimp only
    rw [if_neg e, if_neg (fun e2 => e (idx_inj hd hc e2))]
    exact h d hd hr

theorem Stored.skip {L lo : Nat} {probs : Ctx → Nat} {mp : Nat → Nat} {c : Ctx} {v : Nat} (h : Stored L lo probs mp) (hc : lo ≤ rank c) :
    Stored L (rank c + 1) (fun y => if y = c then v else probs y) mp := by
  intro d hd hr
  have e : d ≠ c := by
    rintro rfl
    omega
  dsimp only
  rw [if_neg e]
  exact h d hd (by omega)

theorem run_all {P : α → Prop} {p : Parse Ctx α} : ∀ {probs : Ctx → Nat} {c : Coder} {x : α} {probs' : Ctx → Nat} {c' : Coder},
    All P p → run p probs c = some (x, probs', c') → P x := by
  induction p with
  | done a =>
    intro probs c x probs' c' h e
    simp only [run, Option.some.injEq, Prod.mk.injEq] at e
    rw [← e.1]
    exact h
  | bit y k ih =>
    intro probs c x probs' c' h e
    by_cases hc : c.code < c.range / 2048 * probs y
    · rw [run_bit_zero hc] at e
      obtain ⟨d, _, e⟩ := Option.bind_eq_some_iff.mp e
      exact ih false (h false) e
    · rw [run_bit_one hc] at e
      obtain ⟨d, _, e⟩ := Option.bind_eq_some_iff.mp e
      exact ih true (h true) e
  | plain k ih =>
    intro probs c x probs' c' h e
    by_cases hc : c.range / 2 ≤ c.code ∧ c.code < c.range / 2 + 2 ^ 31
    · rw [run_plain_one hc] at e
      obtain ⟨d, _, e⟩ := Option.bind_eq_some_iff.mp e
      exact ih true (h true) e
    · rw [run_plain_zero hc] at e
      obtain ⟨d, _, e⟩ := Option.bind_eq_some_iff.mp e
      exact ih false (h false) e

theorem normalize_check {m : Rc} {c : Coder} (h : m.Raw) (e : m.coder.normalize = some c) :
    normalizeCheck m = some ⟨c.range, c.code, c.rest, m.probs⟩ := by
  obtain ⟨h1, h2, h3⟩ := h
  unfold Coder.normalize Rc.coder at e
  unfold normalizeCheck
  rcases m with ⟨r, co, buf, pr⟩
  dsimp only at *
  split at e
  · rename_i hr
    rw [if_pos hr]
    rcases buf with _ | ⟨b, t⟩
    · simp at e
    · simp only [Option.some.injEq] at e
      subst e
      dsimp only
      unfold u32
      congr 2
      · omega
  · rename_i hr
    rw [if_neg hr]
    simp only [Option.some.injEq] at e
    subst e
    rfl

theorem normalize_check_none {m : Rc} (e : m.coder.normalize = none) : normalizeCheck m = none := by
  unfold Coder.normalize Rc.coder at e
  unfold normalizeCheck
  rcases m with ⟨r, co, buf, pr⟩
  dsimp only at *
  split at e
  · rename_i hr
    rw [if_pos hr]
    rcases buf with _ | ⟨b, t⟩
    · rfl
    · simp at e
  · simp at e

theorem normalize_ok {m : Rc} {c : Coder} (h : m.Raw) (e : m.coder.normalize = some c) :
    normalize m = .ok ⟨c.range, c.code, c.rest, m.probs⟩ := by
  have := normalize_check h e
  unfold normalizeCheck at this
  unfold normalize
  rcases m with ⟨r, co, buf, pr⟩
  dsimp only at *
  split at this
  · rename_i hr
    rw [if_pos hr]
    rcases buf with _ | ⟨b, t⟩
    · simp at this
    · simp only [Option.some.injEq] at this
      rw [← this]
  · rename_i hr
    rw [if_neg hr]
    simp only [Option.some.injEq] at this
    rw [← this]

/-- The 32-bit arithmetic of a bit with a probability. -/
theorem u32_bound {r p : Nat} (h1 : 2 ^ 24 ≤ r) (h2 : r < 2 ^ 32) (hp : 31 ≤ p ∧ p ≤ 2017) : u32 ((r : Int) / 2048 * p) = r / 2048 * p := by
  have := bound_facts h1 h2 hp.1 hp.2
  unfold u32
  have e : ((r : Int) / 2048 * p) = ((r / 2048 * p : Nat) : Int) := by push_cast; rfl
  rw [e]
  omega

theorem u32_sub {a b : Nat} (h : b ≤ a) (ha : a < 2 ^ 32) : u32 ((a : Int) - b) = a - b := by
  unfold u32
  omega

theorem shorter {rel : α → Res β → Prop} {early : Res β → Prop} {m : Rc} {c c' : Coder} {x : α} {e : Res (β × Rc)} {A : Rc → Prop} (hn : m.coder.normalize = some c)
    (h : ∃ r m', e = (r >>= fun b => .ok (b, m')) ∧ rel x r ∧ (early r ∨ (m'.Raw ∧ m'.coder.normalize = some c' ∧ A m' ∧ m'.buf.length ≤ c.rest.length))) :
    ∃ r m', e = (r >>= fun b => .ok (b, m')) ∧ rel x r ∧ (early r ∨ (m'.Raw ∧ m'.coder.normalize = some c' ∧ A m' ∧ m'.buf.length ≤ m.buf.length)) := by
  obtain ⟨r, m', h1, h2, h3⟩ := h
  refine ⟨r, m', h1, h2, h3.imp id fun ⟨g1, g2, g3, g4⟩ => ⟨g1, g2, g3, ?_⟩⟩
  obtain ⟨u, hu⟩ := normalize_rest hn
  have : m.buf = u ++ c.rest := hu
  rw [this, List.length_append]
  omega

theorem exec_run {rel : α → Res β → Prop} {early : Res β → Prop} {p : Parse Ctx α} {q : Prog β} (M : Matches rel early p q) :
    ∀ {L : Nat} {P : α → Prop} {hi a b lo : Nat} {probs : Ctx → Nat} {m : Rc} {c : Coder} {x : α} {probs' : Ctx → Nat} {c' : Coder},
      Good (Ctx.Valid L) P hi a b lo p → Between probs → Stored L 0 probs m.probs → m.Raw → m.coder.normalize = some c →
      run p probs c = some (x, probs', c') →
      ∃ r m', exec (1846 + 768 * L) q m = (r >>= fun b => .ok (b, m')) ∧ rel x r ∧
        (early r ∨ (m'.Raw ∧ m'.coder.normalize = some c' ∧ Stored L 0 probs' m'.probs ∧ m'.buf.length ≤ m.buf.length)) := by
  induction M with
  | @done a r h =>
    intro L P hi _ _ lo probs m c x probs' c' hg hb hs hr hn e
    simp only [run, Option.some.injEq, Prod.mk.injEq] at e
    obtain ⟨rfl, rfl, rfl⟩ := e
    exact ⟨r, m, rfl, h, Or.inr ⟨hr, hn, hs, Nat.le_refl _⟩⟩
  | @early p r he ha =>
    intro L P hi _ _ lo probs m c x probs' c' hg hb hs hr hn e
    exact ⟨r, m, rfl, run_all (P := fun a => rel a r) ha e, Or.inl he⟩
  | @bit y k k' hk ih =>
    rintro L P hi a b lo probs m c x probs' c' ⟨hv, _, a', b', _, hg⟩ hb hs hr hn e
    have hN := normalize_normal (by have := hr.1; show 2 ^ 16 ≤ m.range; omega) hr.2.1 hr.2.2 hn
    obtain ⟨n1, n2, n3⟩ := hN
    have hp := hb y
    have hst : m.probs (idx y) = probs y := hs y hv (Nat.zero_le _)
    obtain ⟨f1, f2, _, _⟩ := bound_facts n1 n2 hp.1 hp.2
    rw [exec, if_pos (idx_lt hv), normalize_ok hr hn, Res.bind_ok]
    dsimp only
    rw [hst, u32_bound n1 n2 hp]
    by_cases hc : c.code < c.range / 2048 * probs y
    · rw [if_pos hc]
      rw [run_bit_zero hc] at e
      obtain ⟨d, hd, e⟩ := Option.bind_eq_some_iff.mp e
      have ev : (probs y + u32 (2048 - (probs y : Int)) / 32) % 2 ^ 16 = probs y + (2048 - probs y) / 32 := by unfold u32; omega
      rw [ev]
      exact shorter hn (ih false (m := ⟨c.range / 2048 * probs y, c.code, c.rest, setProb m.probs (idx y) (probs y + (2048 - probs y) / 32)⟩) (hg false) (hb.zero y) (hs.set hv)
        ⟨f2, by show c.range / 2048 * probs y < 2 ^ 32; omega, n3⟩ hd e)
    · rw [if_neg hc]
      rw [run_bit_one hc] at e
      obtain ⟨d, hd, e⟩ := Option.bind_eq_some_iff.mp e
      have ev : (probs y - probs y / 32) % 2 ^ 16 = probs y - probs y / 32 := by omega
      rw [ev, u32_sub (by omega) n2, u32_sub (by omega) n3]
      exact shorter hn (ih true (m := ⟨c.range - c.range / 2048 * probs y, c.code - c.range / 2048 * probs y, c.rest, setProb m.probs (idx y) (probs y - probs y / 32)⟩)
        (hg true) (hb.one y) (hs.set hv) ⟨by show 253952 ≤ c.range - _; omega, by show c.range - _ < 2 ^ 32; omega, by show c.code - _ < 2 ^ 32; omega⟩ hd e)
  | @plain k k' hk ih =>
    rintro L P hi a b lo probs m c x probs' c' ⟨b', _, hg⟩ hb hs hr hn e
    obtain ⟨n1, n2, n3⟩ := normalize_normal (by have := hr.1; show 2 ^ 16 ≤ m.range; omega) hr.2.1 hr.2.2 hn
    rw [exec, normalize_ok hr hn, Res.bind_ok]
    dsimp only
    have hhalf : c.range / 2 < 2 ^ 31 := by omega
    by_cases hc : c.range / 2 ≤ c.code ∧ c.code < c.range / 2 + 2 ^ 31
    · have eu : u32 ((c.code : Int) - ((c.range / 2 : Nat) : Int)) = c.code - c.range / 2 := u32_sub hc.1 n3
      rw [eu, if_pos (by omega)]
      rw [run_plain_one hc] at e
      obtain ⟨d, hd, e⟩ := Option.bind_eq_some_iff.mp e
      exact shorter hn (ih true (m := ⟨c.range / 2, c.code - c.range / 2, c.rest, m.probs⟩) (hg true) hb hs
        ⟨by show 253952 ≤ c.range / 2; omega, by show c.range / 2 < 2 ^ 32; omega, by show c.code - _ < 2 ^ 32; omega⟩ hd e)
    · have hge : 2 ^ 31 ≤ u32 ((c.code : Int) - ((c.range / 2 : Nat) : Int)) := by unfold u32; omega
      have hback : u32 ((u32 ((c.code : Int) - ((c.range / 2 : Nat) : Int)) : Int) + ((c.range / 2 : Nat) : Int)) = c.code := by unfold u32; omega
      rw [if_neg (by omega), hback]
      rw [run_plain_zero hc] at e
      obtain ⟨d, hd, e⟩ := Option.bind_eq_some_iff.mp e
      exact shorter hn (ih false (m := ⟨c.range / 2, c.code, c.rest, m.probs⟩) (hg false) hb hs
        ⟨by show 253952 ≤ c.range / 2; omega, by show c.range / 2 < 2 ^ 32; omega, n3⟩ hd e)

/-- What the trial finds out. -/
def Tried (rel : α → Res β → Prop) : Option (α × (Ctx → Nat) × Coder) → Res (Option (β × Rc)) → Prop
  | none, r => r = .ok none ∨ ∃ d m, r = .ok (some (d, m)) ∧ normalizeCheck m = none
  | some (a, _, _), r => ∃ d m, r = .ok (some (d, m)) ∧ rel a (.ok d) ∧ normalizeCheck m ≠ none

theorem check_run {rel : α → Res β → Prop} (hrel : ∀ a r, rel a r → ∃ d, r = .ok d) {p : Parse Ctx α} {q : Prog β} (M : Matches rel (fun _ => False) p q) :
    ∀ {L : Nat} {P : α → Prop} {hi a b lo : Nat} {probs : Ctx → Nat} {m : Rc},
      Good (Ctx.Valid L) P hi a b lo p → Between probs → Stored L lo probs m.probs → m.Raw →
      Tried rel (m.coder.normalize.bind fun c => run p probs c) (execCheck (1846 + 768 * L) q m) := by
  induction M with
  | @done a r h =>
    intro L P hi _ _ lo probs m hg hb hs hr
    obtain ⟨d, rfl⟩ := hrel _ _ h
    rcases hn : m.coder.normalize with _ | c
    · exact Or.inr ⟨d, m, rfl, normalize_check_none hn⟩
    · exact ⟨d, m, rfl, h, by rw [normalize_check hr hn]; simp⟩
  | early h _ => exact absurd h id
  | @bit y k k' hk ih =>
    rintro L P hi a b lo probs m ⟨hv, hlo, a', b', _, hg⟩ hb hs hr
    rw [execCheck, if_pos (idx_lt hv)]
    rcases hn : m.coder.normalize with _ | c
    · rw [normalize_check_none hn]
      exact Or.inl rfl
    · obtain ⟨n1, n2, n3⟩ := normalize_normal (by have := hr.1; show 2 ^ 16 ≤ m.range; omega) hr.2.1 hr.2.2 hn
      have hp := hb y
      have hst : m.probs (idx y) = probs y := hs y hv hlo
      obtain ⟨f1, f2, _, _⟩ := bound_facts n1 n2 hp.1 hp.2
      rw [normalize_check hr hn, Option.bind_some]
      dsimp only
      rw [hst, u32_bound n1 n2 hp]
      by_cases hc : c.code < c.range / 2048 * probs y
      · rw [if_pos hc, run_bit_zero hc]
        exact ih false (m := ⟨c.range / 2048 * probs y, c.code, c.rest, m.probs⟩) (hg false) (hb.zero y) (hs.skip hlo)
          ⟨f2, by show c.range / 2048 * probs y < 2 ^ 32; omega, n3⟩
      · rw [if_neg hc, run_bit_one hc, u32_sub (by omega) n2, u32_sub (by omega) n3]
        exact ih true (m := ⟨c.range - c.range / 2048 * probs y, c.code - c.range / 2048 * probs y, c.rest, m.probs⟩) (hg true) (hb.one y) (hs.skip hlo)
          ⟨by show 253952 ≤ c.range - _; omega, by show c.range - _ < 2 ^ 32; omega, by show c.code - _ < 2 ^ 32; omega⟩
  | @plain k k' hk ih =>
    rintro L P hi a b lo probs m ⟨b', _, hg⟩ hb hs hr
    rw [execCheck]
    rcases hn : m.coder.normalize with _ | c
    · rw [normalize_check_none hn]
      exact Or.inl rfl
    · obtain ⟨n1, n2, n3⟩ := normalize_normal (by have := hr.1; show 2 ^ 16 ≤ m.range; omega) hr.2.1 hr.2.2 hn
      rw [normalize_check hr hn, Option.bind_some]
      dsimp only
      have hhalf : c.range / 2 < 2 ^ 31 := by omega
      by_cases hc : c.range / 2 ≤ c.code ∧ c.code < c.range / 2 + 2 ^ 31
      · have eu : u32 ((c.code : Int) - ((c.range / 2 : Nat) : Int)) = c.code - c.range / 2 := u32_sub hc.1 n3
        rw [eu, if_pos (by omega), run_plain_one hc]
        exact ih true (m := ⟨c.range / 2, c.code - c.range / 2, c.rest, m.probs⟩) (hg true) hb hs
          ⟨by show 253952 ≤ c.range / 2; omega, by show c.range / 2 < 2 ^ 32; omega, by show c.code - _ < 2 ^ 32; omega⟩
      · have hge : 2 ^ 31 ≤ u32 ((c.code : Int) - ((c.range / 2 : Nat) : Int)) := by unfold u32; omega
        rw [if_neg (by omega), run_plain_zero hc]
        exact ih false (m := ⟨c.range / 2, c.code, c.rest, m.probs⟩) (hg false) hb hs
          ⟨by show 253952 ≤ c.range / 2; omega, by show c.range / 2 < 2 ^ 32; omega, n3⟩

end LzmaDec
end Strigi
