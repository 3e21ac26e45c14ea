import Verif.Proofs.LzmaFinal

/-!
# Every sequence of bytes stands for finitely many bytes
-/

namespace Strigi
namespace LzmaDec

open Lzma

/-- This gets smaller with every bit. -/
def weight (c : Coder) : Nat := c.rest.length * 2 ^ 32 + c.range

theorem normalize_weight {c d : Coder} (h : c.normalize = some d) : weight d ≤ weight c := by
  unfold Coder.normalize at h
  split at h
  · rcases c with ⟨r, co, _ | ⟨b, t⟩⟩
    · simp at h
    · simp only [Option.some.injEq] at h
      subst h
      simp only [weight, List.length_cons] at *
      omega
  · simp only [Option.some.injEq] at h
    subst h
    exact Nat.le_refl _

theorem run_weight {α : Type} {p : Parse Ctx α} : ∀ {probs : Ctx → Nat} {c : Coder} {a : α} {probs' : Ctx → Nat} {c' : Coder},
    Between probs → c.Normal → run p probs c = some (a, probs', c') → weight c' ≤ weight c ∧ ((∀ a, p ≠ .done a) → weight c' < weight c) := by
  induction p with
  | done x =>
    intro probs c a probs' c' hP hc h
    simp only [run, Option.some.injEq, Prod.mk.injEq] at h
    obtain ⟨rfl, rfl, rfl⟩ := h
    exact ⟨Nat.le_refl _, fun h => absurd rfl (h x)⟩
  | bit x k ih =>
    intro probs c a probs' c' hP hc h
    obtain ⟨c1, c2, c3⟩ := hc
    have hp := hP x
    obtain ⟨f1, f2, _, _⟩ := bound_facts c1 c2 hp.1 hp.2
    have key : ∀ (d : Coder) {b : Bool} {pr : Ctx → Nat}, Between pr → d.rest = c.rest → 253952 ≤ d.range → d.range < c.range → d.code < 2 ^ 32 →
        (Coder.normalize d).bind (fun e => run (k b) pr e) = some (a, probs', c') → weight c' < weight c := by
      intro d b pr hb hr h1 h2 h3 h
      rcases hn : d.normalize with _ | f
      · rw [hn] at h; simp at h
      · rw [hn] at h
        simp only [Option.bind_some] at h
        have g := (ih b hb (normalize_normal (by omega) (by omega) h3 hn) h).1
        have g2 := normalize_weight hn
        have : weight d < weight c := by unfold weight; rw [hr]; omega
        omega
    have : weight c' < weight c := by
      by_cases hb : c.code < c.range / 2048 * probs x
      · rw [run_bit_zero hb] at h
        exact key ⟨c.range / 2048 * probs x, c.code, c.rest⟩ (hP.zero x) rfl f2 (by show c.range / 2048 * probs x < _; omega) c3 h
      · rw [run_bit_one hb] at h
        exact key ⟨c.range - c.range / 2048 * probs x, c.code - c.range / 2048 * probs x, c.rest⟩ (hP.one x) rfl (by show 253952 ≤ c.range - _; omega) (by show c.range - _ < _; omega) (by show c.code - _ < 2 ^ 32; omega) h
    exact ⟨by omega, fun _ => this⟩
  | plain k ih =>
    intro probs c a probs' c' hP hc h
    obtain ⟨b, d, e, hr, h1, h2, h3, _, _, hh⟩ := run_plain (k := k) (probs := probs) hc
    rw [e] at h
    rcases hn : d.normalize with _ | f
    · rw [hn] at h; simp at h
    · rw [hn] at h
      simp only [Option.bind_some] at h
      have g := (ih b hP (normalize_normal (by omega) h2 h3 hn) h).1
      have g2 := normalize_weight hn
      have : weight d < weight c := by
        unfold weight
        rw [hr]
        have := hc.1
        omega
      exact ⟨by omega, fun _ => by omega⟩

theorem step_weight {P : Params} {s s' : State} (W : Wf P s) {x x' : List UInt8} (h : s.step P x = .next s' x') :
    x'.length * 2 ^ 32 + s'.range < x.length * 2 ^ 32 + s.range := by
  rcases hr : run (s.parser P) s.probs ⟨s.range, s.code, x⟩ with _ | ⟨sym, probs, c⟩
  · unfold State.step at h
    rw [hr] at h
    simp at h
  · have hw := (run_weight W.probs (normal_any W.coder) hr).2 (by
      intro a ha
      unfold State.parser Lzma.symbol at ha
      cases ha)
    rw [step_eq hr] at h
    have : s'.range = c.range ∧ x' = c.rest := by
      unfold State.apply recode at h
      cases sym with
      | literal b => cases h; exact ⟨rfl, rfl⟩
      | copy len dist =>
        dsimp only at h
        split at h
        · cases h
        · split at h
          · cases h; exact ⟨rfl, rfl⟩
          · cases h
      | shortRep =>
        dsimp only at h
        split at h
        · cases h
        · cases h; exact ⟨rfl, rfl⟩
      | rep i len =>
        dsimp only at h
        split at h
        · cases h
        · rcases i with _ | _ | _ | i <;> cases h <;> exact ⟨rfl, rfl⟩
    rw [this.1, this.2]
    exact hw

theorem begins_all {P : Params} (hP : POk P) : ∀ (n : Nat) (s : State) (x : List UInt8), Wf P s → x.length * 2 ^ 32 + s.range < n →
    ∃ y, Begins P s x y ∧ ∀ y', Begins P s x y' → y' <+: y := by
  intro n
  induction n with
  | zero => intro s x _ h; omega
  | succ n ih =>
    intro s x W h
    have stop : (∀ s' x', s.step P x ≠ .next s' x') → ∃ y, Begins P s x y ∧ ∀ y', Begins P s x y' → y' <+: y := by
      intro hs
      refine ⟨[], .stop, fun y' hy => ?_⟩
      cases hy with
      | stop => exact List.nil_prefix
      | next h _ _ => exact absurd h (hs _ _)
    rcases hs : s.step P x with _ | _ | ⟨_, _⟩ | ⟨s', x'⟩
    · exact stop (by rw [hs]; intro _ _ h; cases h)
    · exact stop (by rw [hs]; intro _ _ h; cases h)
    · exact stop (by rw [hs]; intro _ _ h; cases h)
    · obtain ⟨W', new, e, _⟩ := step_wf W hP hs
      have hw := step_weight W hs
      obtain ⟨y, h1, h2⟩ := ih s' x' W' (Nat.lt_of_lt_of_le hw (Nat.le_of_lt_succ h))
      refine ⟨new.reverse ++ y, .next hs (by rw [e, List.reverse_reverse]) h1, fun y' hy => ?_⟩
      cases hy with
      | stop => exact List.nil_prefix
      | @next _ s3 _ x3 n3 y3 h4 h5 h6 =>
        rw [hs] at h4
        cases h4
        rw [e] at h5
        have := List.append_cancel_right h5
        rw [this, List.reverse_reverse]
        exact (List.prefix_append_right_inj _).mpr (h2 y3 h6)

theorem header_det {x y : List UInt8} {a b : Nat} (h1 : header x a) (h2 : header y b) {u v : List UInt8} (e : x ++ u = y ++ v) : x = y ∧ u = v ∧ a = b := by
  obtain ⟨p, q, r, s, rfl, rfl⟩ := h1
  obtain ⟨p', q', r', s', rfl, rfl⟩ := h2
  simp only [List.cons_append, List.nil_append, List.cons.injEq, true_and] at e
  obtain ⟨rfl, rfl, rfl, rfl, rfl⟩ := e
  exact ⟨rfl, rfl, rfl⟩

/-- Whatever the bytes are, there is something that they stand for. -/
theorem all_exists {P : Params} (hP : POk P) (hd : DicOk P) (x : List UInt8) : ∃ y, Whole P x y := by
  by_cases h : ∃ hdr code w, x = hdr ++ w ∧ header hdr code
  · obtain ⟨hdr, code, w, rfl, hh⟩ := h
    obtain ⟨y, h1, h2⟩ := begins_all hP _ (State.start code) w (start_wf hd.low (header_code hh).1) (Nat.lt_succ_self _)
    refine ⟨y, Or.inr ⟨hdr, code, w, rfl, hh, h1⟩, ?_⟩
    rintro y' (rfl | ⟨hdr', code', w', e, hh', hb⟩)
    · exact List.nil_prefix
    · obtain ⟨rfl, rfl, rfl⟩ := header_det hh hh' e
      exact h2 y' hb
  · refine ⟨[], Or.inl rfl, ?_⟩
    rintro y' (rfl | ⟨hdr', code', w', e, hh', hb⟩)
    · exact List.nil_prefix
    · exact absurd ⟨hdr', code', w', e, hh'⟩ h

theorem begins_append {P : Params} {s : State} {x y : List UInt8} (hP : POk P) (W : Wf P s) (h : Begins P s x y) (t : List UInt8) : Begins P s (x ++ t) y := by
  induction h with
  | stop => exact .stop
  | next h1 h2 _ ih => exact .next (step_next_append h1 t) h2 (ih (step_wf W hP h1).1)

theorem startsWith_append {P : Params} {x y : List UInt8} (hP : POk P) (hd : DicOk P) (h : StartsWith P x y) (t : List UInt8) : StartsWith P (x ++ t) y := by
  rcases h with rfl | ⟨hdr, code, w, rfl, hh, hb⟩
  · exact Or.inl rfl
  · exact Or.inr ⟨hdr, code, w ++ t, by rw [List.append_assoc], hh, begins_append hP (start_wf hd.low (header_code hh).1) hb t⟩

theorem marked_begins {P : Params} {s : State} {x y : List UInt8} (hP : POk P) (W : Wf P s) (h : Marked P s x y) (t : List UInt8) :
    Begins P s (x ++ t) y ∧ ∀ y', Begins P s (x ++ t) y' → y' <+: y := by
  induction h with
  | @ended s x h =>
    refine ⟨.stop, fun y' hy => ?_⟩
    cases hy with
    | stop => exact List.nil_prefix
    | next h1 _ _ =>
      obtain ⟨u, hu, hs⟩ := step_ended h
      rw [hu, List.append_nil, hs] at h1
      cases h1
  | @next s s' x x' new y h1 h2 _ ih =>
    obtain ⟨g1, g2⟩ := ih (step_wf W hP h1).1
    refine ⟨.next (step_next_append h1 t) h2 g1, fun y' hy => ?_⟩
    cases hy with
    | stop => exact List.nil_prefix
    | @next _ s3 _ x3 n3 y3 h4 h5 h6 =>
      rw [step_next_append h1 t] at h4
      cases h4
      rw [h2] at h5
      have := List.reverse_inj.mp (List.append_cancel_right h5)
      subst this
      exact (List.prefix_append_right_inj _).mpr (g2 y3 h6)

/-- What a complete stream stands for is everything that it stands for. -/
theorem marked_all {P : Params} (hP : POk P) (hd : DicOk P) {x y : List UInt8} (h : MarkedStream P x y) (t : List UInt8) : Whole P (x ++ t) y := by
  obtain ⟨hdr, code, w, rfl, hh, hm⟩ := h
  obtain ⟨g1, g2⟩ := marked_begins hP (start_wf hd.low (header_code hh).1) hm t
  refine ⟨Or.inr ⟨hdr, code, w ++ t, by rw [List.append_assoc], hh, g1⟩, ?_⟩
  rintro y' (rfl | ⟨hdr', code', w', e, hh', hb⟩)
  · exact List.nil_prefix
  · rw [List.append_assoc] at e
    obtain ⟨rfl, rfl, rfl⟩ := header_det hh hh' e
    exact g2 y' hb

theorem all_unique {P : Params} {x y y' : List UInt8} (h : Whole P x y) (h' : Whole P x y') : y = y' :=
  List.IsPrefix.eq_of_length (h'.2 y h.1) (Nat.le_antisymm (h'.2 y h.1).length_le (h.2 y' h'.1).length_le)

end LzmaDec
end Strigi
