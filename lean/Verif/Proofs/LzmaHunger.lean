import Verif.Proofs.LzmaReal

/-!
# The end mark takes at least one byte
-/

namespace Strigi
namespace LzmaDec

open Lzma

variable {α β : Type}

/-- Where the program ends, `Q` holds of the number of bits read without a probability, counted from `n` on, and of the result. -/
def Costs (Q : Nat → α → Prop) : Nat → Parse Ctx α → Prop
  | n, .done a => Q n a
  | n, .bit _ k => ∀ b, Costs Q n (k b)
  | n, .plain k => ∀ b, Costs Q (n + 1) (k b)

theorem Costs.bind {Q : Nat → α → Prop} {R : Nat → β → Prop} {p : Parse Ctx α} {f : α → Parse Ctx β} : ∀ {n}, Costs Q n p → (∀ m a, Q m a → Costs R m (f a)) → Costs R n (p >>= f) := by
  show ∀ {n}, Costs Q n p → _ → Costs R n (p.bind f)
  induction p with
  | done a => intro n h hf; exact hf n a h
  | bit c k ih => intro n h hf b; exact ih b (h b) hf
  | plain k ih => intro n h hf b; exact ih b (h b) hf

theorem Costs.mono {Q R : Nat → α → Prop} {p : Parse Ctx α} : ∀ {n}, Costs Q n p → (∀ m a, Q m a → R m a) → Costs R n p := by
  induction p with
  | done a => intro n h hf; exact hf n a h
  | bit c k ih => intro n h hf b; exact ih b (h b) hf
  | plain k ih => intro n h hf b; exact ih b (h b) hf

theorem costs_any (p : Parse Ctx α) : ∀ {n}, Costs (fun _ _ => True) n p := by
  induction p with
  | done a => intro n; trivial
  | bit c k ih => intro n b; exact ih b
  | plain k ih => intro n b; exact ih b

theorem tree_costs {c : Nat → Ctx} {m : Nat} : ∀ n node, Costs (fun k v => k = m ∧ v < (node + 1) * 2 ^ n) m (tree c n node) := by
  intro n
  induction n with
  | zero => intro node; exact ⟨rfl, by omega⟩
  | succ n ih =>
    intro node b
    refine (ih _).mono fun k v h => ⟨h.1, ?_⟩
    have h2 : (2 * node + b.toNat + 1) * 2 ^ n ≤ (2 * node + 2) * 2 ^ n := Nat.mul_le_mul_right _ (by have := Bool.toNat_le b; omega)
    have h3 : (node + 1) * 2 ^ (n + 1) = (2 * node + 2) * 2 ^ n := by rw [Nat.pow_succ]; ring
    omega

theorem reverse_costs {c : Nat → Ctx} {m : Nat} : ∀ n node, Costs (fun k v => k = m ∧ v < 2 ^ n) m (reverseTree c n node) := by
  intro n
  induction n with
  | zero => intro node; exact ⟨rfl, by decide⟩
  | succ n ih =>
    intro node b
    refine (ih _).bind fun k v h => ?_
    refine ⟨h.1, ?_⟩
    have := Bool.toNat_le b
    have := h.2
    rw [Nat.pow_succ]
    omega

theorem plain_costs : ∀ n m v, Costs (fun k w => k = m + n ∧ w < (v + 1) * 2 ^ n) m (plainBits n v) := by
  intro n
  induction n with
  | zero => intro m v; exact ⟨rfl, by omega⟩
  | succ n ih =>
    intro m v b
    refine (ih _ _).mono fun k w h => ⟨by omega, ?_⟩
    have h2 : (2 * v + b.toNat + 1) * 2 ^ n ≤ (2 * v + 2) * 2 ^ n := Nat.mul_le_mul_right _ (by have := Bool.toNat_le b; omega)
    have h3 : (v + 1) * 2 ^ (n + 1) = (2 * v + 2) * 2 ^ n := by rw [Nat.pow_succ]; ring
    omega

theorem distance_costs (len m : Nat) : Costs (fun k v => 9 ≤ k ∨ v < 2 ^ 32 - 1) m (Lzma.distance len) := by
  unfold Lzma.distance
  refine (tree_costs 6 1).bind fun k v h => ?_
  have h64 : v - 64 < 64 := by have := h.2; omega
  dsimp only
  generalize v - 64 = s at h64
  by_cases h4 : s < 4
  · rw [if_pos h4]
    right
    omega
  · rw [if_neg h4]
    by_cases h14 : s < 14
    · rw [if_pos h14]
      refine (reverse_costs _ _).bind fun k v h => ?_
      right
      have hb : s / 2 - 1 ≤ 5 := by omega
      have hp : 2 ^ (s / 2 - 1) ≤ 2 ^ 5 := Nat.pow_le_pow_right (by decide) hb
      have := h.2
      have h3 : (2 + s % 2) * 2 ^ (s / 2 - 1) ≤ 3 * 2 ^ 5 := Nat.mul_le_mul (by omega) hp
      omega
    · rw [if_neg h14]
      refine (plain_costs _ _ _).bind fun k v h => (reverse_costs _ _).bind fun k' w h' => ?_
      show 9 ≤ k' ∨ v * 16 + w < 2 ^ 32 - 1
      by_cases h9 : 9 ≤ s / 2 - 1 - 4
      · left; omega
      · right
        have hp : 2 ^ (s / 2 - 1 - 4) ≤ 2 ^ 8 := Nat.pow_le_pow_right (by decide) (by omega)
        have h3 : (2 + s % 2 + 1) * 2 ^ (s / 2 - 1 - 4) ≤ 4 * 2 ^ 8 := Nat.mul_le_mul (by omega) hp
        have := h.2
        have := h'.2
        omega

/-- The end mark. -/
def IsEnd (sym : Symbol) : Prop := ∃ len, sym = .copy len (2 ^ 32 - 1)

theorem symbol_costs (state posState litState m : Nat) (mb : Option Nat) : Costs (fun k v => 9 ≤ k ∨ ¬ IsEnd v) m (Lzma.symbol state posState litState mb) := by
  unfold Lzma.symbol
  intro b
  cases b
  · refine (costs_any _).bind fun k v _ => ?_
    right; rintro ⟨_, h⟩; cases h
  intro b
  cases b
  · refine (costs_any (n := m) _).bind fun k len _ => ?_
    refine (distance_costs len k).bind fun k' d h => ?_
    rcases h with h | h
    · exact Or.inl h
    · right
      rintro ⟨_, h'⟩
      cases h'
      omega
  intro b
  cases b
  · intro b
    cases b
    · right; rintro ⟨_, h⟩; cases h
    · refine (costs_any _).bind fun k v _ => ?_
      right; rintro ⟨_, h⟩; cases h
  intro b
  cases b
  · refine (costs_any _).bind fun k v _ => ?_
    right; rintro ⟨_, h⟩; cases h
  intro b
  refine (costs_any _).bind fun k v _ => ?_
  right; rintro ⟨_, h⟩; cases h

theorem normalize_nil {c d : Coder} (hr : c.rest = []) (h : c.normalize = some d) : d = c := by
  unfold Coder.normalize at h
  split at h
  · rw [hr] at h
    cases h
  · cases h
    rfl

theorem run_costs {Q : α → Prop} {p : Parse Ctx α} : ∀ {n : Nat} {probs : Ctx → Nat} {c : Coder} {a : α} {probs' : Ctx → Nat} {c' : Coder}, Costs (fun k v => 9 ≤ k ∨ Q v) n p → c.rest = [] →
    c.range * 2 ^ n < 2 ^ 32 → 2 ^ 24 ≤ c.range → Between probs → run p probs c = some (a, probs', c') → Q a := by
  induction p with
  | done x =>
    intro n probs c a probs' c' h hr hlt hn hb e
    simp only [run, Option.some.injEq, Prod.mk.injEq] at e
    rw [← e.1]
    rcases h with h | h
    · exfalso
      have h1 : 2 ^ 9 ≤ 2 ^ n := Nat.pow_le_pow_right (by decide) h
      have h2 : 2 ^ 24 * 2 ^ 9 ≤ c.range * 2 ^ n := Nat.mul_le_mul hn h1
      omega
    · exact h
  | bit x k ih =>
    intro n probs c a probs' c' h hr hlt hn hb e
    have hp := hb x
    have h0 : 1 ≤ 2 ^ n := Nat.one_le_two_pow
    have hlt' : c.range < 2 ^ 32 := Nat.lt_of_le_of_lt (Nat.le_mul_of_pos_right _ h0) hlt
    obtain ⟨f1, f2, _, _⟩ := bound_facts hn hlt' hp.1 hp.2
    have key : ∀ r, r ≤ c.range → r * 2 ^ n < 2 ^ 32 := fun r hrc => Nat.lt_of_le_of_lt (Nat.mul_le_mul_right _ hrc) hlt
    by_cases hc : c.code < c.range / 2048 * probs x
    · rw [run_bit_zero hc] at e
      obtain ⟨d, hd, e⟩ := Option.bind_eq_some_iff.mp e
      have hds := normalize_nil (c := ⟨c.range / 2048 * probs x, c.code, c.rest⟩) (by exact hr) hd
      have hge : 2 ^ 24 ≤ c.range / 2048 * probs x := by
        unfold Coder.normalize at hd
        split at hd
        · simp only [hr] at hd
          cases hd
        · rename_i hx
          simp only at hx
          omega
      subst hds
      exact ih false (c := ⟨c.range / 2048 * probs x, c.code, c.rest⟩) (h false) (by exact hr) (key _ (by dsimp only; omega)) hge (hb.zero x) e
    · rw [run_bit_one hc] at e
      obtain ⟨d, hd, e⟩ := Option.bind_eq_some_iff.mp e
      have hds := normalize_nil (c := ⟨c.range - c.range / 2048 * probs x, c.code - c.range / 2048 * probs x, c.rest⟩) (by exact hr) hd
      have hge : 2 ^ 24 ≤ c.range - c.range / 2048 * probs x := by
        unfold Coder.normalize at hd
        split at hd
        · simp only [hr] at hd
          cases hd
        · rename_i hx
          simp only at hx
          omega
      subst hds
      exact ih true (c := ⟨c.range - c.range / 2048 * probs x, c.code - c.range / 2048 * probs x, c.rest⟩) (h true) (by exact hr) (key _ (by dsimp only; omega)) hge (hb.one x) e
  | plain k ih =>
    intro n probs c a probs' c' h hr hlt hn hb e
    have key : c.range / 2 * 2 ^ (n + 1) < 2 ^ 32 := by
      have h1 : c.range / 2 * 2 ^ (n + 1) = c.range / 2 * 2 * 2 ^ n := by rw [Nat.pow_succ]; ring
      have h2 : c.range / 2 * 2 * 2 ^ n ≤ c.range * 2 ^ n := Nat.mul_le_mul_right _ (by omega)
      omega
    by_cases hc : c.range / 2 ≤ c.code ∧ c.code < c.range / 2 + 2 ^ 31
    · rw [run_plain_one hc] at e
      obtain ⟨d, hd, e⟩ := Option.bind_eq_some_iff.mp e
      have hds := normalize_nil (c := ⟨c.range / 2, c.code - c.range / 2, c.rest⟩) (by exact hr) hd
      have hge : 2 ^ 24 ≤ c.range / 2 := by
        unfold Coder.normalize at hd
        split at hd
        · simp only [hr] at hd
          cases hd
        · rename_i hx
          simp only at hx
          omega
      subst hds
      exact ih true (c := ⟨c.range / 2, c.code - c.range / 2, c.rest⟩) (h true) (by exact hr) key hge hb e
    · rw [run_plain_zero hc] at e
      obtain ⟨d, hd, e⟩ := Option.bind_eq_some_iff.mp e
      have hds := normalize_nil (c := ⟨c.range / 2, c.code, c.rest⟩) (by exact hr) hd
      have hge : 2 ^ 24 ≤ c.range / 2 := by
        unfold Coder.normalize at hd
        split at hd
        · simp only [hr] at hd
          cases hd
        · rename_i hx
          simp only at hx
          omega
      subst hds
      exact ih false (c := ⟨c.range / 2, c.code, c.rest⟩) (h false) (by exact hr) key hge hb e

/-- The end mark takes at least one byte. -/
theorem ended_needs {P : Params} {s : State} (W : Wf P s) {c : Nat} {w : List UInt8} : s.step P [] ≠ .ended c w := by
  intro h
  unfold State.step at h
  rcases hr : run (s.parser P) s.probs ⟨s.range, s.code, []⟩ with _ | ⟨sym, probs, d⟩
  · rw [hr] at h
    cases h
  · rw [hr] at h
    have hn : 2 ^ 24 ≤ s.range ∧ s.range < 2 ^ 32 ∧ s.code < 2 ^ 32 := W.coder
    have : ¬ IsEnd sym := run_costs (n := 0) (Q := fun v => ¬ IsEnd v) (symbol_costs _ _ _ _ _) rfl (by show s.range * 2 ^ 0 < 2 ^ 32; omega) hn.1 W.probs hr
    cases sym with
    | literal b => simp only [State.apply] at h; cases h
    | copy len dist =>
      simp only [State.apply] at h
      split at h
      · rename_i hd
        exact this ⟨len, by rw [hd]⟩
      · split at h <;> cases h
    | shortRep =>
      simp only [State.apply] at h
      split at h <;> cases h
    | rep i len =>
      simp only [State.apply] at h
      split at h <;> cases h

end LzmaDec
end Strigi
