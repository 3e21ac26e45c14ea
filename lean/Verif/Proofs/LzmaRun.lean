import Verif.Proofs.LzmaRange

/-!
# The range coder: enough input, more input

A symbol needs at most 20 bytes of input.
-/

namespace Strigi
namespace Lzma

variable {α β κ : Type}

/-- All probabilities stay away from 0 and 1. -/
def Between (probs : κ → Nat) : Prop := ∀ x, 31 ≤ probs x ∧ probs x ≤ 2017

/-- The coder between two bits. -/
def Coder.Normal (c : Coder) : Prop := 2 ^ 24 ≤ c.range ∧ c.range < 2 ^ 32 ∧ c.code < 2 ^ 32

theorem Between.zero {probs : Ctx → Nat} (h : Between probs) (x : Ctx) :
    Between (fun y => if y = x then probs x + (2048 - probs x) / 32 else probs y) := by
  intro y
  have := h x
  dsimp only
  split
  · omega
  · exact h y

theorem Between.one {probs : Ctx → Nat} (h : Between probs) (x : Ctx) :
    Between (fun y => if y = x then probs x - probs x / 32 else probs y) := by
  intro y
  have := h x
  dsimp only
  split
  · omega
  · exact h y

/-- What a bit with a probability does to the range. -/
theorem bound_facts {r p : Nat} (h1 : 2 ^ 24 ≤ r) (h2 : r < 2 ^ 32) (hp1 : 31 ≤ p) (hp2 : p ≤ 2017) :
    r / 2048 * p + 253952 ≤ r ∧ 253952 ≤ r / 2048 * p ∧ r * 253921 ≤ r / 2048 * p * 2 ^ 24 ∧ r * 253921 ≤ (r - r / 2048 * p) * 2 ^ 24 := by
  have a1 : r / 2048 * 31 ≤ r / 2048 * p := Nat.mul_le_mul_left _ hp1
  have a2 : r / 2048 * p ≤ r / 2048 * 2017 := Nat.mul_le_mul_left _ hp2
  omega

theorem normalize_normal {c d : Coder} (h1 : 2 ^ 16 ≤ c.range) (h2 : c.range < 2 ^ 32) (h3 : c.code < 2 ^ 32) (h : c.normalize = some d) : d.Normal := by
  unfold Coder.normalize at h
  split at h
  · rcases c with ⟨r, co, _ | ⟨b, t⟩⟩
    · simp at h
    · simp only [Option.some.injEq] at h
      subst h
      simp only at *
      refine ⟨?_, ?_, ?_⟩
      · show 2 ^ 24 ≤ r * 256
        omega
      · show r * 256 < 2 ^ 32
        omega
      · show (co * 256 + b.toNat) % 2 ^ 32 < 2 ^ 32
        exact Nat.mod_lt _ (by decide)
  · simp only [Option.some.injEq] at h
    subst h
    exact ⟨by omega, h2, h3⟩

/-- The three kinds of steps. -/
theorem run_bit_zero {k : Bool → Parse Ctx α} {probs : Ctx → Nat} {c : Coder} {x : Ctx} (h : c.code < c.range / 2048 * probs x) :
    run (.bit x k) probs c = (Coder.normalize { c with range := c.range / 2048 * probs x }).bind
      (fun c => run (k false) (fun y => if y = x then probs x + (2048 - probs x) / 32 else probs y) c) := by
  rw [run]
  simp only [h, if_true]
  rfl

theorem run_bit_one {k : Bool → Parse Ctx α} {probs : Ctx → Nat} {c : Coder} {x : Ctx} (h : ¬ c.code < c.range / 2048 * probs x) :
    run (.bit x k) probs c = (Coder.normalize { c with range := c.range - c.range / 2048 * probs x, code := c.code - c.range / 2048 * probs x }).bind
      (fun c => run (k true) (fun y => if y = x then probs x - probs x / 32 else probs y) c) := by
  rw [run]
  simp only [h, if_false]
  rfl

theorem run_plain_one {k : Bool → Parse Ctx α} {probs : Ctx → Nat} {c : Coder} (h : c.range / 2 ≤ c.code ∧ c.code < c.range / 2 + 2 ^ 31) :
    run (.plain k) probs c = (Coder.normalize { c with range := c.range / 2, code := c.code - c.range / 2 }).bind (fun c => run (k true) probs c) := by
  rw [run]
  simp only [h, and_self, if_true]
  rfl

theorem run_plain_zero {k : Bool → Parse Ctx α} {probs : Ctx → Nat} {c : Coder} (h : ¬ (c.range / 2 ≤ c.code ∧ c.code < c.range / 2 + 2 ^ 31)) :
    run (.plain k) probs c = (Coder.normalize { c with range := c.range / 2 }).bind (fun c => run (k false) probs c) := by
  rw [run]
  simp only [h, if_false]
  rfl

/-- One step of any kind: from a normal coder a bit gives a coder that has to be normalised, and then goes on. -/
theorem run_bit {k : Bool → Parse Ctx α} {probs : Ctx → Nat} {c : Coder} {x : Ctx} (hP : Between probs) (hc : c.Normal) :
    ∃ b d probs', run (.bit x k) probs c = (Coder.normalize d).bind (fun e => run (k b) probs' e) ∧ Between probs' ∧
      d.rest = c.rest ∧ 253952 ≤ d.range ∧ d.range < 2 ^ 32 ∧ d.code < 2 ^ 32 ∧ c.range * 253921 ≤ d.range * 2 ^ 24 ∧
      (∀ t, run (.bit x k) probs { c with rest := c.rest ++ t } = (Coder.normalize { d with rest := d.rest ++ t }).bind (fun e => run (k b) probs' e)) := by
  obtain ⟨c1, c2, c3⟩ := hc
  have hp := hP x
  obtain ⟨f1, f2, f3, f4⟩ := bound_facts c1 c2 hp.1 hp.2
  by_cases h : c.code < c.range / 2048 * probs x
  · exact ⟨false, _, _, run_bit_zero h, hP.zero x, rfl, f2, by show c.range / 2048 * probs x < 2 ^ 32; omega, c3, f3, fun t => run_bit_zero (c := { c with rest := c.rest ++ t }) h⟩
  · exact ⟨true, _, _, run_bit_one h, hP.one x, rfl, by show 253952 ≤ c.range - _; omega, by show c.range - _ < 2 ^ 32; omega,
      by show c.code - _ < 2 ^ 32; omega, f4, fun t => run_bit_one (c := { c with rest := c.rest ++ t }) h⟩

theorem run_plain {k : Bool → Parse Ctx α} {probs : Ctx → Nat} {c : Coder} (hc : c.Normal) :
    ∃ b d, run (.plain k) probs c = (Coder.normalize d).bind (fun e => run (k b) probs e) ∧
      d.rest = c.rest ∧ 253952 ≤ d.range ∧ d.range < 2 ^ 32 ∧ d.code < 2 ^ 32 ∧ c.range * (2 ^ 24 - 1) ≤ d.range * 2 ^ 25 ∧
      (∀ t, run (.plain k) probs { c with rest := c.rest ++ t } = (Coder.normalize { d with rest := d.rest ++ t }).bind (fun e => run (k b) probs e)) ∧
      d.range = c.range / 2 := by
  obtain ⟨c1, c2, c3⟩ := hc
  by_cases h : c.range / 2 ≤ c.code ∧ c.code < c.range / 2 + 2 ^ 31
  · exact ⟨true, _, run_plain_one h, rfl, by show 253952 ≤ c.range / 2; omega, by show c.range / 2 < 2 ^ 32; omega,
      by show c.code - _ < 2 ^ 32; omega, by show c.range * _ ≤ c.range / 2 * _; omega, fun t => run_plain_one (c := { c with rest := c.rest ++ t }) h, rfl⟩
  · exact ⟨false, _, run_plain_zero h, rfl, by show 253952 ≤ c.range / 2; omega, by show c.range / 2 < 2 ^ 32; omega,
      c3, by show c.range * _ ≤ c.range / 2 * _; omega, fun t => run_plain_zero (c := { c with rest := c.rest ++ t }) h, rfl⟩

theorem normalize_append {c d : Coder} (t : List UInt8) (h : c.normalize = some d) :
    Coder.normalize { c with rest := c.rest ++ t } = some { d with rest := d.rest ++ t } := by
  unfold Coder.normalize at h ⊢
  split at h
  · rename_i hr
    rw [if_pos hr]
    rcases c with ⟨r, co, _ | ⟨b, l⟩⟩
    · simp at h
    · simp only [Option.some.injEq] at h
      subst h
      rfl
  · rename_i hr
    rw [if_neg hr]
    simp only [Option.some.injEq] at h
    subst h
    rfl

theorem normalize_rest {c d : Coder} (h : c.normalize = some d) : ∃ u, c.rest = u ++ d.rest := by
  unfold Coder.normalize at h
  split at h
  · rcases c with ⟨r, co, _ | ⟨b, l⟩⟩
    · simp at h
    · simp only [Option.some.injEq] at h
      subst h
      exact ⟨[b], rfl⟩
  · simp only [Option.some.injEq] at h
    subst h
    exact ⟨[], rfl⟩

/-- What holds after a successful run: the probabilities and the coder are in order, a prefix of the input has been consumed,
and what comes after the input makes no difference. -/
theorem run_some {p : Parse Ctx α} : ∀ {probs : Ctx → Nat} {c : Coder} {a : α} {probs' : Ctx → Nat} {c' : Coder},
    Between probs → c.Normal → run p probs c = some (a, probs', c') →
    Between probs' ∧ c'.Normal ∧ (∃ u, c.rest = u ++ c'.rest) ∧
      ∀ t, run p probs { c with rest := c.rest ++ t } = some (a, probs', { c' with rest := c'.rest ++ t }) := by
  induction p with
  | done x =>
    intro probs c a probs' c' hP hc h
    simp only [run, Option.some.injEq, Prod.mk.injEq] at h
    obtain ⟨rfl, rfl, rfl⟩ := h
    exact ⟨hP, hc, ⟨[], rfl⟩, fun t => rfl⟩
  | bit x k ih =>
    intro probs c a probs' c' hP hc h
    obtain ⟨b, d, pr, e, hb, hr, h1, h2, h3, _, ht⟩ := run_bit (k := k) (x := x) hP hc
    rw [e] at h
    rcases hn : d.normalize with _ | f
    · rw [hn] at h; simp at h
    · rw [hn] at h
      simp only [Option.bind_some] at h
      obtain ⟨g1, g2, ⟨u, g3⟩, g4⟩ := ih b hb (normalize_normal (by omega) h2 h3 hn) h
      obtain ⟨v, hv⟩ := normalize_rest hn
      refine ⟨g1, g2, ⟨v ++ u, by rw [← hr, hv, g3, List.append_assoc]⟩, fun t => ?_⟩
      rw [ht, normalize_append t hn]
      exact g4 t
  | plain k ih =>
    intro probs c a probs' c' hP hc h
    obtain ⟨b, d, e, hr, h1, h2, h3, _, ht, _⟩ := run_plain (k := k) (probs := probs) hc
    rw [e] at h
    rcases hn : d.normalize with _ | f
    · rw [hn] at h; simp at h
    · rw [hn] at h
      simp only [Option.bind_some] at h
      obtain ⟨g1, g2, ⟨u, g3⟩, g4⟩ := ih b hP (normalize_normal (by omega) h2 h3 hn) h
      obtain ⟨v, hv⟩ := normalize_rest hn
      refine ⟨g1, g2, ⟨v ++ u, by rw [← hr, hv, g3, List.append_assoc]⟩, fun t => ?_⟩
      rw [ht, normalize_append t hn]
      exact g4 t

theorem normalize_prefix {c d : Coder} (h : c.normalize = some d) :
    ∃ u, c.rest = u ++ d.rest ∧ ∀ t, Coder.normalize { c with rest := u ++ t } = some { d with rest := t } := by
  unfold Coder.normalize at h ⊢
  split at h
  · rename_i hr
    rcases c with ⟨r, co, _ | ⟨b, l⟩⟩
    · simp at h
    · simp only [Option.some.injEq] at h
      subst h
      exact ⟨[b], rfl, fun t => by rw [if_pos hr]; rfl⟩
  · rename_i hr
    simp only [Option.some.injEq] at h
    subst h
    exact ⟨[], rfl, fun t => by rw [if_neg hr]; rfl⟩

/-- Only a prefix of the input matters. -/
theorem run_prefix {p : Parse Ctx α} : ∀ {probs : Ctx → Nat} {c : Coder} {a : α} {probs' : Ctx → Nat} {c' : Coder},
    run p probs c = some (a, probs', c') →
    ∃ u, c.rest = u ++ c'.rest ∧ ∀ t, run p probs { c with rest := u ++ t } = some (a, probs', { c' with rest := t }) := by
  induction p with
  | done x =>
    intro probs c a probs' c' h
    simp only [run, Option.some.injEq, Prod.mk.injEq] at h
    obtain ⟨rfl, rfl, rfl⟩ := h
    exact ⟨[], rfl, fun t => rfl⟩
  | bit x k ih =>
    intro probs c a probs' c' h
    by_cases hc : c.code < c.range / 2048 * probs x
    · rw [run_bit_zero hc] at h
      obtain ⟨d, hd, h⟩ := Option.bind_eq_some_iff.mp h
      obtain ⟨u, hu, hu'⟩ := normalize_prefix hd
      obtain ⟨v, hv, hv'⟩ := ih false h
      refine ⟨u ++ v, by rw [List.append_assoc, ← hv]; exact hu, fun t => ?_⟩
      rw [run_bit_zero (c := { c with rest := u ++ v ++ t }) hc, List.append_assoc]
      rw [show Coder.normalize { c with range := c.range / 2048 * probs x, rest := u ++ (v ++ t) } = _ from hu' (v ++ t)]
      exact hv' t
    · rw [run_bit_one hc] at h
      obtain ⟨d, hd, h⟩ := Option.bind_eq_some_iff.mp h
      obtain ⟨u, hu, hu'⟩ := normalize_prefix hd
      obtain ⟨v, hv, hv'⟩ := ih true h
      refine ⟨u ++ v, by rw [List.append_assoc, ← hv]; exact hu, fun t => ?_⟩
      rw [run_bit_one (c := { c with rest := u ++ v ++ t }) hc, List.append_assoc]
      rw [show Coder.normalize ⟨c.range - c.range / 2048 * probs x, c.code - c.range / 2048 * probs x, u ++ (v ++ t)⟩ = _ from hu' (v ++ t)]
      exact hv' t
  | plain k ih =>
    intro probs c a probs' c' h
    by_cases hc : c.range / 2 ≤ c.code ∧ c.code < c.range / 2 + 2 ^ 31
    · rw [run_plain_one hc] at h
      obtain ⟨d, hd, h⟩ := Option.bind_eq_some_iff.mp h
      obtain ⟨u, hu, hu'⟩ := normalize_prefix hd
      obtain ⟨v, hv, hv'⟩ := ih true h
      refine ⟨u ++ v, by rw [List.append_assoc, ← hv]; exact hu, fun t => ?_⟩
      rw [run_plain_one (c := { c with rest := u ++ v ++ t }) hc, List.append_assoc]
      rw [show Coder.normalize ⟨c.range / 2, c.code - c.range / 2, u ++ (v ++ t)⟩ = _ from hu' (v ++ t)]
      exact hv' t
    · rw [run_plain_zero hc] at h
      obtain ⟨d, hd, h⟩ := Option.bind_eq_some_iff.mp h
      obtain ⟨u, hu, hu'⟩ := normalize_prefix hd
      obtain ⟨v, hv, hv'⟩ := ih false h
      refine ⟨u ++ v, by rw [List.append_assoc, ← hv]; exact hu, fun t => ?_⟩
      rw [run_plain_zero (c := { c with rest := u ++ v ++ t }) hc, List.append_assoc]
      rw [show Coder.normalize ⟨c.range / 2, c.code, u ++ (v ++ t)⟩ = _ from hu' (v ++ t)]
      exact hv' t

/-- The result is one of those the procedure can have. -/
theorem run_result {V : Ctx → Prop} {P : α → Prop} {hi : Nat} {p : Parse Ctx α} : ∀ {a b lo : Nat} {probs : Ctx → Nat} {c : Coder} {x : α} {probs' : Ctx → Nat} {c' : Coder},
    Good V P hi a b lo p → run p probs c = some (x, probs', c') → P x := by
  induction p with
  | done y =>
    intro a b lo probs c x probs' c' hg h
    simp only [run, Option.some.injEq, Prod.mk.injEq] at h
    rw [← h.1]
    exact hg.2
  | bit y k ih =>
    rintro a b lo probs c x probs' c' ⟨_, _, a', b', _, hk⟩ h
    by_cases hc : c.code < c.range / 2048 * probs y
    · rw [run_bit_zero hc] at h
      obtain ⟨d, _, h⟩ := Option.bind_eq_some_iff.mp h
      exact ih false (hk false) h
    · rw [run_bit_one hc] at h
      obtain ⟨d, _, h⟩ := Option.bind_eq_some_iff.mp h
      exact ih true (hk true) h
  | plain k ih =>
    rintro a b lo probs c x probs' c' ⟨b', _, hk⟩ h
    by_cases hc : c.range / 2 ≤ c.code ∧ c.code < c.range / 2 + 2 ^ 31
    · rw [run_plain_one hc] at h
      obtain ⟨d, _, h⟩ := Option.bind_eq_some_iff.mp h
      exact ih true (hk true) h
    · rw [run_plain_zero hc] at h
      obtain ⟨d, _, h⟩ := Option.bind_eq_some_iff.mp h
      exact ih false (hk false) h

/-! ## Twenty bytes are enough -/

/-- The part of the range that `a` bits with and `b` bits without a probability leave at least is `lost a b / kept a b`. -/
def lost (a b : Nat) : Nat := 253921 ^ a * (2 ^ 24 - 1) ^ b
def kept (a b : Nat) : Nat := 2 ^ (24 * a + 25 * b)

theorem lost_le_kept (a b : Nat) : lost a b ≤ kept a b := by
  unfold lost kept
  rw [Nat.pow_add, Nat.pow_mul, Nat.pow_mul]
  exact Nat.mul_le_mul (Nat.pow_le_pow_left (by decide) a) (Nat.pow_le_pow_left (by decide) b)

/-- `k` bytes have been read, and `a` and `b` bits may still be read. -/
def Budget (k range a b : Nat) : Prop := 256 ^ k * 2 ^ 24 * lost 22 26 * kept a b ≤ range * lost a b * kept 22 26

theorem Budget.limit {k range a b : Nat} (h : Budget k range a b) (hr : range < 2 ^ 32) : k ≤ 20 := by
  by_contra hk
  have h1 : 256 ^ 21 ≤ 256 ^ k := Nat.pow_le_pow_right (by decide) (by omega)
  have h2 : 256 ^ 21 * 2 ^ 24 * lost 22 26 * kept a b ≤ 2 ^ 32 * kept 22 26 * kept a b := by
    calc 256 ^ 21 * 2 ^ 24 * lost 22 26 * kept a b ≤ 256 ^ k * 2 ^ 24 * lost 22 26 * kept a b :=
          Nat.mul_le_mul_right _ (Nat.mul_le_mul_right _ (Nat.mul_le_mul_right _ h1))
      _ ≤ range * lost a b * kept 22 26 := h
      _ ≤ 2 ^ 32 * kept a b * kept 22 26 := Nat.mul_le_mul_right _ (Nat.mul_le_mul (by omega) (lost_le_kept a b))
      _ = 2 ^ 32 * kept 22 26 * kept a b := by ring
  have hpos : 0 < kept a b := Nat.two_pow_pos _
  have h3 := Nat.le_of_mul_le_mul_right h2 hpos
  revert h3
  decide +kernel

theorem Budget.bit {k r r' a b : Nat} (h : Budget k r (a + 1) b) (hr : r * 253921 ≤ r' * 2 ^ 24) : Budget k r' a b := by
  unfold Budget at h ⊢
  have e1 : lost (a + 1) b = 253921 * lost a b := by unfold lost; rw [Nat.pow_succ]; ring
  have e2 : kept (a + 1) b = 2 ^ 24 * kept a b := by unfold kept; rw [← Nat.pow_add]; congr 1; omega
  rw [e1, e2] at h
  apply Nat.le_of_mul_le_mul_left (c := 2 ^ 24) _ (by decide)
  calc 2 ^ 24 * (256 ^ k * 2 ^ 24 * lost 22 26 * kept a b) = 256 ^ k * 2 ^ 24 * lost 22 26 * (2 ^ 24 * kept a b) := by ring
    _ ≤ r * (253921 * lost a b) * kept 22 26 := h
    _ = (r * 253921) * (lost a b * kept 22 26) := by ring
    _ ≤ (r' * 2 ^ 24) * (lost a b * kept 22 26) := Nat.mul_le_mul_right _ hr
    _ = 2 ^ 24 * (r' * lost a b * kept 22 26) := by ring

theorem Budget.plain {k r r' a b : Nat} (h : Budget k r a (b + 1)) (hr : r * (2 ^ 24 - 1) ≤ r' * 2 ^ 25) : Budget k r' a b := by
  unfold Budget at h ⊢
  have e1 : lost a (b + 1) = (2 ^ 24 - 1) * lost a b := by unfold lost; rw [Nat.pow_succ]; ring
  have e2 : kept a (b + 1) = 2 ^ 25 * kept a b := by unfold kept; rw [← Nat.pow_add]; congr 1; omega
  rw [e1, e2] at h
  apply Nat.le_of_mul_le_mul_left (c := 2 ^ 25) _ (by decide)
  calc 2 ^ 25 * (256 ^ k * 2 ^ 24 * lost 22 26 * kept a b) = 256 ^ k * 2 ^ 24 * lost 22 26 * (2 ^ 25 * kept a b) := by ring
    _ ≤ r * ((2 ^ 24 - 1) * lost a b) * kept 22 26 := h
    _ = (r * (2 ^ 24 - 1)) * (lost a b * kept 22 26) := by ring
    _ ≤ (r' * 2 ^ 25) * (lost a b * kept 22 26) := Nat.mul_le_mul_right _ hr
    _ = 2 ^ 25 * (r' * lost a b * kept 22 26) := by ring

theorem Budget.seven {k r r' a b : Nat} (h : Budget k r a (b + 7)) (hr : r * 253921 ≤ r' * 2 ^ 24) : Budget k r' a b := by
  unfold Budget at h ⊢
  have e1 : lost a (b + 7) = (2 ^ 24 - 1) ^ 7 * lost a b := by unfold lost; rw [Nat.pow_add]; ring
  have e2 : kept a (b + 7) = 2 ^ 175 * kept a b := by unfold kept; rw [← Nat.pow_add]; congr 1; omega
  rw [e1, e2] at h
  have hc : (2 ^ 24 - 1) ^ 7 * 2 ^ 24 ≤ 253921 * 2 ^ 175 := by decide
  apply Nat.le_of_mul_le_mul_left (c := 2 ^ 24 * 2 ^ 175) _ (by decide)
  calc 2 ^ 24 * 2 ^ 175 * (256 ^ k * 2 ^ 24 * lost 22 26 * kept a b) = 2 ^ 24 * (256 ^ k * 2 ^ 24 * lost 22 26 * (2 ^ 175 * kept a b)) := by ring
    _ ≤ 2 ^ 24 * (r * ((2 ^ 24 - 1) ^ 7 * lost a b) * kept 22 26) := Nat.mul_le_mul_left _ h
    _ = r * (((2 ^ 24 - 1) ^ 7 * 2 ^ 24) * (lost a b * kept 22 26)) := by ring
    _ ≤ r * ((253921 * 2 ^ 175) * (lost a b * kept 22 26)) := Nat.mul_le_mul_left _ (Nat.mul_le_mul_right _ hc)
    _ = (r * 253921) * (2 ^ 175 * (lost a b * kept 22 26)) := by ring
    _ ≤ (r' * 2 ^ 24) * (2 ^ 175 * (lost a b * kept 22 26)) := Nat.mul_le_mul_right _ hr
    _ = 2 ^ 24 * 2 ^ 175 * (r' * lost a b * kept 22 26) := by ring

/-- Normalising is possible as long as the budget is not exceeded. -/
theorem Budget.normalize {k a b : Nat} {c : Coder} (h : Budget k c.range a b) (hn : 20 ≤ k + c.rest.length) :
    ∃ d k', c.normalize = some d ∧ Budget k' d.range a b ∧ 20 ≤ k' + d.rest.length := by
  unfold Coder.normalize
  split
  · rename_i hr
    have h2 : Budget (k + 1) (c.range * 256) a b := by
      unfold Budget at h ⊢
      calc 256 ^ (k + 1) * 2 ^ 24 * lost 22 26 * kept a b = 256 * (256 ^ k * 2 ^ 24 * lost 22 26 * kept a b) := by rw [Nat.pow_succ]; ring
        _ ≤ 256 * (c.range * lost a b * kept 22 26) := Nat.mul_le_mul_left _ h
        _ = c.range * 256 * lost a b * kept 22 26 := by ring
    have := h2.limit (by omega)
    rcases hc : c.rest with _ | ⟨x, t⟩
    · rw [hc] at hn; simp at hn; omega
    · rw [hc] at hn
      exact ⟨_, k + 1, rfl, h2, by simp only [List.length_cons] at hn; simp only; omega⟩
  · exact ⟨c, k, rfl, h, hn⟩

theorem run_enough {V : Ctx → Prop} {P : α → Prop} {hi : Nat} {p : Parse Ctx α} : ∀ {a b lo k : Nat} {probs : Ctx → Nat} {c : Coder},
    Good V P hi a b lo p → Between probs → c.Normal → Budget k c.range a b → 20 ≤ k + c.rest.length → ∃ r, run p probs c = some r := by
  induction p with
  | done x => intro a b lo k probs c _ _ _ _ _; exact ⟨_, rfl⟩
  | bit x q ih =>
    rintro a b lo k probs c ⟨_, _, a', b', hab, hk⟩ hP hc hB hn
    obtain ⟨y, d, pr, e, hb, hr, h1, h2, h3, h4, _⟩ := run_bit (k := q) (x := x) hP hc
    have hB' : Budget k d.range a' b' := by
      rcases hab with ⟨rfl, rfl⟩ | ⟨rfl, rfl⟩
      · exact hB.bit h4
      · exact hB.seven h4
    obtain ⟨f, k', hf, hB2, hn2⟩ := hB'.normalize (by rw [hr]; exact hn)
    obtain ⟨r, hr⟩ := ih y (hk y) hb (normalize_normal (by omega) h2 h3 hf) hB2 hn2
    exact ⟨r, by rw [e, hf]; exact hr⟩
  | plain q ih =>
    rintro a b lo k probs c ⟨b', rfl, hk⟩ hP hc hB hn
    obtain ⟨y, d, e, hr, h1, h2, h3, h4, _⟩ := run_plain (k := q) (probs := probs) hc
    obtain ⟨f, k', hf, hB2, hn2⟩ := (hB.plain h4).normalize (by rw [hr]; exact hn)
    obtain ⟨r, hr⟩ := ih y (hk y) hP (normalize_normal (by omega) h2 h3 hf) hB2 hn2
    exact ⟨r, by rw [e, hf]; exact hr⟩

/-- Twenty bytes are enough for a symbol. -/
theorem run_twenty {V : Ctx → Prop} {P : α → Prop} {hi lo : Nat} {p : Parse Ctx α} {probs : Ctx → Nat} {c : Coder}
    (hg : Good V P hi 22 26 lo p) (hP : Between probs) (hc : c.Normal) (h : 20 ≤ c.rest.length) : ∃ r, run p probs c = some r := by
  refine run_enough (k := 0) hg hP hc ?_ (by omega)
  unfold Budget
  calc 256 ^ 0 * 2 ^ 24 * lost 22 26 * kept 22 26 = 2 ^ 24 * (lost 22 26 * kept 22 26) := by ring
    _ ≤ c.range * (lost 22 26 * kept 22 26) := Nat.mul_le_mul_right _ hc.1
    _ = c.range * lost 22 26 * kept 22 26 := by ring

end Lzma
end Strigi
