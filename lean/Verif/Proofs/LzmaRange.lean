import Verif.LzmaFormat
import Mathlib.Tactic.Ring
import Mathlib.Tactic.IntervalCases

/-!
# Facts about the LZMA format

How much input a symbol needs, which values it can have, and that no probability is used twice in one symbol.
-/

namespace Strigi
namespace Lzma

variable {α β κ : Type}

/-- The order in which the probabilities are used within a symbol. -/
def rank : Ctx → Nat
  | .isMatch _ _ => 0
  | .isRep _ => 1
  | .isRepG0 _ => 2
  | .isRepG1 _ => 3
  | .isRepG2 _ => 4
  | .isRep0Long _ _ => 3
  | .lenChoice _ => 10
  | .lenChoice2 _ => 11
  | .lenLow _ _ n => 12 + n
  | .lenMid _ _ n => 12 + n
  | .lenHigh _ n => 12 + n
  | .literal _ n => 12 + n
  | .matched _ _ n => 12 + n
  | .posSlot _ n => 1000 + n
  | .posSpecial _ n => 2000 + n
  | .align n => 2000 + n

/-- The probabilities that exist. -/
def Ctx.Valid (L : Nat) : Ctx → Prop
  | .isMatch s p => s < 12 ∧ p < 16
  | .isRep s => s < 12
  | .isRepG0 s => s < 12
  | .isRepG1 s => s < 12
  | .isRepG2 s => s < 12
  | .isRep0Long s p => s < 12 ∧ p < 16
  | .lenChoice _ => True
  | .lenChoice2 _ => True
  | .lenLow _ p n => p < 16 ∧ n < 8
  | .lenMid _ p n => p < 16 ∧ n < 8
  | .lenHigh _ n => n < 256
  | .literal l n => l < L ∧ n < 256
  | .matched l _ n => l < L ∧ n < 256
  | .posSlot l n => l < 4 ∧ n < 64
  | .posSpecial s n => 4 ≤ s ∧ s < 14 ∧ 1 ≤ n ∧ n < 2 ^ (s / 2 - 1)
  | .align n => n < 16

/-- A procedure that uses only probabilities in `V`, in the order of their ranks, which are between `lo` and `hi`; that reads at
most `a` bits with a probability and `b` without (seven of the latter count as one of the former), and that gives
results in `P`. -/
def Good (V : Ctx → Prop) (P : α → Prop) (hi : Nat) : Nat → Nat → Nat → Parse Ctx α → Prop
  | _, _, lo, .done x => lo ≤ hi ∧ P x
  | a, b, lo, .bit c k => V c ∧ lo ≤ rank c ∧ ∃ a' b', ((a = a' + 1 ∧ b = b') ∨ (a = a' ∧ b = b' + 7)) ∧ ∀ x, Good V P hi a' b' (rank c + 1) (k x)
  | a, b, lo, .plain k => ∃ b', b = b' + 1 ∧ ∀ x, Good V P hi a b' lo (k x)

theorem Good.mono {V : Ctx → Prop} {P Q : α → Prop} {hi hi' : Nat} {p : Parse Ctx α} : ∀ {a b lo a' b' lo' : Nat},
    Good V P hi a b lo p → a ≤ a' → b ≤ b' → lo' ≤ lo → hi ≤ hi' → (∀ x, P x → Q x) → Good V Q hi' a' b' lo' p := by
  induction p with
  | done x => intro a b lo a' b' lo' h _ _ h3 h4 h5; exact ⟨by have := h.1; omega, h5 _ h.2⟩
  | bit c k ih =>
    rintro a b lo a' b' lo' ⟨hv, hl, x, y, hxy, hk⟩ h1 h2 h3 h4 h5
    rcases hxy with ⟨rfl, rfl⟩ | ⟨rfl, rfl⟩
    · exact ⟨hv, by omega, a' - 1, b', Or.inl ⟨by omega, rfl⟩, fun z => ih z (hk z) (by omega) h2 (Nat.le_refl _) h4 h5⟩
    · exact ⟨hv, by omega, a', b' - 7, Or.inr ⟨rfl, by omega⟩, fun z => ih z (hk z) h1 (by omega) (Nat.le_refl _) h4 h5⟩
  | plain k ih =>
    rintro a b lo a' b' lo' ⟨y, rfl, hk⟩ h1 h2 h3 h4 h5
    exact ⟨b' - 1, by omega, fun z => ih z (hk z) h1 (by omega) h3 h4 h5⟩

/-- A bit with a probability can be paid by seven bits without. -/
theorem Good.pay {V : Ctx → Prop} {P : α → Prop} {hi : Nat} {p : Parse Ctx α} : ∀ {a b lo : Nat},
    Good V P hi (a + 1) b lo p → Good V P hi a (b + 7) lo p := by
  induction p with
  | done x => intro a b lo h; exact h
  | bit c k ih =>
    rintro a b lo ⟨hv, hl, x, y, hxy, hk⟩
    rcases hxy with ⟨hx, rfl⟩ | ⟨rfl, rfl⟩
    · obtain rfl : a = x := by omega
      exact ⟨hv, hl, a, b, Or.inr ⟨rfl, rfl⟩, hk⟩
    · exact ⟨hv, hl, a, y + 7, Or.inr ⟨rfl, by omega⟩, fun z => ih z (hk z)⟩
  | plain k ih =>
    rintro a b lo ⟨y, rfl, hk⟩
    exact ⟨y + 7, by omega, fun z => ih z (hk z)⟩

theorem Good.bind {V : Ctx → Prop} {P : α → Prop} {Q : β → Prop} {mid hi a2 b2 : Nat} {p : Parse Ctx α} {f : α → Parse Ctx β} :
    ∀ {a b lo : Nat}, Good V P mid a b lo p → (∀ v, P v → Good V Q hi a2 b2 mid (f v)) →
    Good V Q hi (a + a2) (b + b2) lo (p >>= f) := by
  show ∀ {a b lo : Nat}, _ → _ → Good V Q hi (a + a2) (b + b2) lo (p.bind f)
  induction p with
  | done x =>
    intro a b lo h hf
    exact (hf x h.2).mono (by omega) (by omega) h.1 (Nat.le_refl _) (fun _ h => h)
  | bit c k ih =>
    rintro a b lo ⟨hv, hl, x, y, hxy, hk⟩ hf
    refine ⟨hv, hl, x + a2, y + b2, ?_, fun z => ih z (hk z) hf⟩
    rcases hxy with ⟨rfl, rfl⟩ | ⟨rfl, rfl⟩
    · exact Or.inl ⟨by omega, rfl⟩
    · exact Or.inr ⟨rfl, by omega⟩
  | plain k ih =>
    rintro a b lo ⟨y, rfl, hk⟩ hf
    exact ⟨y + b2, by omega, fun z => ih z (hk z) hf⟩

theorem good_pure {V : Ctx → Prop} {P : α → Prop} {hi a b lo : Nat} {x : α} (h : lo ≤ hi) (hx : P x) :
    Good V P hi a b lo (pure x) := ⟨h, hx⟩

theorem tree_good {V : Ctx → Prop} {c : Nat → Ctx} {base : Nat} (hr : ∀ n, rank (c n) = base + n) (N : Nat) (hV : ∀ n, 1 ≤ n → n < 2 ^ N → V (c n)) :
    ∀ n node, 1 ≤ node → node * 2 ^ n < 2 ^ (N + 1) → (node + 1) * 2 ^ n ≤ 2 ^ (N + 1) → ∀ {lo : Nat}, lo ≤ base + node →
      Good V (fun v => node * 2 ^ n ≤ v ∧ v < (node + 1) * 2 ^ n) (base + 2 ^ (N + 1)) n 0 lo (tree c n node) := by
  intro n
  induction n with
  | zero =>
    intro node h1 h2 h3 lo hlo
    refine ⟨?_, by simp⟩
    simp only [Nat.pow_zero, Nat.mul_one] at h2
    omega
  | succ n ih =>
    intro node h1 h2 h3 lo hlo
    rw [Nat.pow_succ] at h2 h3
    have hpos : 0 < 2 ^ n := Nat.two_pow_pos n
    have hn : node < 2 ^ N := by
      have : node * (2 ^ n * 2) ≥ node * 2 := Nat.mul_le_mul_left _ (by omega)
      rw [Nat.pow_succ] at h2
      omega
    refine ⟨hV _ h1 hn, by rw [hr]; exact hlo, n, 0, Or.inl ⟨rfl, rfl⟩, fun b => ?_⟩
    have hb : b.toNat ≤ 1 := by cases b <;> decide
    have hb2 : b.toNat * 2 ^ n ≤ 2 ^ n := by
      calc b.toNat * 2 ^ n ≤ 1 * 2 ^ n := Nat.mul_le_mul_right _ hb
        _ = 2 ^ n := Nat.one_mul _
    have e1 : (2 * node + b.toNat) * 2 ^ n = node * (2 ^ n * 2) + b.toNat * 2 ^ n := by ring
    have e2 : (2 * node + b.toNat + 1) * 2 ^ n = node * (2 ^ n * 2) + b.toNat * 2 ^ n + 2 ^ n := by ring
    have e3 : (node + 1) * (2 ^ n * 2) = node * (2 ^ n * 2) + 2 ^ n + 2 ^ n := by ring
    rw [e3] at h3
    refine (ih (2 * node + b.toNat) (by omega) (by rw [e1]; omega) (by rw [e2]; omega) (lo := rank (c node) + 1) (by rw [hr]; omega)).mono
      (Nat.le_refl _) (Nat.le_refl _) (Nat.le_refl _) (Nat.le_refl _) ?_
    rintro v ⟨g1, g2⟩
    rw [e1] at g1
    rw [e2] at g2
    rw [Nat.pow_succ, e3]
    omega

theorem reverseTree_good {V : Ctx → Prop} {c : Nat → Ctx} {base : Nat} (hr : ∀ n, rank (c n) = base + n) (N : Nat) (hV : ∀ n, 1 ≤ n → n < 2 ^ N → V (c n)) :
    ∀ n node, 1 ≤ node → (node + 1) * 2 ^ n ≤ 2 ^ (N + 1) → ∀ {lo : Nat}, lo ≤ base + node →
      Good V (fun v => v < 2 ^ n) (base + 2 ^ (N + 1)) n 0 lo (reverseTree c n node) := by
  intro n
  induction n with
  | zero =>
    intro node h1 h3 lo hlo
    refine ⟨?_, by simp⟩
    simp only [Nat.pow_zero, Nat.mul_one] at h3
    omega
  | succ n ih =>
    intro node h1 h3 lo hlo
    rw [Nat.pow_succ] at h3
    have hpos : 0 < 2 ^ n := Nat.two_pow_pos n
    have hn : node < 2 ^ N := by
      have : (node + 1) * (2 ^ n * 2) ≥ (node + 1) * 2 := Nat.mul_le_mul_left _ (by omega)
      rw [Nat.pow_succ] at h3
      omega
    refine ⟨hV _ h1 hn, by rw [hr]; exact hlo, n, 0, Or.inl ⟨rfl, rfl⟩, fun b => ?_⟩
    have hb : b.toNat ≤ 1 := by cases b <;> decide
    have hb2 : b.toNat * 2 ^ n ≤ 2 ^ n := by
      calc b.toNat * 2 ^ n ≤ 1 * 2 ^ n := Nat.mul_le_mul_right _ hb
        _ = 2 ^ n := Nat.one_mul _
    have e2 : (2 * node + b.toNat + 1) * 2 ^ n = node * (2 ^ n * 2) + b.toNat * 2 ^ n + 2 ^ n := by ring
    have e3 : (node + 1) * (2 ^ n * 2) = node * (2 ^ n * 2) + 2 ^ n + 2 ^ n := by ring
    rw [e3] at h3
    refine Good.bind (a2 := 0) (b2 := 0) (ih (2 * node + b.toNat) (by omega) (by rw [e2]; omega) (lo := rank (c node) + 1) (by rw [hr]; omega)) ?_
    intro v hv
    refine good_pure (Nat.le_refl _) ?_
    rw [Nat.pow_succ]
    omega

theorem plainBits_good {V : Ctx → Prop} {hi : Nat} : ∀ n v {lo : Nat}, lo ≤ hi →
    Good V (fun w => v * 2 ^ n ≤ w ∧ w < (v + 1) * 2 ^ n) hi 0 n lo (plainBits n v) := by
  intro n
  induction n with
  | zero => intro v lo hlo; exact ⟨hlo, by simp⟩
  | succ n ih =>
    intro v lo hlo
    refine ⟨n, rfl, fun b => (ih (2 * v + b.toNat) hlo).mono (Nat.le_refl _) (Nat.le_refl _) (Nat.le_refl _) (Nat.le_refl _) ?_⟩
    rintro w ⟨g1, g2⟩
    have hb : b.toNat ≤ 1 := by cases b <;> decide
    have hb2 : b.toNat * 2 ^ n ≤ 2 ^ n := by
      calc b.toNat * 2 ^ n ≤ 1 * 2 ^ n := Nat.mul_le_mul_right _ hb
        _ = 2 ^ n := Nat.one_mul _
    have e1 : (2 * v + b.toNat) * 2 ^ n = v * (2 ^ n * 2) + b.toNat * 2 ^ n := by ring
    have e2 : (2 * v + b.toNat + 1) * 2 ^ n = v * (2 ^ n * 2) + b.toNat * 2 ^ n + 2 ^ n := by ring
    have e3 : (v + 1) * (2 ^ n * 2) = v * (2 ^ n * 2) + 2 ^ n + 2 ^ n := by ring
    rw [Nat.pow_succ, e3]
    rw [e1] at g1
    rw [e2] at g2
    omega

theorem matchedLiteral_good {L l m : Nat} (hl : l < L) : ∀ n node, 1 ≤ node → (node + 1) * 2 ^ n ≤ 512 → ∀ {lo : Nat}, lo ≤ 12 + node →
    Good (Ctx.Valid L) (fun v => node * 2 ^ n ≤ v ∧ v < (node + 1) * 2 ^ n) 600 n 0 lo (matchedLiteral l m n node) := by
  intro n
  induction n with
  | zero =>
    intro node h1 h3 lo hlo
    simp only [Nat.pow_zero, Nat.mul_one] at h3
    exact ⟨by omega, by simp⟩
  | succ n ih =>
    intro node h1 h3 lo hlo
    rw [Nat.pow_succ] at h3
    have hpos : 0 < 2 ^ n := Nat.two_pow_pos n
    have hn : node < 256 := by
      have : (node + 1) * (2 ^ n * 2) ≥ (node + 1) * 2 := Nat.mul_le_mul_left _ (by omega)
      omega
    refine ⟨⟨hl, hn⟩, hlo, n, 0, Or.inl ⟨rfl, rfl⟩, fun b => ?_⟩
    have hb : b.toNat ≤ 1 := by cases b <;> decide
    have hb2 : b.toNat * 2 ^ n ≤ 2 ^ n := by
      calc b.toNat * 2 ^ n ≤ 1 * 2 ^ n := Nat.mul_le_mul_right _ hb
        _ = 2 ^ n := Nat.one_mul _
    have e1 : (2 * node + b.toNat) * 2 ^ n = node * (2 ^ n * 2) + b.toNat * 2 ^ n := by ring
    have e2 : (2 * node + b.toNat + 1) * 2 ^ n = node * (2 ^ n * 2) + b.toNat * 2 ^ n + 2 ^ n := by ring
    have e3 : (node + 1) * (2 ^ n * 2) = node * (2 ^ n * 2) + 2 ^ n + 2 ^ n := by ring
    rw [e3] at h3
    have hP : ∀ v, (2 * node + b.toNat) * 2 ^ n ≤ v ∧ v < (2 * node + b.toNat + 1) * 2 ^ n → node * 2 ^ (n + 1) ≤ v ∧ v < (node + 1) * 2 ^ (n + 1) := by
      rintro v ⟨g1, g2⟩
      rw [Nat.pow_succ, e3]
      rw [e1] at g1
      rw [e2] at g2
      omega
    have hlo' : rank (.matched l (m.testBit n) node) + 1 ≤ 12 + (2 * node + b.toNat) := by simp only [rank]; omega
    dsimp only
    split
    · exact (ih (2 * node + b.toNat) (by omega) (by rw [e2]; omega) hlo').mono (Nat.le_refl _) (Nat.le_refl _) (Nat.le_refl _) (Nat.le_refl _) hP
    · exact (tree_good (V := Ctx.Valid L) (c := .literal l) (base := 12) (fun n => rfl) 8 (fun n _ h => ⟨hl, h⟩) n (2 * node + b.toNat) (by omega)
        (by rw [e1]; norm_num; omega) (by rw [e2]; norm_num; omega) hlo').mono (Nat.le_refl _) (Nat.le_refl _) (Nat.le_refl _) (by norm_num) hP

theorem length_good {L : Nat} {rep : Bool} {ps lo : Nat} (hps : ps < 16) (hlo : lo ≤ 10) :
    Good (Ctx.Valid L) (fun v => v < 272) 1000 10 0 lo (length rep ps) := by
  refine ⟨trivial, hlo, 9, 0, Or.inl ⟨rfl, rfl⟩, fun b => ?_⟩
  dsimp only
  split
  · refine (Good.bind (a2 := 0) (b2 := 0) (tree_good (c := .lenLow rep ps) (base := 12) (fun n => rfl) 3 (fun n _ h => ⟨hps, h⟩) 3 1 (by decide) (by decide) (by decide)
      (by simp only [rank]; omega)) (fun v hv => good_pure (Nat.le_refl _) (by omega))).mono (by omega) (by omega) (Nat.le_refl _) (by norm_num) (fun _ h => h)
  · refine ⟨trivial, by simp only [rank]; omega, 8, 0, Or.inl ⟨rfl, rfl⟩, fun b => ?_⟩
    dsimp only
    split
    · refine (Good.bind (a2 := 0) (b2 := 0) (tree_good (c := .lenMid rep ps) (base := 12) (fun n => rfl) 3 (fun n _ h => ⟨hps, h⟩) 3 1 (by decide) (by decide) (by decide)
        (by simp only [rank]; omega)) (fun v hv => good_pure (Nat.le_refl _) (by omega))).mono (by omega) (by omega) (Nat.le_refl _) (by norm_num) (fun _ h => h)
    · refine (Good.bind (a2 := 0) (b2 := 0) (tree_good (c := .lenHigh rep) (base := 12) (fun n => rfl) 8 (fun n _ h => h) 8 1 (by decide) (by decide) (by decide)
        (by simp only [rank]; omega)) (fun v hv => good_pure (Nat.le_refl _) (by omega))).mono (by omega) (by omega) (Nat.le_refl _) (by norm_num) (fun _ h => h)

theorem distance_good {L len lo : Nat} (hlo : lo ≤ 1000) : Good (Ctx.Valid L) (fun v => v < 2 ^ 32) 3000 10 26 lo (distance len) := by
  refine (Good.bind (a2 := 4) (b2 := 26) (tree_good (c := .posSlot (min len 3)) (base := 1000) (fun n => rfl) 6 (fun n _ h => ⟨by omega, h⟩) 6 1 (by decide) (by decide)
    (by decide) (lo := lo) (by omega)) ?_).mono (by omega) (by omega) (Nat.le_refl _) (Nat.le_refl _) (fun _ h => h)
  intro v hv
  have h64 : v - 64 < 64 := by norm_num at hv; omega
  clear hv
  dsimp only
  generalize v - 64 = s at h64 ⊢
  split
  · exact good_pure (by norm_num) (by omega)
  split
  · have hb : s / 2 - 1 ≤ 5 := by omega
    have h := reverseTree_good (V := Ctx.Valid L) (c := .posSpecial s) (base := 2000) (fun n => rfl) (s / 2 - 1) (fun n h1 h2 => ⟨by omega, by omega, h1, h2⟩) (s / 2 - 1) 1
      (by decide) (by rw [Nat.pow_succ]; omega) (lo := 1000 + 2 ^ (6 + 1)) (by norm_num)
    have h2 : Good (Ctx.Valid L) (fun v => v < 2 ^ (s / 2 - 1)) (2000 + 2 ^ (s / 2 - 1 + 1)) 4 26 (1000 + 2 ^ (6 + 1)) (reverseTree (Ctx.posSpecial s) (s / 2 - 1) 1) :=
      (h.mono (a' := 4 + 1) (b' := 19) hb (by omega) (Nat.le_refl _) (Nat.le_refl _) (fun _ h => h)).pay
    refine Good.bind (a2 := 0) (b2 := 0) (h2.mono (Nat.le_refl _) (Nat.le_refl _) (Nat.le_refl _) (hi' := 3000) ?_ (fun _ h => h)) ?_
    · have : 2 ^ (s / 2 - 1 + 1) ≤ 2 ^ 6 := Nat.pow_le_pow_right (by decide) (by omega)
      omega
    · intro w hw
      refine good_pure (Nat.le_refl _) ?_
      have h5 : 2 ^ (s / 2 - 1) ≤ 2 ^ 5 := Nat.pow_le_pow_right (by decide) hb
      have : (2 + s % 2) * 2 ^ (s / 2 - 1) ≤ 3 * 2 ^ 5 := Nat.mul_le_mul (by omega) h5
      omega
  · refine Good.mono (Good.bind (a2 := 4) (b2 := 0) (plainBits_good (s / 2 - 1 - 4) (2 + s % 2) (hi := 2000) (lo := 1000 + 2 ^ (6 + 1)) (by norm_num)) (hi := 3000) (Q := fun v => v < 2 ^ 32) ?_)
      (by omega) (by omega) (Nat.le_refl _) (Nat.le_refl _) (fun _ h => h)
    intro w hw
    refine Good.bind (a2 := 0) (b2 := 0) ((reverseTree_good (V := Ctx.Valid L) (c := .align) (base := 2000) (fun n => rfl) 4 (fun n _ h => h) 4 1 (by decide) (by decide)
      (lo := 2000) (by omega)).mono (Nat.le_refl _) (Nat.le_refl _) (Nat.le_refl _) (hi' := 3000) (by norm_num) (fun _ h => h)) ?_
    intro u hu
    refine good_pure (Nat.le_refl _) ?_
    have h5 : 2 ^ (s / 2 - 1 - 4) ≤ 2 ^ 26 := Nat.pow_le_pow_right (by decide) (by omega)
    have : (2 + s % 2 + 1) * 2 ^ (s / 2 - 1 - 4) ≤ 4 * 2 ^ 26 := Nat.mul_le_mul (by omega) h5
    omega

/-- The symbols that can be read. -/
def Symbol.Fine : Symbol → Prop
  | .literal b => b < 256
  | .copy len dist => len < 272 ∧ dist < 2 ^ 32
  | .shortRep => True
  | .rep i len => i < 4 ∧ len < 272

theorem symbol_good {L s ps ls : Nat} {m : Option Nat} (hs : s < 12) (hps : ps < 16) (hls : ls < L) :
    Good (Ctx.Valid L) Symbol.Fine 3000 22 26 0 (symbol s ps ls m) := by
  refine ⟨⟨hs, hps⟩, by simp [rank], 21, 26, Or.inl ⟨rfl, rfl⟩, fun b => ?_⟩
  dsimp only
  split
  · have h : Good (Ctx.Valid L) (fun v => 1 * 2 ^ 8 ≤ v ∧ v < (1 + 1) * 2 ^ 8) 600 8 0 (rank (.isMatch s ps) + 1) (literal ls m) := by
      cases m with
      | none => exact (tree_good (c := .literal ls) (base := 12) (fun n => rfl) 8 (fun n _ h => ⟨hls, h⟩) 8 1 (by decide) (by decide) (by decide)
          (by simp only [rank]; omega)).mono (Nat.le_refl _) (Nat.le_refl _) (Nat.le_refl _) (by norm_num) (fun _ h => h)
      | some m => exact matchedLiteral_good hls 8 1 (by decide) (by decide) (by simp only [rank]; omega)
    have h2 := Good.bind (a2 := 0) (b2 := 0) h (hi := 600) (Q := Symbol.Fine) (f := fun v => pure (.literal (v - 256)))
      (fun v hv => good_pure (Nat.le_refl _) (by show v - 256 < 256; omega))
    exact h2.mono (by omega) (by omega) (Nat.le_refl _) (by norm_num) (fun _ h => h)
  refine ⟨hs, by simp [rank], 20, 26, Or.inl ⟨rfl, rfl⟩, fun b => ?_⟩
  have hrep : ∀ {i lo : Nat}, i < 4 → lo ≤ 10 → ∀ {a b : Nat}, 10 ≤ a → Good (Ctx.Valid L) Symbol.Fine 3000 a b lo (do
      let len ← length true ps
      pure (.rep i len)) := by
    intro i lo hi hlo a b ha
    have h := Good.bind (a2 := 0) (b2 := 0) (length_good (L := L) (rep := true) hps hlo) (hi := 1000) (Q := Symbol.Fine) (f := fun v => pure (.rep i v))
      (fun v hv => good_pure (Nat.le_refl _) ⟨hi, hv⟩)
    exact h.mono ha (by omega) (Nat.le_refl _)
      (by norm_num) (fun _ h => h)
  dsimp only
  split
  · refine Good.bind (a := 10) (b := 0) (a2 := 10) (b2 := 26) (length_good (rep := false) hps (by simp only [rank]; omega)) ?_
    intro v hv
    refine Good.bind (a := 10) (b := 26) (a2 := 0) (b2 := 0) (distance_good (Nat.le_refl _)) ?_
    intro w hw
    exact good_pure (Nat.le_refl _) ⟨hv, hw⟩
  refine ⟨hs, by simp [rank], 19, 26, Or.inl ⟨rfl, rfl⟩, fun b => ?_⟩
  dsimp only
  split
  · refine ⟨⟨hs, hps⟩, by simp [rank], 18, 26, Or.inl ⟨rfl, rfl⟩, fun b => ?_⟩
    dsimp only
    split
    · exact good_pure (by simp [rank]) trivial
    · exact hrep (by omega) (by simp [rank]) (by omega)
  refine ⟨hs, by simp [rank], 18, 26, Or.inl ⟨rfl, rfl⟩, fun b => ?_⟩
  dsimp only
  split
  · exact hrep (by omega) (by simp [rank]) (by omega)
  refine ⟨hs, by simp [rank], 17, 26, Or.inl ⟨rfl, rfl⟩, fun b => ?_⟩
  exact hrep (by cases b <;> decide) (by simp [rank]) (by omega)

end Lzma
end Strigi
