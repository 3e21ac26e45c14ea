import Verif.Model.LzmaDec
import Verif.Proofs.LzmaRun

/-!
# The programs of the decoder read the same bits as the procedures of the format
-/

namespace Strigi
namespace LzmaDec

open Lzma

variable {α β γ : Type}

/-- Where a probability is stored. -/
def idx : Ctx → Nat
  | .isMatch s p => s * 16 + p
  | .isRep s => 192 + s
  | .isRepG0 s => 204 + s
  | .isRepG1 s => 216 + s
  | .isRepG2 s => 228 + s
  | .isRep0Long s p => 240 + s * 16 + p
  | .lenChoice r => (if r then 1332 else 818)
  | .lenChoice2 r => (if r then 1332 else 818) + 1
  | .lenLow r p n => (if r then 1332 else 818) + 2 + p * 8 + n
  | .lenMid r p n => (if r then 1332 else 818) + 130 + p * 8 + n
  | .lenHigh r n => (if r then 1332 else 818) + 258 + n
  | .literal l n => 1846 + 768 * l + n
  | .matched l m n => 1846 + 768 * l + 256 + (if m then 256 else 0) + n
  | .posSlot l n => 432 + l * 64 + n
  | .posSpecial s n => 688 + (2 + s % 2) * 2 ^ (s / 2 - 1) - s - 1 + n
  | .align n => 802 + n

theorem special_range {L s n : Nat} (h : (Ctx.posSpecial s n).Valid L) :
    688 ≤ idx (.posSpecial s n) ∧ idx (.posSpecial s n) ≤ 801 := by
  obtain ⟨h1, h2, h3, h4⟩ := h
  simp only [idx]
  interval_cases s <;> simp at h4 ⊢ <;> omega

theorem special_inj {L s n t m : Nat} (h : (Ctx.posSpecial s n).Valid L) (h' : (Ctx.posSpecial t m).Valid L)
    (e : idx (.posSpecial s n) = idx (.posSpecial t m)) : s = t ∧ n = m := by
  obtain ⟨h1, h2, h3, h4⟩ := h
  obtain ⟨g1, g2, g3, g4⟩ := h'
  simp only [idx] at e
  interval_cases s <;> interval_cases t <;> simp at h4 g4 e ⊢ <;> omega

theorem idx_lt {L : Nat} {c : Ctx} (h : c.Valid L) : idx c < 1846 + 768 * L := by
  cases c with
  | posSpecial s n =>
    have := (special_range h).2
    omega
  | _ =>
    simp only [Ctx.Valid] at h
    simp only [idx]
    try split
    all_goals omega

/-- The use of a probability, and how it follows from the place. -/
def kind : Ctx → Nat
  | .isMatch _ _ => 0
  | .isRep _ => 1
  | .isRepG0 _ => 2
  | .isRepG1 _ => 3
  | .isRepG2 _ => 4
  | .isRep0Long _ _ => 5
  | .posSlot _ _ => 6
  | .posSpecial _ _ => 7
  | .align _ => 8
  | .lenChoice r => 9 + (if r then 5 else 0)
  | .lenChoice2 r => 10 + (if r then 5 else 0)
  | .lenLow r _ _ => 11 + (if r then 5 else 0)
  | .lenMid r _ _ => 12 + (if r then 5 else 0)
  | .lenHigh r _ => 13 + (if r then 5 else 0)
  | .literal _ _ => 19
  | .matched _ m _ => 20 + (if m then 1 else 0)

def base (k : Nat) : Nat :=
  [0, 192, 204, 216, 228, 240, 432, 688, 802, 818, 819, 820, 948, 1076, 1332, 1333, 1334, 1462, 1590, 1846].getD k 1846

theorem base_mono : ∀ {i j : Nat}, i ≤ j → j < 20 → base i ≤ base j := by
  have h : ∀ j < 20, ∀ i < 20, i ≤ j → base i ≤ base j := by decide
  intro i j h1 h2
  exact h j h2 i (by omega) h1

theorem idx_base {L : Nat} {c : Ctx} (h : c.Valid L) (hk : kind c < 19) : base (kind c) ≤ idx c ∧ idx c < base (kind c + 1) := by
  cases c with
  | posSpecial s n =>
    have := special_range h
    generalize idx (.posSpecial s n) = i at this
    simp only [kind, base, List.getD_cons_succ, List.getD_cons_zero]
    omega
  | matched l m n => simp only [kind] at hk; omega
  | literal l n => simp only [kind] at hk; omega
  | lenChoice r | lenChoice2 r => cases r <;> decide
  | lenLow r | lenMid r | lenHigh r =>
    simp only [Ctx.Valid] at h
    cases r <;> simp only [kind, idx, base, List.getD_cons_succ, List.getD_cons_zero, if_true, if_false, Bool.false_eq_true] <;> omega
  | _ =>
    simp only [Ctx.Valid] at h
    simp only [kind, idx, base, List.getD_cons_succ, List.getD_cons_zero]
    omega

theorem idx_high {L : Nat} {c : Ctx} (h : c.Valid L) (hk : 19 ≤ kind c) : 1846 ≤ idx c ∧ 19 + (idx c - 1846) % 768 / 256 = kind c := by
  cases c with
  | literal l n =>
    simp only [Ctx.Valid] at h
    simp only [kind, idx]
    omega
  | matched l m n =>
    simp only [Ctx.Valid] at h
    cases m <;> simp only [kind, idx, if_true, if_false, Bool.false_eq_true] <;> omega
  | lenChoice r | lenChoice2 r | lenLow r | lenMid r | lenHigh r => cases r <;> simp [kind] at hk
  | _ => simp [kind] at hk

theorem kind_eq {L : Nat} {c d : Ctx} (hc : c.Valid L) (hd : d.Valid L) (e : idx c = idx d) : kind c = kind d := by
  have b19 : base 19 = 1846 := rfl
  by_cases h1 : kind c < 19
  · have a1 := idx_base hc h1
    by_cases h2 : kind d < 19
    · have a2 := idx_base hd h2
      rcases Nat.lt_trichotomy (kind c) (kind d) with h | h | h
      · have := base_mono (i := kind c + 1) (j := kind d) (by omega) (by omega)
        omega
      · exact h
      · have := base_mono (i := kind d + 1) (j := kind c) (by omega) (by omega)
        omega
    · have a2 := idx_high hd (by omega)
      have := base_mono (i := kind c + 1) (j := 19) (by omega) (by omega)
      omega
  · have a1 := idx_high hc (by omega)
    by_cases h2 : kind d < 19
    · have a2 := idx_base hd h2
      have := base_mono (i := kind d + 1) (j := 19) (by omega) (by omega)
      omega
    · have a2 := idx_high hd (by omega)
      rw [← a1.2, ← a2.2, e]

/-- Different probabilities are stored in different places. -/
theorem idx_inj {L : Nat} {c d : Ctx} (hc : c.Valid L) (hd : d.Valid L) (e : idx c = idx d) : c = d := by
  have hk : kind c = kind d := kind_eq hc hd e
  cases c with
  | posSpecial s n =>
    cases d with
    | posSpecial t m =>
      obtain ⟨rfl, rfl⟩ := special_inj hc hd e
      rfl
    | matched _ m _ => cases m <;> simp [kind] at hk
    | lenChoice r => cases r <;> simp [kind] at hk
    | lenChoice2 r => cases r <;> simp [kind] at hk
    | lenLow r => cases r <;> simp [kind] at hk
    | lenMid r => cases r <;> simp [kind] at hk
    | lenHigh r => cases r <;> simp [kind] at hk
    | _ => simp [kind] at hk
  | lenChoice r =>
    cases d with
    | lenChoice r' => cases r <;> cases r' <;> simp [kind] at hk ⊢
    | lenChoice2 r' | lenLow r' | lenMid r' | lenHigh r' => cases r <;> cases r' <;> simp [kind] at hk
    | matched _ m _ => cases r <;> cases m <;> simp [kind] at hk
    | _ => cases r <;> simp [kind] at hk
  | lenChoice2 r =>
    cases d with
    | lenChoice2 r' => cases r <;> cases r' <;> simp [kind] at hk ⊢
    | lenChoice r' | lenLow r' | lenMid r' | lenHigh r' => cases r <;> cases r' <;> simp [kind] at hk
    | matched _ m _ => cases r <;> cases m <;> simp [kind] at hk
    | _ => cases r <;> simp [kind] at hk
  | lenLow r p n =>
    cases d with
    | lenLow r' p' n' =>
      simp only [Ctx.Valid] at hc hd
      cases r <;> cases r' <;> simp [kind, idx] at hk e ⊢ <;> omega
    | lenChoice r' | lenChoice2 r' | lenMid r' | lenHigh r' => cases r <;> cases r' <;> simp [kind] at hk
    | matched _ m _ => cases r <;> cases m <;> simp [kind] at hk
    | _ => cases r <;> simp [kind] at hk
  | lenMid r p n =>
    cases d with
    | lenMid r' p' n' =>
      simp only [Ctx.Valid] at hc hd
      cases r <;> cases r' <;> simp [kind, idx] at hk e ⊢ <;> omega
    | lenChoice r' | lenChoice2 r' | lenLow r' | lenHigh r' => cases r <;> cases r' <;> simp [kind] at hk
    | matched _ m _ => cases r <;> cases m <;> simp [kind] at hk
    | _ => cases r <;> simp [kind] at hk
  | lenHigh r n =>
    cases d with
    | lenHigh r' n' =>
      simp only [Ctx.Valid] at hc hd
      cases r <;> cases r' <;> simp [kind, idx] at hk e ⊢ <;> omega
    | lenChoice r' | lenChoice2 r' | lenLow r' | lenMid r' => cases r <;> cases r' <;> simp [kind] at hk
    | matched _ m _ => cases r <;> cases m <;> simp [kind] at hk
    | _ => cases r <;> simp [kind] at hk
  | matched l m n =>
    cases d with
    | matched l' m' n' =>
      simp only [Ctx.Valid] at hc hd
      cases m <;> cases m' <;> simp [kind, idx] at hk e ⊢ <;> omega
    | lenChoice r' | lenChoice2 r' | lenLow r' | lenMid r' | lenHigh r' => cases m <;> cases r' <;> simp [kind] at hk
    | _ => cases m <;> simp [kind] at hk
  | _ =>
    cases d with
    | lenChoice r' | lenChoice2 r' | lenLow r' | lenMid r' | lenHigh r' => cases r' <;> simp [kind] at hk
    | matched _ m _ => cases m <;> simp [kind] at hk
    | _ =>
      first
      | (simp [kind] at hk; done)
      | (simp only [Ctx.Valid] at hc hd
         simp only [idx] at e
         simp only [Ctx.isMatch.injEq, Ctx.isRep.injEq, Ctx.isRepG0.injEq, Ctx.isRepG1.injEq, Ctx.isRepG2.injEq, Ctx.isRep0Long.injEq, Ctx.posSlot.injEq,
          Ctx.align.injEq, Ctx.literal.injEq]
         omega)

/-- Every result of a procedure is in `P`. -/
def All (P : α → Prop) : Parse Ctx α → Prop
  | .done a => P a
  | .bit _ k => ∀ b, All P (k b)
  | .plain k => ∀ b, All P (k b)

theorem All.bind {P : α → Prop} {Q : β → Prop} {p : Parse Ctx α} {f : α → Parse Ctx β} (h : All P p) (hf : ∀ a, P a → All Q (f a)) : All Q (p >>= f) := by
  show All Q (p.bind f)
  induction p with
  | done a => exact hf a h
  | bit c k ih => exact fun b => ih b (h b)
  | plain k ih => exact fun b => ih b (h b)

theorem All.trivial (p : Parse Ctx α) : All (fun _ => True) p := by
  induction p with
  | done a => exact True.intro
  | bit c k ih => exact ih
  | plain k ih => exact ih

/-- The program reads the same bits as the procedure, and the results are related; but it may stop early with a result in `early`
if that is related to all possible results. -/
inductive Matches (rel : α → Res β → Prop) (early : Res β → Prop) : Parse Ctx α → Prog β → Prop
  | done {a r} : rel a r → Matches rel early (.done a) (.done r)
  | early {p r} : early r → All (fun a => rel a r) p → Matches rel early p (.done r)
  | bit {c k k'} : (∀ b, Matches rel early (k b) (k' b)) → Matches rel early (.bit c k) (.bit (idx c) k')
  | plain {k k'} : (∀ b, Matches rel early (k b) (k' b)) → Matches rel early (.plain k) (.plain k')

theorem Matches.bit' {rel : α → Res β → Prop} {early : Res β → Prop} {c : Ctx} {i : Nat} {k : Bool → Parse Ctx α} {k' : Bool → Prog β}
    (e : i = idx c) (h : ∀ b, Matches rel early (k b) (k' b)) : Matches rel early (.bit c k) (.bit i k') := by
  subst e
  exact .bit h

variable {rel : γ → Res β → Prop} {early : Res β → Prop}

theorem tree_matches {c : Nat → Ctx} {prob limit : Nat} (hc : ∀ i, prob + i = idx (c i)) {f : Nat → Parse Ctx γ} {k : Nat → Prog β}
    (hk : ∀ v, limit ≤ v → v < 2 * limit → Matches rel early (f v) (k v)) :
    ∀ n fuel i, n < fuel → limit ≤ i * 2 ^ (n + 1) → (i + 1) * 2 ^ n ≤ limit →
      Matches rel early (tree c (n + 1) i >>= f) (treeLoop prob limit fuel i k) := by
  intro n
  induction n with
  | zero =>
    intro fuel i hf h1 h2
    obtain ⟨fuel, rfl⟩ : ∃ m, fuel = m + 1 := ⟨fuel - 1, by omega⟩
    refine Matches.bit' (hc i) fun b => ?_
    have hb : b.toNat ≤ 1 := by cases b <;> decide
    dsimp only
    rw [if_neg (by omega), show i + i + b.toNat = 2 * i + b.toNat by omega]
    exact hk (2 * i + b.toNat) (by omega) (by omega)
  | succ n ih =>
    intro fuel i hf h1 h2
    obtain ⟨fuel, rfl⟩ : ∃ m, fuel = m + 1 := ⟨fuel - 1, by omega⟩
    refine Matches.bit' (hc i) fun b => ?_
    have hb : b.toNat ≤ 1 := by cases b <;> decide
    have hpos : 0 < 2 ^ n := Nat.two_pow_pos n
    have e1 : (2 * i + b.toNat) * 2 ^ (n + 1) = i * 2 ^ (n + 1 + 1) + b.toNat * 2 ^ (n + 1) := by rw [Nat.pow_succ 2 (n + 1)]; ring
    have e2 : (2 * i + b.toNat + 1) * 2 ^ n ≤ (i + 1) * 2 ^ (n + 1) := by
      rw [Nat.pow_succ]
      calc (2 * i + b.toNat + 1) * 2 ^ n ≤ (2 * i + 2) * 2 ^ n := Nat.mul_le_mul_right _ (by omega)
        _ = (i + 1) * (2 ^ n * 2) := by ring
    have e3 : 2 * i + b.toNat + 1 ≤ (2 * i + b.toNat + 1) * 2 ^ n := Nat.le_mul_of_pos_right _ hpos
    dsimp only
    rw [if_pos (by omega), show i + i + b.toNat = 2 * i + b.toNat by omega]
    exact ih fuel (2 * i + b.toNat) (by omega) (by omega) (by omega)

/-- The bits of the byte with which the literal is compared. -/
theorem and_256 (m n : Nat) : (m * 2 ^ n) &&& 256 = if (m.testBit (8 - n) ∧ n ≤ 8) then 256 else 0 := by
  apply Nat.eq_of_testBit_eq
  intro i
  have e : Nat.testBit 256 i = decide (8 = i) := Nat.testBit_two_pow (n := 8)
  rw [Nat.testBit_and, Nat.testBit_mul_two_pow, e]
  by_cases hi : 8 = i
  · subst hi
    by_cases h : n ≤ 8 <;> cases m.testBit (8 - n) <;> simp [h] <;> decide
  · simp only [hi, decide_false, Bool.and_false]
    split <;> simp [e, hi]

/-- After the first bit that differs. -/
theorem unmatched_matches {l prob : Nat} (hp : prob = 1846 + 768 * l) {f : Nat → Parse Ctx γ} {k : Nat → Prog β}
    (hk : ∀ v, 256 ≤ v → v < 512 → Matches rel early (f v) (k v)) :
    ∀ n fuel i mb, n < fuel → 256 ≤ i * 2 ^ (n + 1) → (i + 1) * 2 ^ n ≤ 256 →
      Matches rel early (tree (.literal l) (n + 1) i >>= f) (matchedLoop prob fuel i 0 mb k) := by
  intro n
  induction n with
  | zero =>
    intro fuel i mb hf h1 h2
    obtain ⟨fuel, rfl⟩ : ∃ m, fuel = m + 1 := ⟨fuel - 1, by omega⟩
    simp only [matchedLoop, Nat.and_zero, Nat.zero_and, Nat.add_zero, ite_self]
    refine Matches.bit' (by simp only [idx]; omega) fun b => ?_
    have hb : b.toNat ≤ 1 := by cases b <;> decide
    rw [if_neg (by omega), show i + i + b.toNat = 2 * i + b.toNat by omega]
    exact hk (2 * i + b.toNat) (by omega) (by omega)
  | succ n ih =>
    intro fuel i mb hf h1 h2
    obtain ⟨fuel, rfl⟩ : ∃ m, fuel = m + 1 := ⟨fuel - 1, by omega⟩
    simp only [matchedLoop, Nat.and_zero, Nat.zero_and, Nat.add_zero, ite_self]
    refine Matches.bit' (by simp only [idx]; omega) fun b => ?_
    have hb : b.toNat ≤ 1 := by cases b <;> decide
    have hpos : 0 < 2 ^ n := Nat.two_pow_pos n
    have e1 : (2 * i + b.toNat) * 2 ^ (n + 1) = i * 2 ^ (n + 1 + 1) + b.toNat * 2 ^ (n + 1) := by rw [Nat.pow_succ 2 (n + 1)]; ring
    have e2 : (2 * i + b.toNat + 1) * 2 ^ n ≤ (i + 1) * 2 ^ (n + 1) := by
      rw [Nat.pow_succ]
      calc (2 * i + b.toNat + 1) * 2 ^ n ≤ (2 * i + 2) * 2 ^ n := Nat.mul_le_mul_right _ (by omega)
        _ = (i + 1) * (2 ^ n * 2) := by ring
    have e3 : 2 * i + b.toNat + 1 ≤ (2 * i + b.toNat + 1) * 2 ^ n := Nat.le_mul_of_pos_right _ hpos
    rw [if_pos (by omega), show i + i + b.toNat = 2 * i + b.toNat by omega]
    exact ih fuel (2 * i + b.toNat) _ (by omega) (by omega) (by omega)

theorem matched_matches {l m prob : Nat} (hp : prob = 1846 + 768 * l) {f : Nat → Parse Ctx γ} {k : Nat → Prog β}
    (hk : ∀ v, 256 ≤ v → v < 512 → Matches rel early (f v) (k v)) :
    ∀ n fuel i mb, n < fuel → n < 8 → 256 ≤ i * 2 ^ (n + 1) → (i + 1) * 2 ^ n ≤ 256 → mb = m * 2 ^ (7 - n) →
      Matches rel early (matchedLiteral l m (n + 1) i >>= f) (matchedLoop prob fuel i 256 mb k) := by
  intro n
  induction n with
  | zero =>
    intro fuel i mb hf hn h1 h2 hmb
    obtain ⟨fuel, rfl⟩ : ∃ m, fuel = m + 1 := ⟨fuel - 1, by omega⟩
    subst hmb
    simp only [matchedLoop]
    have eb : m * 2 ^ (7 - 0) * 2 &&& 256 = if m.testBit 0 then 256 else 0 := by
      rw [show m * 2 ^ (7 - 0) * 2 = m * 2 ^ 8 by ring, and_256]
      simp
    rw [eb]
    refine Matches.bit' (by simp only [idx]; omega) fun b => ?_
    have hb : b.toNat ≤ 1 := by cases b <;> decide
    rw [if_neg (by omega), show i + i + b.toNat = 2 * i + b.toNat by omega]
    dsimp only
    split
    · exact hk (2 * i + b.toNat) (by omega) (by omega)
    · exact hk (2 * i + b.toNat) (by omega) (by omega)
  | succ n ih =>
    intro fuel i mb hf hn h1 h2 hmb
    obtain ⟨fuel, rfl⟩ : ∃ m, fuel = m + 1 := ⟨fuel - 1, by omega⟩
    subst hmb
    simp only [matchedLoop]
    have e8 : m * 2 ^ (7 - (n + 1)) * 2 = m * 2 ^ (7 - n) := by
      rw [Nat.mul_assoc, ← Nat.pow_succ]
      congr 2
      omega
    have eb : m * 2 ^ (7 - (n + 1)) * 2 &&& 256 = if m.testBit (n + 1) then 256 else 0 := by
      rw [e8, and_256, show 8 - (7 - n) = n + 1 by omega]
      simp only [show 7 - n ≤ 8 by omega, and_true]
    rw [eb, e8]
    refine Matches.bit' (by simp only [idx]; omega) fun b => ?_
    have hb : b.toNat ≤ 1 := by cases b <;> decide
    have hpos : 0 < 2 ^ n := Nat.two_pow_pos n
    have e1 : (2 * i + b.toNat) * 2 ^ (n + 1) = i * 2 ^ (n + 1 + 1) + b.toNat * 2 ^ (n + 1) := by rw [Nat.pow_succ 2 (n + 1)]; ring
    have e2 : (2 * i + b.toNat + 1) * 2 ^ n ≤ (i + 1) * 2 ^ (n + 1) := by
      rw [Nat.pow_succ]
      calc (2 * i + b.toNat + 1) * 2 ^ n ≤ (2 * i + 2) * 2 ^ n := Nat.mul_le_mul_right _ (by omega)
        _ = (i + 1) * (2 ^ n * 2) := by ring
    have e3 : 2 * i + b.toNat + 1 ≤ (2 * i + b.toNat + 1) * 2 ^ n := Nat.le_mul_of_pos_right _ hpos
    rw [if_pos (by omega), show i + i + b.toNat = 2 * i + b.toNat by omega]
    dsimp only
    split
    · rename_i heq
      have : (if b = true then 256 &&& (if m.testBit (n + 1) = true then 256 else 0) else 256 &&& ((if m.testBit (n + 1) = true then 256 else 0) ^^^ (2 ^ 32 - 1))) = 256 := by
        rw [← heq]
        cases b <;> decide
      rw [this]
      exact ih fuel (2 * i + b.toNat) _ (by omega) (by omega) (by omega) (by omega) rfl
    · rename_i hne
      have : (if b = true then 256 &&& (if m.testBit (n + 1) = true then 256 else 0) else 256 &&& ((if m.testBit (n + 1) = true then 256 else 0) ^^^ (2 ^ 32 - 1))) = 0 := by
        rw [show m.testBit (n + 1) = !b by cases b <;> cases h : m.testBit (n + 1) <;> simp_all]
        cases b <;> decide
      rw [this]
      exact unmatched_matches hp hk n fuel (2 * i + b.toNat) _ (by omega) (by omega) (by omega)

theorem bind_assoc {δ ε ζ : Type} (p : Parse Ctx δ) (f : δ → Parse Ctx ε) (g : ε → Parse Ctx ζ) : (p >>= f) >>= g = p >>= fun v => f v >>= g := by
  show (p.bind f).bind g = p.bind fun v => (f v).bind g
  induction p with
  | done a => rfl
  | bit c k ih => simp only [Parse.bind, ih]
  | plain k ih => simp only [Parse.bind, ih]

theorem pure_bind {δ ε : Type} (a : δ) (f : δ → Parse Ctx ε) : (pure a : Parse Ctx δ) >>= f = f a := rfl

theorem or_mask {b j : Nat} (A : Nat) (h : b < 2 ^ j) : (2 ^ (j + 1) * A + b) ||| 2 ^ j = 2 ^ (j + 1) * A + b + 2 ^ j := by
  have h2 : b < 2 ^ (j + 1) := by rw [Nat.pow_succ]; omega
  rw [Nat.two_pow_add_eq_or_of_lt h2, Nat.or_assoc, Nat.or_two_pow_eq_add_of_lt h, ← Nat.two_pow_add_eq_or_of_lt, ← Nat.two_pow_add_eq_or_of_lt h2]
  · omega
  · rw [Nat.pow_succ]
    omega

theorem reverse_matches {c : Nat → Ctx} {prob : Nat} (hc : ∀ i, 1 ≤ i → prob + i = idx (c i)) {k : Nat → Prog β} :
    ∀ n {f : Nat → Parse Ctx γ} i j A b, 1 ≤ i → b < 2 ^ j →
      (∀ v, v < 2 ^ (n + 1) → Matches rel early (f v) (k (2 ^ (j + n + 1) * A + b + 2 ^ j * v))) →
      Matches rel early (reverseTree c (n + 1) i >>= f) (specLoop prob (n + 1) i (2 ^ j) (2 ^ (j + n + 1) * A + b) k) := by
  intro n
  induction n with
  | zero =>
    intro f i j A b hi hb hk
    refine Matches.bit' (hc i hi) fun x => ?_
    show Matches rel early (f (x.toNat + 2 * 0)) _
    cases x
    · have := hk 0 (by decide)
      simpa using this
    · have := hk 1 (by decide)
      simp only [Nat.add_zero] at this ⊢
      simpa [or_mask A hb] using this
  | succ n ih =>
    intro f i j A b hi hb hk
    refine Matches.bit' (hc i hi) fun x => ?_
    show Matches rel early ((reverseTree c (n + 1) (2 * i + x.toNat) >>= fun v => pure (x.toNat + 2 * v)) >>= f) _
    rw [bind_assoc]
    dsimp only
    rw [if_pos (by omega), show i + i + x.toNat = 2 * i + x.toNat by omega, show 2 ^ j * 2 = 2 ^ (j + 1) from rfl]
    have ed : (if x = true then (2 ^ (j + (n + 1) + 1) * A + b) ||| 2 ^ j else 2 ^ (j + (n + 1) + 1) * A + b) = 2 ^ (j + 1 + n + 1) * A + (b + x.toNat * 2 ^ j) := by
      have e : 2 ^ (j + (n + 1) + 1) * A = 2 ^ (j + 1) * (2 ^ (n + 1) * A) := by
        rw [← Nat.mul_assoc, ← Nat.pow_add]
        congr 2
        omega
      have e2 : 2 ^ (j + 1 + n + 1) * A = 2 ^ (j + (n + 1) + 1) * A := by congr 2; omega
      rw [e2]
      cases x
      · simp
      · simp only [if_true]
        rw [e, or_mask _ hb]
        simp
        omega
    rw [ed]
    have hx : x.toNat ≤ 1 := by cases x <;> decide
    have hx2 : x.toNat * 2 ^ j ≤ 2 ^ j := by
      calc x.toNat * 2 ^ j ≤ 1 * 2 ^ j := Nat.mul_le_mul_right _ hx
        _ = 2 ^ j := Nat.one_mul _
    refine ih (f := fun v => pure (x.toNat + 2 * v) >>= f) (2 * i + x.toNat) (j + 1) A (b + x.toNat * 2 ^ j) (by omega) (by rw [Nat.pow_succ]; omega) ?_
    intro v hv
    rw [pure_bind]
    have := hk (x.toNat + 2 * v) (by rw [Nat.pow_succ]; omega)
    have e2 : 2 ^ (j + 1 + n + 1) * A = 2 ^ (j + (n + 1) + 1) * A := by congr 2; omega
    have e3 : 2 ^ (j + 1 + n + 1) * A + (b + x.toNat * 2 ^ j) + 2 ^ (j + 1) * v = 2 ^ (j + (n + 1) + 1) * A + b + 2 ^ j * (x.toNat + 2 * v) := by
      rw [e2, Nat.pow_succ 2 j]
      ring
    rw [e3]
    exact this

theorem direct_matches {k : Nat → Prog β} {f : Nat → Parse Ctx γ} : ∀ n d, (d + 1) * 2 ^ (n + 1) ≤ 2 ^ 32 →
    (∀ v, d * 2 ^ (n + 1) ≤ v → v < (d + 1) * 2 ^ (n + 1) → Matches rel early (f v) (k v)) →
    Matches rel early (plainBits (n + 1) d >>= f) (directLoop (n + 1) d k) := by
  intro n
  induction n with
  | zero =>
    intro d h hk
    refine .plain fun b => ?_
    have hb : b.toNat ≤ 1 := by cases b <;> decide
    show Matches rel early (f (2 * d + b.toNat)) (k (u32 ((d : Int) * 2 + b.toNat)))
    have : u32 ((d : Int) * 2 + b.toNat) = 2 * d + b.toNat := by unfold u32; omega
    rw [this]
    exact hk _ (by omega) (by omega)
  | succ n ih =>
    intro d h hk
    refine .plain fun b => ?_
    have hb : b.toNat ≤ 1 := by cases b <;> decide
    have hpos : 0 < 2 ^ n := Nat.two_pow_pos n
    have h4 : (d + 1) * 4 ≤ (d + 1) * 2 ^ (n + 1 + 1) := Nat.mul_le_mul_left _ (by rw [Nat.pow_succ, Nat.pow_succ]; omega)
    have e1 : (2 * d + b.toNat) * 2 ^ (n + 1) = d * 2 ^ (n + 1 + 1) + b.toNat * 2 ^ (n + 1) := by rw [Nat.pow_succ 2 (n + 1)]; ring
    have e2 : (2 * d + b.toNat + 1) * 2 ^ (n + 1) ≤ (d + 1) * 2 ^ (n + 1 + 1) := by
      rw [Nat.pow_succ 2 (n + 1)]
      calc (2 * d + b.toNat + 1) * 2 ^ (n + 1) ≤ (2 * d + 2) * 2 ^ (n + 1) := Nat.mul_le_mul_right _ (by omega)
        _ = (d + 1) * (2 ^ (n + 1) * 2) := by ring
    show Matches rel early (plainBits (n + 1) (2 * d + b.toNat) >>= f) (directLoop (n + 1) (u32 ((d : Int) * 2 + b.toNat)) k)
    have : u32 ((d : Int) * 2 + b.toNat) = 2 * d + b.toNat := by unfold u32; omega
    rw [this]
    exact ih _ (by omega) fun v h1 h2 => hk v (by omega) (by omega)

theorem length_matches {rep : Bool} {prob ps : Nat} (hp : prob = if rep then 1332 else 818) {f : Nat → Parse Ctx γ} {k : Nat → Prog β}
    (hk : ∀ v, v < 272 → Matches rel early (f v) (k v)) : Matches rel early (Lzma.length rep ps >>= f) (LzmaDec.length prob ps k) := by
  refine Matches.bit' (by rw [hp]; rfl) fun b => ?_
  cases b
  · show Matches rel early ((tree (.lenLow rep ps) 3 1 >>= fun v => pure (v - 8)) >>= f) _
    rw [bind_assoc]
    refine tree_matches (fun i => by rw [hp]; rfl) (fun v h1 h2 => ?_) 2 3 1 (by decide) (by decide) (by decide)
    exact hk (v - 8) (by omega)
  · refine Matches.bit' (by rw [hp]; rfl) fun b => ?_
    cases b
    · show Matches rel early ((tree (.lenMid rep ps) 3 1 >>= fun v => pure (v - 8 + 8)) >>= f) _
      rw [bind_assoc]
      refine tree_matches (fun i => by rw [hp]; rfl) (fun v h1 h2 => ?_) 2 3 1 (by decide) (by decide) (by decide)
      exact hk (v - 8 + 8) (by omega)
    · show Matches rel early ((tree (.lenHigh rep) 8 1 >>= fun v => pure (v - 256 + 16)) >>= f) _
      rw [bind_assoc]
      refine tree_matches (fun i => by rw [hp]; rfl) (fun v h1 h2 => ?_) 7 8 1 (by decide) (by decide) (by decide)
      exact hk (v - 256 + 16) (by omega)

theorem two_or (s : Nat) : (2 ||| (s &&& 1)) = 2 + s % 2 := by
  rw [Nat.and_one_is_mod]
  rcases Nat.mod_two_eq_zero_or_one s with h | h <;> rw [h] <;> rfl

theorem distance_matches {len : Nat} {f : Nat → Parse Ctx γ} {k : Nat → Prog β}
    (hk : ∀ v, v < 2 ^ 32 → Matches rel early (f v) (k v)) : Matches rel early (Lzma.distance len >>= f) (LzmaDec.distance len k) := by
  unfold Lzma.distance LzmaDec.distance
  rw [bind_assoc]
  refine tree_matches (c := .posSlot (min len 3)) (fun i => ?_) (fun v h1 h2 => ?_) 5 6 1 (by decide) (by decide) (by decide)
  · show 432 + _ * 64 + i = 432 + min len 3 * 64 + i
    split
    · rw [show min len 3 = len by omega]
    · rw [show min len 3 = 4 - 1 by omega]
  · have h64 : v - 64 < 64 := by omega
    show Matches rel early ((if v - 64 < 4 then _ else _) >>= f) (if v - 0x40 ≥ 4 then _ else _)
    rw [show (0x40 : Nat) = 64 from rfl]
    generalize v - 64 = s at h64
    by_cases hs : s < 4
    · rw [if_pos hs, if_neg (show ¬ s ≥ 4 by omega)]
      exact hk s (by omega)
    · rw [if_neg hs, if_pos (show s ≥ 4 by omega)]
      dsimp only
      rw [two_or]
      by_cases hs2 : s < 14
      · rw [if_pos hs2, if_pos hs2, bind_assoc, Nat.shiftLeft_eq]
        obtain ⟨n, hn⟩ : ∃ n, s / 2 - 1 = n + 1 := ⟨s / 2 - 2, by omega⟩
        have h := reverse_matches (rel := rel) (early := early) (c := .posSpecial s) (prob := SpecPos + (2 + s % 2) * 2 ^ (s / 2 - 1) - s - 1) (fun i _ => rfl) (k := k) n
          (f := fun v => pure ((2 + s % 2) * 2 ^ (s / 2 - 1) + v) >>= f) 1 0 (2 + s % 2) 0 (by decide) (by decide) (fun v hv => by
            rw [pure_bind, show (0 + n + 1) = s / 2 - 1 by omega]
            rw [show (2 + s % 2) * 2 ^ (s / 2 - 1) + v = 2 ^ (s / 2 - 1) * (2 + s % 2) + 0 + 2 ^ 0 * v by ring]
            apply hk
            have h5 : 2 ^ (s / 2 - 1) ≤ 2 ^ 5 := Nat.pow_le_pow_right (by decide) (by omega)
            have : 2 ^ (s / 2 - 1) * (2 + s % 2) ≤ 2 ^ 5 * 3 := Nat.mul_le_mul h5 (by omega)
            rw [← hn] at hv
            omega)
        rw [show (0 + n + 1) = s / 2 - 1 by omega, ← hn] at h
        rw [show (2 + s % 2) * 2 ^ (s / 2 - 1) = 2 ^ (s / 2 - 1) * (2 + s % 2) + 0 by ring] at h ⊢
        exact h
      · rw [if_neg hs2, if_neg hs2, bind_assoc]
        obtain ⟨n, hn⟩ : ∃ n, s / 2 - 1 - 4 = n + 1 := ⟨s / 2 - 6, by omega⟩
        rw [hn]
        have h26 : 2 ^ (n + 1) ≤ 2 ^ 26 := Nat.pow_le_pow_right (by decide) (by omega)
        have hle : (2 + s % 2 + 1) * 2 ^ (n + 1) ≤ 4 * 2 ^ 26 := Nat.mul_le_mul (by omega) h26
        refine direct_matches n (2 + s % 2) (by omega) fun v h1 h2 => ?_
        rw [bind_assoc]
        have e16 : u32 ((v : Int) * 16) = 2 ^ (0 + 3 + 1) * v + 0 := by unfold u32; omega
        rw [e16]
        refine reverse_matches (c := .align) (prob := Align) (fun i _ => rfl) 3 1 0 v 0 (by decide) (by decide) ?_
        intro u hu
        rw [pure_bind, show v * 16 + u = 2 ^ (0 + 3 + 1) * v + 0 + 2 ^ 0 * u by ring]
        apply hk
        omega

end LzmaDec
end Strigi
