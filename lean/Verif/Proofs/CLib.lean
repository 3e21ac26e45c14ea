import Verif.Model.CLib
import Verif.ArSpec
import Verif.Proofs.Cpio

namespace Strigi.CLib

/-- The number denoted by digits of the given base. -/
def denotes (base : Nat) : List UInt8 → Option Nat
  | [] => some 0
  | b :: l => do
    let v ← denotes base l
    if 48 ≤ b.toNat ∧ b.toNat < 48 + base then some ((b.toNat - 48) * base ^ l.length + v) else none

theorem denotes_ten (l : List UInt8) : denotes 10 l = ArSpec.decimal l := by
  induction l with
  | nil => rfl
  | cons b l ih =>
    rw [denotes, ArSpec.decimal, ih]
    cases ArSpec.decimal l with
    | none => rfl
    | some v =>
      simp only [Option.bind_eq_bind, Option.bind_some]
      by_cases h : 48 ≤ b.toNat ∧ b.toNat ≤ 57
      · rw [if_pos (by omega), if_pos h]
      · rw [if_neg (by omega), if_neg h]

theorem digits_spec {base : Nat} : ∀ (ds : List UInt8) (b : UInt8) (rest : List UInt8) (v n : Nat)
    (any : Bool), denotes base ds = some n → digit base b = none →
    digits base (ds ++ b :: rest) v any = .ok (v * base ^ ds.length + n, any || !ds.isEmpty) := by
  intro ds
  induction ds with
  | nil =>
    intro b rest v n any h hb
    simp only [denotes, Option.some.injEq] at h
    subst h
    simp [digits, hb]
  | cons d ds ih =>
    intro b rest v n any h hb
    rw [denotes] at h
    cases hn : denotes base ds with
    | none => rw [hn] at h; simp at h
    | some w =>
      rw [hn] at h
      simp only [Option.bind_eq_bind, Option.bind_some] at h
      split at h
      · rename_i hd
        simp only [Option.some.injEq] at h
        subst h
        have : digit base d = some (d.toNat - 48) := by rw [digit, if_pos hd]
        rw [List.cons_append, digits, this]
        simp only
        rw [ih b rest _ w true hn hb]
        simp only [List.length_cons, List.isEmpty_cons, Bool.not_false, Bool.true_or, Bool.or_true]
        congr 2
        rw [Nat.pow_succ, Nat.add_mul, Nat.mul_assoc, Nat.mul_comm base, Nat.add_assoc]
      · cases h

theorem skipSpace_of_not {b : UInt8} {m : List UInt8} (h : isSpace b = false) :
    skipSpace (b :: m) = .ok (b :: m) := by
  rw [skipSpace, h]; simp

/-- White space before a number is skipped. -/
theorem skipSpace_spaces (k : Nat) (b : UInt8) (m : List UInt8) (h : isSpace b = false) :
    skipSpace (List.replicate k 32 ++ b :: m) = .ok (b :: m) := by
  induction k with
  | zero => exact skipSpace_of_not h
  | succ k ih =>
    rw [List.replicate_succ, List.cons_append, skipSpace, if_pos (by decide)]
    exact ih

theorem number_spec {base : Nat} (hbase : base ≤ 10) (k : Nat) (ds : List UInt8) (b : UInt8)
    (rest : List UInt8) (n : Nat) (hne : ds ≠ []) (h : denotes base ds = some n)
    (hb : digit base b = none) :
    number base (List.replicate k 32 ++ (ds ++ b :: rest)) = .ok (some (n : Int)) := by
  obtain ⟨d, ds', rfl⟩ : ∃ d ds', ds = d :: ds' := by
    cases ds with
    | nil => exact absurd rfl hne
    | cons d l => exact ⟨d, l, rfl⟩
  have hd : 48 ≤ d.toNat ∧ d.toNat < 48 + base := by
    rw [denotes] at h
    cases hn : denotes base ds' with
    | none => rw [hn] at h; simp at h
    | some w =>
      rw [hn] at h
      simp only [Option.bind_eq_bind, Option.bind_some] at h
      split at h
      · assumption
      · cases h
  have hsp : isSpace d = false := by
    unfold isSpace
    have h1 : d ≠ 32 := by intro z; subst z; simp at hd
    simp only [Bool.or_eq_false_iff, beq_eq_false_iff_ne, ne_eq, h1, not_false_eq_true,
      Bool.and_eq_false_iff, decide_eq_false_iff_not, true_and]
    omega
  have h2 : d ≠ 45 := by intro z; subst z; simp at hd
  have h3 : d ≠ 43 := by intro z; subst z; simp at hd
  rw [number, List.cons_append, skipSpace_spaces k d _ hsp]
  simp only [Res.bind_ok]
  rw [if_neg h2, if_neg h3]
  simp only
  have := digits_spec (d :: ds') b rest 0 n false h hb
  rw [List.cons_append] at this
  rw [this]
  simp

theorem atoi_spec (k : Nat) (ds : List UInt8) (b : UInt8) (rest : List UInt8) (n : Nat) (hne : ds ≠ [])
    (h : ArSpec.decimal ds = some n) (hb : b.toNat < 48 ∨ 57 < b.toNat) (hn : n < 2 ^ 31) :
    atoi (List.replicate k 32 ++ (ds ++ b :: rest)) = .ok (n : Int) := by
  rw [atoi, number_spec (by omega) k ds b rest n hne (by rw [denotes_ten]; exact h)
    (by rw [digit, if_neg (by omega)])]
  simp only [Res.bind_ok]
  have e : max (-(2 ^ 63)) (min (n : Int) (2 ^ 63 - 1)) = n := by omega
  rw [e, narrow32_of_range (by omega) (by omega)]

end Strigi.CLib
