import Verif.Model.Mail
import Verif.MimeSpec
import Verif.Proofs.MailText
import Verif.Proofs.Archive

namespace Strigi.Mail

open Mime (Space Continues Ends Text Line LastLine)

theorem isSpace_iff : ∀ b : UInt8, CLib.isSpace b = true ↔ (b = 32 ∨ (9 ≤ b.toNat ∧ b.toNat ≤ 13)) := by
  apply forall_uint8; decide +kernel

theorem isSpace_eq (b : UInt8) : CLib.isSpace b = true ↔ Space b := isSpace_iff b

theorem isSpace_false (b : UInt8) : CLib.isSpace b = false ↔ ¬ Space b := by
  rw [← isSpace_eq]; simp

/-! ## Scanning -/

theorem scan_append (b : List UInt8) : ∀ (a : List UInt8) (st : LineState) (pos : Int),
    (∃ st', scanLine st pos a = (st', pos + a.length, none) ∧ scanLine st pos (a ++ b) = scanLine st' (pos + a.length) b) ∨
    (∃ st' p k, scanLine st pos a = (st', p, some k) ∧ pos ≤ p ∧ p < pos + a.length ∧
      scanLine st pos (a ++ b) = (st', p, some k)) := by
  intro a
  induction a with
  | nil => intro st pos; exact Or.inl ⟨st, by simp [scanLine], by simp⟩
  | cons c a ih =>
    intro st pos
    simp only [List.cons_append, scanLine, List.length_cons]
    cases hs : lineStep st pos c with
    | mk st1 o =>
      cases o with
      | some k => exact Or.inr ⟨st1, pos, pos - k, rfl, by omega, by omega, rfl⟩
      | none =>
        simp only
        rcases ih st1 (pos + 1) with ⟨st', h1, h2⟩ | ⟨st', p, k, h1, h2, h3, h4⟩
        · refine Or.inl ⟨st', ?_, ?_⟩
          · rw [h1]; simp; omega
          · rw [h2]; congr 1; omega
        · exact Or.inr ⟨st', p, k, h1, by omega, by omega, h4⟩

theorem scan_text {l : List UInt8} (h : Text l) : ∀ (pos : Int) (r : List UInt8), 0 ≤ pos → (pos = 0 → ¬ [13, 10] <+: l) →
    scanLine .ok pos (l ++ r) = scanLine .ok (pos + l.length) r := by
  induction h with
  | nil => intro pos r _ _; simp
  | @char x t h1 h2 _ ih =>
    intro pos r h0 _
    rw [List.cons_append, scanLine]
    simp only [lineStep, if_neg h1, if_neg h2]
    rw [ih (pos + 1) r (by omega) (by omega)]
    simp only [List.length_cons]
    congr 1; omega
  | @fold brk x t hc _ ih =>
    intro pos r h0 hn
    obtain ⟨hsp, hc⟩ := hc
    have hsp' := (isSpace_eq x).mpr hsp
    rcases hc with ⟨rfl, h1, h2⟩ | ⟨rfl, h1⟩ | ⟨rfl, h1⟩
    · simp only [List.cons_append, List.nil_append, scanLine, lineStep, if_true, if_neg h1, h2, hsp']
      simp only [false_or, Bool.true_eq_false, if_false]
      rw [ih _ r (by omega) (by omega)]
      simp only [List.length_cons]; congr 1; omega
    · simp only [List.cons_append, List.nil_append, scanLine, lineStep, if_true, h1, hsp']
      simp only [false_or, Bool.true_eq_false, if_false]
      simp only [show (10 : UInt8) ≠ 13 by decide, if_false]
      rw [ih _ r (by omega) (by omega)]
      simp only [List.length_cons]; congr 1; omega
    · have hp : ¬ pos + 1 + 1 = 2 := fun z => hn (by omega) (by simp)
      simp only [List.cons_append, List.nil_append, scanLine, lineStep, if_true, h1, hsp', hp]
      simp only [false_or, Bool.true_eq_false, if_false]
      rw [ih _ r (by omega) (by omega)]
      simp only [List.length_cons]; congr 1; omega

theorem scan_line {text l rest : List UInt8} (h : Line text l rest) :
    ∃ st, ∃ p : Nat, scanLine .ok 0 text = (st, (p : Int), some (l.length : Int)) ∧ l.length < p ∧ p < text.length ∧ p < 2 ^ 20 ∧
      text.drop p = rest ∧ rest ≠ [] ∧ text.take l.length = l ∧ (∃ b t, text = l ++ b :: t ∧ (b = 13 ∨ b = 10)) := by
  obtain ⟨brk, x, t, rfl, rfl, ht, hn, he, hlen⟩ := h
  have h0 := scan_text ht 0 (brk ++ x :: t) (by omega) (fun _ => hn)
  rw [← List.append_assoc] at h0
  rw [h0]
  rcases he with ⟨rfl, h1, h2⟩ | ⟨rfl, h2⟩ | ⟨rfl, h2⟩
  · refine ⟨.cr, l.length + 1, ?_, by omega, by simp, by simpa using hlen, by simp, by simp, by simp, 13, x :: t, by simp, Or.inl rfl⟩
    rw [← isSpace_false] at h2
    simp only [List.cons_append, List.nil_append, scanLine, lineStep, if_true, if_neg h1, if_pos h2]
    simp only [Prod.mk.injEq, true_and, Option.some.injEq]; omega
  · refine ⟨.lf, l.length + 1, ?_, by omega, by simp, by simpa using hlen, by simp, by simp, by simp, 10, x :: t, by simp, Or.inr rfl⟩
    rw [← isSpace_false] at h2
    simp only [List.cons_append, List.nil_append, scanLine, lineStep, if_true, if_pos h2]
    simp only [show (10 : UInt8) ≠ 13 by decide, if_false, if_pos h2]
    simp only [Prod.mk.injEq, true_and, Option.some.injEq]; omega
  · refine ⟨.crlf, l.length + 2, ?_, by omega, by simp, by simpa using hlen, by
      rw [show l.length + 2 = (l ++ [13, 10]).length by simp, List.drop_left], by simp, by simp, 13, 10 :: x :: t, by simp, Or.inl rfl⟩
    rw [← isSpace_false] at h2
    have h3 : x = 13 ∨ (0 : Int) + l.length + 1 + 1 = 2 ∨ CLib.isSpace x = false := by
      rcases h2 with z | z | z
      · exact Or.inl z
      · subst z; exact Or.inr (Or.inl (by simp))
      · exact Or.inr (Or.inr z)
    simp only [List.cons_append, List.nil_append, scanLine, lineStep, if_true, if_pos h3]
    simp only [Prod.mk.injEq, true_and, Option.some.injEq]; omega

/-- What the scan recognises is a line. -/
theorem scan_sound : ∀ (m : Nat) (text : List UInt8) (pos : Int) (st : LineState) (p k : Int), text.length ≤ m → 0 ≤ pos →
    scanLine .ok pos text = (st, p, some k) →
    ∃ l brk x t, text = l ++ brk ++ x :: t ∧ Text l ∧ k = pos + l.length ∧ p = pos + l.length + brk.length ∧
      ((brk = [13] ∧ x ≠ 10 ∧ (x = 13 ∨ ¬ Space x)) ∨ (brk = [10] ∧ (x = 10 ∨ ¬ Space x)) ∨
        (brk = [13, 10] ∧ (x = 13 ∨ (pos = 0 ∧ l = []) ∨ ¬ Space x))) := by
  intro m
  induction m with
  | zero =>
    intro text pos st p k hm _ h
    have : text = [] := List.length_eq_zero_iff.mp (by omega)
    subst this; simp [scanLine] at h
  | succ m ih =>
    intro text pos st p k hm h0 h
    rcases text with _ | ⟨a, text⟩
    · simp [scanLine] at h
    simp only [List.length_cons] at hm
    have step : ∀ (w : List UInt8) (pos' : Int) (t' : List UInt8), a :: text = w ++ t' → (∀ l, Text l → Text (w ++ l)) →
        pos' = pos + w.length → t'.length ≤ m → w ≠ [] → scanLine .ok pos' t' = (st, p, some k) →
        ∃ l brk x t, a :: text = l ++ brk ++ x :: t ∧ Text l ∧ k = pos + l.length ∧ p = pos + l.length + brk.length ∧
          ((brk = [13] ∧ x ≠ 10 ∧ (x = 13 ∨ ¬ Space x)) ∨ (brk = [10] ∧ (x = 10 ∨ ¬ Space x)) ∨
            (brk = [13, 10] ∧ (x = 13 ∨ (pos = 0 ∧ l = []) ∨ ¬ Space x))) := by
      intro w pos' t' e hw hp hl hne hs
      have hwl := List.length_pos_iff.mpr hne
      obtain ⟨l, brk, x, t, e1, e2, e3, e4, e5⟩ := ih t' pos' st p k hl (by omega) hs
      refine ⟨w ++ l, brk, x, t, by rw [e, e1]; simp, hw _ e2, by rw [List.length_append]; omega, by rw [List.length_append]; omega, ?_⟩
      rcases e5 with z | z | ⟨z1, z | z | z⟩
      · exact Or.inl z
      · exact Or.inr (Or.inl z)
      · exact Or.inr (Or.inr ⟨z1, Or.inl z⟩)
      · omega
      · exact Or.inr (Or.inr ⟨z1, Or.inr (Or.inr z)⟩)
    rw [scanLine] at h
    by_cases h13 : a = 13
    · subst h13
      simp only [lineStep, if_true] at h
      rcases text with _ | ⟨b, text⟩
      · simp [scanLine] at h
      simp only [List.length_cons] at hm
      rw [scanLine] at h
      by_cases h10 : b = 10
      · subst h10
        simp only [lineStep, if_true] at h
        rcases text with _ | ⟨x, text⟩
        · simp [scanLine] at h
        simp only [List.length_cons] at hm
        rw [scanLine] at h
        simp only [lineStep] at h
        split at h
        · rename_i hcond heq
          split at heq
          · cases heq
          · rename_i hc
            cases heq
            simp only [not_or, Bool.not_eq_false] at hc
            exact step [13, 10, x] _ text rfl
              (fun l hl => .fold (brk := [13, 10]) ⟨(isSpace_eq x).mp hc.2.2, Or.inr (Or.inr ⟨rfl, hc.1⟩)⟩ hl)
              (by simp; omega) (by omega) (by simp) h
        · rename_i hcond heq
          split at heq
          · rename_i hc
            cases heq; cases h
            refine ⟨[], [13, 10], x, text, rfl, .nil, by simp; omega, by simp; omega, Or.inr (Or.inr ⟨rfl, ?_⟩)⟩
            rcases hc with z | z | z
            · exact Or.inl z
            · exact Or.inr (Or.inl ⟨by omega, rfl⟩)
            · exact Or.inr (Or.inr ((isSpace_false x).mp z))
          · cases heq
      · simp only [lineStep, if_neg h10] at h
        split at h
        · rename_i hcond heq
          split at heq
          · cases heq
          · rename_i hc
            cases heq
            simp only [not_or, Bool.not_eq_false] at hc
            exact step [13, b] _ text rfl
              (fun l hl => .fold (brk := [13]) ⟨(isSpace_eq b).mp hc.2, Or.inl ⟨rfl, h10, hc.1⟩⟩ hl)
              (by simp; omega) (by omega) (by simp) h
        · rename_i hcond heq
          split at heq
          · rename_i hc
            cases heq; cases h
            exact ⟨[], [13], b, text, rfl, .nil, by simp, by simp, Or.inl ⟨rfl, h10, by
              rw [← isSpace_false]; exact hc⟩⟩
          · cases heq
    · by_cases h10 : a = 10
      · subst h10
        simp only [lineStep, if_true, show ¬ ((10 : UInt8) = 13) by decide, if_false] at h
        rcases text with _ | ⟨b, text⟩
        · simp [scanLine] at h
        simp only [List.length_cons] at hm
        rw [scanLine] at h
        simp only [lineStep] at h
        split at h
        · rename_i hcond heq
          split at heq
          · cases heq
          · rename_i hc
            cases heq
            simp only [not_or, Bool.not_eq_false] at hc
            exact step [10, b] _ text rfl
              (fun l hl => .fold (brk := [10]) ⟨(isSpace_eq b).mp hc.2, Or.inr (Or.inl ⟨rfl, hc.1⟩)⟩ hl)
              (by simp; omega) (by omega) (by simp) h
        · rename_i hcond heq
          split at heq
          · rename_i hc
            cases heq; cases h
            exact ⟨[], [10], b, text, rfl, .nil, by simp, by simp, Or.inr (Or.inl ⟨rfl, by
              rw [← isSpace_false]; exact hc⟩)⟩
          · cases heq
      · simp only [lineStep, if_neg h13, if_neg h10] at h
        exact step [a] _ text rfl (fun l hl => .char h13 h10 hl) (by simp) (by omega) (by simp) h

theorem line_of_scan {text : List UInt8} {st : LineState} {p k : Int} (h : scanLine .ok 0 text = (st, p, some k))
    (hp : p < 2 ^ 20) : ∃ l rest, Line text l rest ∧ k = l.length := by
  obtain ⟨l, brk, x, t, e1, e2, e3, e4, e5⟩ := scan_sound text.length text 0 st p k (Nat.le_refl _) (by omega) h
  refine ⟨l, x :: t, ⟨brk, x, t, by rw [e1], rfl, e2, ?_, ?_, by omega⟩, by omega⟩
  · rintro ⟨m, rfl⟩
    have : ∃ y, ∃ m' : List UInt8, text = 13 :: 10 :: y :: m' := by
      rw [e1]
      rcases m with _ | ⟨y, m⟩
      · rcases brk with _ | ⟨y, brk⟩
        · exact ⟨x, t, by simp⟩
        · exact ⟨y, brk ++ x :: t, by simp⟩
      · exact ⟨y, m ++ brk ++ x :: t, by simp⟩
    obtain ⟨y, m', e⟩ := this
    rw [e] at h
    simp [scanLine, lineStep] at h
    simp only [List.length_append, List.length_cons, List.length_nil] at e3
    omega
  · rcases e5 with z | z | ⟨z1, z⟩
    · exact Or.inl z
    · exact Or.inr (Or.inl z)
    · exact Or.inr (Or.inr ⟨z1, z.imp_right (Or.imp_left And.right)⟩)

theorem scan_last {text : List UInt8} (h : LastLine text) : ∃ st, scanLine .ok 0 text = (st, (text.length : Int), none) := by
  rcases scan_append [] text .ok 0 with ⟨st, h1, _⟩ | ⟨st, p, k, h1, h2, h3, _⟩
  · exact ⟨st, by rw [h1]; simp⟩
  · obtain ⟨l, rest, hl, _⟩ := line_of_scan h1 (by have := h.1; omega)
    exact absurd hl (h.2 l rest)

end Strigi.Mail
