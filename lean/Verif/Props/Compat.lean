import Verif.Model.Compat
import Verif.Model.Mail
import Verif.MimeSpec

/-!
# C123, C124: the replacements of lib/compat.cpp
-/

namespace Strigi.Props

open MailText (toLower)

theorem toLower_lower (b : UInt8) : toLower b = Mime.lower b := by
  unfold toLower Mime.lower
  have e : (65 ≤ b ∧ b ≤ 90) ↔ (65 ≤ b.toNat ∧ b.toNat ≤ 90) := by
    constructor
    · rintro ⟨h1, h2⟩; exact ⟨UInt8.le_iff_toNat_le.1 h1, UInt8.le_iff_toNat_le.1 h2⟩
    · rintro ⟨h1, h2⟩; exact ⟨UInt8.le_iff_toNat_le.2 h1, UInt8.le_iff_toNat_le.2 h2⟩
  by_cases h : 65 ≤ b ∧ b ≤ 90
  · rw [if_pos h, if_pos (e.1 h)]
  · rw [if_neg h, if_neg (fun z => h (e.2 z))]

theorem lower_zero (b : UInt8) : Mime.lower b = 0 ↔ b = 0 := by
  constructor
  · intro h
    unfold Mime.lower at h
    split at h
    · rename_i z
      have : (b + 32).toNat = 0 := by rw [h]; rfl
      rw [UInt8.toNat_add] at this
      have : (32 : UInt8).toNat = 32 := rfl
      omega
    · exact h
  · rintro rfl; rfl

theorem schar_inj {a b : UInt8} (h : schar a - schar b = 0) : a = b := by
  have ha := a.toNat_lt; have hb := b.toNat_lt
  unfold schar at h
  apply UInt8.toNat_inj.1
  split at h <;> split at h <;> omega

/-- **C123**: `strcasecmp` stays inside two strings that end with a zero, and is zero exactly for strings that
differ only in the case of letters. -/
theorem C123_strcasecmp (x y m m' : List UInt8) (hx : (0 : UInt8) ∉ x) (hy : (0 : UInt8) ∉ y) :
    ∃ r, Compat.strcasecmp (x ++ 0 :: m) (y ++ 0 :: m') = .ok r ∧ (r = 0 ↔ Mime.SameCase x y) := by
  induction x generalizing y with
  | nil =>
    cases y with
    | nil => exact ⟨0, rfl, by simp [Mime.SameCase]⟩
    | cons b y =>
      refine ⟨_, by simp only [List.nil_append, List.cons_append, Compat.strcasecmp]; rw [if_neg (fun z => z.1 (show toLower 0 = 0 by decide))], ?_⟩
      simp only [toLower_lower, Mime.SameCase, List.map_nil, List.map_cons]
      constructor
      · intro z
        have := schar_inj z
        rw [show Mime.lower 0 = 0 by rfl] at this
        exact absurd ((lower_zero b).1 this.symm) (fun z => hy (by rw [z]; exact List.mem_cons_self))
      · intro z; cases z
  | cons a x ih =>
    have ha : a ≠ 0 := fun z => hx (by rw [z]; exact List.mem_cons_self)
    have hla : Mime.lower a ≠ 0 := fun z => ha ((lower_zero a).1 z)
    cases y with
    | nil =>
      refine ⟨_, by
        simp only [List.nil_append, List.cons_append, Compat.strcasecmp, toLower_lower]
        rw [if_neg (by rw [show Mime.lower 0 = 0 by rfl]; exact fun z => z.1 z.2)], ?_⟩
      simp only [Mime.SameCase, List.map_nil, List.map_cons]
      constructor
      · intro z
        have := schar_inj z
        exact absurd this hla
      · intro z; cases z
    | cons b y =>
      by_cases e : Mime.lower a = Mime.lower b
      · obtain ⟨r, h1, h2⟩ := ih y (fun z => hx (List.mem_cons_of_mem _ z))
          (fun z => hy (List.mem_cons_of_mem _ z))
        refine ⟨r, ?_, ?_⟩
        · simp only [List.cons_append, Compat.strcasecmp, toLower_lower]
          rw [if_pos ⟨hla, e⟩, h1]
        · rw [h2]; simp [Mime.SameCase, e]
      · refine ⟨_, by
          simp only [List.cons_append, Compat.strcasecmp, toLower_lower]
          rw [if_neg (fun z => e z.2)], ?_⟩
        constructor
        · intro z; exact absurd (schar_inj z) e
        · intro z
          simp only [Mime.SameCase, List.map_cons, List.cons.injEq] at z
          exact absurd z.1 e

/-- At most `n` bytes of the string at the start of the memory `m`. -/
def Upto (n : Nat) (m x : List UInt8) : Prop :=
  (0 : UInt8) ∉ x ∧ ((x.length = n ∧ ∃ r, m = x ++ r) ∨ (x.length < n ∧ ∃ r, m = x ++ 0 :: r))

theorem upto_cons {n : Nat} {a : UInt8} {m x : List UInt8} (h : Upto (n + 1) (a :: m) x) :
    (a = 0 ∧ x = []) ∨ (a ≠ 0 ∧ ∃ x', x = a :: x' ∧ Upto n m x') := by
  obtain ⟨h0, h⟩ := h
  cases x with
  | nil =>
    rcases h with ⟨h, _⟩ | ⟨_, r, h⟩
    · simp at h
    · simp only [List.nil_append, List.cons.injEq] at h; exact Or.inl ⟨h.1, rfl⟩
  | cons b x =>
    have hb : b = a := by
      rcases h with ⟨_, r, h⟩ | ⟨_, r, h⟩ <;>
      · simp only [List.cons_append, List.cons.injEq] at h; exact h.1.symm
    subst hb
    refine Or.inr ⟨fun z => h0 (by rw [z]; exact List.mem_cons_self), x, rfl,
      fun z => h0 (List.mem_cons_of_mem _ z), ?_⟩
    rcases h with ⟨g, r, h⟩ | ⟨g, r, h⟩
    · simp only [List.cons_append, List.cons.injEq, true_and] at h
      exact Or.inl ⟨by simpa using g, r, h⟩
    · simp only [List.cons_append, List.cons.injEq, true_and] at h
      exact Or.inr ⟨by simpa using g, r, h⟩

theorem upto_ne_nil {n : Nat} {m x : List UInt8} (h : Upto (n + 1) m x) : ∃ a m', m = a :: m' := by
  cases m with
  | cons a m => exact ⟨a, m, rfl⟩
  | nil =>
    rcases h with ⟨_, ⟨g, r, h⟩ | ⟨g, r, h⟩⟩
    · cases x with
      | nil => simp at g
      | cons b x => simp at h
    · simp at h

theorem strncasecmpLoop_ok : ∀ (n : Nat) (d : Option Int) (m m' x y : List UInt8),
    Upto n m x → Upto n m' y → (d = none → 1 ≤ n) → (∀ v, d = some v → v = 0) →
    ∃ r, Compat.strncasecmpLoop n d m m' = .ok r ∧ (r = 0 ↔ Mime.SameCase x y) := by
  intro n
  induction n with
  | zero =>
    intro d m m' x y hx hy hd hv
    cases d with
    | none => exact absurd (hd rfl) (by omega)
    | some v =>
      refine ⟨v, rfl, ?_⟩
      have ex : x = [] := by
        rcases hx with ⟨_, ⟨g, _⟩ | ⟨g, _⟩⟩
        · exact List.eq_nil_of_length_eq_zero g
        · omega
      have ey : y = [] := by
        rcases hy with ⟨_, ⟨g, _⟩ | ⟨g, _⟩⟩
        · exact List.eq_nil_of_length_eq_zero g
        · omega
      subst ex ey
      simp [hv v rfl, Mime.SameCase]
  | succ n ih =>
    intro d m m' x y hx hy _ _
    obtain ⟨a, m, rfl⟩ := upto_ne_nil hx
    obtain ⟨b, m', rfl⟩ := upto_ne_nil hy
    simp only [Compat.strncasecmpLoop, toLower_lower]
    by_cases hc : Mime.lower a ≠ 0 ∧ Mime.lower a = Mime.lower b
    · rw [if_pos hc]
      have ha : a ≠ 0 := fun z => hc.1 ((lower_zero a).2 z)
      have hb : b ≠ 0 := fun z => hc.1 (hc.2.trans ((lower_zero b).2 z))
      rcases upto_cons hx with ⟨z, _⟩ | ⟨_, x', rfl, hx'⟩
      · exact absurd z ha
      rcases upto_cons hy with ⟨z, _⟩ | ⟨_, y', rfl, hy'⟩
      · exact absurd z hb
      obtain ⟨r, h1, h2⟩ := ih (some (schar (Mime.lower a) - schar (Mime.lower b))) m m' x' y' hx' hy'
        (fun z => by cases z) (by intro v z; cases z; rw [hc.2]; omega)
      exact ⟨r, h1, by rw [h2]; simp [Mime.SameCase, hc.2]⟩
    · rw [if_neg hc]
      refine ⟨_, rfl, ?_⟩
      constructor
      · intro z
        have e := schar_inj z
        have hz : Mime.lower a = 0 := by
          exact Classical.byContradiction (fun h => hc ⟨h, e⟩)
        have ha := (lower_zero a).1 hz
        have hb := (lower_zero b).1 (e ▸ hz)
        rcases upto_cons hx with ⟨_, rfl⟩ | ⟨z, _⟩
        · rcases upto_cons hy with ⟨_, rfl⟩ | ⟨z, _⟩
          · rfl
          · exact absurd hb z
        · exact absurd ha z
      · intro z
        rcases upto_cons hx with ⟨ea, rfl⟩ | ⟨za, x', rfl, hx'⟩ <;>
          rcases upto_cons hy with ⟨eb, rfl⟩ | ⟨zb, y', rfl, hy'⟩
        · subst ea eb; rfl
        · simp [Mime.SameCase] at z
        · simp [Mime.SameCase] at z
        · simp only [Mime.SameCase, List.map_cons, List.cons.injEq] at z
          exact absurd ⟨fun w => za ((lower_zero a).1 w), z.1⟩ hc

/-- **C123**: `strncasecmp` with a limit of at least 1 looks at no more than so many bytes, stops behind a zero,
and is zero exactly if the bytes before differ only in the case of letters. -/
theorem C123_strncasecmp (m m' x y : List UInt8) (l : Nat) (hl : 1 ≤ l) (hx : Upto l m x) (hy : Upto l m' y) :
    ∃ r, Compat.strncasecmp m m' l = .ok r ∧ (r = 0 ↔ Mime.SameCase x y) :=
  strncasecmpLoop_ok l none m m' x y hx hy (fun _ => hl) (fun _ z => by cases z)

/-- **C123**: with the limit 0 the result is computed from variables that were never set. -/
theorem C123_strncasecmp_zero (m m' : List UInt8) : Compat.strncasecmp m m' 0 = .fault .undefined := rfl

/-- **C123**: the order of `strcasecmp` is that of the (lower case) characters only as long as they are ASCII:
`é` in Latin-1 comes before `z`, while the C library puts it after. -/
theorem C123_order_refuted :
    Compat.strcasecmp [0xE9, 0] [122, 0] = .ok (-145) ∧ (122 : UInt8).toNat < (0xE9 : UInt8).toNat := by
  decide

/-- Non-vacuity of C123. -/
example : Compat.strncasecmp [84, 79, 58, 32] [116, 111, 58, 0] 3 = .ok 0 ∧
    Upto 3 [84, 79, 58, 32] [84, 79, 58] := ⟨by decide, by decide, Or.inl ⟨rfl, [32], rfl⟩⟩

/-! ### `strcasestr`, `isblank` -/

/-- `i` is the first position at which `big` continues with something that is equal to `little` up to `eq`. -/
def FirstAt (eq : List UInt8 → List UInt8 → Prop) (big little : List UInt8) (i : Nat) : Prop :=
  (∃ a b c, big = a ++ b ++ c ∧ a.length = i ∧ eq b little) ∧
    ∀ a b c, big = a ++ b ++ c → eq b little → i ≤ a.length

theorem strstr_some {big little : List UInt8} {i : Nat} (h : Compat.strstr big little = some i) :
    FirstAt (· = ·) big little i := by
  induction big generalizing i with
  | nil =>
    unfold Compat.strstr at h
    by_cases hp : little.isPrefixOf []
    · rw [if_pos hp] at h; cases h
      have : little = [] := by simpa using hp
      exact ⟨⟨[], [], [], rfl, rfl, this.symm⟩, fun a b c _ _ => Nat.zero_le _⟩
    · rw [if_neg hp] at h; cases h
  | cons d big ih =>
    unfold Compat.strstr at h
    by_cases hp : little.isPrefixOf (d :: big)
    · rw [if_pos hp] at h; cases h
      obtain ⟨t, ht⟩ := List.isPrefixOf_iff_prefix.1 hp
      exact ⟨⟨[], little, t, by simpa using ht.symm, rfl, rfl⟩, fun a b c _ _ => Nat.zero_le _⟩
    · rw [if_neg hp] at h
      simp only at h
      cases hs : Compat.strstr big little with
      | none => rw [hs] at h; cases h
      | some j =>
        rw [hs] at h; cases h
        obtain ⟨⟨a, b, c, e, hl, he⟩, hmin⟩ := ih hs
        refine ⟨⟨d :: a, b, c, by rw [e]; rfl, by simp [hl], he⟩, ?_⟩
        intro a' b' c' e' he'
        cases a' with
        | nil =>
          exfalso; apply hp
          rw [List.isPrefixOf_iff_prefix, e', he']
          exact ⟨c', by simp⟩
        | cons x a' =>
          simp only [List.cons_append, List.cons.injEq] at e'
          have := hmin a' b' c' e'.2 he'
          simp only [List.length_cons]; omega

theorem strstr_none {big little : List UInt8} (h : Compat.strstr big little = none) :
    ∀ a b c, big = a ++ b ++ c → b ≠ little := by
  induction big with
  | nil =>
    unfold Compat.strstr at h
    by_cases hp : little.isPrefixOf []
    · rw [if_pos hp] at h; cases h
    · intro a b c e hb
      apply hp
      have : b = [] := by
        have := congrArg List.length e
        simp only [List.length_append, List.length_nil] at this
        exact List.eq_nil_of_length_eq_zero (by omega)
      rw [← hb, this]; rfl
  | cons d big ih =>
    unfold Compat.strstr at h
    by_cases hp : little.isPrefixOf (d :: big)
    · rw [if_pos hp] at h; cases h
    · rw [if_neg hp] at h
      simp only at h
      cases hs : Compat.strstr big little with
      | some j => rw [hs] at h; cases h
      | none =>
        intro a b c e hb
        cases a with
        | nil =>
          apply hp
          rw [List.isPrefixOf_iff_prefix, e, hb]
          exact ⟨c, by simp⟩
        | cons x a =>
          simp only [List.cons_append, List.cons.injEq] at e
          exact ih hs a b c e.2 hb

/-- Splitting a list whose image under `map` is split. -/
theorem map_split {f : UInt8 → UInt8} {l a b c : List UInt8} (h : l.map f = a ++ b ++ c) :
    ∃ a' b' c', l = a' ++ b' ++ c' ∧ a'.map f = a ∧ b'.map f = b ∧ c'.map f = c := by
  obtain ⟨p, c', e1, e2, e3⟩ := List.map_eq_append_iff.1 h
  obtain ⟨a', b', e4, e5, e6⟩ := List.map_eq_append_iff.1 e2
  exact ⟨a', b', c', by rw [e1, e4], e5, e6, e3⟩

theorem map_toLower (l : List UInt8) : l.map toLower = l.map Mime.lower :=
  List.map_congr_left (fun b _ => toLower_lower b)

/-- **C124**: with `strlwr`, `strcasestr` finds the first place that differs from the pattern in the case of
letters only, and nothing if there is none. -/
theorem C124_strcasestr (big little : List UInt8) :
    (∀ i, Compat.strcasestr true big little = some i → FirstAt Mime.SameCase big little i) ∧
    (Compat.strcasestr true big little = none → ∀ a b c, big = a ++ b ++ c → ¬ Mime.SameCase b little) := by
  unfold Compat.strcasestr
  simp only [if_true, map_toLower]
  constructor
  · intro i h
    obtain ⟨⟨a, b, c, e, hl, he⟩, hmin⟩ := strstr_some h
    obtain ⟨a', b', c', e1, e2, e3, e4⟩ := map_split e
    refine ⟨⟨a', b', c', e1, by rw [← hl, ← e2, List.length_map], by rw [Mime.SameCase, e3, he]⟩, ?_⟩
    intro a2 b2 c2 h1 h2
    have := hmin (a2.map Mime.lower) (b2.map Mime.lower) (c2.map Mime.lower) (by rw [h1]; simp) h2
    simpa using this
  · intro h a b c e hs
    exact strstr_none h (a.map Mime.lower) (b.map Mime.lower) (c.map Mime.lower) (by rw [e]; simp) hs

/-- **C124**: without `strlwr` (the branch for Solaris) the case of the letters matters after all. -/
theorem C124_case_sensitive (big little : List UInt8) :
    (∀ i, Compat.strcasestr false big little = some i → FirstAt (· = ·) big little i) ∧
    (Compat.strcasestr false big little = none → ∀ a b c, big = a ++ b ++ c → b ≠ little) :=
  ⟨fun _ h => strstr_some h, fun h => strstr_none h⟩

/-- **C124**: so a mail whose transfer encoding is written `Base64` is not decoded there: `strcasestr` does not
find `base64` in it, although it differs only in the case of letters. -/
theorem C124_base64_missed :
    Compat.strcasestr false [66, 97, 115, 101, 54, 52] [98, 97, 115, 101, 54, 52] = none ∧
      Mime.SameCase [66, 97, 115, 101, 54, 52] [98, 97, 115, 101, 54, 52] :=
  ⟨by decide, by unfold Mime.SameCase; decide⟩

/-- **C124**: `isblank` takes the ends of lines for blanks, too: the C library's is true for space and tab only. -/
theorem C124_isblank (c : UInt8) : Compat.isblank c = true ↔ (c = 32 ∨ c = 9) ∨ (c = 10 ∨ c = 13) := by
  simp only [Compat.isblank, Bool.or_eq_true, beq_iff_eq]
  rw [or_assoc]

example : Compat.strcasestr true [32, 66, 65] [98] = some 1 := by decide

end Strigi.Props
