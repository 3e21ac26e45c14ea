import Verif.Model.MailText
import Verif.MailSpec
import Verif.Proofs.TextUtils
import Verif.Proofs.Base64
import Verif.Proofs.Cpio
import Verif.Props.Base64

/-!
# Proofs about the text functions of `MailInputStream`
-/

namespace Strigi.MailText

open MailSpec

theorem hex_iff : ∀ c : UInt8, isXDigit c = (hexValue c).isSome := by
  apply forall_uint8; decide +kernel

theorem hex_value : ∀ c : UInt8, ∀ i, hexValue c = some i → (decodeHex c).toNat = i ∧ i < 16 := by
  have : ∀ c : UInt8, ((hexValue c).all fun i => decide ((decodeHex c).toNat = i ∧ i < 16)) = true := by
    apply forall_uint8; decide +kernel
  intro c i h
  have := this c
  rw [h] at this
  simpa using this

theorem hex_pair {a b x : UInt8} {i j : Nat} (ha : hexValue a = some i) (hb : hexValue b = some j)
    (hx : x.toNat = 16 * i + j) : decodeHex a * 16 + decodeHex b = x := by
  have h1 := hex_value a i ha
  have h2 := hex_value b j hb
  apply UInt8.toNat_inj.mp
  rw [UInt8.toNat_add, UInt8.toNat_mul, h1.1, h2.1, hx]
  simp
  omega

theorem qp_space (d p e : List UInt8) : qpLoop d p (95 :: e) = qpLoop (d ++ p ++ [32]) [] e := by
  rcases e with _ | ⟨a, _ | ⟨b, e⟩⟩ <;> conv_lhs => rw [qpLoop]
  all_goals simp

theorem qp_plain {x : UInt8} {e : List UInt8} (d p : List UInt8) (h : ¬ Escape (x :: e)) (hx : x ≠ 95) :
    qpLoop d p (x :: e) = qpLoop d (p ++ [x]) e := by
  rcases e with _ | ⟨a, _ | ⟨b, e⟩⟩
  · conv_lhs => rw [qpLoop, if_neg hx]
  · conv_lhs => rw [qpLoop, if_neg hx]
  · rw [qpLoop, if_neg, if_neg hx]
    rintro ⟨rfl, h1, h2⟩
    rw [hex_iff] at h1 h2
    exact h ⟨a, b, e, rfl, h1, h2⟩

theorem qp_spec {e b : List UInt8} (h : QDecodes e b) : ∀ d p, qpLoop d p e = d ++ p ++ b := by
  induction h with
  | nil => intro d p; rw [qpLoop]; simp
  | escaped ha hb hx _ ih =>
    intro d p
    rw [qpLoop, if_pos, ih, hex_pair ha hb hx]
    · simp
    · rw [hex_iff, hex_iff, ha, hb]; simp
  | space _ ih => intro d p; rw [qp_space, ih]; simp
  | plain h hx _ ih => intro d p; rw [qp_plain d p h hx, ih]; simp

theorem qp_total : ∀ (n : Nat) (e : List UInt8), e.length ≤ n → ∃ b, QDecodes e b := by
  intro n
  induction n with
  | zero =>
    intro e h
    cases e with
    | nil => exact ⟨[], .nil⟩
    | cons => simp at h
  | succ n ih =>
    intro e h
    cases e with
    | nil => exact ⟨[], .nil⟩
    | cons x e =>
      simp only [List.length_cons] at h
      by_cases he : Escape (x :: e)
      · obtain ⟨a, c, t, z, ha, hc⟩ := he
        injection z with z1 z2
        subst z1 z2
        obtain ⟨i, hi⟩ := Option.isSome_iff_exists.mp ha
        obtain ⟨j, hj⟩ := Option.isSome_iff_exists.mp hc
        simp only [List.length_cons] at h
        obtain ⟨b, hb⟩ := ih t (by omega)
        refine ⟨UInt8.ofNat (16 * i + j) :: b, .escaped hi hj ?_ hb⟩
        have h1 := (hex_value a i hi).2
        have h2 := (hex_value c j hj).2
        simp
        omega
      · obtain ⟨b, hb⟩ := ih e (by omega)
        by_cases hx : x = 95
        · subst hx; exact ⟨_, .space hb⟩
        · exact ⟨_, .plain he hx hb⟩

theorem QEncodes.decodes {b e : List UInt8} (h : QEncodes b e) : QDecodes e b := by
  induction h with
  | nil => exact .nil
  | escaped ha hb hx _ ih => exact .escaped ha hb hx ih
  | space _ ih => exact .space ih
  | plain h1 h2 _ ih =>
    refine .plain ?_ h2 ih
    rintro ⟨_, _, _, z, _⟩
    injection z with z
    exact h1 z

/-! ## `checkHeader` -/

open ParserState

/-- The state after a character, or `none` if the text is rejected. -/
def step (st : ParserState) (c : UInt8) : Option ParserState :=
  match parseChar st c with
  | none => none
  | some (st', false) => some st'
  | some (st', true) =>
    match parseChar st' c with
    | none => none
    | some (st'', _) => some st''

def accepts : ParserState → List UInt8 → Bool
  | _, [] => true
  | st, c :: l =>
    match step st c with
    | none => false
    | some st' => accepts st' l

/-- A character is looked at again at most once. -/
theorem again_once : ∀ (st st' : ParserState) (c : UInt8), parseChar st c = some (st', true) →
    ∀ st'' b, parseChar st' c = some (st'', b) → b = false := by
  have : ∀ (c : UInt8), ∀ st ∈ [inName, inValue, maybeNewLine, possibleName, maybeEnd, inBody],
      (match parseChar st c with
       | some (st', true) => (parseChar st' c).all (fun x => x.2 = false)
       | _ => true) = true := by
    apply forall_uint8; decide +kernel
  intro st st' c h st'' b h2
  have := this c st (by cases st <;> simp)
  rw [h] at this
  simp only at this
  rw [h2] at this
  simpa using this

theorem parseLoop_spec (l : List UInt8) : ∀ (done : List UInt8) (st : ParserState) (fuel : Nat),
    2 * l.length < fuel →
    parseLoop (done ++ l) (done ++ l).length fuel st done.length = .ok (accepts st l) := by
  induction l with
  | nil =>
    intro done st fuel hf
    obtain ⟨fuel, rfl⟩ : ∃ k, fuel = k + 1 := ⟨fuel - 1, by omega⟩
    rw [parseLoop, if_neg (by simp)]
    rfl
  | cons c l ih =>
    intro done st fuel hf
    simp only [List.length_cons] at hf
    obtain ⟨fuel, rfl⟩ : ∃ k, fuel = k + 2 := ⟨fuel - 2, by omega⟩
    have hget : aget (done ++ c :: l) (done.length : Int) = .ok c := by
      unfold aget
      rw [if_pos (by omega)]
      simp
    have hlt : (done.length : Int) < ((done ++ c :: l).length : Nat) := by simp
    have hnext := ih (done ++ [c])
    have hl : (((done ++ [c]).length : Nat) : Int) = done.length + 1 := by simp
    rw [hl] at hnext
    simp only [List.append_assoc, List.cons_append, List.nil_append] at hnext
    rw [parseLoop, if_pos hlt, hget]
    simp only [Res.bind_ok, accepts, step]
    cases h1 : parseChar st c with
    | none => rfl
    | some x =>
      obtain ⟨st', again⟩ := x
      cases again with
      | false =>
        simp only [Bool.false_eq_true, if_false]
        exact hnext st' (fuel + 1) (by omega)
      | true =>
        simp only [if_true]
        rw [parseLoop, if_pos hlt, hget]
        simp only [Res.bind_ok]
        cases h2 : parseChar st' c with
        | none => rfl
        | some y =>
          obtain ⟨st'', b⟩ := y
          have := again_once st st' c h1 st'' b h2
          subst this
          simp only [Bool.false_eq_true, if_false]
          exact hnext st'' fuel (by omega)

/-- What may follow a header field. -/
def Tail (x : List UInt8) : Prop :=
  ∃ (fs : List (List UInt8)) (body : List UInt8), x = fs.flatten ++ 13 :: 10 :: body ∧ (∀ g ∈ fs, Field g) ∧ Ascii body

/-- What may follow in the middle of a value. -/
def InValue (x : List UInt8) : Prop := ∃ v r, x = v ++ 13 :: 10 :: r ∧ FieldValue v ∧ Tail r

/-- How the text may go on in a state so that it becomes a mail. -/
def Completes : ParserState → List UInt8 → Prop
  | inName, x => ∃ name y, x = name ++ 58 :: y ∧ FieldName name ∧ InValue y
  | inValue, x => InValue x
  | maybeNewLine, x => InValue (13 :: x)
  | possibleName, x => Tail x ∨ ∃ w y, x = w :: y ∧ (w = 32 ∨ w = 9) ∧ InValue y
  | maybeEnd, x => ∃ y, x = 10 :: y ∧ Ascii y
  | inBody, x => Ascii x

theorem tail_iff (x : List UInt8) : Tail x ↔ (∃ b, x = 13 :: 10 :: b ∧ Ascii b) ∨ Completes inName x := by
  constructor
  · rintro ⟨fs, body, rfl, hf, hb⟩
    cases fs with
    | nil => exact Or.inl ⟨body, rfl, hb⟩
    | cons f fs =>
      obtain ⟨name, v, rfl, h1, h2⟩ := hf f (by simp)
      refine Or.inr ⟨name, v ++ 13 :: 10 :: (fs.flatten ++ 13 :: 10 :: body), by simp, h1, v, _, rfl, h2, fs, body, rfl,
        fun g hg => hf g (by simp [hg]), hb⟩
  · rintro (⟨b, rfl, hb⟩ | ⟨name, y, rfl, h1, v, r, rfl, h2, fs, body, rfl, hf, hb⟩)
    · exact ⟨[], b, rfl, by simp, hb⟩
    · refine ⟨(name ++ 58 :: (v ++ [13, 10])) :: fs, body, by simp, ?_, hb⟩
      intro g hg
      rcases List.mem_cons.mp hg with rfl | hg
      · exact ⟨name, v, rfl, h1, h2⟩
      · exact hf g hg

theorem mail_iff (x : List UInt8) : Mail x ↔ Completes inName x := by
  constructor
  · rintro ⟨f, fs, body, rfl, ⟨name, v, rfl, h1, h2⟩, hf, hb⟩
    exact ⟨name, v ++ 13 :: 10 :: (fs.flatten ++ 13 :: 10 :: body), by simp, h1, v, _, rfl, h2, fs, body, rfl, hf, hb⟩
  · rintro ⟨name, y, rfl, h1, v, r, rfl, h2, fs, body, rfl, hf, hb⟩
    exact ⟨name ++ 58 :: (v ++ [13, 10]), fs, body, by simp, ⟨name, v, rfl, h1, h2⟩, hf, hb⟩

theorem fv_tail {c : UInt8} {v : List UInt8} (h : FieldValue (c :: v)) : FieldValue v :=
  ⟨fun b hb => h.1 b (by simp [hb]), fun a t e => h.2 (c :: a) t (by simp [e])⟩

theorem fv_nil : FieldValue [] := ⟨by intro b hb; simp at hb, by intro a t e; simp at e⟩

theorem fv_cons {c : UInt8} {v : List UInt8} (h : FieldValue v) (hc : c.toNat < 128)
    (hv : c = 13 → ∀ t, v = 10 :: t → ∃ w t', t = w :: t' ∧ (w = 32 ∨ w = 9)) : FieldValue (c :: v) := by
  refine ⟨?_, ?_⟩
  · intro b hb
    rcases List.mem_cons.mp hb with rfl | hb
    · exact hc
    · exact h.1 b hb
  · intro a t e
    cases a with
    | nil =>
      injection e with e1 e2
      exact hv e1 t e2
    | cons x a =>
      injection e with e1 e2
      exact h.2 a t e2

theorem schar_high (c : UInt8) : (schar c < 0 ∨ schar c ≥ 128) ↔ 128 ≤ c.toNat := by
  unfold schar
  have := c.toNat_lt
  split <;> omega

theorem inValue_cons {c : UInt8} {x : List UInt8} (hc : c ≠ 13) : InValue (c :: x) ↔ c.toNat < 128 ∧ InValue x := by
  constructor
  · rintro ⟨v, r, e, h1, h2⟩
    cases v with
    | nil => injection e with e; exact absurd e hc
    | cons d v =>
      injection e with e1 e2
      subst e1 e2
      exact ⟨h1.1 c (by simp), v, r, rfl, fv_tail h1, h2⟩
  · rintro ⟨hl, v, r, rfl, h1, h2⟩
    exact ⟨c :: v, r, rfl, fv_cons h1 hl (fun z => absurd z hc), h2⟩

theorem step_inName : ∀ c, step inName c =
    if c = 58 then some inValue else if 32 < c.toNat ∧ c.toNat < 127 then some inName else none := by
  apply forall_uint8; decide +kernel
theorem step_inValue : ∀ c, step inValue c =
    if c = 13 then some maybeNewLine else if c.toNat < 128 then some inValue else none := by
  apply forall_uint8; decide +kernel
theorem step_maybeNewLine : ∀ c, step maybeNewLine c = if c = 10 then some possibleName else step inValue c := by
  apply forall_uint8; decide +kernel
theorem step_possibleName : ∀ c, step possibleName c =
    if c = 32 ∨ c = 9 then some inValue else if c = 13 then some maybeEnd else step inName c := by
  apply forall_uint8; decide +kernel
theorem step_maybeEnd : ∀ c, step maybeEnd c = if c = 10 then some inBody else none := by
  apply forall_uint8; decide +kernel
theorem step_inBody : ∀ c, step inBody c = if c.toNat < 128 then some inBody else none := by
  apply forall_uint8; decide +kernel

theorem completes_inName (c : UInt8) (x : List UInt8) :
    Completes inName (c :: x) ↔ ∃ st', step inName c = some st' ∧ Completes st' x := by
  rw [step_inName]
  constructor
  · rintro ⟨name, y, e, h1, h2⟩
    cases name with
    | nil =>
      injection e with e1 e2
      subst e1 e2
      exact ⟨inValue, if_pos rfl, h2⟩
    | cons d name =>
      injection e with e1 e2
      subst e1 e2
      have := h1 c (by simp)
      refine ⟨inName, ?_, name, y, rfl, fun b hb => h1 b (by simp [hb]), h2⟩
      rw [if_neg this.2.2, if_pos ⟨this.1, this.2.1⟩]
  · rintro ⟨st', h1, h2⟩
    split at h1
    · rename_i hc
      subst hc
      cases h1
      exact ⟨[], x, rfl, by intro b hb; simp at hb, h2⟩
    · rename_i hc
      split at h1
      · rename_i hb
        cases h1
        obtain ⟨name, y, rfl, h3, h4⟩ := h2
        refine ⟨c :: name, y, rfl, ?_, h4⟩
        intro b hbm
        rcases List.mem_cons.mp hbm with rfl | hbm
        · exact ⟨hb.1, hb.2, hc⟩
        · exact h3 b hbm
      · cases h1

theorem completes_inValue (c : UInt8) (x : List UInt8) :
    Completes inValue (c :: x) ↔ ∃ st', step inValue c = some st' ∧ Completes st' x := by
  rw [step_inValue]
  by_cases hc : c = 13
  · rw [if_pos hc]
    subst hc
    simp [Completes]
  · rw [if_neg hc]
    simp only [Completes]
    rw [inValue_cons hc]
    by_cases hl : c.toNat < 128
    · rw [if_pos hl]; simp [hl, Completes]
    · rw [if_neg hl]; simp [hl]

theorem inValue_cr {c : UInt8} {x : List UInt8} (hc : c ≠ 10) : InValue (13 :: c :: x) ↔ InValue (c :: x) := by
  constructor
  · rintro ⟨v, r, e, h1, h2⟩
    cases v with
    | nil =>
      injection e with e1 e2
      injection e2 with e2 e3
      exact absurd e2 hc
    | cons d v =>
      injection e with e1 e2
      exact ⟨v, r, e2, fv_tail h1, h2⟩
  · rintro ⟨v, r, e, h1, h2⟩
    refine ⟨13 :: v, r, by rw [e]; rfl, fv_cons h1 (by decide) ?_, h2⟩
    intro _ t hv
    rw [hv] at e
    injection e with e
    exact absurd e hc

theorem inValue_crlf {x : List UInt8} : InValue (13 :: 10 :: x) ↔ Completes possibleName x := by
  constructor
  · rintro ⟨v, r, e, h1, h2⟩
    rcases v with _ | ⟨a, _ | ⟨b, v⟩⟩
    · simp only [List.nil_append, List.cons.injEq, true_and] at e
      subst e
      exact Or.inl h2
    · simp at e
    · simp only [List.cons_append, List.cons.injEq] at e
      obtain ⟨rfl, rfl, rfl⟩ := e
      obtain ⟨w, t, rfl, hw⟩ := h1.2 [] v rfl
      exact Or.inr ⟨w, t ++ 13 :: 10 :: r, rfl, hw, t, r, rfl, fv_tail (fv_tail (fv_tail h1)), h2⟩
  · rintro (h | ⟨w, y, rfl, hw, v, r, rfl, h1, h2⟩)
    · exact ⟨[], x, rfl, fv_nil, h⟩
    · refine ⟨13 :: 10 :: w :: v, r, rfl, ?_, h2⟩
      have hw' : w ≠ 13 ∧ w.toNat < 128 := by rcases hw with rfl | rfl <;> decide
      have h3 : FieldValue (w :: v) := fv_cons h1 hw'.2 (fun z => absurd z hw'.1)
      have h4 : FieldValue (10 :: w :: v) := fv_cons h3 (by decide) (fun z => absurd z (by decide))
      refine fv_cons h4 (by decide) ?_
      intro _ t e
      injection e with _ e
      exact ⟨w, v, e.symm, hw⟩

theorem completes_cons (st : ParserState) (c : UInt8) (x : List UInt8) :
    Completes st (c :: x) ↔ ∃ st', step st c = some st' ∧ Completes st' x := by
  cases st with
  | inName => exact completes_inName c x
  | inValue => exact completes_inValue c x
  | maybeNewLine =>
    rw [step_maybeNewLine]
    by_cases hc : c = 10
    · rw [if_pos hc]
      subst hc
      exact inValue_crlf.trans (by simp)
    · rw [if_neg hc]
      exact (inValue_cr hc).trans (completes_inValue c x)
  | possibleName =>
    rw [step_possibleName]
    by_cases hw : c = 32 ∨ c = 9
    · rw [if_pos hw]
      constructor
      · rintro (h | ⟨w, y, e, _, h⟩)
        · rw [tail_iff] at h
          rcases h with ⟨b, e, _⟩ | h
          · injection e with e
            subst e
            simp at hw
          · rw [completes_inName] at h
            obtain ⟨st', h, _⟩ := h
            rw [step_inName] at h
            rcases hw with rfl | rfl <;> simp at h
        · injection e with e1 e2
          subst e1 e2
          exact ⟨inValue, rfl, h⟩
      · rintro ⟨st', h, h2⟩
        cases h
        exact Or.inr ⟨c, x, rfl, hw, h2⟩
    · rw [if_neg hw]
      by_cases hc : c = 13
      · rw [if_pos hc]
        subst hc
        constructor
        · rintro (h | ⟨w, y, e, hw2, _⟩)
          · rw [tail_iff] at h
            rcases h with ⟨b, e, hb⟩ | h
            · injection e with e1 e2
              exact ⟨maybeEnd, rfl, b, e2, hb⟩
            · rw [completes_inName] at h
              obtain ⟨st', h, _⟩ := h
              rw [step_inName] at h
              simp at h
          · injection e with e1 e2
            subst e1
            exact absurd hw2 hw
        · rintro ⟨st', h, h2⟩
          cases h
          obtain ⟨y, rfl, hy⟩ := h2
          exact Or.inl ((tail_iff _).mpr (Or.inl ⟨y, rfl, hy⟩))
      · rw [if_neg hc, ← completes_inName]
        constructor
        · rintro (h | ⟨w, y, e, hw2, _⟩)
          · rw [tail_iff] at h
            rcases h with ⟨b, e, hb⟩ | h
            · injection e with e1 e2
              exact absurd e1 hc
            · exact h
          · injection e with e1 e2
            subst e1
            exact absurd hw2 hw
        · intro h
          exact Or.inl ((tail_iff _).mpr (Or.inr h))
  | maybeEnd =>
    rw [step_maybeEnd]
    by_cases hc : c = 10
    · rw [if_pos hc]; subst hc; simp [Completes]
    · rw [if_neg hc]
      constructor
      · rintro ⟨y, e, _⟩
        injection e with e
        exact absurd e hc
      · rintro ⟨_, h, _⟩; cases h
  | inBody =>
    rw [step_inBody]
    by_cases hl : c.toNat < 128
    · rw [if_pos hl]; simp [Completes, Ascii, hl]
    · rw [if_neg hl]; simp [Completes, Ascii, hl]

theorem tail_exists : Tail [13, 10] := ⟨[], [], rfl, by simp, by intro b hb; simp at hb⟩

theorem completes_exists (st : ParserState) : ∃ t, Completes st t := by
  have hv : InValue [13, 10, 13, 10] := ⟨[], [13, 10], rfl, fv_nil, tail_exists⟩
  cases st with
  | inName => exact ⟨58 :: [13, 10, 13, 10], [], _, rfl, by intro b hb; simp at hb, hv⟩
  | inValue => exact ⟨_, hv⟩
  | maybeNewLine => exact ⟨[10, 13, 10], hv⟩
  | possibleName => exact ⟨[13, 10], Or.inl tail_exists⟩
  | maybeEnd => exact ⟨[10], [], rfl, by intro b hb; simp at hb⟩
  | inBody => exact ⟨[], by intro b hb; simp at hb⟩

theorem accepts_iff (l : List UInt8) : ∀ st, accepts st l = true ↔ ∃ t, Completes st (l ++ t) := by
  induction l with
  | nil => intro st; simpa [accepts] using completes_exists st
  | cons c l ih =>
    intro st
    simp only [accepts, List.cons_append]
    constructor
    · intro h
      cases hs : step st c with
      | none => rw [hs] at h; simp at h
      | some st' =>
        rw [hs] at h
        obtain ⟨t, ht⟩ := (ih st').mp h
        exact ⟨t, (completes_cons st c _).mpr ⟨st', hs, ht⟩⟩
    · rintro ⟨t, ht⟩
      obtain ⟨st', hs, ht⟩ := (completes_cons st c _).mp ht
      rw [hs]
      exact (ih st').mpr ⟨t, ht⟩

/-! ## `decodedHeaderValue` -/

theorem first_mark (l : List UInt8) : NoMark l ∨ ∃ a r, l = a ++ 63 :: r ∧ NoMark a := by
  induction l with
  | nil => exact Or.inl (by simp [NoMark])
  | cons c l ih =>
    by_cases hc : c = 63
    · subst hc; exact Or.inr ⟨[], l, rfl, by simp [NoMark]⟩
    · rcases ih with h | ⟨a, r, rfl, h⟩
      · exact Or.inl (by simp only [NoMark, List.mem_cons, not_or] at h ⊢; exact ⟨fun z => hc z.symm, h⟩)
      · exact Or.inr ⟨c :: a, r, rfl, by simp only [NoMark, List.mem_cons, not_or] at h ⊢; exact ⟨fun z => hc z.symm, h⟩⟩

theorem findMark_found {r : List UInt8} : ∀ (l a : List UInt8) (n : Nat) (q : Int), NoMark l → (a.length : Int) = q → l.length < n →
    findMark (a ++ (l ++ 63 :: r)) n q = .ok (q + l.length) := by
  intro l
  induction l with
  | nil =>
    intro a n q _ hq hn
    obtain ⟨n, rfl⟩ : ∃ k, n = k + 1 := ⟨n - 1, by simp at hn; omega⟩
    rw [findMark, List.nil_append, Cpio.aget_append_right hq.symm]
    simp
  | cons c l ih =>
    intro a n q hl hq hn
    simp only [List.length_cons] at hn
    obtain ⟨n, rfl⟩ : ∃ k, n = k + 1 := ⟨n - 1, by omega⟩
    simp only [NoMark, List.mem_cons, not_or] at hl
    rw [findMark, List.cons_append, Cpio.aget_append_right hq.symm]
    simp only [Res.bind_ok]
    rw [if_neg (fun z => hl.1 z.symm)]
    have := ih (a ++ [c]) n (q + 1) hl.2 (by simp; omega) (by omega)
    simp only [List.append_assoc, List.cons_append, List.nil_append] at this
    rw [this]
    simp only [List.length_cons]
    congr 1
    omega

theorem findMark_none {r : List UInt8} : ∀ (l a : List UInt8) (q : Int), NoMark l → (a.length : Int) = q →
    findMark (a ++ (l ++ r)) l.length q = .ok (q + l.length) := by
  intro l
  induction l with
  | nil => intro a q _ hq; simp [findMark]
  | cons c l ih =>
    intro a q hl hq
    simp only [NoMark, List.mem_cons, not_or] at hl
    simp only [List.length_cons]
    rw [findMark, List.cons_append, Cpio.aget_append_right hq.symm]
    simp only [Res.bind_ok]
    rw [if_neg (fun z => hl.1 z.symm)]
    have := ih (a ++ [c]) (q + 1) hl.2 (by simp; omega)
    simp only [List.append_assoc, List.cons_append, List.nil_append] at this
    rw [this]
    congr 1
    push_cast
    omega

variable {conv : List UInt8 → List UInt8 → List UInt8}

theorem aget_at {A l : List UInt8} {c : UInt8} {i : Int} (k : Nat) (h : i = A.length + k) (hk : l[k]? = some c) :
    aget (A ++ l) i = .ok c := by
  subst h
  rw [aget, if_pos (by omega)]
  have : ((A.length : Int) + k).toNat = A.length + k := by omega
  rw [this, List.getElem?_append_right (by omega)]
  simp [hk]

/-- The decision about an encoded word at `s`. -/
theorem header_mark {A raw beyond : List UInt8} {b0 : UInt8} (hb : b0 ≠ 61)
    (hw : ¬ StartsWithWord (61 :: 63 :: raw)) (hl : 8 < (61 :: 63 :: raw : List UInt8).length)
    {s e : Int} (hs : s = A.length) (he : e = s + (61 :: 63 :: raw : List UInt8).length) :
    ∃ q1 q2 stop,
      findMark (A ++ ((61 :: 63 :: raw) ++ b0 :: beyond)) (e - (s + 2)).toNat (s + 2) = .ok q1 ∧
      findMark (A ++ ((61 :: 63 :: raw) ++ b0 :: beyond)) (e - (q1 + 1)).toNat (q1 + 1) = .ok q2 ∧
      findMark (A ++ ((61 :: 63 :: raw) ++ b0 :: beyond)) (e - (q2 + 1)).toNat (q2 + 1) = .ok stop ∧
      wordEnd (A ++ ((61 :: 63 :: raw) ++ b0 :: beyond)) e stop = .ok false := by
  simp only [List.length_cons] at he
  have hA2 : A ++ ((61 :: 63 :: raw) ++ b0 :: beyond) = (A ++ [61, 63]) ++ (raw ++ b0 :: beyond) := by simp
  rcases first_mark raw with h1 | ⟨cs, r1, rfl, h1⟩
  · refine ⟨e, e + 1, e + 2, ?_, ?_, ?_, ?_⟩
    · rw [hA2]
      have := findMark_none (r := b0 :: beyond) raw (A ++ [61, 63]) (s + 2) h1 (by simp; omega)
      rw [show (e - (s + 2)).toNat = raw.length by omega, this]
      congr 1; omega
    · rw [show (e - (e + 1)).toNat = 0 by omega, findMark]
    · rw [show (e - (e + 1 + 1)).toNat = 0 by omega, findMark]; congr 1; omega
    · rw [wordEnd, if_pos (by omega)]
  have hl1 : (cs ++ 63 :: r1).length = cs.length + r1.length + 1 := by simp; omega
  rw [hl1] at he
  have f1 : findMark (A ++ ((61 :: 63 :: (cs ++ 63 :: r1)) ++ b0 :: beyond)) (e - (s + 2)).toNat (s + 2) =
      .ok (s + 2 + cs.length) := by
    rw [hA2]
    have := findMark_found (r := r1 ++ b0 :: beyond) cs (A ++ [61, 63]) (e - (s + 2)).toNat (s + 2) h1
      (by simp; omega) (by omega)
    simp only [List.append_assoc, List.cons_append] at this ⊢
    exact this
  have hA3 : A ++ ((61 :: 63 :: (cs ++ 63 :: r1)) ++ b0 :: beyond) =
      (A ++ 61 :: 63 :: (cs ++ [63])) ++ (r1 ++ b0 :: beyond) := by simp
  rcases first_mark r1 with h2 | ⟨enc, r2, rfl, h2⟩
  · refine ⟨_, e, e + 1, f1, ?_, ?_, ?_⟩
    · rw [hA3]
      have := findMark_none (r := b0 :: beyond) r1 (A ++ 61 :: 63 :: (cs ++ [63])) (s + 2 + cs.length + 1) h2
        (by simp; omega)
      rw [show (e - (s + 2 + cs.length + 1)).toNat = r1.length by omega, this]
      congr 1; omega
    · rw [show (e - (e + 1)).toNat = 0 by omega, findMark]
    · rw [wordEnd, if_pos (by omega)]
  have hl2 : (enc ++ 63 :: r2).length = enc.length + r2.length + 1 := by simp; omega
  rw [hl2] at he
  have f2 : findMark (A ++ ((61 :: 63 :: (cs ++ 63 :: (enc ++ 63 :: r2))) ++ b0 :: beyond))
      (e - (s + 2 + cs.length + 1)).toNat (s + 2 + cs.length + 1) = .ok (s + 2 + cs.length + 1 + enc.length) := by
    rw [hA3]
    have := findMark_found (r := r2 ++ b0 :: beyond) enc (A ++ 61 :: 63 :: (cs ++ [63]))
      (e - (s + 2 + cs.length + 1)).toNat (s + 2 + cs.length + 1) h2 (by simp; omega) (by omega)
    simp only [List.append_assoc, List.cons_append] at this ⊢
    exact this
  have hA4 : A ++ ((61 :: 63 :: (cs ++ 63 :: (enc ++ 63 :: r2))) ++ b0 :: beyond) =
      (A ++ 61 :: 63 :: (cs ++ 63 :: (enc ++ [63]))) ++ (r2 ++ b0 :: beyond) := by simp
  rcases first_mark r2 with h3 | ⟨data, r3, rfl, h3⟩
  · refine ⟨_, _, e, f1, f2, ?_, ?_⟩
    · rw [hA4]
      have := findMark_none (r := b0 :: beyond) r2 (A ++ 61 :: 63 :: (cs ++ 63 :: (enc ++ [63])))
        (s + 2 + cs.length + 1 + enc.length + 1) h3 (by simp; omega)
      rw [show (e - (s + 2 + cs.length + 1 + enc.length + 1)).toNat = r2.length by omega, this]
      congr 1; omega
    · rw [wordEnd, if_pos (by omega)]
  have hl3 : (data ++ 63 :: r3).length = data.length + r3.length + 1 := by simp; omega
  rw [hl3] at he
  have f3 : findMark (A ++ ((61 :: 63 :: (cs ++ 63 :: (enc ++ 63 :: (data ++ 63 :: r3)))) ++ b0 :: beyond))
      (e - (s + 2 + cs.length + 1 + enc.length + 1)).toNat (s + 2 + cs.length + 1 + enc.length + 1) =
      .ok (s + 2 + cs.length + 1 + enc.length + 1 + data.length) := by
    rw [hA4]
    have := findMark_found (r := r3 ++ b0 :: beyond) data (A ++ 61 :: 63 :: (cs ++ 63 :: (enc ++ [63])))
      (e - (s + 2 + cs.length + 1 + enc.length + 1)).toNat (s + 2 + cs.length + 1 + enc.length + 1) h3
      (by simp; omega) (by omega)
    simp only [List.append_assoc, List.cons_append] at this ⊢
    exact this
  have hA5 : A ++ ((61 :: 63 :: (cs ++ 63 :: (enc ++ 63 :: (data ++ 63 :: r3)))) ++ b0 :: beyond) =
      (A ++ 61 :: 63 :: (cs ++ 63 :: (enc ++ 63 :: (data ++ [63])))) ++ (r3 ++ b0 :: beyond) := by simp
  have hc : ∃ c, aget (A ++ ((61 :: 63 :: (cs ++ 63 :: (enc ++ 63 :: (data ++ 63 :: r3)))) ++ b0 :: beyond))
      (s + 2 + cs.length + 1 + enc.length + 1 + data.length + 1) = .ok c ∧ c ≠ 61 := by
    rw [hA5]
    cases r3 with
    | nil =>
      exact ⟨b0, Cpio.aget_append_right (by simp; omega), hb⟩
    | cons d t =>
      refine ⟨d, Cpio.aget_append_right (by simp; omega), ?_⟩
      rintro rfl
      exact hw ⟨hl, cs, enc, data, t, by simp [encodedWord], h1, h2, h3⟩
  obtain ⟨c, hc, hne⟩ := hc
  refine ⟨_, _, _, f1, f2, f3, ?_⟩
  rw [wordEnd, if_neg (by omega), hc]
  simp [hne]

/-- A character that starts neither an encoded word nor a fold is passed over. -/
theorem header_char {A raw beyond : List UInt8} {c b0 : UInt8} (hb : b0 ≠ 61)
    (hw : ¬ StartsWithWord (c :: raw)) (hfold : ¬ StartsWithFold (c :: raw)) (fuel : Nat) (p : Int) (decoded : List UInt8)
    {s e : Int} (hs : s = A.length) (he : e = s + (raw.length + 1)) :
    headerLoop conv (A ++ ((c :: raw) ++ b0 :: beyond)) e (fuel + 1) s p decoded =
      headerLoop conv (A ++ ((c :: raw) ++ b0 :: beyond)) e fuel (s + 1) p decoded := by
  have h0 : aget (A ++ ((c :: raw) ++ b0 :: beyond)) s = .ok c := aget_at 0 (by omega) rfl
  have hfoldres : foldStart (A ++ ((c :: raw) ++ b0 :: beyond)) e s c = .ok false := by
    unfold foldStart
    by_cases h : e - s > 3 ∧ c = 13
    · rw [if_pos h]
      rcases raw with _ | ⟨a, _ | ⟨b, _ | ⟨x, raw⟩⟩⟩ <;> simp only [List.length_cons, List.length_nil] at he <;> try omega
      rw [aget_at 1 (c := a) (by omega) rfl]
      simp only [Res.bind_ok]
      by_cases ha : a ≠ 10
      · rw [if_pos ha]
      · rw [if_neg ha, aget_at 2 (c := b) (by omega) rfl]
        simp only [Res.bind_ok]
        have ha : a = 10 := by simpa using ha
        congr 1
        rw [Bool.eq_false_iff]
        intro hw2
        exact hfold ⟨b, x, raw, by rw [h.2, ha], by simpa using hw2⟩
    · rw [if_neg h]
  rw [headerLoop, if_pos (by omega), h0]
  simp only [Res.bind_ok]
  by_cases h : e - s > 8 ∧ c = 61
  · cases raw with
    | nil => simp only [List.length_nil] at he; omega
    | cons a raw =>
      have hws : wordStart (A ++ ((c :: a :: raw) ++ b0 :: beyond)) e s c = .ok (a == 63) := by
        rw [wordStart, if_pos h, aget_at 1 (c := a) (by omega) rfl]
        rfl
      rw [hws]
      simp only [Res.bind_ok]
      by_cases ha : a = 63
      · obtain ⟨_, rfl⟩ := h
        subst ha
        simp only [List.length_cons] at he
        obtain ⟨q1, q2, stop, f1, f2, f3, f4⟩ := header_mark (A := A) (beyond := beyond) hb hw (by simp; omega) hs
          (e := e) (by simp; omega)
        rw [if_pos (by simp), f1]; simp only [Res.bind_ok]
        rw [f2]; simp only [Res.bind_ok]
        rw [f3]; simp only [Res.bind_ok]
        rw [f4]
        simp
      · rw [if_neg (by simpa using ha), hfoldres]
        simp
  · have hws : wordStart (A ++ ((c :: raw) ++ b0 :: beyond)) e s c = .ok false := by
      rw [wordStart, if_neg h]
    rw [hws, hfoldres]
    simp

theorem header_fold {A raw beyond : List UInt8} {w x : UInt8} (hw : w = 9 ∨ w = 32) (fuel : Nat) (p : Int)
    (decoded : List UInt8) {s e : Int} (hs : s = A.length) (he : e = s + (raw.length + 4)) :
    headerLoop conv (A ++ ((13 :: 10 :: w :: x :: raw) ++ beyond)) e (fuel + 1) s p decoded =
      headerLoop conv (A ++ ((13 :: 10 :: w :: x :: raw) ++ beyond)) e fuel (s + 4) (s + 4)
        (decoded ++ slice (A ++ ((13 :: 10 :: w :: x :: raw) ++ beyond)) p (s - p)) := by
  have h1 : wordStart (A ++ ((13 :: 10 :: w :: x :: raw) ++ beyond)) e s 13 = .ok false := by
    rw [wordStart, if_neg (by simp)]
  have h2 : foldStart (A ++ ((13 :: 10 :: w :: x :: raw) ++ beyond)) e s 13 = .ok true := by
    rw [foldStart, if_pos ⟨by omega, rfl⟩, aget_at 1 (c := 10) (by omega) rfl]
    simp only [Res.bind_ok]
    rw [if_neg (by simp), aget_at 2 (c := w) (by omega) rfl]
    simpa using hw
  rw [headerLoop, if_pos (by omega), aget_at 0 (c := 13) (by omega) rfl]
  simp only [Res.bind_ok]
  rw [h1, h2]
  simp

theorem toLower_eq : ∀ b : UInt8, toLower b = if 65 ≤ b.toNat ∧ b.toNat ≤ 90 then b + 32 else b := by
  apply forall_uint8; decide +kernel

theorem isUtf8_iff (cs r : List UInt8) : isUtf8 (cs ++ 63 :: r) = true ↔ IsUtf8 cs := by
  have h63 : toLower 63 = 63 := by decide
  unfold isUtf8 IsUtf8
  have hf : (fun b : UInt8 => if 65 ≤ b.toNat ∧ b.toNat ≤ 90 then b + 32 else b) = toLower := by
    funext b; rw [toLower_eq]
  rw [hf, beq_iff_eq]
  rcases cs with _ | ⟨c0, _ | ⟨c1, _ | ⟨c2, _ | ⟨c3, _ | ⟨c4, cs⟩⟩⟩⟩⟩ <;>
    simp [h63]

theorem slice_mid {A l r : List UInt8} {i n : Int} (hi : i = A.length) (hn : n = l.length) :
    slice (A ++ (l ++ r)) i n = l := by
  subst hi hn
  unfold slice
  rw [Int.toNat_natCast, Int.toNat_natCast, List.drop_left, List.take_left]

theorem word_decode {cs enc data txt A R : List UInt8} (h : WordText conv cs enc data txt) {s : Int} (hs : s = A.length) :
    decodeWord conv (A ++ (encodedWord cs enc data ++ R)) (s + 2) (s + 2 + cs.length + 1)
      (s + 2 + cs.length + 1 + enc.length + 1) (s + 2 + cs.length + 1 + enc.length + 1 + data.length) = .ok txt := by
  have e1 : A ++ (encodedWord cs enc data ++ R) =
      (A ++ 61 :: 63 :: (cs ++ [63])) ++ ((enc ++ 63 :: (data ++ [63, 61])) ++ R) := by simp [encodedWord]
  have e2 : A ++ (encodedWord cs enc data ++ R) =
      (A ++ 61 :: 63 :: (cs ++ 63 :: (enc ++ [63]))) ++ (data ++ ([63, 61] ++ R)) := by simp [encodedWord]
  have e3 : A ++ (encodedWord cs enc data ++ R) =
      (A ++ [61, 63]) ++ (cs ++ (63 :: (enc ++ 63 :: (data ++ [63, 61])) ++ R)) := by simp [encodedWord]
  have hdata : slice (A ++ (encodedWord cs enc data ++ R)) (s + 2 + cs.length + 1 + enc.length + 1)
      (s + 2 + cs.length + 1 + enc.length + 1 + data.length - (s + 2 + cs.length + 1 + enc.length + 1)) = data := by
    rw [e2]; exact slice_mid (by simp; omega) (by omega)
  have hcs : slice (A ++ (encodedWord cs enc data ++ R)) (s + 2) (s + 2 + cs.length + 1 - (s + 2) - 1) = cs := by
    rw [e3]; exact slice_mid (by simp; omega) (by omega)
  have hdrop : (A ++ (encodedWord cs enc data ++ R)).drop (s + 2).toNat =
      cs ++ 63 :: ((enc ++ 63 :: (data ++ [63, 61])) ++ R) := by
    rw [e3, show (s + 2).toNat = (A ++ [61, 63]).length by simp; omega, List.drop_left]
    simp
  have hutf : ∀ str, (if isUtf8 (cs ++ 63 :: ((enc ++ 63 :: (data ++ [63, 61])) ++ R)) then str else conv cs str) =
      txt ↔ ((IsUtf8 cs → txt = str) ∧ (¬ IsUtf8 cs → txt = conv cs str)) := by
    intro str
    by_cases hu : IsUtf8 cs
    · rw [if_pos ((isUtf8_iff _ _).mpr hu)]
      simp [hu, eq_comm]
    · rw [if_neg (fun z => hu ((isUtf8_iff _ _).mp z))]
      simp [hu, eq_comm]
  unfold decodeWord
  simp only [hdata, hcs, hdrop]
  cases h with
  | @b k more _ str _ hk h1 h2 h3 h4 =>
    rw [e1, aget_at 0 (c := k) (by simp; omega) rfl]
    simp only [Res.bind_ok]
    rw [if_pos (by rcases hk with rfl | rfl <;> simp)]
    have hstr : (if data = [] then Res.ok [] else Base64.decode data) = .ok str := by
      by_cases hd : data = []
      · rw [if_pos hd]
        subst hd
        by_cases ht : B64.IsText []
        · rw [h1 ht]; decide
        · rw [h2 ht]
      · rw [if_neg hd]
        by_cases ht : B64.IsText data
        · rw [h1 ht]; exact (Props.C27_decode hd).1 ht
        · rw [h2 ht]; exact (Props.C27_decode hd).2 ht
    have := (hutf str).mpr ⟨h3, h4⟩
    by_cases hd : data = []
    · rw [if_pos hd] at hstr ⊢
      cases hstr
      rw [this]
    · rw [if_neg hd] at hstr ⊢
      rw [hstr]
      simp only [Res.bind_ok]
      rw [this]
  | @q k more _ str _ hk h1 h3 h4 =>
    rw [e1, aget_at 0 (c := k) (by simp; omega) rfl]
    simp only [Res.bind_ok]
    rw [if_neg (by rcases hk with rfl | rfl <;> simp), if_pos (by rcases hk with rfl | rfl <;> simp)]
    have hq : decodeQuotedPrintable data = str := by
      have := qp_spec h1 [] []
      simpa [decodeQuotedPrintable] using this
    rw [hq, (hutf str).mpr ⟨h3, h4⟩]
  | @other k more _ k1 k2 k3 k4 =>
    rw [e1, aget_at 0 (c := k) (by simp; omega) rfl]
    simp only [Res.bind_ok]
    rw [if_neg (by simp [k1, k2]), if_neg (by simp [k3, k4])]
  | none =>
    rw [e1, aget_at 0 (c := 63) (by simp; omega) rfl]
    simp only [Res.bind_ok]
    rw [if_neg (by decide), if_neg (by decide)]

theorem encodedWord_length (cs enc data : List UInt8) :
    (encodedWord cs enc data).length = cs.length + enc.length + data.length + 6 := by
  simp [encodedWord]; omega

theorem header_word {A raw beyond cs enc data txt : List UInt8}
    (hl : 8 < (encodedWord cs enc data ++ raw).length) (h1 : NoMark cs) (h2 : NoMark enc) (h3 : NoMark data)
    (hw : WordText conv cs enc data txt) (fuel : Nat) (p : Int) (decoded : List UInt8)
    {s e : Int} (hs : s = A.length) (he : e = s + (encodedWord cs enc data ++ raw).length) :
    headerLoop conv (A ++ ((encodedWord cs enc data ++ raw) ++ beyond)) e (fuel + 1) s p decoded =
      headerLoop conv (A ++ ((encodedWord cs enc data ++ raw) ++ beyond)) e fuel
        (s + (encodedWord cs enc data).length) (s + (encodedWord cs enc data).length)
        (decoded ++ slice (A ++ ((encodedWord cs enc data ++ raw) ++ beyond)) p (s - p) ++ txt) := by
  have hlen := encodedWord_length cs enc data
  rw [List.length_append] at he hl
  have hd := word_decode (A := A) (R := raw ++ beyond) hw hs
  rw [← List.append_assoc (encodedWord cs enc data)] at hd
  have g1 : A ++ ((encodedWord cs enc data ++ raw) ++ beyond) =
      (A ++ [61, 63]) ++ (cs ++ 63 :: (enc ++ 63 :: (data ++ [63, 61]) ++ raw ++ beyond)) := by simp [encodedWord]
  have g2 : A ++ ((encodedWord cs enc data ++ raw) ++ beyond) =
      (A ++ 61 :: 63 :: (cs ++ [63])) ++ (enc ++ 63 :: (data ++ [63, 61] ++ raw ++ beyond)) := by simp [encodedWord]
  have g3 : A ++ ((encodedWord cs enc data ++ raw) ++ beyond) =
      (A ++ 61 :: 63 :: (cs ++ 63 :: (enc ++ [63]))) ++ (data ++ 63 :: ([61] ++ raw ++ beyond)) := by simp [encodedWord]
  have g4 : A ++ ((encodedWord cs enc data ++ raw) ++ beyond) =
      (A ++ 61 :: 63 :: (cs ++ 63 :: (enc ++ 63 :: (data ++ [63])))) ++ 61 :: (raw ++ beyond) := by simp [encodedWord]
  have f1 := findMark_found (r := enc ++ 63 :: (data ++ [63, 61]) ++ raw ++ beyond) cs (A ++ [61, 63])
    (e - (s + 2)).toNat (s + 2) h1 (by simp; omega) (by omega)
  have f2 := findMark_found (r := data ++ [63, 61] ++ raw ++ beyond) enc (A ++ 61 :: 63 :: (cs ++ [63]))
    (e - (s + 2 + cs.length + 1)).toNat (s + 2 + cs.length + 1) h2 (by simp; omega) (by omega)
  have f3 := findMark_found (r := [61] ++ raw ++ beyond) data (A ++ 61 :: 63 :: (cs ++ 63 :: (enc ++ [63])))
    (e - (s + 2 + cs.length + 1 + enc.length + 1)).toNat (s + 2 + cs.length + 1 + enc.length + 1) h3
    (by simp; omega) (by omega)
  rw [← g1] at f1
  rw [← g2] at f2
  rw [← g3] at f3
  have f4 : wordEnd (A ++ ((encodedWord cs enc data ++ raw) ++ beyond)) e
      (s + 2 + cs.length + 1 + enc.length + 1 + data.length) = .ok true := by
    rw [wordEnd, if_neg (by omega), g4, Cpio.aget_append_right (by simp; omega)]
    rfl
  have f0 : wordStart (A ++ ((encodedWord cs enc data ++ raw) ++ beyond)) e s 61 = .ok true := by
    rw [wordStart, if_pos ⟨by omega, rfl⟩, aget_at 1 (c := 63) (by omega) rfl]
    rfl
  rw [headerLoop, if_pos (by omega), aget_at 0 (c := 61) (by omega) rfl]
  simp only [Res.bind_ok]
  rw [f0]; simp only [Res.bind_ok, if_true]
  rw [f1]; simp only [Res.bind_ok]
  rw [f2]; simp only [Res.bind_ok]
  rw [f3]; simp only [Res.bind_ok]
  rw [f4]; simp only [Res.bind_ok, if_true]
  rw [hd]; simp only [Res.bind_ok]
  rw [show s + 2 + (cs.length : Int) + 1 + enc.length + 1 + data.length + 2 = s + (encodedWord cs enc data).length by
    rw [hlen]; push_cast; omega]

theorem header_spec {raw out : List UInt8} (h : HeaderText conv raw out) {b0 : UInt8} {beyond : List UInt8} (hb : b0 ≠ 61) :
    ∀ (D pend decoded : List UInt8) (fuel : Nat) (s p e : Int), raw.length < fuel → s = (D ++ pend).length →
      p = D.length → e = s + raw.length →
      headerLoop conv (D ++ pend ++ (raw ++ b0 :: beyond)) e fuel s p decoded = .ok (decoded ++ pend ++ out) := by
  induction h with
  | nil =>
    intro D pend decoded fuel s p e hf hs hp he
    obtain ⟨fuel, rfl⟩ : ∃ k, fuel = k + 1 := ⟨fuel - 1, by omega⟩
    simp only [List.length_nil] at he
    rw [headerLoop, if_neg (by omega)]
    simp only [List.length_append] at hs
    by_cases hpe : p < e
    · rw [if_pos hpe, List.append_assoc D, slice_mid hp (by omega)]
      simp
    · rw [if_neg hpe]
      have : pend = [] := List.length_eq_zero_iff.mp (by omega)
      simp [this]
  | @char c raw out hw hfold _ ih =>
    intro D pend decoded fuel s p e hf hs hp he
    simp only [List.length_cons] at hf he
    obtain ⟨fuel, rfl⟩ : ∃ k, fuel = k + 1 := ⟨fuel - 1, by omega⟩
    rw [header_char hb hw hfold fuel p decoded hs (by omega)]
    have := ih D (pend ++ [c]) decoded fuel (s + 1) p e (by omega) (by simp at hs ⊢; omega) hp (by omega)
    simp only [List.append_assoc, List.cons_append, List.nil_append] at this ⊢
    exact this
  | @word cs enc data raw txt out hl h1 h2 h3 hw _ ih =>
    intro D pend decoded fuel s p e hf hs hp he
    obtain ⟨fuel, rfl⟩ : ∃ k, fuel = k + 1 := ⟨fuel - 1, by omega⟩
    rw [header_word hl h1 h2 h3 hw fuel p decoded hs he]
    have hlen := encodedWord_length cs enc data
    have hsl : slice (D ++ pend ++ (encodedWord cs enc data ++ raw ++ b0 :: beyond)) p (s - p) = pend := by
      rw [List.append_assoc D]
      exact slice_mid hp (by simp only [List.length_append] at hs; omega)
    rw [hsl]
    rw [List.length_append] at hf he
    have := ih (D ++ pend ++ encodedWord cs enc data) [] (decoded ++ pend ++ txt) fuel
      (s + (encodedWord cs enc data).length) (s + (encodedWord cs enc data).length) e (by omega)
      (by simp only [List.length_append, List.length_nil] at hs ⊢; omega)
      (by simp only [List.length_append] at hs ⊢; omega) (by omega)
    simp only [List.append_assoc, List.nil_append] at this ⊢
    exact this
  | @fold w x raw out hw _ ih =>
    intro D pend decoded fuel s p e hf hs hp he
    simp only [List.length_cons] at hf he
    obtain ⟨fuel, rfl⟩ : ∃ k, fuel = k + 1 := ⟨fuel - 1, by omega⟩
    rw [header_fold hw fuel p decoded hs (by omega)]
    have hsl : slice (D ++ pend ++ ((13 :: 10 :: w :: x :: raw) ++ b0 :: beyond)) p (s - p) = pend := by
      rw [List.append_assoc D]
      exact slice_mid hp (by simp only [List.length_append] at hs; omega)
    rw [hsl]
    have := ih (D ++ pend ++ [13, 10, w, x]) [] (decoded ++ pend) fuel (s + 4) (s + 4) e (by omega)
      (by simp at hs ⊢; omega) (by simp at hs ⊢; omega) (by omega)
    simp only [List.append_assoc, List.cons_append, List.nil_append] at this ⊢
    exact this

theorem wordText_total (cs enc data : List UInt8) : ∃ txt, WordText conv cs enc data txt := by
  cases enc with
  | nil => exact ⟨[], .none⟩
  | cons k more =>
    classical
    by_cases hb : k = 66 ∨ k = 98
    · exact ⟨if IsUtf8 cs then (if B64.IsText data then B64.decoded data else []) else
          conv cs (if B64.IsText data then B64.decoded data else []),
        .b hb (fun h => if_pos h) (fun h => if_neg h) (fun h => if_pos h) (fun h => if_neg h)⟩
    · by_cases hq : k = 81 ∨ k = 113
      · obtain ⟨str, h⟩ := qp_total data.length data (Nat.le_refl _)
        exact ⟨if IsUtf8 cs then str else conv cs str, .q hq h (fun h => if_pos h) (fun h => if_neg h)⟩
      · simp only [not_or] at hb hq
        exact ⟨[], .other hb.1 hb.2 hq.1 hq.2⟩

theorem headerText_total : ∀ (n : Nat) (raw : List UInt8), raw.length ≤ n → ∃ out, HeaderText conv raw out := by
  intro n
  induction n with
  | zero =>
    intro raw h
    cases raw with
    | nil => exact ⟨[], .nil⟩
    | cons => simp at h
  | succ n ih =>
    intro raw h
    cases raw with
    | nil => exact ⟨[], .nil⟩
    | cons c raw =>
      by_cases hw : StartsWithWord (c :: raw)
      · obtain ⟨hl, cs, enc, data, t, e, h1, h2, h3⟩ := hw
        rw [e] at hl h ⊢
        have := encodedWord_length cs enc data
        rw [List.length_append] at h
        obtain ⟨out, ho⟩ := ih t (by omega)
        obtain ⟨txt, ht⟩ := wordText_total (conv := conv) cs enc data
        exact ⟨_, .word hl h1 h2 h3 ht ho⟩
      · by_cases hf : StartsWithFold (c :: raw)
        · obtain ⟨w, x, t, e, hw⟩ := hf
          rw [e] at h ⊢
          simp only [List.length_cons] at h
          obtain ⟨out, ho⟩ := ih t (by omega)
          exact ⟨_, .fold hw ho⟩
        · simp only [List.length_cons] at h
          obtain ⟨out, ho⟩ := ih raw (by omega)
          exact ⟨_, .char hw hf ho⟩

end Strigi.MailText
