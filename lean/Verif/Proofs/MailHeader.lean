import Verif.Proofs.MailRead
import Verif.Props.MailText
import Verif.SearchSpec
import Mathlib.Data.List.TakeWhile

namespace Strigi.Mail

open MailText (toLower toLower_eq)
open Mime (Space SameCase IsField FieldValue LastField Occurs Filler Unquoted Param Boundaries FileName IsBase64 Header)
open MailSpec (HeaderText)

theorem lower_eq (b : UInt8) : Mime.lower b = toLower b := by rw [toLower_eq]; rfl

theorem lower_fun : Mime.lower = toLower := funext lower_eq

instance (a b : List UInt8) : Decidable (SameCase a b) := by unfold SameCase; infer_instance
instance (a b : List UInt8) : Decidable (IsField a b) := by unfold IsField; infer_instance

/-! ## The names of fields -/

theorem casePrefix_spec (x : UInt8) (r : List UInt8) : ∀ (name l : List UInt8), (∀ b ∈ name, toLower b ≠ toLower x) →
    casePrefix name (l ++ x :: r) = .ok (decide (SameCase (l.take name.length) name)) := by
  intro name
  induction name with
  | nil => intro l _; simp [casePrefix, SameCase]
  | cons n name ih =>
    intro l h
    rcases l with _ | ⟨y, l⟩
    · simp only [List.nil_append, casePrefix]
      rw [if_neg (h n (by simp))]
      simp [SameCase]
    · simp only [List.cons_append, casePrefix]
      by_cases e : toLower n = toLower y
      · rw [if_pos e, ih l (fun b hb => h b (by simp [hb]))]
        simp only [List.length_cons, List.take_succ_cons, SameCase, List.map_cons, List.cons.injEq, lower_eq, e, true_and]
      · rw [if_neg e]
        have : ¬ SameCase (List.take (n :: name).length (y :: l)) (n :: name) := by
          simp only [List.length_cons, List.take_succ_cons, SameCase, List.map_cons, List.cons.injEq, lower_eq]
          intro z; exact e z.1.symm
        rw [decide_eq_false this]

theorem findField_spec (x : UInt8) (r l : List UInt8) : ∀ L : List (List UInt8 × Field),
    (∀ p ∈ L, ∀ b ∈ p.1, toLower b ≠ toLower x) →
    findField (l ++ x :: r) L = .ok (L.find? (fun p => decide (SameCase (l.take p.1.length) p.1))) := by
  intro L
  induction L with
  | nil => intro _; rfl
  | cons p L ih =>
    intro h
    obtain ⟨name, f⟩ := p
    rw [findField, casePrefix_spec x r name l (h (name, f) (by simp))]
    simp only [Res.bind_ok]
    by_cases e : SameCase (l.take name.length) name
    · rw [List.find?_cons_of_pos (by simpa using e), if_pos (by simpa using e)]
    · rw [List.find?_cons_of_neg (by simpa using e), if_neg (by simpa using e), ih (fun p hp => h p (by simp [hp]))]

theorem fields_break : ∀ p ∈ fields, ∀ b ∈ p.1, toLower b ≠ toLower 13 ∧ toLower b ≠ toLower 10 := by decide +kernel

theorem fields_unique : ∀ p ∈ fields, ∀ q ∈ fields, (p.1.map toLower).isPrefixOf (q.1.map toLower) → p = q := by
  decide +kernel

theorem fields_inj : ∀ p ∈ fields, ∀ q ∈ fields, p.2 = q.2 → p = q := by decide +kernel

theorem sameCase_prefix {name l : List UInt8} (h : SameCase (l.take name.length) name) : name.map toLower <+: l.map toLower := by
  unfold SameCase at h
  rw [lower_fun] at h
  rw [← h, List.map_take]
  exact List.take_prefix _ _

theorem isField_unique {p q : List UInt8 × Field} {l : List UInt8} (hp : p ∈ fields) (hq : q ∈ fields)
    (h1 : SameCase (l.take p.1.length) p.1) (h2 : SameCase (l.take q.1.length) q.1) : p = q := by
  rcases List.prefix_or_prefix_of_prefix (sameCase_prefix h1) (sameCase_prefix h2) with h | h
  · exact fields_unique p hp q hq (List.isPrefixOf_iff_prefix.mpr h)
  · exact (fields_unique q hq p hp (List.isPrefixOf_iff_prefix.mpr h)).symm

theorem sameCase_length {a b : List UInt8} (h : SameCase a b) : a.length = b.length := by
  have := congrArg List.length h
  simpa using this

theorem isField_iff {name l : List UInt8} (h : 8 ≤ l.length) : IsField name l ↔ SameCase (l.take name.length) name := by
  unfold IsField
  refine ⟨fun z => z.2.1, fun z => ⟨h, z, ?_⟩⟩
  have := sameCase_length z
  rw [List.length_take] at this
  omega

/-! ## The value of a field -/

/-- What comes behind the name and white space. -/
def fieldValue (name l : List UInt8) : List UInt8 := (l.drop name.length).dropWhile CLib.isSpace

theorem fieldValue_spec (name l : List UInt8) : FieldValue name l (fieldValue name l) := by
  refine ⟨(l.drop name.length).takeWhile CLib.isSpace, (List.takeWhile_append_dropWhile ..).symm, ?_, ?_⟩
  · intro b hb
    exact (isSpace_eq b).mp (List.mem_takeWhile_imp hb)
  · intro x t e
    have := List.head?_dropWhile_not CLib.isSpace (l.drop name.length)
    unfold fieldValue at e
    rw [e] at this
    simp only [List.head?_cons] at this
    rw [← isSpace_false]
    simpa using this

theorem fieldValue_unique {name l v : List UInt8} (h : FieldValue name l v) : v = fieldValue name l := by
  obtain ⟨sp, e, h1, h2⟩ := h
  unfold fieldValue
  rw [e, List.dropWhile_append_of_pos (fun a ha => (isSpace_eq a).mpr (h1 a ha))]
  rcases v with _ | ⟨x, t⟩
  · rfl
  · rw [List.dropWhile_cons_of_neg]
    rw [isSpace_eq]; exact h2 x t rfl

theorem skipSpaces_spec : ∀ (l pre : List UInt8) (r : List UInt8),
    skipSpaces (pre ++ (l ++ r)) l.length pre.length = .ok ((pre.length : Int) + (l.takeWhile CLib.isSpace).length) := by
  intro l
  induction l with
  | nil => intro pre r; simp [skipSpaces]
  | cons x l ih =>
    intro pre r
    rw [List.length_cons, skipSpaces]
    rw [MailText.aget_at 0 (c := x) (by simp) (by simp)]
    simp only [Res.bind_ok]
    by_cases hx : CLib.isSpace x
    · rw [if_pos hx]
      have := ih (pre ++ [x]) r
      simp only [List.append_assoc, List.cons_append, List.nil_append, List.length_append, List.length_cons, List.length_nil] at this
      simp only [List.cons_append]
      rw [show ((pre.length : Int) + 1) = ((pre.length + (0 + 1) : Nat) : Int) by omega, this, List.takeWhile_cons_of_pos hx]
      simp only [List.length_cons]
      congr 1; omega
    · rw [if_neg hx, List.takeWhile_cons_of_neg hx]; simp

/-! ## One line -/

/-- The value that is stored for a field. -/
def FieldText (conv : List UInt8 → List UInt8 → List UInt8) (p : List UInt8 × Field) (l v : List UInt8) : Prop :=
  match p.2 with
  | .encoding => v = l
  | .disposition => v = l
  | .contentType => v = fieldValue p.1 l
  | _ => HeaderText conv (fieldValue p.1 l) v

/-- The effect of a line on the fields. -/
def Step (conv : List UInt8 → List UInt8 → List UInt8) (l : List UInt8) (h h' : Field → List UInt8) : Prop :=
  ∀ p ∈ fields, (¬ IsField p.1 l → h' p.2 = h p.2) ∧ (IsField p.1 l → FieldText conv p l (h' p.2))

/-- The boundary that a line declares, if any. -/
def boundaryOf (l : List UInt8) : List (List UInt8) :=
  if IsField Mime.contentType l ∧ value Mime.boundaryKey (fieldValue Mime.contentType l) ≠ [] then
    [value Mime.boundaryKey (fieldValue Mime.contentType l)]
  else []

theorem step_set {conv : List UInt8 → List UInt8 → List UInt8} {l v : List UInt8} {h : Field → List UInt8} {p : List UInt8 × Field}
    (hp : p ∈ fields) (hl : 8 ≤ l.length) (hm : SameCase (l.take p.1.length) p.1) (hv : FieldText conv p l v) :
    Step conv l h (fun g => if g = p.2 then v else h g) := by
  intro q hq
  constructor
  · intro hn
    simp only
    rw [if_neg]
    intro z
    have := fields_inj q hq p hp z
    subst this
    exact hn ((isField_iff hl).mpr hm)
  · intro hi
    have : q = p := isField_unique hq hp ((isField_iff hl).mp hi) hm
    subst this
    simpa using hv

variable {σ : Type}

theorem handle_spec (conv : List UInt8 → List UInt8 → List UInt8) (s : State σ) {l r : List UInt8} {x : UInt8} (hx : x = 13 ∨ x = 10)
    (hline : s.line = l ++ x :: r) (hlen : s.len = l.length) :
    ∃ h', handleHeaderLine conv s = .ok { s with header := h', boundary := boundaryOf l ++ s.boundary } ∧ Step conv l s.header h' := by
  have hx61 : x ≠ 61 := by rcases hx with rfl | rfl <;> decide
  unfold handleHeaderLine
  by_cases h8 : s.len < 8
  · rw [if_pos h8]
    have hno : ∀ name, ¬ IsField name l := fun name z => by have := z.1; omega
    refine ⟨s.header, ?_, fun p _ => ⟨fun _ => rfl, fun z => absurd z (hno _)⟩⟩
    unfold boundaryOf
    rw [if_neg (fun z => hno _ z.1)]
    rfl
  rw [if_neg h8]
  have hl8 : 8 ≤ l.length := by omega
  rw [hline, findField_spec x r l fields (fun p hp b hb => by
    have := fields_break p hp b hb
    rcases hx with rfl | rfl
    · exact this.1
    · exact this.2)]
  simp only [Res.bind_ok]
  have hct : (Mime.contentType, Field.contentType) ∈ fields := by decide
  have noB : (p : List UInt8 × Field) → p ∈ fields → SameCase (l.take p.1.length) p.1 → p.2 ≠ .contentType → boundaryOf l = [] := by
    intro p hp hm hne
    unfold boundaryOf
    rw [if_neg]
    intro z
    have := isField_unique hp hct hm ((isField_iff hl8).mp z.1)
    subst this
    exact hne rfl
  cases hf : fields.find? (fun p => decide (SameCase (l.take p.1.length) p.1)) with
  | none =>
    have hno : ∀ p ∈ fields, ¬ IsField p.1 l := by
      intro p hp z
      have := List.find?_eq_none.mp hf p hp
      simp only [decide_eq_true_eq] at this
      exact this ((isField_iff hl8).mp z)
    simp only
    refine ⟨s.header, ?_, fun p hp => ⟨fun _ => rfl, fun z => absurd z (hno p hp)⟩⟩
    unfold boundaryOf
    rw [if_neg (fun z => hno _ hct z.1)]
    simp [← hline]
  | some p =>
    have hp := List.mem_of_find?_eq_some hf
    have hm : SameCase (l.take p.1.length) p.1 := by simpa using List.find?_some hf
    have hnl : p.1.length ≤ l.length := ((isField_iff hl8).mpr hm).2.2
    obtain ⟨name, f⟩ := p
    simp only at hm hnl
    have htake : (l ++ x :: r).take s.len.toNat = l := by rw [hlen]; simp
    have hskip : skipSpaces (l ++ x :: r) (s.len - name.length).toNat name.length =
        .ok ((name.length : Int) + ((l.drop name.length).takeWhile CLib.isSpace).length) := by
      have := skipSpaces_spec (l.drop name.length) (l.take name.length) (x :: r)
      rw [← List.append_assoc, List.take_append_drop, List.length_take, Nat.min_eq_left hnl] at this
      rw [hlen, show ((l.length : Int) - name.length).toNat = (l.drop name.length).length by rw [List.length_drop]; omega]
      exact this
    have hsplit : l = (l.take name.length ++ (l.drop name.length).takeWhile CLib.isSpace) ++ fieldValue name l := by
      unfold fieldValue
      rw [List.append_assoc, List.takeWhile_append_dropWhile, List.take_append_drop]
    generalize hsp : (l.drop name.length).takeWhile CLib.isSpace = sp at hskip hsplit
    have hlsum : l.length = name.length + sp.length + (fieldValue name l).length := by
      conv_lhs => rw [hsplit]
      simp [Nat.min_eq_left hnl]; omega
    have hdrop : (l ++ x :: r).drop ((name.length : Int) + sp.length).toNat = fieldValue name l ++ x :: r := by
      conv_lhs => rw [hsplit]
      rw [show ((name.length : Int) + sp.length).toNat = (l.take name.length ++ sp).length by simp [Nat.min_eq_left hnl]; omega,
        List.append_assoc, List.drop_left]
    have hlen2 : (s.len - ((name.length : Int) + sp.length)).toNat = (fieldValue name l).length := by omega
    cases f <;> simp only
    all_goals first
      | (refine ⟨_, ?_, step_set hp hl8 hm (v := l) rfl⟩
         rw [htake, noB _ hp hm (by simp)]
         simp [setField, ← hline])
      | skip
    case contentType =>
      have hname : name = Mime.contentType := by
        have := fields_inj _ hp _ hct rfl
        simpa using this
      subst hname
      rw [hskip]
      simp only [Res.bind_ok, if_true]
      have hsl : slice (l ++ x :: r) ((Mime.contentType.length : Int) + sp.length) (s.len - ((Mime.contentType.length : Int) + sp.length)) =
          fieldValue Mime.contentType l := by
        unfold slice
        rw [hdrop, hlen2, List.take_left]
      rw [hsl]
      refine ⟨_, ?_, step_set hp hl8 hm (v := fieldValue Mime.contentType l) rfl⟩
      unfold boundaryOf
      have hI : IsField Mime.contentType l := (isField_iff hl8).mpr hm
      by_cases hb : value Mime.boundaryKey (fieldValue Mime.contentType l) = []
      · have hb' : value [98, 111, 117, 110, 100, 97, 114, 121] (fieldValue Mime.contentType l) = [] := hb
        simp [setField, ← hline, hb, hb']
      · have hb' : ¬ value [98, 111, 117, 110, 100, 97, 114, 121] (fieldValue Mime.contentType l) = [] := hb
        simp [setField, ← hline, Mime.boundaryKey, hb', hI]
    all_goals
      rw [hskip]
      simp only [Res.bind_ok]
      simp only [show ((Field.subject = Field.contentType) ↔ False) by decide, show ((Field.to = Field.contentType) ↔ False) by decide,
        show ((Field.from = Field.contentType) ↔ False) by decide, show ((Field.cc = Field.contentType) ↔ False) by decide,
        show ((Field.bcc = Field.contentType) ↔ False) by decide, show ((Field.messageId = Field.contentType) ↔ False) by decide,
        show ((Field.inReplyTo = Field.contentType) ↔ False) by decide, show ((Field.references = Field.contentType) ↔ False) by decide, if_false]
      obtain ⟨out, ho, hd⟩ := Props.C70_total conv (fieldValue name l) hx61 r
      rw [hdrop, hlen2, hd]
      simp only [Res.bind_ok]
      refine ⟨_, ?_, step_set hp hl8 hm (v := out) ho⟩
      rw [noB _ hp hm (by simp)]
      simp [setField, ← hline]

end Strigi.Mail
