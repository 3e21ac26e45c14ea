import Verif.Proofs.MailHeader

namespace Strigi.Mail

open MailText (toLower)
open Mime (SameCase IsField FieldValue LastField Occurs Filler Unquoted Param Boundaries FileName IsBase64)
open MailSpec (HeaderText)

/-! ## Parameters -/

theorem cstr_eq {h : List UInt8} (h0 : 0 ∉ h) : cstr h = h := by
  unfold cstr
  rw [List.takeWhile_eq_self_iff]
  intro x hx
  have : x ≠ 0 := by rintro rfl; exact h0 hx
  simpa using this

theorem occurs_cons {n l a : List UInt8} {x : UInt8} (h : Occurs n l a) : Occurs n (x :: l) (x :: a) := by
  obtain ⟨key, t, e, hk⟩ := h
  exact ⟨key, t, by rw [e]; simp, hk⟩

theorem occurs_nil_iff {n l : List UInt8} : Occurs n l [] ↔ (n.map toLower).isPrefixOf (l.map toLower) := by
  rw [List.isPrefixOf_iff_prefix]
  constructor
  · rintro ⟨key, t, e, hk⟩
    unfold SameCase at hk
    rw [lower_fun] at hk
    rw [e, ← hk]
    simp
  · rintro ⟨t, e⟩
    refine ⟨l.take n.length, l.drop n.length, by simp, ?_⟩
    unfold SameCase
    rw [lower_fun, List.map_take, ← e]
    rw [show n.length = (n.map toLower).length by simp, List.take_left]

theorem caseFind_none {n : List UInt8} (hn : n ≠ []) : ∀ {h : List UInt8}, (∀ a, ¬ Occurs n h a) → caseFind n h = none := by
  intro h
  induction h with
  | nil => intro _; simp [caseFind, hn]
  | cons x l ih =>
    intro ho
    rw [caseFind, if_neg (fun z => ho [] (occurs_nil_iff.mpr z)), ih (fun a z => ho _ (occurs_cons z))]
    rfl

theorem caseFind_some {n : List UInt8} (hn : n ≠ []) : ∀ {a h : List UInt8}, Occurs n h a → (∀ a', Occurs n h a' → a.length ≤ a'.length) →
    caseFind n h = some a.length := by
  intro a
  induction a with
  | nil =>
    intro h ho _
    rcases h with _ | ⟨x, l⟩
    · obtain ⟨key, t, e, hk⟩ := ho
      have := sameCase_length hk
      have := congrArg List.length e
      simp only [List.length_append, List.length_nil] at this
      exact absurd (List.length_eq_zero_iff.mp (by omega)) hn
    · rw [caseFind, if_pos (occurs_nil_iff.mp ho)]; rfl
  | cons y a ih =>
    intro h ho hmin
    obtain ⟨key, t, e, hk⟩ := ho
    subst e
    simp only [List.cons_append] at hmin ⊢
    rw [caseFind, if_neg, ih ⟨key, t, rfl, hk⟩]
    · simp
    · intro a' ha'
      have := hmin _ (occurs_cons ha')
      simp only [List.length_cons] at this; omega
    · intro z
      have := hmin [] (occurs_nil_iff.mpr z)
      simp at this

theorem occurs_min {n h a : List UInt8} (ho : Occurs n h a) : ∃ a, Occurs n h a ∧ ∀ a', Occurs n h a' → a.length ≤ a'.length := by
  have : ∀ (m : Nat) (a : List UInt8), a.length = m → Occurs n h a → ∃ a, Occurs n h a ∧ ∀ a', Occurs n h a' → a.length ≤ a'.length := by
    intro m
    induction m using Nat.strongRecOn with
    | _ m ih =>
      intro a ha ho
      by_cases hx : ∃ a', Occurs n h a' ∧ a'.length < a.length
      · obtain ⟨a', h1, h2⟩ := hx
        exact ih a'.length (by omega) a' rfl h1
      · exact ⟨a, ho, fun a' h' => Nat.le_of_not_lt (fun z => hx ⟨a', h', z⟩)⟩
  exact this a.length a rfl ho

theorem caseFind_isSome {n h : List UInt8} (hn : n ≠ []) : (caseFind n h).isSome = true ↔ ∃ a, Occurs n h a := by
  constructor
  · intro z
    by_cases hx : ∃ a, Occurs n h a
    · exact hx
    · rw [caseFind_none hn (fun a ha => hx ⟨a, ha⟩)] at z; cases z
  · rintro ⟨a, ha⟩
    obtain ⟨a, h1, h2⟩ := occurs_min ha
    rw [caseFind_some hn h1 h2]; rfl

theorem findByte_spec {b : UInt8} : ∀ {t w : List UInt8}, BeforeFirst [b] t w →
    (findByte b t = some w.length ∧ w.length < t.length) ∨ (findByte b t = none ∧ w = t) := by
  intro t
  induction t with
  | nil =>
    rintro w (⟨r, e, _⟩ | ⟨rfl, _⟩)
    · simp at e
    · exact Or.inr ⟨rfl, rfl⟩
  | cons x t ih =>
    intro w h
    by_cases hx : x = b
    · subst hx
      have h0 : OccursAt [x] (x :: t) 0 := ⟨[], t, rfl, rfl⟩
      left
      rcases h with ⟨r, e, hn⟩ | ⟨_, hn⟩
      · have : w.length = 0 := by
          rcases Nat.eq_zero_or_pos w.length with z | z
          · exact z
          · exact absurd h0 (hn 0 z)
        rw [this]; simp [findByte]
      · exact absurd h0 (hn 0)
    · have hno : ∀ p, OccursAt [b] t p → OccursAt [b] (x :: t) (p + 1) := by
        rintro p ⟨pre, post, e, h⟩
        exact ⟨x :: pre, post, by rw [e]; simp, by simp [h]⟩
      rcases h with ⟨r, e, hn⟩ | ⟨rfl, hn⟩
      · rcases w with _ | ⟨y, w⟩
        · simp at e; exact absurd e.1 hx
        · simp only [List.cons_append, List.cons.injEq] at e
          obtain ⟨rfl, e⟩ := e
          rcases ih (w := w) (Or.inl ⟨r, e, fun p hp z => hn (p + 1) (by simp; omega) (hno p z)⟩) with ⟨h1, h2⟩ | ⟨_, h2⟩
          · left; refine ⟨?_, by simp; omega⟩
            rw [findByte, if_neg hx, h1]; rfl
          · rw [h2] at e
            have := congrArg List.length e
            simp at this
      · rcases ih (w := t) (Or.inr ⟨rfl, fun p z => hn (p + 1) (hno p z)⟩) with ⟨h1, h2⟩ | ⟨h1, _⟩
        · omega
        · right; refine ⟨?_, rfl⟩
          rw [findByte, if_neg hx, h1]; rfl

theorem isFiller_iff (b : UInt8) : isFiller b = true ↔ Filler b := by
  unfold isFiller Filler
  simp [or_assoc]

theorem beforeFirst_prefix {q t w : List UInt8} (h : BeforeFirst q t w) : w <+: t := by
  rcases h with ⟨r, e, _⟩ | ⟨rfl, _⟩
  · exact ⟨q ++ r, by rw [e]; simp⟩
  · exact List.prefix_rfl

theorem value_param {n h v : List UInt8} (hn : n ≠ []) (h0 : 0 ∉ h) (hp : Param n h v) : value n h = v := by
  unfold value
  rw [cstr_eq h0]
  rcases hp with ⟨rfl, hno⟩ | ⟨a, key, fill, t, w, rfl, hk, hmin, hf, hnf, hb, hu⟩
  · rw [caseFind_none hn hno]
  · rw [caseFind_some hn (a := a) ⟨key, fill ++ t, by simp, hk⟩ hmin]
    have hkl := sameCase_length hk
    simp only
    have hdr : (a ++ key ++ fill ++ t).drop (a.length + n.length) = fill ++ t := by
      rw [show a.length + n.length = (a ++ key).length by simp; omega, List.append_assoc (a ++ key), List.drop_left]
    rw [hdr]
    have htw : (fill ++ t).takeWhile isFiller = fill := by
      rw [List.takeWhile_append_of_pos (fun b hb => (isFiller_iff b).mpr (hf b hb))]
      rcases t with _ | ⟨x, u⟩
      · simp
      · rw [List.takeWhile_cons_of_neg]
        · simp
        · rw [isFiller_iff]; exact hnf x u rfl
    rw [htw]
    have hdr2 : (a ++ key ++ fill ++ t).drop (a.length + n.length + fill.length) = t := by
      rw [show a.length + n.length + fill.length = (a ++ key ++ fill).length by simp; omega, List.drop_left]
    rw [hdr2]
    obtain ⟨t', rfl⟩ := beforeFirst_prefix hb
    suffices key : ∀ vend : Nat, vend = a.length + n.length + fill.length + w.length →
        (if (w ++ t').head? = some 34 ∧ vend - (a.length + n.length + fill.length) > 2 then
          slice (a ++ key ++ fill ++ (w ++ t')) (((a.length + n.length + fill.length : Nat) : Int) + 1)
            ((vend : Int) - ((a.length + n.length + fill.length : Nat) : Int) - 2)
        else slice (a ++ key ++ fill ++ (w ++ t')) ((a.length + n.length + fill.length : Nat) : Int)
            ((vend : Int) - ((a.length + n.length + fill.length : Nat) : Int))) = v by
      rcases findByte_spec hb with ⟨h1, _⟩ | ⟨h1, h2⟩
      · rw [h1]; exact key _ rfl
      · rw [h1]
        apply key
        rw [← h2]; simp; omega
    intro vend hvend
    rw [hvend]
    rw [show ((a.length + n.length + fill.length + w.length : Nat) : Int) - ((a.length + n.length + fill.length : Nat) : Int) = w.length by omega,
      show a.length + n.length + fill.length + w.length - (a.length + n.length + fill.length) = w.length by omega]
    have hcond : ((w ++ t').head? = some 34 ∧ w.length > 2) ↔ (w.head? = some 34 ∧ 2 < w.length) := by
      rcases w with _ | ⟨x, w⟩
      · simp
      · simp
    have hsl : slice (a ++ key ++ fill ++ (w ++ t')) ((a.length + n.length + fill.length : Nat) : Int) w.length = w := by
      apply MailText.slice_mid <;> simp <;> omega
    rcases hu with ⟨h1, h2, rfl⟩ | ⟨h1, rfl⟩
    · rw [if_pos (hcond.mpr ⟨h1, h2⟩)]
      rcases w with _ | ⟨x, w⟩
      · simp at h2
      · simp only [List.length_cons] at h2
        have hwne : w ≠ [] := by rintro rfl; simp at h2
        have e : (a ++ key ++ fill ++ (x :: w ++ t')) = (a ++ key ++ fill ++ [x]) ++ (w.dropLast ++ (w.getLast hwne :: t')) := by
          conv_lhs => rw [← List.dropLast_concat_getLast hwne]
          simp
        rw [e, List.tail_cons]
        apply MailText.slice_mid
        · simp; omega
        · simp; omega
    · rw [if_neg (fun z => h1 (hcond.mp z))]
      simpa using hsl

/-! ## Several lines -/

/-- The effect of some lines on the fields. -/
inductive Steps (conv : List UInt8 → List UInt8 → List UInt8) : List (List UInt8) → (Field → List UInt8) → (Field → List UInt8) → Prop
  | nil {h : Field → List UInt8} : Steps conv [] h h
  | cons {l : List UInt8} {ls : List (List UInt8)} {h h1 h2 : Field → List UInt8} : Step conv l h h1 → Steps conv ls h1 h2 → Steps conv (l :: ls) h h2

/-- The boundaries that some lines declare, the last one first. -/
def boundariesOf : List (List UInt8) → List (List UInt8)
  | [] => []
  | l :: ls => boundariesOf ls ++ boundaryOf l

theorem exists_last (name : List UInt8) (lines : List (List UInt8)) : ∃ o, LastField name lines o := by
  induction lines with
  | nil => exact ⟨none, by simp [LastField]⟩
  | cons l ls ih =>
    obtain ⟨o, ho⟩ := ih
    cases o with
    | some l' =>
      obtain ⟨a, b, e, h1, h2⟩ := ho
      exact ⟨some l', l :: a, b, by rw [e]; simp, h1, h2⟩
    | none =>
      by_cases hl : IsField name l
      · exact ⟨some l, [], ls, rfl, hl, ho⟩
      · refine ⟨none, fun l' hl' => ?_⟩
        rcases List.mem_cons.mp hl' with rfl | z
        · exact hl
        · exact ho l' z

variable {conv : List UInt8 → List UInt8 → List UInt8}

theorem steps_none {lines : List (List UInt8)} {h h' : Field → List UInt8} (hs : Steps conv lines h h') {p : List UInt8 × Field}
    (hp : p ∈ fields) : (∀ l ∈ lines, ¬ IsField p.1 l) → h' p.2 = h p.2 := by
  induction hs with
  | nil => intro _; rfl
  | cons h1 _ ih =>
    intro hl
    rw [ih (fun l z => hl l (by simp [z])), (h1 p hp).1 (hl _ (by simp))]

theorem steps_some {lines : List (List UInt8)} {h h' : Field → List UInt8} (hs : Steps conv lines h h') {p : List UInt8 × Field}
    (hp : p ∈ fields) {l : List UInt8} (hl : LastField p.1 lines (some l)) : FieldText conv p l (h' p.2) := by
  induction hs with
  | nil => obtain ⟨a, b, e, _⟩ := hl; simp at e
  | @cons l0 ls h h1 h2 hstep hsteps ih =>
    obtain ⟨a, b, e, hi, hb⟩ := hl
    rcases a with _ | ⟨y, a⟩
    · simp only [List.nil_append, List.cons.injEq] at e
      obtain ⟨rfl, rfl⟩ := e
      rw [steps_none hsteps hp hb]
      exact (hstep p hp).2 hi
    · simp only [List.cons_append, List.cons.injEq] at e
      exact ih ⟨a, b, e.2, hi, hb⟩

theorem mem_fieldValue {name l : List UInt8} (h : 0 ∉ l) : 0 ∉ fieldValue name l := by
  intro z
  unfold fieldValue at z
  exact h (List.drop_subset _ _ ((List.dropWhile_sublist _).subset z))

theorem boundariesOf_eq {lines bs : List (List UInt8)} (h : Boundaries lines bs) (h0 : ∀ l ∈ lines, 0 ∉ l) : boundariesOf lines = bs := by
  induction h with
  | nil => rfl
  | other hn _ ih =>
    rw [boundariesOf, ih (fun l z => h0 l (by simp [z])), boundaryOf, if_neg (fun z => hn z.1)]; simp
  | none hi hv hp _ ih =>
    rw [boundariesOf, ih (fun l z => h0 l (by simp [z])), boundaryOf, if_neg]
    · simp
    · intro z
      rw [fieldValue_unique hv] at hp
      exact z.2 (value_param (by decide) (mem_fieldValue (h0 _ (by simp))) hp)
  | some hi hv hp hb _ ih =>
    rw [boundariesOf, ih (fun l z => h0 l (by simp [z])), boundaryOf]
    rw [fieldValue_unique hv] at hp
    have := value_param (by decide) (mem_fieldValue (h0 _ (by simp))) hp
    rw [if_pos ⟨hi, by rw [this]; exact hb⟩, this]

/-- The fields of a part, computed from a state where they are empty. -/
theorem fileName_eq {lines : List (List UInt8)} {h h' : Field → List UInt8} (hs : Steps conv lines h h') (h0 : ∀ l ∈ lines, 0 ∉ l)
    (hd : h .disposition = []) (hc : h .contentType = []) {name : List UInt8} (hn : FileName lines name) :
    name = (if value Mime.filenameKey (h' .disposition) = [] then value Mime.nameKey (h' .contentType)
      else value Mime.filenameKey (h' .disposition)) := by
  obtain ⟨od, oc, d, t, n1, n2, g1, g2, g3, g4, g5, g6, g7, g8⟩ := hn
  have hm : ∀ {nm : List UInt8} {l : List UInt8}, LastField nm lines (some l) → l ∈ lines := by
    rintro nm l ⟨a, b, e, _⟩; rw [e]; simp
  have e1 : h' .disposition = d := by
    cases od with
    | none => rw [g2, steps_none hs (p := (Mime.disposition, .disposition)) (by decide) g1, hd]; rfl
    | some l => rw [g2]; exact steps_some hs (p := (Mime.disposition, .disposition)) (by decide) g1
  have z1 : 0 ∉ d := by
    rw [g2]
    cases od with
    | none => simp
    | some l => exact h0 _ (hm g1)
  have e2 : h' .contentType = t ∧ 0 ∉ t := by
    cases oc with
    | none => rw [steps_none hs (p := (Mime.contentType, .contentType)) (by decide) g4, hc, g5 rfl]; simp
    | some l =>
      have hv : h' .contentType = fieldValue Mime.contentType l :=
        steps_some hs (p := (Mime.contentType, .contentType)) (by decide) g4
      rw [hv, fieldValue_unique (g6 l rfl)]
      exact ⟨rfl, mem_fieldValue (h0 _ (hm g4))⟩
  rw [e1, e2.1, value_param (by decide) z1 g3, value_param (by decide) e2.2 g7, g8]

theorem base64_iff {lines : List (List UInt8)} {h h' : Field → List UInt8} (hs : Steps conv lines h h') (h0 : ∀ l ∈ lines, 0 ∉ l)
    (he : h .encoding = []) : (caseFind Mime.base64Key (cstr (h' .encoding))).isSome = true ↔ IsBase64 lines := by
  have hm : ∀ {nm : List UInt8} {l : List UInt8}, LastField nm lines (some l) → l ∈ lines := by
    rintro nm l ⟨a, b, e, _⟩; rw [e]; simp
  have key : ∀ l, LastField Mime.transferEncoding lines (some l) → h' .encoding = l := fun l hl =>
    steps_some hs (p := (Mime.transferEncoding, .encoding)) (by decide) hl
  constructor
  · intro z
    obtain ⟨o, ho⟩ := exists_last Mime.transferEncoding lines
    cases o with
    | none =>
      rw [steps_none hs (p := (Mime.transferEncoding, .encoding)) (by decide) ho, he] at z
      exact absurd z (by decide)
    | some l =>
      rw [key l ho, cstr_eq (h0 _ (hm ho)), caseFind_isSome (by decide)] at z
      exact ⟨l, ho, z⟩
  · rintro ⟨l, hl, ha⟩
    rw [key l hl, cstr_eq (h0 _ (hm hl)), caseFind_isSome (by decide)]
    exact ha

end Strigi.Mail
