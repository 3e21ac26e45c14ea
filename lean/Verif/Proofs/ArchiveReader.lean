import Verif.Model.ArchiveReader
import Verif.Proofs.DirLister

namespace Strigi
namespace Reader

open Listing

/-- The positions behind the slashes of a string that starts at position `off`. -/
def startsAt (off : Nat) : List UInt8 → List Nat
  | [] => []
  | b :: l => if b = 47 then (off + 1) :: startsAt (off + 1) l else startsAt (off + 1) l

theorem startsAt_append (off : Nat) (a b : List UInt8) :
    startsAt off (a ++ b) = startsAt off a ++ startsAt (off + a.length) b := by
  induction a generalizing off with
  | nil => rfl
  | cons x a ih =>
    simp only [List.cons_append, startsAt, List.length_cons]
    rw [ih, show off + 1 + a.length = off + (a.length + 1) by omega]
    split <;> rfl

theorem startsAt_none {off : Nat} {a : List UInt8} (h : (47 : UInt8) ∉ a) : startsAt off a = [] := by
  induction a generalizing off with
  | nil => rfl
  | cons x a ih =>
    simp only [List.mem_cons, not_or] at h
    rw [startsAt, if_neg (Ne.symm h.1), ih h.2]

theorem startsAt_le {off : Nat} {a : List UInt8} : ∀ x ∈ startsAt off a, x ≤ off + a.length := by
  induction a generalizing off with
  | nil => simp [startsAt]
  | cons b a ih =>
    intro x hx
    rw [startsAt] at hx
    simp only [List.length_cons]
    split at hx
    · rcases List.mem_cons.1 hx with rfl | hx
      · omega
      · have := ih x hx; omega
    · have := ih x hx; omega

theorem startsAt_lt {off : Nat} {a : List UInt8} (h : a.getLast? ≠ some 47) : ∀ x ∈ startsAt off a, x < off + a.length := by
  induction a generalizing off with
  | nil => simp [startsAt]
  | cons b a ih =>
    intro x hx
    rw [startsAt] at hx
    simp only [List.length_cons]
    cases a with
    | nil =>
      simp only [List.getLast?_singleton, ne_eq, Option.some.injEq] at h
      rw [if_neg h] at hx
      simp [startsAt] at hx
    | cons c a =>
      rw [List.getLast?_cons_cons] at h
      split at hx
      · rcases List.mem_cons.1 hx with rfl | hx
        · simp
        · have := ih h x hx; omega
      · have := ih h x hx; omega

/-- The loops over the ancestors of a url, from the longest to the shortest. -/
theorem cullLoop_spec (fs : Opener) (url : List UInt8) : ∀ (fuel : Nat) (pre suf : List UInt8), url = pre ++ suf →
    pre.length < fuel →
    (∃ k c r, pre = k ++ r ∧ fs.openStream k = some c ∧ Ancestor k pre ∧ (k = pre ∨ k ≠ []) ∧
      (∀ k', Ancestor k' pre → k.length < k'.length → fs.openStream k' = none) ∧
      cullLoop fs url fuel (rfindSlash pre) (fs.openStream pre) (startsAt pre.length suf).reverse =
        .ok (some c, (startsAt k.length (r ++ suf)).reverse)) ∨
    ((∀ k, Ancestor k pre → (k = pre ∨ k ≠ []) → fs.openStream k = none) ∧
      ∃ parts, cullLoop fs url fuel (rfindSlash pre) (fs.openStream pre) (startsAt pre.length suf).reverse =
        .ok (none, parts)) := by
  intro fuel
  induction fuel with
  | zero => intro pre suf _ h; omega
  | succ fuel ih =>
    intro pre suf hurl hlen
    unfold cullLoop
    cases ho : fs.openStream pre with
    | some c =>
      left
      refine ⟨pre, c, [], by simp, ho, Or.inl rfl, Or.inl rfl, fun k' h1 h2 => ?_, ?_⟩
      · have := h1.length; omega
      · cases rfindSlash pre <;> rfl
    | none =>
      cases hp : rfindSlash pre with
      | none =>
        right
        refine ⟨fun k hk _ => ?_, _, rfl⟩
        rw [(Ancestor.none (rfindSlash_none hp)).1 hk]
        exact ho
      | some q =>
        obtain ⟨a, b, h1, h2, h3⟩ := rfindSlash_some hp
        simp only
        by_cases hq : q = 0
        · right
          rw [if_pos hq]
          refine ⟨fun k hk hk' => ?_, _, rfl⟩
          have ha : a = [] := List.length_eq_zero_iff.1 (by omega)
          rcases hk' with rfl | hk'
          · exact ho
          · rw [h1] at hk
            rcases (Ancestor.cut h3).1 hk with hk | hk
            · rw [hk, ← h1]; exact ho
            · subst ha
              exact absurd ((Ancestor.none (by simp)).1 hk) hk'
        · rw [if_neg hq]
          have htake : url.take q = a := by
            rw [hurl, h1, ← h2]; simp
          have hparts : (startsAt pre.length suf).reverse ++ [q + 1] =
              (startsAt a.length (47 :: b ++ suf)).reverse := by
            rw [List.cons_append, startsAt, if_pos rfl, startsAt_append, startsAt_none h3, h1, ← h2]
            simp only [List.length_append, List.length_cons, List.nil_append, List.reverse_cons]
            rw [show a.length + 1 + b.length = a.length + (b.length + 1) by omega]
          rw [htake, hparts]
          have hlt : a.length < pre.length := by rw [h1]; simp
          have hane : a ≠ [] := by rintro rfl; simp at h2; omega
          rcases ih a (47 :: b ++ suf) (by rw [hurl, h1]; simp) (by omega) with
            ⟨k, c, r, i1, i2, i3, i4, i5, i6⟩ | ⟨i1, i2⟩
          · left
            refine ⟨k, c, r ++ 47 :: b, by rw [h1, i1]; simp, i2, ?_, ?_, ?_, ?_⟩
            · rw [h1]; exact (Ancestor.cut h3).2 (Or.inr i3)
            · right
              rcases i4 with rfl | i4
              · exact hane
              · exact i4
            · intro k' hk' hl
              rw [h1] at hk'
              rcases (Ancestor.cut h3).1 hk' with hk' | hk'
              · rw [hk', ← h1]; exact ho
              · exact i5 k' hk' hl
            · rw [i6]; simp
          · right
            refine ⟨fun k hk hk' => ?_, i2⟩
            rw [h1] at hk
            rcases (Ancestor.cut h3).1 hk with hk2 | hk2
            · rw [hk2, ← h1]; exact ho
            · apply i1 k hk2
              rcases hk' with rfl | hk'
              · have := hk2.length; omega
              · exact Or.inr hk'

theorem cullName_spec (fs : Opener) (url : List UInt8) :
    (∃ k c r, url = k ++ r ∧ fs.openStream k = some c ∧ Ancestor k url ∧ (k = url ∨ k ≠ []) ∧
      (∀ k', Ancestor k' url → k.length < k'.length → fs.openStream k' = none) ∧
      cullName fs url = .ok (some c, (startsAt k.length r).reverse)) ∨
    ((∀ k, Ancestor k url → (k = url ∨ k ≠ []) → fs.openStream k = none) ∧
      ∃ parts, cullName fs url = .ok (none, parts)) := by
  have := cullLoop_spec fs url (url.length + 1) url [] (by simp) (Nat.lt_succ_self _)
  simp only [startsAt, List.reverse_nil, List.append_nil] at this
  exact this

/-! ## Opening -/

theorem czstr_self {s : List UInt8} (h : (0 : UInt8) ∉ s) : czstr s = s := by
  show cName s = s
  induction s with
  | nil => rfl
  | cons b s ih =>
    simp only [List.mem_cons, not_or] at h
    have := ih h.2
    unfold cName at this ⊢
    rw [List.takeWhile_cons_of_pos (by simpa using Ne.symm h.1), this]

theorem czstr_length (s : List UInt8) : (czstr s).length ≤ s.length := (List.takeWhile_sublist _).length_le

theorem fits_iff {url pre path : List UInt8} {a : Attr} (hu : url = pre ++ path) (hz : (0 : UInt8) ∉ path) :
    fits url pre.length a = true →
    a.isFile = true ∧ a.isDir = false ∧ czstr a.filename <+: path := by
  unfold fits strnEq
  simp only [Bool.and_eq_true, Bool.not_eq_true', decide_eq_true_eq]
  rintro ⟨⟨⟨h1, h2⟩, _⟩, h4⟩
  refine ⟨h1, h2, ?_⟩
  rw [hu, List.drop_left, czstr_self hz, List.take_of_length_le (czstr_length _)] at h4
  rw [h4]
  exact List.take_prefix _ _

theorem fits_of {url pre path : List UInt8} {a : Attr} (hu : url = pre ++ path) (hz : (0 : UInt8) ∉ path)
    (hp : pre ≠ []) (h1 : a.isFile = true) (h2 : a.isDir = false) (h3 : a.filename <+: path) :
    fits url pre.length a = true := by
  unfold fits strnEq
  have hl : a.filename.length < url.length := by
    have := h3.length_le
    have := List.length_pos_iff.2 hp
    rw [hu, List.length_append]
    omega
  obtain ⟨t, ht⟩ := h3
  have hz' : (0 : UInt8) ∉ a.filename := fun z => hz (by rw [← ht]; simp [z])
  simp only [Bool.and_eq_true, Bool.not_eq_true', decide_eq_true_eq]
  refine ⟨⟨⟨h1, h2⟩, hl⟩, ?_⟩
  rw [hu, List.drop_left, czstr_self hz, czstr_self hz', ← ht]
  simp

theorem openLoop_spec {c x : Contents} {path : List UInt8} (h : EntryPath c path x) :
    ∀ (pre url : List UInt8) (fuel : Nat), url = pre ++ path → pre ≠ [] → (0 : UInt8) ∉ path →
    (startsAt pre.length path).length < fuel →
    openLoop url fuel (pre.length :: startsAt pre.length path) c = .ok (some x) := by
  induction h with
  | @skip a len sub rest path x h hr ih =>
    intro pre url fuel hu hp hz hf
    have := ih pre url fuel hu hp hz hf
    cases fuel with
    | zero => omega
    | succ fuel =>
      unfold openLoop at this ⊢
      rw [show firstFit url pre.length (.entry a len sub rest) = firstFit url pre.length rest by
        rw [firstFit, if_neg (fun z => h (fits_iff hu hz z))]]
      exact this
  | @here a len sub rest h1 h2 h3 =>
    intro pre url fuel hu hp hz hf
    cases fuel with
    | zero => omega
    | succ fuel =>
      unfold openLoop
      rw [firstFit, if_pos (fits_of hu hz hp h1 h2 List.prefix_rfl)]
      simp only
      rw [show (startsAt pre.length a.filename).dropWhile (· < pre.length + a.filename.length) = [] by
        rw [show startsAt pre.length a.filename = startsAt pre.length a.filename ++ [] by simp,
          List.dropWhile_append_of_pos]
        · rfl
        · intro y hy
          simpa using startsAt_lt h3 y hy]
  | @inside a len sub rest path x h1 h2 h3 hs ih =>
    intro pre url fuel hu hp hz hf
    cases fuel with
    | zero => omega
    | succ fuel =>
      unfold openLoop
      rw [firstFit, if_pos (fits_of hu hz hp h1 h2 (List.prefix_append _ _))]
      simp only
      have e : startsAt pre.length (a.filename ++ 47 :: path) = startsAt pre.length a.filename ++
          (pre.length + a.filename.length + 1) :: startsAt (pre.length + a.filename.length + 1) path := by
        rw [startsAt_append]
        simp [startsAt]
      have hd : (startsAt pre.length (a.filename ++ 47 :: path)).dropWhile (· < pre.length + a.filename.length) =
          (pre.length + a.filename.length + 1) :: startsAt (pre.length + a.filename.length + 1) path := by
        rw [e, List.dropWhile_append_of_pos]
        · rw [List.dropWhile_cons_of_neg]
          simp
        · intro y hy
          simpa using startsAt_lt h3 y hy
      rw [hd]
      simp only
      have hlen : (pre ++ a.filename ++ [47]).length = pre.length + a.filename.length + 1 := by simp; omega
      have := ih (pre ++ a.filename ++ [47]) url fuel (by rw [hu]; simp) (by simp)
        (fun z => hz (by simp [z])) (by
          rw [hlen]
          rw [e] at hf
          simp only [List.length_append, List.length_cons] at hf
          omega)
      rw [hlen] at this
      exact this

theorem firstFit_nil {url pre path : List UInt8} (hu : url = pre ++ path) (hz : (0 : UInt8) ∉ path) :
    ∀ c : Contents, (∀ a ∈ c.attrs, ¬ (a.isFile = true ∧ a.isDir = false ∧ czstr a.filename <+: path)) →
    firstFit url pre.length c = .nil := by
  intro c
  induction c with
  | nil => intro _; rfl
  | entry a len sub rest _ ih =>
    intro h
    rw [Contents.attrs] at h
    rw [firstFit, if_neg (fun z => h a (by simp) (fits_iff hu hz z))]
    exact ih (fun b hb => h b (by simp [hb]))

/-! ## Listing a new reader -/

theorem statLoop_spec {T : Tree} {all : List (List Name)} {path : List Name} {fuel n : Nat} {lurl parent name : List UInt8}
    (hu : UrlOf lurl parent path) (hall : ∀ x ∈ all, x ≠ []) (hfirst : First all path) :
    ∀ (m k : Nat) {l : Lister} {s : Listing.State}, Good T all k s → k < fuel → k + 1 < n → LInv T all path l s →
    name ∉ l.done → (keys (Ptr.kids T (.at path))).length < l.done.length + m →
    ∃ o, statLoop fuel n lurl parent name m l s = .ok o ∧ (∀ e, o = some e → e.filename = name) ∧
      (o ≠ none ↔ name ∈ keys (Ptr.kids T (.at path))) := by
  intro m
  induction m with
  | zero =>
    intro k l s h hf hn hl _ hm
    have := nodup_length hl.nodup (hl.final hfirst)
    omega
  | succ m ih =>
    intro k l s h hf hn hl hname hm
    obtain ⟨l', s', o, h1, h2, ⟨k', h3, h3'⟩, h4, h5⟩ := next_spec h hf hn hu hall hl
    unfold statLoop
    rw [h1]
    simp only [Res.bind_ok]
    cases o with
    | none =>
      simp only
      refine ⟨none, rfl, by simp, ?_⟩
      simp only [ne_eq, not_true_eq_false, false_iff]
      intro hk
      obtain ⟨i1, i2⟩ := h4 rfl
      rcases h2.cases with ⟨_, j⟩ | ⟨j, _⟩ | ⟨p, _, _, j, _⟩
      · exact hname (i1 ▸ j hfirst name hk)
      · omega
      · omega
    | some e =>
      simp only
      obtain ⟨_, i2⟩ := h5 e rfl
      by_cases hen : e.filename = name
      · rw [if_pos hen]
        refine ⟨some e, rfl, fun e' he => by cases he; exact hen, ?_⟩
        simp only [ne_eq, reduceCtorEq, not_false_eq_true, true_iff]
        exact h2.final hfirst name (by rw [i2, hen]; simp)
      · rw [if_neg hen]
        exact ih k' h3' (by omega) (by omega) h2 (by rw [i2]; simp [hname, Ne.symm hen])
          (by rw [i2]; simp only [List.length_cons]; omega)

/-! ## `localStat` -/

theorem localStat_new (fs : Opener) (url : List UInt8) :
    localStat fs [] url = .ok ((fs.stat url).map fun e => if e.isFile = false then e else probe fs url e, []) := by
  unfold localStat
  cases fs.stat url with
  | none => rfl
  | some e =>
    simp only [Option.map_some]
    split
    · rfl
    · rfl

theorem handleLoop_spec (fs : Opener) (url : List UInt8) : ∀ (fuel : Nat) (pre suf : List UInt8) (r : Option Attr),
    url = pre ++ suf → pre.length < fuel →
    r = (fs.stat pre).map (fun e => if e.isFile = false then e else probe fs pre e) →
    (∃ k e, fs.stat k = some e ∧ Ancestor k pre ∧ (k = pre ∨ k ≠ []) ∧
      (∀ k', Ancestor k' pre → k.length < k'.length → fs.stat k' = none) ∧
      handleLoop fs url fuel (rfindSlash pre) r [] =
        .ok (some (if e.isFile = false then e else probe fs k e), [])) ∨
    ((∀ k, Ancestor k pre → (k = pre ∨ k ≠ []) → fs.stat k = none) ∧
      handleLoop fs url fuel (rfindSlash pre) r [] = .ok (none, [])) := by
  intro fuel
  induction fuel with
  | zero => intro pre suf r _ h; omega
  | succ fuel ih =>
    intro pre suf r hurl hlen hr
    unfold handleLoop
    cases ho : fs.stat pre with
    | some e =>
      left
      rw [ho, Option.map_some] at hr
      subst hr
      refine ⟨pre, e, ho, Or.inl rfl, Or.inl rfl, fun k' h1 h2 => ?_, ?_⟩
      · have := h1.length; omega
      · cases rfindSlash pre <;> rfl
    | none =>
      rw [ho, Option.map_none] at hr
      subst hr
      cases hp : rfindSlash pre with
      | none =>
        right
        refine ⟨fun k hk _ => ?_, rfl⟩
        rw [(Ancestor.none (rfindSlash_none hp)).1 hk]
        exact ho
      | some q =>
        obtain ⟨a, b, h1, h2, h3⟩ := rfindSlash_some hp
        simp only
        by_cases hq : q = 0
        · right
          rw [if_pos hq]
          refine ⟨fun k hk hk' => ?_, rfl⟩
          have ha : a = [] := List.length_eq_zero_iff.1 (by omega)
          rcases hk' with rfl | hk'
          · exact ho
          · rw [h1] at hk
            rcases (Ancestor.cut h3).1 hk with hk | hk
            · rw [hk, ← h1]; exact ho
            · subst ha
              exact absurd ((Ancestor.none (by simp)).1 hk) hk'
        · rw [if_neg hq]
          have htake : url.take q = a := by
            rw [hurl, h1, ← h2]; simp
          rw [htake, localStat_new]
          simp only [Res.bind_ok]
          have hlt : a.length < pre.length := by rw [h1]; simp
          have hane : a ≠ [] := by rintro rfl; simp at h2; omega
          rcases ih a (47 :: b ++ suf) _ (by rw [hurl, h1]; simp) (by omega) rfl with
            ⟨k, e, i2, i3, i4, i5, i6⟩ | ⟨i1, i2⟩
          · left
            refine ⟨k, e, i2, ?_, ?_, ?_, i6⟩
            · rw [h1]; exact (Ancestor.cut h3).2 (Or.inr i3)
            · right
              rcases i4 with rfl | i4
              · exact hane
              · exact i4
            · intro k' hk' hl
              rw [h1] at hk'
              rcases (Ancestor.cut h3).1 hk' with hk' | hk'
              · rw [hk', ← h1]; exact ho
              · exact i5 k' hk' hl
          · right
            refine ⟨fun k hk hk' => ?_, i2⟩
            rw [h1] at hk
            rcases (Ancestor.cut h3).1 hk with hk2 | hk2
            · rw [hk2, ← h1]; exact ho
            · apply i1 k hk2
              rcases hk' with rfl | hk'
              · have := hk2.length; omega
              · exact Or.inr hk'

end Reader
end Strigi
