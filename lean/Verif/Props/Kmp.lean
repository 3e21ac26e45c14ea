import Verif.Proofs.KmpExact
import Verif.SearchSpec

/-!
# C18, C19: string search
-/

namespace Strigi.Props

open Strigi Kmp

theorem X_eq {l : List UInt8} {k : Nat} (h : k < l.length) : X l k = l[k] := by
  unfold X at'
  simp [List.getD, h]

theorem occ_iff {q hay : List UInt8} (p : Nat) : Occ q hay p ↔ OccursAt q hay p := by
  constructor
  · rintro ⟨_, h1, h2⟩
    refine ⟨hay.take p, hay.drop (p + q.length), ?_, by simp; omega⟩
    have : (hay.drop p).take q.length = q := by
      apply List.ext_getElem
      · simp; omega
      · intro i a b
        have h3 := h2 i (by omega) (by omega)
        rw [show (p : Int) + i = ((p + i : Nat) : Int) by omega, X_eq (by omega), X_eq b] at h3
        simp [h3]
    conv => lhs; rw [← List.take_append_drop p hay, ← List.take_append_drop q.length (hay.drop p), this]
    simp [List.drop_drop, List.append_assoc]
  · rintro ⟨pre, post, h1, h2⟩
    subst h1 h2
    refine ⟨by omega, by simp; omega, ?_⟩
    intro k a b
    obtain ⟨k, rfl⟩ : ∃ n : Nat, k = n := ⟨k.toNat, by omega⟩
    rw [show (pre.length : Int) + k = ((pre.length + k : Nat) : Int) by omega, X_eq (by simp; omega),
      X_eq (by omega)]
    rw [List.getElem_append_left (by simp; omega), List.getElem_append_right (by omega)]
    simp

theorem occ_nonneg {q hay : List UInt8} {p : Int} (h : Occ q hay p) : ∃ n : Nat, p = n :=
  ⟨p.toNat, by have := h.1; omega⟩

theorem search_spec {q hay : List UInt8} {s : Searcher} (hq : q ≠ []) (hs : Built q s) :
    ∃ r, search s hay = .ok r ∧ (∀ p, r = some p → Occ q hay p) ∧
      (¬ Slip q → (∀ p, r = some p → ∀ p', p' < p → ¬ Occ q hay p') ∧
        (r = none → ∀ p, ¬ Occ q hay p)) := by
  have hm : 0 < q.length := List.length_pos_iff.mpr hq
  obtain ⟨i, jp, e, h1, h2⟩ := searchLoop_spec (hay := hay) hq hs (hay.length + 1) 0 0 q.length 0
    (by omega) (by omega) (by omega) (Or.inl rfl) (by omega)
  have he : search s hay = if i = -1 then .ok (some jp) else .ok none := by
    unfold search
    rw [hs.query, e]; rfl
  rw [he]
  by_cases hi : i = -1
  · rw [if_pos hi]
    refine ⟨some jp, rfl, ?_, ?_⟩
    · intro p hp; cases hp; exact h1 hi
    · intro hh
      refine ⟨?_, (by intro z; cases z)⟩
      intro p hp; cases hp
      exact (h2 hh (fun p hp ho => by have := ho.1; omega)).1 hi
  · rw [if_neg hi]
    refine ⟨none, rfl, (by intro _ z; cases z), ?_⟩
    intro hh
    refine ⟨(by intro _ z; cases z), fun _ => ?_⟩
    exact (h2 hh (fun p hp ho => by have := ho.1; omega)).2 hi

theorem harmless_of_borders {q : List UInt8} (h : ∀ n, Border q n → n ≤ 2) :
    ∀ t, Per q t → t < q.length → q.length - t ≤ 2 := by
  intro t ⟨h1, h2, h3⟩ h4
  obtain ⟨t, rfl⟩ : ∃ n : Nat, t = n := ⟨t.toNat, by omega⟩
  have hb : Border q (q.length - t) := by
    refine ⟨by omega, ?_⟩
    apply List.ext_getElem
    · simp; omega
    · intro i a b
      simp only [List.length_take, List.length_drop] at a b
      have := h3 ((t + i : Nat) : Int) (by omega) (by omega)
      rw [show ((t + i : Nat) : Int) - t = (i : Int) by omega, X_eq (by omega), X_eq (by omega)] at this
      simp only [List.getElem_take, List.getElem_drop, this]
      congr 1; omega
  have := h _ hb
  omega

/-- **C18** (full statement that does *not* hold): for every non-empty query the search returns the
first occurrence. -/
def C18_full_statement : Prop :=
  ∀ q hay : List UInt8, q ≠ [] → ∃ r, find q hay = .ok r ∧ IsFirst q hay r

/-- **C18**: everything the search returns is an occurrence, for every non-empty query. -/
theorem C18_sound (q hay : List UInt8) (hq : q ≠ []) :
    ∃ r, find q hay = .ok r ∧ ∀ p, r = some p → 0 ≤ p ∧ OccursAt q hay p.toNat := by
  obtain ⟨s, e, hs⟩ := setQuery_spec hq
  obtain ⟨r, e2, h1, _⟩ := search_spec (hay := hay) hq hs
  refine ⟨r, by unfold find; rw [e]; exact e2, ?_⟩
  intro p hp
  have ho := h1 p hp
  obtain ⟨n, rfl⟩ := occ_nonneg ho
  exact ⟨ho.1, (occ_iff _).mp (by simpa using ho)⟩

theorem X_opt {q : List UInt8} {a b : Nat} (ha : a < q.length) (hb : b < q.length) : q[a]? = q[b]? ↔ X q a = X q b := by
  rw [List.getElem?_eq_getElem ha, List.getElem?_eq_getElem hb, X_eq ha, X_eq hb]
  simp

theorem cond_iff {q : List UInt8} {i t : Nat} (hi : i < q.length) (ht : 1 ≤ t) : Cond q i t ↔ Fits q i t := by
  constructor
  · rintro ⟨h1, h2⟩
    refine ⟨fun k a b c => ?_, fun c => ?_⟩
    · have := h1 k (by omega) (by omega) (by omega)
      rw [X_opt (by omega) (by omega)]
      rw [show ((k - t : Nat) : Int) = (k : Int) - t by omega]; exact this
    · have := h2 (by omega)
      rw [Ne, X_opt (by omega) (by omega)]
      rw [show ((i - t : Nat) : Int) = (i : Int) - t by omega]; exact this
  · rintro ⟨h1, h2⟩
    refine ⟨fun k a b c => ?_, fun c => ?_⟩
    · obtain ⟨k, rfl⟩ : ∃ n : Nat, k = n := ⟨k.toNat, by omega⟩
      have := h1 k (by omega) (by omega) (by omega)
      rw [X_opt (by omega) (by omega)] at this
      rw [show (k : Int) - t = ((k - t : Nat) : Int) by omega]; exact this
    · have := h2 (by omega)
      rw [Ne, X_opt (by omega) (by omega)] at this
      rw [show (i : Int) - t = ((i - t : Nat) : Int) by omega]; exact this

theorem fits_len {q : List UInt8} {i : Nat} (hi : i < q.length) : Fits q i q.length :=
  ⟨fun k a b c => by omega, fun c => by omega⟩

theorem gsOk_iff {q : List UInt8} {i t : Nat} (hi : i < q.length) : GsOk q i t ↔ GoodShift q i t := by
  constructor
  · intro h
    have := h.pos
    refine ⟨by omega, (cond_iff hi (by omega)).1 h.cond, fun t' a b c => ?_⟩
    exact h.min t' (by omega) (by omega) ((cond_iff hi b).2 c)
  · rintro ⟨h1, h2, h3⟩
    refine ⟨by omega, ?_, (cond_iff hi h1).2 h2, fun t' a b c => ?_⟩
    · by_cases h : t ≤ q.length
      · omega
      · exact absurd (fits_len hi) (h3 _ (by omega) (by omega))
    · obtain ⟨t', rfl⟩ : ∃ n : Nat, t' = n := ⟨t'.toNat, by omega⟩
      exact h3 t' (by omega) (by omega) ((cond_iff hi (by omega)).1 c)

theorem slip_iff (q : List UInt8) : Slip q ↔ Slips q := by
  constructor
  · rintro ⟨u, j, i, t, g, l, h⟩
    have u0 := h.u0; have u1 := h.u1; have io0 := h.io0; have io1 := h.io1; have i0 := h.i0; have i1 := h.i1; have t0 := h.t0
    have t1 := h.t1; have l0 := h.l0; have l1 := h.l1; have bg := h.bg; have bt := h.bt; have g0 := h.gi.pos; have g1 := h.gi.le
    obtain ⟨u, rfl⟩ : ∃ n : Nat, u = n := ⟨u.toNat, by omega⟩
    obtain ⟨j, rfl⟩ : ∃ n : Nat, j = n := ⟨j.toNat, by omega⟩
    obtain ⟨i, rfl⟩ : ∃ n : Nat, i = n := ⟨i.toNat, by omega⟩
    obtain ⟨t, rfl⟩ : ∃ n : Nat, t = n := ⟨t.toNat, by omega⟩
    obtain ⟨g, rfl⟩ : ∃ n : Nat, g = n := ⟨g.toNat, by omega⟩
    obtain ⟨l, rfl⟩ : ∃ n : Nat, l = n := ⟨l.toNat, by omega⟩
    refine ⟨u, by omega, by omega, ⟨j, by omega, ?_⟩, t, by omega, by omega, ?_, i, by omega, by omega,
      (cond_iff (by omega) (by omega)).1 h.cond, l, by omega, ⟨by omega, ?_, ?_⟩, by omega, g, by omega, (gsOk_iff (by omega)).1 h.gi⟩
    · have := h.gio
      rw [show (q.length : Int) - u = ((q.length - u : Nat) : Int) by omega] at this
      exact (gsOk_iff (by omega)).1 this
    · intro k a b
      rw [X_opt (by omega) (by omega)]
      rw [show ((k - t : Nat) : Int) = (k : Int) - t by omega]
      exact h.pre k (by omega) (by omega)
    · rw [X_opt (by omega) (by omega), show ((i - t : Nat) : Int) = (i : Int) - t by omega]; exact h.lc
    · intro k a b
      rw [Ne, X_opt (by omega) (by omega), show ((i - t : Nat) : Int) = (i : Int) - t by omega]
      exact h.last k (by omega) (by omega)
  · rintro ⟨u, h1, h7, ⟨j, h2, h10⟩, t, h4, h8, h11, i, h3, h9, h12, l, h6, ⟨h14, h15, h16⟩, h18, g, h17, h13⟩
    refine ⟨u, j, i, t, g, l, ⟨by omega, by omega, by omega, by omega, ?_, by omega, by omega, by omega, by omega, ?_,
      (cond_iff (by omega) (by omega)).2 h12, (gsOk_iff (by omega)).2 h13, by omega, by omega, ?_, ?_, by omega, by omega⟩⟩
    · rw [show (q.length : Int) - u = ((q.length - u : Nat) : Int) by omega]
      exact (gsOk_iff (by omega)).2 h10
    · intro k a b
      obtain ⟨k, rfl⟩ : ∃ n : Nat, k = n := ⟨k.toNat, by omega⟩
      have := h11 k (by omega) (by omega)
      rw [X_opt (by omega) (by omega)] at this
      rw [show (k : Int) - t = ((k - t : Nat) : Int) by omega]; exact this
    · rw [X_opt (by omega) (by omega)] at h15
      rw [show (i : Int) - t = ((i - t : Nat) : Int) by omega]; exact h15
    · intro k a b
      obtain ⟨k, rfl⟩ : ∃ n : Nat, k = n := ⟨k.toNat, by omega⟩
      have := h16 k (by omega) (by omega)
      rw [Ne, X_opt (by omega) (by omega)] at this
      rw [show (i : Int) - t = ((i - t : Nat) : Int) by omega]; exact this

/-- **C18**: the first occurrence is returned, and null exactly if there is none, for every haystack and every query that does not
slip. -/
theorem C18_first (q hay : List UInt8) (hq : q ≠ []) (h : ¬ Slips q) : ∃ r, find q hay = .ok r ∧ IsFirst q hay r := by
  obtain ⟨s, e, hs⟩ := setQuery_spec hq
  obtain ⟨r, e2, h1, h2⟩ := search_spec (hay := hay) hq hs
  refine ⟨r, by unfold find; rw [e]; exact e2, ?_⟩
  obtain ⟨h3, h4⟩ := h2 (fun z => h ((slip_iff q).1 z))
  cases r with
  | none =>
    intro p ho
    exact h4 rfl p ((occ_iff p).mpr ho)
  | some p =>
    have ho := h1 p rfl
    obtain ⟨n, rfl⟩ := occ_nonneg ho
    refine ⟨ho.1, (occ_iff _).mp (by simpa using ho), ?_⟩
    intro p' hp' ho'
    exact h3 _ rfl p' hp' ((occ_iff p').mpr ho')

/-- **C18**: a query that slips is missed in some haystack of at most twice its length: null is returned although it occurs. -/
theorem C18_slips (q : List UInt8) (h : Slips q) :
    ∃ hay p, hay.length ≤ 2 * q.length ∧ find q hay = .ok none ∧ OccursAt q hay p := by
  obtain ⟨u, j, i, t, g, l, hh⟩ := (slip_iff q).2 h
  have u0 := hh.u0; have u1 := hh.u1; have t0 := hh.t0
  have hq : q ≠ [] := by rintro rfl; simp at u1; omega
  obtain ⟨s, e, hs⟩ := setQuery_spec hq
  obtain ⟨d, hd⟩ : ∃ d, d ≠ X q j := by
    by_cases z : X q j = 0
    · exact ⟨1, by rw [z]; decide⟩
    · exact ⟨0, fun y => z y.symm⟩
  obtain ⟨r1, r2, r3⟩ := slip_missed hs hh hd
  obtain ⟨n, hn⟩ := occ_nonneg r2
  rw [hn] at r2
  exact ⟨_, n, r3, by unfold find; rw [e]; exact r1, (occ_iff n).1 r2⟩

theorem not_slips_of_harmless {q : List UInt8} (h : Harmless q) : ¬ Slips q := fun z => h.not_slip ((slip_iff q).2 z)

/-- **C18**: the search is right for exactly the queries that do not slip. -/
theorem C18_exact (q : List UInt8) (hq : q ≠ []) :
    (∀ hay, ∃ r, find q hay = .ok r ∧ IsFirst q hay r) ↔ ¬ Slips q := by
  refine ⟨fun h z => ?_, fun h hay => C18_first q hay hq h⟩
  obtain ⟨hay, p, _, e, ho⟩ := C18_slips q z
  obtain ⟨r, e', hr⟩ := h hay
  rw [e] at e'
  cases e'
  exact hr p ho

/-- **C18**: the search is right for all haystacks if it is right for those of at most twice the length of the query. -/
theorem C18_short (q : List UInt8) (hq : q ≠ [])
    (h : ∀ hay : List UInt8, hay.length ≤ 2 * q.length → ∃ r, find q hay = .ok r ∧ IsFirst q hay r) :
    ∀ hay, ∃ r, find q hay = .ok r ∧ IsFirst q hay r := by
  refine (C18_exact q hq).2 fun z => ?_
  obtain ⟨hay, p, hl, e, ho⟩ := C18_slips q z
  obtain ⟨r, e', hr⟩ := h hay hl
  rw [e] at e'
  cases e'
  exact hr p ho

/-- **C18**: queries without a border of three or more bytes (in particular those whose first byte or last byte does not recur)
and queries that repeat one byte (such as `$$$$`) do not slip. -/
theorem C18_no_slip (q : List UInt8) (hq : q ≠ []) (h : (∀ n, Border q n → n ≤ 2) ∨ ∃ b, q = List.replicate q.length b) :
    ¬ Slips q := by
  have hm : 0 < q.length := List.length_pos_iff.mpr hq
  refine not_slips_of_harmless ?_
  rcases h with h | ⟨b, h⟩
  · exact Or.inl (harmless_of_borders h)
  · right
    intro k a c
    rw [h]
    unfold X
    rw [at'_replicate a (by simpa using c), at'_replicate (by omega) (by omega)]

/-- **C18**: so the first occurrence of these queries is always found. -/
theorem C18_borders (q hay : List UInt8) (hq : q ≠ [])
    (h : (∀ n, Border q n → n ≤ 2) ∨ ∃ b, q = List.replicate q.length b) :
    ∃ r, find q hay = .ok r ∧ IsFirst q hay r :=
  C18_first q hay hq (C18_no_slip q hq h)

/-- **C18** fails in general: searching `baacabaa` in `aaaacbaa·baacabaa` returns null although the
query occurs at index 8 (kmpsearcher.cpp:149-151: the shift `u + 1` is not safe when the remembered
factor is a border of the query). -/
theorem C18_missed_occurrence :
    let q : List UInt8 := [98, 97, 97, 99, 97, 98, 97, 97]
    let hay : List UInt8 := [97, 97, 97, 97, 99, 98, 97, 97] ++ q
    find q hay = .ok none ∧ OccursAt q hay 8 := by
  refine ⟨by decide +kernel, ⟨[97, 97, 97, 97, 99, 98, 97, 97], [], by simp, rfl⟩⟩

/-- … so the full statement is refuted. -/
theorem C18_full_statement_false : ¬ C18_full_statement := by
  intro h
  obtain ⟨r, e, hf⟩ := h [98, 97, 97, 99, 97, 98, 97, 97]
    ([97, 97, 97, 97, 99, 98, 97, 97] ++ [98, 97, 97, 99, 97, 98, 97, 97]) (by simp)
  rw [C18_missed_occurrence.1] at e
  cases e
  exact hf 8 C18_missed_occurrence.2

/-- Non-vacuity of C18: queries with long borders that do not slip (`abcabc`, `--=_--=_--=`), and one that does. -/
example : ¬ Slips ([97, 98, 99, 97, 98, 99] : List UInt8) ∧ ¬ Slips ([45, 45, 61, 95, 45, 45, 61, 95, 45, 45, 61] : List UInt8) ∧
    Slips ([98, 97, 97, 99, 97, 98, 97, 97] : List UInt8) :=
  ⟨by decide +kernel, by decide +kernel, by decide +kernel⟩

/-- Non-vacuity of C18: a query with a border of one byte; and `$$$$`. -/
example : (∀ n, Border [97, 98, 97] n → n ≤ 2) ∧
    find [97, 98, 97] [97, 97, 98, 98, 97, 98, 97] = .ok (some 4) ∧
    find [36, 36, 36, 36] [36, 36, 36, 97, 36, 36, 36, 36] = .ok (some 4) :=
  ⟨fun n h => by have := h.1; simp at this; omega, by decide +kernel, by decide +kernel⟩

/-- **C19**: for every non-empty query and every haystack, building the tables and searching accesses only
valid indexes of the query, the haystack and the tables, reads no uninitialised memory, and
terminates. -/
theorem C19_no_fault (q hay : List UInt8) (hq : q ≠ []) : ∃ r, find q hay = .ok r := by
  obtain ⟨r, e, _⟩ := C18_sound q hay hq
  exact ⟨r, e⟩

/-- **C19**: the empty query makes `setQuery` write before the start of an array. -/
theorem C19_empty_query (hay : List UInt8) : find [] hay = .fault .outOfBounds := by
  rfl

end Strigi.Props
