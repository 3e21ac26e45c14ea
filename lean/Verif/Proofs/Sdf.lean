import Verif.Model.Sdf
import Verif.Proofs.Archive
import Verif.Proofs.Cpio
import Verif.Proofs.MailText
import Verif.Props.Kmp

/-!
# Proofs about `SdfInputStream`
-/

namespace Strigi.Sdf

open SdfSpec

/-! ## The header check -/

def IsBreak (b : UInt8) : Prop := b = 10 ∨ b = 13

theorem first_break (d : List UInt8) : NoBreak d ∨ ∃ l b t, d = l ++ b :: t ∧ NoBreak l ∧ IsBreak b := by
  induction d with
  | nil => exact Or.inl (by intro b hb; simp at hb)
  | cons c d ih =>
    by_cases hc : IsBreak c
    · exact Or.inr ⟨[], c, d, rfl, by intro b hb; simp at hb, hc⟩
    · simp only [IsBreak, not_or] at hc
      rcases ih with h | ⟨l, b, t, rfl, h1, h2⟩
      · left
        intro b hb
        rcases List.mem_cons.1 hb with rfl | z
        · exact hc
        · exact h b z
      · refine Or.inr ⟨c :: l, b, t, rfl, ?_, h2⟩
        intro b hb
        rcases List.mem_cons.1 hb with rfl | z
        · exact hc
        · exact h1 b z

theorem break_unique : ∀ {l l' : List UInt8} {b b' : UInt8} {t t' : List UInt8}, NoBreak l → NoBreak l' → IsBreak b →
    IsBreak b' → l ++ b :: t = l' ++ b' :: t' → l = l' ∧ b = b' ∧ t = t' := by
  intro l
  induction l with
  | nil =>
    intro l' b b' t t' _ h2 hb hb' e
    cases l' with
    | nil => simp only [List.nil_append, List.cons.injEq] at e; exact ⟨rfl, e.1, e.2⟩
    | cons c l' =>
      simp only [List.nil_append, List.cons_append, List.cons.injEq] at e
      have := h2 c (by simp)
      rw [← e.1] at this
      rcases hb with z | z
      · exact absurd z this.1
      · exact absurd z this.2
  | cons c l ih =>
    intro l' b b' t t' h1 h2 hb hb' e
    cases l' with
    | nil =>
      simp only [List.nil_append, List.cons_append, List.cons.injEq] at e
      have := h1 c (by simp)
      rw [e.1] at this
      rcases hb' with z | z
      · exact absurd z this.1
      · exact absurd z this.2
    | cons c' l' =>
      simp only [List.cons_append, List.cons.injEq] at e
      obtain ⟨rfl, e⟩ := e
      obtain ⟨rfl, r⟩ := ih (fun b hb => h1 b (by simp [hb])) (fun b hb => h2 b (by simp [hb])) hb hb' e
      exact ⟨rfl, r⟩

theorem eol_none {r : List UInt8} : ∀ (l A : List UInt8) (off i : Int), NoBreak l → off + i = A.length →
    eol (A ++ (l ++ r)) off l.length i = .ok (i + l.length) := by
  intro l
  induction l with
  | nil => intro A off i _ _; simp [eol]
  | cons c l ih =>
    intro A off i hl hA
    have hc := hl c (by simp)
    rw [List.length_cons, eol, List.cons_append, Cpio.aget_append_right hA]
    simp only [Res.bind_ok]
    rw [if_pos hc]
    have := ih (A ++ [c]) off (i + 1) (fun b hb => hl b (by simp [hb])) (by simp; omega)
    rw [List.append_assoc, List.singleton_append] at this
    rw [this]
    congr 1
    push_cast
    omega

theorem eol_found {r : List UInt8} {b : UInt8} (hb : IsBreak b) : ∀ (l A : List UInt8) (n : Nat) (off i : Int), NoBreak l →
    off + i = A.length → l.length < n → eol (A ++ (l ++ b :: r)) off n i = .ok (i + l.length) := by
  intro l
  induction l with
  | nil =>
    intro A n off i _ hA hn
    obtain ⟨n, rfl⟩ : ∃ k, n = k + 1 := ⟨n - 1, by simp at hn; omega⟩
    rw [eol, List.nil_append, Cpio.aget_append_right hA]
    simp only [Res.bind_ok]
    rw [if_neg (by rcases hb with rfl | rfl <;> decide)]
    simp
  | cons c l ih =>
    intro A n off i hl hA hn
    simp only [List.length_cons] at hn
    obtain ⟨n, rfl⟩ : ∃ k, n = k + 1 := ⟨n - 1, by omega⟩
    have hc := hl c (by simp)
    rw [eol, List.cons_append, Cpio.aget_append_right hA]
    simp only [Res.bind_ok]
    rw [if_pos hc]
    have := ih (A ++ [c]) n off (i + 1) (fun b hb => hl b (by simp [hb])) (by simp; omega) (by omega)
    rw [List.append_assoc, List.singleton_append] at this
    rw [this]
    congr 1
    push_cast [List.length_cons]
    omega

/-- What a line looks like, given the first line break of the text. -/
theorem line_iff {l t : List UInt8} {b : UInt8} (hl : NoBreak l) (hb : IsBreak b) (l' rest : List UInt8) :
    Line (l ++ b :: t) l' rest ↔ l' = l ∧ l.length ≤ 80 ∧ rest ≠ [] ∧
      ((b = 10 ∧ rest = t) ∨ (b = 13 ∧ t = 10 :: rest) ∨ (b = 13 ∧ rest = t ∧ ∀ r, t ≠ 10 :: r)) := by
  constructor
  · intro h
    generalize hd : l ++ b :: t = d at h
    cases h with
    | lf h1 h2 h3 =>
      obtain ⟨rfl, rfl, rfl⟩ := break_unique hl h1 hb (Or.inl rfl) hd
      exact ⟨rfl, h2, h3, Or.inl ⟨rfl, rfl⟩⟩
    | crlf h1 h2 h3 =>
      obtain ⟨rfl, rfl, rfl⟩ := break_unique hl h1 hb (Or.inr rfl) hd
      exact ⟨rfl, h2, h3, Or.inr (Or.inl ⟨rfl, rfl⟩)⟩
    | cr h1 h2 h3 =>
      obtain ⟨rfl, rfl, rfl⟩ := break_unique hl h1 hb (Or.inr rfl) hd
      refine ⟨rfl, h2, by simp, Or.inr (Or.inr ⟨rfl, rfl, ?_⟩)⟩
      intro r z
      injection z with z
      exact h3 z
  · rintro ⟨rfl, h2, h3, ⟨rfl, rfl⟩ | ⟨rfl, rfl⟩ | ⟨rfl, rfl, h4⟩⟩
    · exact .lf hl h2 h3
    · exact .crlf hl h2 h3
    · cases rest with
      | nil => exact absurd rfl h3
      | cons x rest => exact .cr hl h2 (fun z => h4 rest (by rw [z]))

theorem line_none {d : List UInt8} (h : NoBreak d) (l rest : List UInt8) : ¬ Line d l rest := by
  intro z
  cases z with
  | lf => exact (h 10 (by simp)).1 rfl
  | crlf => exact (h 13 (by simp)).2 rfl
  | cr => exact (h 13 (by simp)).2 rfl

theorem line_unique {d l l' r r' : List UInt8} (h : Line d l r) (h' : Line d l' r') : l' = l ∧ r' = r := by
  rcases first_break d with hd | ⟨l0, b, t, rfl, h0, hb⟩
  · exact absurd h (line_none hd _ _)
  · rw [line_iff h0 hb] at h h'
    obtain ⟨rfl, _, h1, h2⟩ := h
    obtain ⟨rfl, _, h3, h4⟩ := h'
    refine ⟨rfl, ?_⟩
    rcases h2 with ⟨rfl, rfl⟩ | ⟨rfl, rfl⟩ | ⟨rfl, rfl, h5⟩ <;>
      rcases h4 with ⟨h6, h7⟩ | ⟨h6, h7⟩ | ⟨h6, h7, h8⟩
    · exact h7
    · exact absurd h6 (by decide)
    · exact absurd h6 (by decide)
    · exact absurd h6 (by decide)
    · exact (List.cons.inj h7).2.symm
    · exact absurd rfl (h8 r)
    · exact absurd h6 (by decide)
    · exact absurd h7 (h5 r')
    · exact h7

theorem skip80_spec (A d : List UInt8) :
    (∃ l rest, Line d l rest ∧
      skip80Line (A ++ d) A.length d.length = .ok (some ((A ++ d).length - rest.length))) ∨
    (skip80Line (A ++ d) A.length d.length = .ok none ∧ ∀ l rest, ¬ Line d l rest) := by
  by_cases h0 : d = []
  · subst h0
    right
    refine ⟨by rw [skip80Line, if_pos (by simp)], fun l rest => line_none (by intro b hb; simp at hb) l rest⟩
  have hpos := List.length_pos_iff.mpr h0
  rw [skip80Line, if_neg (by omega)]
  rcases first_break d with hd | ⟨l, b, t, rfl, hl, hb⟩
  · right
    refine ⟨?_, line_none hd⟩
    have hm : (min (d.length : Int) 81).toNat = (d.take 81).length := by simp [List.length_take]; omega
    have := eol_none (r := d.drop 81) (d.take 81) A A.length 0
      (fun b hb => hd b (List.mem_of_mem_take hb)) (by omega)
    rw [List.take_append_drop] at this
    simp only [hm, this, Res.bind_ok]
    rw [if_pos (by omega)]
  · by_cases h80 : l.length ≤ 80
    · have hlen : ((l ++ b :: t).length : Int) = l.length + 1 + t.length := by simp; omega
      have he := eol_found (r := t) hb l A (min ((l ++ b :: t).length : Int) 81).toNat A.length 0 hl (by omega) (by omega)
      have hget : aget (A ++ (l ++ b :: t)) (A.length + (0 + (l.length : Int))) = .ok b := by
        rw [← List.append_assoc]
        exact Cpio.aget_append_right (by simp)
      simp only [he, Res.bind_ok]
      rw [if_neg (by omega), hget]
      simp only [Res.bind_ok]
      have hlA : ((A ++ (l ++ b :: t)).length : Int) = A.length + (l.length + 1 + t.length) := by
        rw [List.length_append]; omega
      by_cases hb10 : b = 10
      · subst hb10
        rw [if_pos rfl]
        by_cases ht : t = []
        · right
          subst ht
          refine ⟨by rw [if_neg (by simp)], ?_⟩
          intro l' rest
          rw [line_iff hl hb]
          rintro ⟨_, _, h1, ⟨_, h2⟩ | ⟨h3, _⟩ | ⟨h3, _⟩⟩
          · exact h1 h2
          · exact absurd h3 (by decide)
          · exact absurd h3 (by decide)
        · left
          have := List.length_pos_iff.mpr ht
          refine ⟨l, t, (line_iff hl hb l t).2 ⟨rfl, h80, ht, Or.inl ⟨rfl, rfl⟩⟩, ?_⟩
          rw [if_pos (by omega), hlA]
          congr 2
          omega
      · have hb13 : b = 13 := by rcases hb with z | z; exact absurd z hb10; exact z
        subst hb13
        rw [if_neg (by decide)]
        rcases t with _ | ⟨x, t⟩
        · right
          rw [if_neg (by simp at hlen ⊢)]
          simp only [Res.bind_ok, Bool.false_eq_true, if_false]
          refine ⟨by rw [if_neg (by simp)], ?_⟩
          intro l' rest
          rw [line_iff hl hb]
          rintro ⟨_, _, h1, ⟨h3, _⟩ | ⟨_, h3⟩ | ⟨_, h3, _⟩⟩
          · exact absurd h3 (by decide)
          · exact absurd h3 (by simp)
          · exact h1 h3
        · have hx : aget (A ++ (l ++ 13 :: x :: t)) (A.length + (0 + (l.length : Int)) + 1) = .ok x := by
            rw [show A ++ (l ++ 13 :: x :: t) = (A ++ l ++ [13]) ++ x :: t by simp]
            exact Cpio.aget_append_right (by simp; omega)
          simp only [List.length_cons] at hlen hlA
          rw [if_pos (by omega), hx]
          simp only [Res.bind_ok]
          by_cases hx10 : x = 10
          · subst hx10
            simp only [bne_self_eq_false, Bool.false_eq_true, if_false]
            by_cases ht : t = []
            · right
              subst ht
              refine ⟨by rw [if_neg (by simp only [List.length_nil] at hlen; omega)], ?_⟩
              intro l' rest
              rw [line_iff hl hb]
              rintro ⟨_, _, h1, ⟨h3, _⟩ | ⟨_, h3⟩ | ⟨_, _, h3⟩⟩
              · exact absurd h3 (by decide)
              · injection h3 with _ h3; exact h1 h3.symm
              · exact h3 _ rfl
            · left
              have := List.length_pos_iff.mpr ht
              refine ⟨l, t, (line_iff hl hb l t).2 ⟨rfl, h80, ht, Or.inr (Or.inl ⟨rfl, rfl⟩)⟩, ?_⟩
              rw [if_pos (by omega), hlA]
              congr 2
              omega
          · left
            rw [show (x != 10) = true by simpa using hx10]
            refine ⟨l, x :: t, (line_iff hl hb l (x :: t)).2 ⟨rfl, h80, by simp, Or.inr (Or.inr ⟨rfl, rfl, ?_⟩)⟩, ?_⟩
            · intro r z; injection z with z; exact hx10 z
            · rw [if_pos rfl, hlA, List.length_cons]
              congr 2
              omega
    · right
      refine ⟨?_, ?_⟩
      · have hm : (min ((l ++ b :: t).length : Int) 81).toNat = (l.take 81).length := by
          simp [List.length_take]; omega
        have := eol_none (r := l.drop 81 ++ b :: t) (l.take 81) A A.length 0
          (fun b hb => hl b (List.mem_of_mem_take hb)) (by omega)
        rw [← List.append_assoc (l.take 81), List.take_append_drop] at this
        simp only [hm, this, Res.bind_ok]
        rw [if_pos (by omega)]
      · intro l' rest
        rw [line_iff hl hb]
        rintro ⟨_, h1, _⟩
        exact h80 h1

theorem line_split {d l rest : List UInt8} (h : Line d l rest) :
    ∃ br, d = l ++ br ++ rest ∧ (br = [10] ∨ br = [13, 10] ∨ br = [13]) := by
  cases h with
  | lf => exact ⟨[10], by simp, by simp⟩
  | crlf => exact ⟨[13, 10], by simp, by simp⟩
  | cr => exact ⟨[13], by simp, by simp⟩

/-- One step of the loop. -/
theorem lines_step {data A d : List UInt8} (hd : data = A ++ d) (n : Nat) (this : Int) :
    (∃ l br rest, Line d l rest ∧ d = l ++ br ++ rest ∧ (br = [10] ∨ br = [13, 10] ∨ br = [13]) ∧
      lines data data.length (n + 1) this (some A.length) =
        lines data data.length n A.length (some (A ++ (l ++ br)).length)) ∨
    ((∀ l rest, ¬ Line d l rest) ∧ lines data data.length (n + 1) this (some A.length) = .ok ((A.length : Int), none)) := by
  subst hd
  have hsz : (((A ++ d).length : Int) - A.length) = d.length := by simp
  rcases skip80_spec A d with ⟨l, rest, h, e⟩ | ⟨e, h⟩
  · left
    obtain ⟨br, hbr, hk⟩ := line_split h
    refine ⟨l, br, rest, h, hbr, hk, ?_⟩
    rw [lines]
    simp only [hsz, e, Res.bind_ok]
    congr 2
    rw [hbr]
    simp only [List.length_append]
    omega
  · right
    refine ⟨h, ?_⟩
    rw [lines]
    simp only [hsz, e, Res.bind_ok]
    cases n <;> rfl

theorem occurs_line {l br : List UInt8} (hl : NoBreak l) (hbr : br = [10] ∨ br = [13, 10] ∨ br = [13]) :
    (∃ p, OccursAt label (l ++ br) p) ↔ ∃ p, OccursAt label l p := by
  constructor
  · rintro ⟨p, pre, post, e, hp⟩
    have hlen := congrArg List.length e
    simp only [List.length_append] at hlen
    have h5 : label.length = 5 := rfl
    have hb2 : br.length ≤ 2 := by rcases hbr with rfl | rfl | rfl <;> simp
    by_cases hin : pre.length + 5 ≤ l.length
    · refine ⟨p, pre, post.take (l.length - (pre.length + 5)), ?_, hp⟩
      have := congrArg (List.take l.length) e
      rw [List.take_left] at this
      rw [this, List.take_append, List.take_of_length_le (by simp; omega)]
      congr 2
      simp; omega
    · exfalso
      have hi := congrArg (fun z => z[l.length]?) e
      rw [List.getElem?_append_right (by omega), List.append_assoc, List.getElem?_append_right (by omega),
        List.getElem?_append_left (by omega)] at hi
      generalize hj : l.length - pre.length = j at hi
      have hj5 : j < 5 := by omega
      rw [Nat.sub_self] at hi
      rcases hbr with rfl | rfl | rfl <;>
        (rcases j with _ | _ | _ | _ | _ | j <;> first | omega | (revert hi; decide))
  · rintro ⟨p, pre, post, rfl, hp⟩
    exact ⟨p, pre, post ++ br, by simp, hp⟩

theorem find_label (hay : List UInt8) : ∃ r, Kmp.find label hay = .ok r ∧ (r.isSome = true ↔ ∃ p, OccursAt label hay p) := by
  obtain ⟨r, e, h⟩ := Props.C18_borders label hay (by decide) (by
    left
    intro n hn
    obtain ⟨h1, h2⟩ := hn
    have : n < 5 := h1
    rcases n with _ | _ | _ | _ | _ | n
    · omega
    · omega
    · omega
    · revert h2; decide
    · revert h2; decide
    · omega)
  refine ⟨r, e, ?_⟩
  cases r with
  | none => simp only [IsFirst] at h; simpa using h
  | some p => simp only [IsFirst] at h; simp only [Option.isSome_some, true_iff]; exact ⟨_, h.2.1⟩

theorem line_noBreak {d l rest : List UInt8} (h : Line d l rest) : NoBreak l := by
  cases h <;> assumption

theorem checkHeader_spec (d : List UInt8) : ∃ b, checkHeader d d.length = .ok b ∧ (b = true ↔ Mol d) := by
  by_cases h10 : 10 < d.length
  swap
  · refine ⟨false, by rw [checkHeader, if_pos (by omega)], ?_⟩
    simp only [Bool.false_eq_true, false_iff]
    rintro ⟨z, _⟩
    exact h10 z
  rw [checkHeader, if_neg (by omega)]
  have fail : (¬ ∃ l1 l2 l3 l4 r1 r2 r3 r4, Line d l1 r1 ∧ Line r1 l2 r2 ∧ Line r2 l3 r3 ∧ Line r3 l4 r4) →
      (false = true ↔ Mol d) := by
    intro h
    simp only [Bool.false_eq_true, false_iff]
    rintro ⟨_, l1, l2, l3, l4, r1, r2, r3, r4, a, b, c, e, _⟩
    exact h ⟨l1, l2, l3, l4, r1, r2, r3, r4, a, b, c, e⟩
  rcases lines_step (data := d) (A := []) (d := d) rfl 3 0 with ⟨l1, b1, r1, L1, s1, k1, e1⟩ | ⟨h, e1⟩
  swap
  · refine ⟨false, ?_, fail ?_⟩
    · rw [show lines d d.length 4 0 (some 0) = _ from e1]; rfl
    · rintro ⟨l1, l2, l3, l4, r1, r2, r3, r4, a, b, c, e⟩; exact h _ _ a
  rcases lines_step (data := d) (A := [] ++ (l1 ++ b1)) (d := r1) (by simpa using s1) 2 (([] : List UInt8).length : Int)
    with ⟨l2, b2, r2, L2, s2, k2, e2⟩ | ⟨h, e2⟩
  swap
  · refine ⟨false, ?_, fail ?_⟩
    · rw [show lines d d.length 4 0 (some 0) = _ from e1, e2]; rfl
    · rintro ⟨l1', l2', l3', l4', r1', r2', r3', r4', a, b, c, e⟩
      obtain ⟨rfl, rfl⟩ := line_unique L1 a
      exact h _ _ b
  rcases lines_step (data := d) (A := [] ++ (l1 ++ b1) ++ (l2 ++ b2)) (d := r2)
      (by rw [s1, s2]; simp) 1 (([] ++ (l1 ++ b1)).length : Int)
    with ⟨l3, b3, r3, L3, s3, k3, e3⟩ | ⟨h, e3⟩
  swap
  · refine ⟨false, ?_, fail ?_⟩
    · rw [show lines d d.length 4 0 (some 0) = _ from e1, e2, e3]; rfl
    · rintro ⟨l1', l2', l3', l4', r1', r2', r3', r4', a, b, c, e⟩
      obtain ⟨rfl, rfl⟩ := line_unique L1 a
      obtain ⟨rfl, rfl⟩ := line_unique L2 b
      exact h _ _ c
  have hd4 : d = [] ++ (l1 ++ b1) ++ (l2 ++ b2) ++ (l3 ++ b3) ++ r3 := by rw [s1, s2, s3]; simp
  rcases lines_step (data := d) (A := [] ++ (l1 ++ b1) ++ (l2 ++ b2) ++ (l3 ++ b3)) (d := r3) hd4 0
      (([] ++ (l1 ++ b1) ++ (l2 ++ b2)).length : Int)
    with ⟨l4, b4, r4, L4, s4, k4, e4⟩ | ⟨h, e4⟩
  swap
  · refine ⟨false, ?_, fail ?_⟩
    · rw [show lines d d.length 4 0 (some 0) = _ from e1, e2, e3, e4]; rfl
    · rintro ⟨l1', l2', l3', l4', r1', r2', r3', r4', a, b, c, e⟩
      obtain ⟨rfl, rfl⟩ := line_unique L1 a
      obtain ⟨rfl, rfl⟩ := line_unique L2 b
      obtain ⟨rfl, rfl⟩ := line_unique L3 c
      exact h _ _ e
  obtain ⟨r, e5, hr⟩ := find_label (l4 ++ b4)
  refine ⟨r.isSome, ?_, ?_⟩
  · rw [show lines d d.length 4 0 (some 0) = _ from e1, e2, e3, e4]
    simp only [lines, Res.bind_ok]
    generalize hA : [] ++ (l1 ++ b1) ++ (l2 ++ b2) ++ (l3 ++ b3) = A at hd4
    rw [hd4, s4, MailText.slice_mid rfl (by simp only [List.length_append]; omega)]
    rw [e5]; rfl
  · rw [hr, occurs_line (line_noBreak L4) k4]
    constructor
    · intro h
      exact ⟨h10, l1, l2, l3, l4, r1, r2, r3, r4, L1, L2, L3, L4, h⟩
    · rintro ⟨_, l1', l2', l3', l4', r1', r2', r3', r4', a, b, c, e, h⟩
      obtain ⟨rfl, rfl⟩ := line_unique L1 a
      obtain ⟨rfl, rfl⟩ := line_unique L2 b
      obtain ⟨rfl, rfl⟩ := line_unique L3 c
      obtain ⟨rfl, rfl⟩ := line_unique L4 e
      exact h

/-! ## The provider -/

variable {σ : Type} {P : StreamOps σ UInt8} {c : List UInt8}

theorem at_reset {soft : Prop} {s : σ} {rest : List UInt8} (h : At P c soft s rest) :
    ∃ s', P.reset s (P.position s) = .ok (s', P.position s) ∧ P.position s' = P.position s ∧ At P c soft s' rest := by
  have hS := h.isStream
  obtain ⟨_, hd⟩ := h
  obtain ⟨s', e, hp, _, _, hb⟩ := (Contract.of_behaves P c Failure.never soft).reset hS (q := P.position s)
    (Int.le_refl _) (Int.le_refl _)
  exact ⟨s', e, hp, ⟨⟨_, _, hb⟩, by rw [hp]; exact hd⟩⟩

/-- The client's entry stream, seen from the parent. -/
abbrev SInv (P : StreamOps σ UInt8) (c : List UInt8) (o n : Int) :=
  SubInputStream.Inv P c o n (fun s lo hi => ∀ l, Behaves P c Failure.never True s lo hi l)

theorem drain_spec {o n : Int} (ho : 0 ≤ o) (hn : 0 ≤ n) (hoc : o + n ≤ c.length) (hn2 : n < 2 ^ 31) :
    ∀ (fuel : Nat) (e : SubInputStream σ) (lo hi : Int), SInv P c o n e lo hi → n - e.pos + 1 < fuel →
      ∃ e', drain P fuel e = .ok e' ∧ e'.status = .eof ∧ e'.pos = n ∧ ∃ lo hi, SInv P c o n e' lo hi := by
  have C := Contract.of_behaves P c Failure.never True
  have C' := SubInputStream.contract C (o := o) (l := n) (by omega) (by omega) (by omega) hn2 (by omega) (by omega)
  have hwl := SubInputStream.window_length (c := c) (o := o) (l := n) ho (by omega) (by omega)
  rw [if_neg (by omega)] at hwl
  intro fuel
  induction fuel with
  | zero =>
    intro e lo hi h hf
    have := C'.range h
    simp only [SubInputStream.ops] at this
    exfalso; omega
  | succ fuel ih =>
    intro e lo hi h hf
    rw [drain]
    by_cases hst : e.status = .ok
    · rw [if_pos hst]
      obtain ⟨e', k, d, er, rk, hk⟩ := C'.read h (min := 1) (max := 0) (by omega) (Or.inl rfl)
      simp only [SubInputStream.ops] at er rk hk
      rw [er]
      simp only [Res.bind_ok]
      cases rk with
      | data pos items inside adv limit enough st =>
        exact ih e' _ _ (hk st) (by omega)
      | ended none nodata atEnd stay st =>
        have hI := hk (by rw [st]; decide)
        obtain ⟨fuel, rfl⟩ : ∃ k, fuel = k + 1 := ⟨fuel - 1, by omega⟩
        refine ⟨e', ?_, st, by omega, _, _, hI⟩
        rw [drain, if_neg (by rw [st]; decide)]
      | failed a _ _ =>
        rw [Props.sub_fails_eq _ (by omega) (by omega) hoc] at a
        exact absurd a id
    · rw [if_neg hst]
      have hs := C'.status h
      simp only [SubInputStream.ops] at hs
      have : e.status = .eof := by
        cases z : e.status with
        | ok => exact absurd z hst
        | eof => rfl
        | error => exact absurd z hs.1
      exact ⟨e, rfl, this, by have := hs.2 this; omega, lo, hi, h⟩

/-- Eating line breaks (and one more character). -/
theorem eat_spec : ∀ (breaks : List UInt8) (fuel : Nat) (input : σ) (first x : UInt8) (rest : List UInt8),
    (∀ b ∈ breaks, b = 10 ∨ b = 13) → (x ≠ 10 ∧ x ≠ 13) → rest ≠ [] → (first = 10 ∨ first = 13) →
    At P c True input (breaks ++ x :: rest) → breaks.length + 1 < fuel →
    ∃ i, eat P fuel input [first] = .ok i ∧ At P c True i rest := by
  intro breaks
  induction breaks with
  | nil =>
    intro fuel input first x rest _ hx hr hf hA hfu
    obtain ⟨fuel, rfl⟩ : ∃ k, fuel = k + 2 := ⟨fuel - 2, by simp at hfu; omega⟩
    obtain ⟨i, e, hA', _⟩ := At.read (d := [x]) (rest := rest) hA (n := 1) rfl (by omega)
    refine ⟨i, ?_, hA'⟩
    rw [eat, if_pos (hA.status_ok (by simp))]
    simp only [show aget [first] 0 = .ok first from rfl, Res.bind_ok]
    rw [if_pos hf, e]
    simp only [Res.bind_ok]
    rw [eat, if_pos (hA'.status_ok hr)]
    simp only [show aget [x] 0 = .ok x from rfl, Res.bind_ok]
    rw [if_neg (by rintro (z | z); exact hx.1 z; exact hx.2 z)]
  | cons b breaks ih =>
    intro fuel input first x rest hb hx hr hf hA hfu
    simp only [List.length_cons] at hfu
    obtain ⟨fuel, rfl⟩ : ∃ k, fuel = k + 1 := ⟨fuel - 1, by omega⟩
    obtain ⟨i, e, hA', _⟩ := At.read (d := [b]) (rest := breaks ++ x :: rest) hA (n := 1) rfl (by omega)
    obtain ⟨i2, e2, hA2⟩ := ih fuel i b x rest (fun b hb' => hb b (by simp [hb'])) hx hr (hb b (by simp)) hA' (by omega)
    refine ⟨i2, ?_, hA2⟩
    rw [eat, if_pos (hA.status_ok (by simp))]
    simp only [show aget [first] 0 = .ok first from rfl, Res.bind_ok]
    rw [if_pos hf, e]
    exact e2

/-- Reading at most one character. -/
theorem read_one {input : σ} {rest : List UInt8} (hA : At P c True input rest) :
    (∃ i b t, rest = b :: t ∧ P.read input 1 1 = .ok (i, 1, [b]) ∧ At P c True i t) ∨
    (∃ i k, rest = [] ∧ P.read input 1 1 = .ok (i, k, []) ∧ At P c True i [] ∧ P.status i = .eof) := by
  rcases rest with _ | ⟨b, t⟩
  · right
    obtain ⟨i, k, d, e, hA', _, h2⟩ := hA.read_short (n := 1) (by omega) (by simp)
    obtain ⟨_, rfl, h3⟩ := h2 rfl
    exact ⟨i, k, rfl, e, hA', h3⟩
  · left
    obtain ⟨i, e, hA', _⟩ := At.read (d := [b]) (rest := t) hA (n := 1) rfl (by omega)
    exact ⟨i, b, t, rfl, e, hA'⟩

/-- Eating anything: the input is somewhere behind. -/
theorem eat_any : ∀ (fuel : Nat) (input : σ) (d rest : List UInt8), At P c True input rest →
    (P.status input = .ok → d ≠ []) → rest.length + 1 < fuel →
    ∃ i r, eat P fuel input d = .ok i ∧ At P c True i r ∧ r <:+ rest := by
  intro fuel
  induction fuel with
  | zero => intro _ _ _ _ _ h; omega
  | succ fuel ih =>
    intro input d rest hA hd hf
    rw [eat]
    by_cases hst : P.status input = .ok
    · rw [if_pos hst]
      rcases d with _ | ⟨x, d⟩
      · exact absurd rfl (hd hst)
      simp only [show aget (x :: d) 0 = .ok x from rfl, Res.bind_ok]
      by_cases hx : x = 10 ∨ x = 13
      · rw [if_pos hx]
        rcases read_one hA with ⟨i, b, t, rfl, e, hA'⟩ | ⟨i, k, rfl, e, hA', hs⟩
        · rw [e]
          simp only [Res.bind_ok]
          simp only [List.length_cons] at hf
          obtain ⟨i2, r, e2, hA2, hr⟩ := ih i [b] t hA' (by simp) (by omega)
          exact ⟨i2, r, e2, hA2, hr.trans (List.suffix_cons b t)⟩
        · rw [e]
          simp only [Res.bind_ok]
          obtain ⟨fuel, rfl⟩ : ∃ k, fuel = k + 1 := ⟨fuel - 1, by simp at hf; omega⟩
          refine ⟨i, [], ?_, hA', List.suffix_refl _⟩
          rw [eat, if_neg (by rw [hs]; decide)]
      · rw [if_neg hx]
        exact ⟨input, rest, rfl, hA, List.suffix_refl _⟩
    · rw [if_neg hst]
      exact ⟨input, rest, rfl, hA, List.suffix_refl _⟩

theorem eatDelimiter_read {input : σ} {rest : List UInt8} (hA : At P c True input (SdfSpec.delimiter ++ rest)) (fuel : Nat) :
    ∃ i, At P c True i rest ∧
      eatDelimiter P fuel input = (do let (input, _, d) ← P.read i 1 1; eat P fuel input d) := by
  obtain ⟨i, e, hA', _⟩ := hA.read (n := 4) rfl (by omega)
  refine ⟨i, hA', ?_⟩
  rw [eatDelimiter, if_pos (hA.status_ok (by simp [SdfSpec.delimiter])), e]
  simp only [Res.bind_ok]
  rw [if_pos ⟨trivial, rfl⟩]

theorem eatDelimiter_record {input : σ} {r : Record} {rest : List UInt8} (hr : r.WellFormed)
    (hA : At P c True input (SdfSpec.delimiter ++ (r.bytes ++ rest))) {fuel : Nat} (hf : r.breaks.length + 2 < fuel) :
    ∃ i, eatDelimiter P fuel input = .ok i ∧ At P c True i (r.text ++ (SdfSpec.delimiter ++ rest)) := by
  obtain ⟨i, hA1, e⟩ := eatDelimiter_read hA fuel
  rw [e]
  obtain ⟨breaks, first, text⟩ := r
  have hb := hr.breaks; have hfi := hr.first; have hne := hr.nonempty
  simp only at hb hfi hne hf
  simp only [Record.bytes] at hA1
  simp only
  have hne' : text ++ (SdfSpec.delimiter ++ rest) ≠ [] := by simp [SdfSpec.delimiter]
  rw [show breaks ++ first :: (text ++ SdfSpec.delimiter) ++ rest =
    breaks ++ first :: (text ++ (SdfSpec.delimiter ++ rest)) by simp] at hA1
  rcases breaks with _ | ⟨b, breaks⟩
  · obtain ⟨i2, e2, hA2, _⟩ := At.read (d := [first]) hA1 (n := 1) rfl (by omega)
    refine ⟨i2, ?_, hA2⟩
    rw [e2]
    simp only [Res.bind_ok]
    obtain ⟨fuel, rfl⟩ : ∃ k, fuel = k + 1 := ⟨fuel - 1, by omega⟩
    rw [eat, if_pos (hA2.status_ok hne')]
    simp only [show aget [first] 0 = .ok first from rfl, Res.bind_ok]
    rw [if_neg (by rintro (z | z); exact hfi.1 z; exact hfi.2 z)]
  · obtain ⟨i2, e2, hA2, _⟩ := At.read (d := [b]) (rest := breaks ++ first :: (text ++ (SdfSpec.delimiter ++ rest))) hA1 (n := 1) rfl (by omega)
    rw [e2]
    simp only [Res.bind_ok]
    simp only [List.length_cons] at hf
    exact eat_spec breaks fuel i2 b first _ (fun b' hb' => hb b' (by simp [hb'])) hfi hne' (hb b (by simp)) hA2 (by omega)

theorem eatDelimiter_tail {input : σ} {rest : List UInt8}
    (hA : At P c True input (SdfSpec.delimiter ++ rest)) {fuel : Nat} (hf : rest.length + 1 < fuel) :
    ∃ i r, eatDelimiter P fuel input = .ok i ∧ At P c True i r ∧ r <:+ rest := by
  obtain ⟨i, hA1, e⟩ := eatDelimiter_read hA fuel
  rw [e]
  rcases read_one hA1 with ⟨i2, b, t, rfl, e2, hA2⟩ | ⟨i2, k, rfl, e2, hA2, hs⟩
  · rw [e2]
    simp only [Res.bind_ok]
    simp only [List.length_cons] at hf
    obtain ⟨i3, r, e3, hA3, h3⟩ := eat_any fuel i2 [b] t hA2 (by simp) (by omega)
    exact ⟨i3, r, e3, hA3, h3.trans (List.suffix_cons b t)⟩
  · rw [e2]
    simp only [Res.bind_ok]
    exact eat_any fuel i2 [] [] hA2 (by rw [hs]; intro z; cases z) (by simp at hf ⊢; omega)

/-- `$$$$` is found where it is. -/
theorem find_delimiter (hay : List UInt8) : ∃ r, Kmp.find delimiter hay = .ok r ∧ IsFirst delimiter hay r :=
  Props.C18_borders delimiter hay (by decide) (Or.inr ⟨36, rfl⟩)

theorem find_first {text more : List UInt8} (h : Clean text) :
    Kmp.find delimiter (text ++ (SdfSpec.delimiter ++ more)) = .ok (some (text.length : Int)) := by
  obtain ⟨r, e, hf⟩ := find_delimiter (text ++ (SdfSpec.delimiter ++ more))
  have hocc : OccursAt delimiter (text ++ (SdfSpec.delimiter ++ more)) text.length := ⟨text, more, by simp [delimiter, SdfSpec.delimiter], rfl⟩
  rw [e]
  cases r with
  | none => exact absurd hocc (hf _)
  | some p =>
    obtain ⟨h0, h1, h2⟩ := hf
    have hle : p ≤ text.length := by
      by_contra hlt
      exact h2 text.length (by omega) hocc
    have hge : text.length ≤ p.toNat := by
      by_contra hlt
      refine absurd (h p.toNat ?_) (by omega)
      obtain ⟨pre, post, e1, hp⟩ := h1
      refine ⟨pre, post.take (text.length - pre.length), ?_, hp⟩
      have := congrArg (List.take (text.length + 4)) e1
      rw [← List.append_assoc, List.take_append_of_le_length (by simp [SdfSpec.delimiter]),
        List.take_of_length_le (by simp [SdfSpec.delimiter])] at this
      rw [this, List.take_append, List.take_of_length_le (by simp [delimiter]; omega)]
      rw [show text.length + 4 - (pre ++ delimiter).length = text.length - pre.length by simp [delimiter]]
      rfl
    rw [show p = text.length by omega]

theorem slice_zero {l : List UInt8} {n : Int} (h : n = l.length) : slice l 0 n = l := by
  subst h; simp [slice]

theorem scan_found {text rest : List UInt8} {input : σ} (hc : Clean text)
    (hA : At P c True input (text ++ (SdfSpec.delimiter ++ rest)))
    (hsz : text.length + 4 ≤ 1024 ∨ Whole P c Failure.never True) (fuel : Nat) (hf : 0 < fuel) (total : Int) :
    ∃ i, scan P fuel input total = .ok (i, text.length + total) ∧ P.status i ≠ .error ∧
      ∀ l, Behaves P c Failure.never True i (P.position input) (P.position i) l := by
  obtain ⟨fuel, rfl⟩ : ∃ k, fuel = k + 1 := ⟨fuel - 1, by omega⟩
  have hr := hA.range
  have hst := hA.status_ok (by simp [SdfSpec.delimiter])
  obtain ⟨⟨lo, hi, hB⟩, hd⟩ := hA
  have hl : ((text ++ (SdfSpec.delimiter ++ rest)).length : Int) = text.length + 4 + rest.length := by
    simp [SdfSpec.delimiter]; omega
  obtain ⟨i, n, d, e, rk, hk⟩ := (Contract.of_behaves P c Failure.never True).read hB (min := 1024) (max := 0)
    (by omega) (Or.inl rfl)
  cases rk with
  | data pos items inside adv limit enough st =>
    have hn : text.length + 4 ≤ n := by
      rcases hsz with z | z
      · rcases enough with y | y <;> omega
      · have := z input lo hi hB 1024 i n d (by omega) e pos
        omega
    have hdl : (d.length : Int) = n := by rw [items]; exact slice_length hr.1 (by omega) (by omega)
    have hd2 : d = text ++ (SdfSpec.delimiter ++ rest.take (n.toNat - (text.length + 4))) := by
      rw [items, slice, hd]
      rw [← List.append_assoc, List.take_append, List.take_of_length_le (by simp [SdfSpec.delimiter]; omega), List.append_assoc]
      congr 3
      simp [SdfSpec.delimiter]
    refine ⟨i, ?_, st, hk st⟩
    rw [scan, if_pos hst, e]
    simp only [Res.bind_ok]
    rw [if_pos (by omega), slice_zero hdl.symm, hd2, find_first hc]
    rfl
  | ended none nodata atEnd stay st => exfalso; omega
  | failed a _ _ => exact absurd a id

theorem occurs_sub {q a b d : List UInt8} {p : Nat} (h : OccursAt q d p) : ∃ p', OccursAt q (a ++ d ++ b) p' := by
  obtain ⟨pre, post, rfl, _⟩ := h
  exact ⟨(a ++ pre).length, a ++ pre, post ++ b, by simp, rfl⟩

theorem scan_none : ∀ (fuel : Nat) (input : σ) (rest : List UInt8) (total : Int), At P c True input rest →
    (∀ p, ¬ OccursAt SdfSpec.delimiter rest p) → rest.length + 1 < fuel →
    ∃ i, scan P fuel input total = .ok (i, 0) ∧ At P c True i [] := by
  intro fuel
  induction fuel with
  | zero => intro _ _ _ _ _ h; omega
  | succ fuel ih =>
    intro input rest total hA hno hf
    rw [scan]
    have hr := hA.range
    by_cases hst : P.status input = .ok
    · rw [if_pos hst]
      obtain ⟨⟨lo, hi, hB⟩, hd⟩ := hA
      obtain ⟨i, n, d, e, rk, hk⟩ := (Contract.of_behaves P c Failure.never True).read hB (min := 1024) (max := 0)
        (by omega) (Or.inl rfl)
      rw [e]
      simp only [Res.bind_ok]
      cases rk with
      | data pos items inside adv limit enough st =>
        have hdl : (d.length : Int) = n := by rw [items]; exact slice_length hr.1 (by omega) (by omega)
        have hsplit : rest = d ++ rest.drop d.length := by
          have : d = rest.take d.length := by
            conv_lhs => rw [items, slice, hd]
            congr 1; omega
          conv_lhs => rw [← List.take_append_drop d.length rest]
          rw [← this]
        rw [if_pos (by omega), slice_zero hdl.symm]
        obtain ⟨r, e2, h2⟩ := find_delimiter d
        rw [e2]
        simp only [Res.bind_ok]
        cases r with
        | some p =>
          exfalso
          obtain ⟨p', h'⟩ := occurs_sub (a := []) (b := rest.drop d.length) h2.2.1
          rw [List.nil_append, ← hsplit] at h'
          exact hno p' h'
        | none =>
          have hA' : At P c True i (rest.drop d.length) := by
            refine ⟨⟨_, _, hk st⟩, ?_⟩
            rw [adv, ← hdl]
            exact At.drop_add hr.1 (by rw [hd]; exact hsplit)
          refine ih i _ _ hA' ?_ (by simp only [List.length_drop]; omega)
          intro p hp
          obtain ⟨p', h'⟩ := occurs_sub (a := d) (b := []) hp
          rw [List.append_nil, ← hsplit] at h'
          exact hno p' h'
      | ended none nodata atEnd stay st =>
        rw [if_neg (by omega)]
        have hz : rest = [] := List.length_eq_zero_iff.mp (by omega)
        obtain ⟨fuel, rfl⟩ : ∃ k, fuel = k + 1 := ⟨fuel - 1, by omega⟩
        refine ⟨i, ?_, ⟨⟨_, _, hk (by rw [st]; decide)⟩, by rw [stay, hd, hz]⟩⟩
        rw [scan, if_neg (by rw [st]; decide)]
      | failed a _ _ => exact absurd a id
    · rw [if_neg hst]
      refine ⟨input, rfl, ?_⟩
      have hne := hA.status_ne
      have : rest = [] := by
        by_contra z
        exact hst (hA.status_ok z)
      rw [← this]; exact hA

theorem next_found {text rest : List UInt8} {s : State σ} (hc : Clean text) (ht : text ≠ []) (h31 : text.length < 2 ^ 31)
    (hA : At P c True s.input (text ++ (SdfSpec.delimiter ++ rest)))
    (hsz : text.length + 4 ≤ 1024 ∨ Whole P c Failure.never True) (fuel : Nat) (hf : 0 < fuel) :
    ∃ i e, next P fuel s = .ok { s with
        input := i, entry := some e, previous := P.position s.input + text.length
        info := { s.info with type := .file, size := text.length,
                              filename := [77, 111, 108, 101, 99, 117, 108, 101] ++ decimal (s.number + 1) }
        number := s.number + 1 } ∧
      SubInputStream.new P i text.length = .ok e ∧ At P c True i (text ++ (SdfSpec.delimiter ++ rest)) ∧
      P.position i = P.position s.input := by
  obtain ⟨i, e1, hst, hB⟩ := scan_found hc hA hsz fuel hf 0
  have hr := hA.range
  have C := Contract.of_behaves P c Failure.never True
  have hrg := C.range hB
  obtain ⟨i2, e2, hp2, hs2, _, hB2⟩ := C.reset hB (q := P.position s.input) (Int.le_refl _) (by omega)
  have hpos := List.length_pos_iff.mpr ht
  have hA2 : At P c True i2 (text ++ (SdfSpec.delimiter ++ rest)) := ⟨⟨_, _, hB2⟩, by rw [hp2]; exact hA.2⟩
  obtain ⟨e, he, _⟩ := SubInputStream.inv_new C hB2 (l := text.length) (by omega)
  refine ⟨i2, e, ?_, he, hA2, hp2⟩
  rw [next, e1]
  simp only [Res.bind_ok]
  rw [if_neg hst, e2]
  simp only [Res.bind_ok]
  rw [if_pos (by omega), Int.add_zero, he, hp2]
  rfl

theorem next_none {rest : List UInt8} {s : State σ} (hno : ∀ p, ¬ OccursAt SdfSpec.delimiter rest p)
    (hA : At P c True s.input rest) {fuel : Nat} (hf : rest.length + 1 < fuel) :
    ∃ i, next P fuel s = .ok { s with input := i, status := .eof, entry := none } := by
  obtain ⟨i, e1, hA1⟩ := scan_none fuel s.input rest 0 hA hno hf
  have hr := hA.range
  obtain ⟨⟨lo, hi, hB⟩, _⟩ := id hA1
  obtain ⟨i2, r, e2, _⟩ := (SoftReset.of_behaves P c Failure.never True trivial).reset hB (q := P.position s.input)
    hr.1 (by omega)
  refine ⟨i2, ?_⟩
  rw [next, e1]
  simp only [Res.bind_ok]
  rw [if_neg hA1.status_ne, e2]
  simp only [Res.bind_ok]
  rw [if_neg (by omega)]

/-- Before a call of `nextEntry`: what has to be read behind the delimiter is `rest`. -/
def Ready (P : StreamOps σ UInt8) (c : List UInt8) (s : State σ) (rest : List UInt8) : Prop :=
  s.status = .ok ∧ s.info.mtime = 0 ∧ ∃ e o n lo hi, s.entry = some e ∧ 0 ≤ o ∧ 0 ≤ n ∧ n < 2 ^ 31 ∧
    s.previous = o + n ∧ SInv P c o n e lo hi ∧ o + n ≤ c.length ∧ c.drop (o + n).toNat = SdfSpec.delimiter ++ rest

/-- Leaving an entry, up to the delimiter. -/
theorem leave_spec {s : State σ} {rest : List UInt8} (h : Ready P c s rest) {fuel : Nat} (hf : c.length + 1 < fuel) :
    ∃ i, At P c True i (SdfSpec.delimiter ++ rest) ∧
      (do let s ← rewind P s; leave P fuel s) = (do
        let input ← eatDelimiter P fuel i
        .ok ({ s with entry := none, input := input } : State σ)) := by
  obtain ⟨hst, _, e, o, n, lo, hi, he, ho, hn, hn2, hp, hI, hoc, hd⟩ := h
  have C := Contract.of_behaves P c Failure.never True
  have S := SoftReset.of_behaves P c Failure.never True trivial
  have hwl := SubInputStream.window_length (c := c) (o := o) (l := n) ho (by omega) (by omega)
  rw [if_neg (by omega)] at hwl
  have hlen : c.length = (o + n) + 4 + rest.length := by
    have := congrArg List.length hd
    simp [SdfSpec.delimiter] at this
    omega
  have h1 := hI.lop; have h2 := hI.hip; have h3 := hI.hil; have h4 := hI.ppos; have h5 := hI.lo0
  obtain ⟨p1, r1, e1, q1, o1, s1, B1⟩ := S.reset hI.parent (q := o + n) (by omega) (by omega)
  obtain ⟨p2, r2, e2, q2, o2, s2, B2⟩ := S.reset B1 (q := o) (by omega) (by omega)
  have hr2 : o ≤ r2 ∧ r2 ≤ o + n := by omega
  have hI2 : SInv P c o n { e with parent := p2, pos := r2 - o, status := P.status p2 } (r2 - o) (r2 - o) := by
    have hst2 := C.status B2
    refine ⟨hI.off, ?_, ?_, by omega, by simp, by simp, by omega, s2, ?_, ?_⟩
    · simp only [Int.sub_add_cancel]; exact B2
    · simp only; omega
    · intro z; have := hst2.2 z; omega
    · have := hI.size; exact this
  obtain ⟨e3, d3, st3, p3, lo3, hi3, I3⟩ := drain_spec ho hn hoc hn2 fuel _ _ _ hI2 (by simp only; omega)
  have hpp := I3.ppos
  have hA3 : At P c True e3.parent (SdfSpec.delimiter ++ rest) := by
    refine ⟨⟨_, _, I3.parent⟩, ?_⟩
    rw [hpp, p3, Int.add_comm]; exact hd
  obtain ⟨i, e4, q4, hA4⟩ := at_reset hA3
  refine ⟨i, hA4, ?_⟩
  rw [rewind, he]
  simp only
  rw [hp, e1]
  simp only [Res.bind_ok]
  rw [leave]
  simp only
  have hoff := hI.off
  have er : SubInputStream.reset P { e with parent := p1 } 0 =
      .ok ({ e with parent := p2, pos := r2 - o, status := P.status p2 }, r2 - o) := by
    rw [SubInputStream.reset, Res.assert_of (by simp)]
    simp only [Res.bind_ok]
    rw [hoff, Int.zero_add, e2]
    simp only [Res.bind_ok]
    rw [if_neg (by omega)]
  rw [er]
  simp only [Res.bind_ok]
  rw [d3]
  simp only [Res.bind_ok]
  rw [show P.reset e3.parent (o + n) = _ from (show o + n = P.position e3.parent by omega) ▸ e4]
  simp only [Res.bind_ok]
  rw [if_neg (by rw [st3]; decide)]

theorem ready_of_uses {text rest : List UInt8} {i : σ} {e e' : SubInputStream σ} {lo hi : Int} (h31 : text.length < 2 ^ 31)
    (hA : At P c True i (text ++ (SdfSpec.delimiter ++ rest))) (he : SubInputStream.new P i text.length = .ok e)
    (hu : Uses (SubInputStream.ops P) text True e e' lo hi) :
    SInv P c (P.position i) text.length e' lo hi ∧ P.position i + text.length ≤ c.length ∧
      c.drop (P.position i + text.length).toNat = SdfSpec.delimiter ++ rest := by
  have hr := hA.range
  obtain ⟨⟨lo0, hi0, hB⟩, hd⟩ := hA
  simp only [List.length_append] at hr
  have hfit : P.position i + text.length ≤ c.length := by omega
  have C := Contract.of_behaves P c Failure.never True
  obtain ⟨e2, he2, hI0, hp⟩ := SubInputStream.inv_new C hB (l := text.length) (by omega)
  rw [he] at he2; cases he2
  have hw : SubInputStream.window c (P.position i) text.length = text := by
    unfold SubInputStream.window; rw [if_neg (by omega)]; exact At.slice_eq hd
  have C' := SubInputStream.contract C (o := P.position i) (l := text.length) (by omega) (by omega) (by omega) (by omega)
    (by omega) (by omega)
  rw [Props.sub_fails_eq _ (by omega) (by omega) hfit, hw] at C'
  have S' : True → SoftReset (SubInputStream.ops P) text _ := fun hs => by
    have := SubInputStream.softReset C (SoftReset.of_behaves P c Failure.never True hs)
      (o := P.position i) (l := text.length) (by omega) (by omega) (by omega)
    rw [hw] at this; exact this
  refine ⟨C'.uses S' (by simp only [SubInputStream.ops, hp]; exact hI0) hu, hfit, ?_⟩
  exact At.drop_add hr.1 hd

/-- The step from the state in which the text of the next record is in front of the input. -/
theorem present_text {text rest : List UInt8} {s : State σ} {l : List ArchiveEntry} {fuel : Nat}
    (hc : Clean text) (ht : text ≠ []) (h31 : text.length < 2 ^ 31) (hst : s.status = .ok) (hm : s.info.mtime = 0)
    (hA : At P c True s.input (text ++ (SdfSpec.delimiter ++ rest)))
    (hsz : text.length + 4 ≤ 1024 ∨ Whole P c Failure.never True) (hf : 0 < fuel)
    (hnext : ∀ p : State σ, Ready P c p rest → p.number = s.number + 1 →
      Presents (Sdf.ops P fuel) Failure.never True .eof p l) :
    ∃ p' es, next P fuel s = .ok p' ∧ p'.entry = some es ∧ p'.info = (entry (s.number + 1) text).info ∧
      p'.status = .ok ∧ es.pos = 0 ∧ es.size = text.length ∧
      IsStream (SubInputStream.ops P) text Failure.never True es ∧
      ∀ es' lo hi, Uses (SubInputStream.ops P) text True es es' lo hi →
        Presents (Sdf.ops P fuel) Failure.never True .eof { p' with entry := some es' } l := by
  obtain ⟨i, e, en, he, hA2, hpi⟩ := next_found hc ht h31 hA hsz fuel hf
  obtain ⟨e2, he2, hsize, hpos, _, hI, _⟩ := hA2.sub (n := text.length) rfl (by omega)
  rw [he] at he2; cases he2
  refine ⟨_, e, en, rfl, ?_, hst, hpos, hsize, hI, ?_⟩
  · simp only [entry, hm]
  · intro es' lo hi hu
    have := ready_of_uses h31 hA2 he hu
    apply hnext
    · exact ⟨hst, hm, es', P.position i, text.length, lo, hi, rfl, (hA2.range).1, by omega, by omega,
        by simp only [hpi], this.1, this.2.1, this.2.2⟩
    · rfl

theorem res_bind_assoc {α β γ : Type} (x : Res α) (f : α → Res β) (g : β → Res γ) :
    (x.bind f).bind g = x.bind (fun a => (f a).bind g) := by cases x <;> rfl

theorem presents (fuel : Nat) (hf : c.length + 3 < fuel) {tail : List UInt8}
    (htail : ∀ p, ¬ OccursAt SdfSpec.delimiter tail p) :
    ∀ (rs : List Record) (s : State σ), (∀ r ∈ rs, r.WellFormed) → (∀ r ∈ rs, r.text.length < 2 ^ 31) →
      ((∀ r ∈ rs, r.text.length + 4 ≤ 1024) ∨ Whole P c Failure.never True) →
      Ready P c s (rs.flatMap Record.bytes ++ tail) →
      Presents (Sdf.ops P fuel) Failure.never True .eof s (entries (s.number + 1) (rs.map Record.text)) := by
  intro rs
  induction rs with
  | nil =>
    intro s _ _ _ hR
    have hst := hR.1
    obtain ⟨i, hA, e⟩ := leave_spec hR (fuel := fuel) (by omega)
    simp only [List.flatMap_nil, List.nil_append] at hA
    have hr := hA.range
    simp only [List.length_append] at hr
    obtain ⟨i2, r, e2, hA2, hsuf⟩ := eatDelimiter_tail hA (fuel := fuel) (by omega)
    obtain ⟨a, ha⟩ := hsuf
    obtain ⟨i3, e3⟩ := next_none (s := { s with entry := none, input := i2 }) (fuel := fuel) (rest := r)
      (by
        intro p hp
        obtain ⟨p', h'⟩ := occurs_sub (a := a) (b := []) hp
        rw [List.append_nil, ha] at h'
        exact htail p' h') hA2 (by have := congrArg List.length ha; simp only [List.length_append] at this; omega)
    refine ⟨{ s with input := i3, status := .eof, entry := none }, ?_, rfl, rfl, ?_⟩
    · show nextEntry P fuel s = _
      rw [nextEntry, if_neg (by rw [hst]; decide)]
      have e' : (rewind P s).bind (fun s => (leave P fuel s).bind (fun s => next P fuel s)) = _ :=
        (res_bind_assoc ..).symm.trans (congrArg (fun z => Res.bind z (fun s => next P fuel s)) e)
      refine e'.trans ?_
      rw [e2]
      exact e3
    · show nextEntry P fuel { s with input := i3, status := .eof, entry := none } = _
      rw [nextEntry, if_pos (by simp)]
  | cons r rs ih =>
    intro s hw h31 hsz hR
    have hst := hR.1
    have hm := hR.2.1
    have hwr := hw r (by simp)
    obtain ⟨i, hA, e⟩ := leave_spec hR (fuel := fuel) (by omega)
    rw [List.flatMap_cons, List.append_assoc] at hA
    have hr := hA.range
    simp only [List.length_append, Record.bytes, List.length_cons] at hr
    obtain ⟨i2, e2, hA2⟩ := eatDelimiter_record hwr hA (fuel := fuel) (by omega)
    obtain ⟨p', es, en, h1, h2, h3, h4, h5, h6, h7⟩ := present_text
      (s := { s with entry := none, input := i2 }) (l := entries (s.number + 1 + 1) (rs.map Record.text)) (fuel := fuel)
      hwr.clean hwr.nonempty (h31 r (by simp)) hst hm hA2
      (by rcases hsz with z | z
          · exact Or.inl (z r (by simp))
          · exact Or.inr z) (by omega)
      (by
        intro p hp hnum
        have := ih p (fun r hr => hw r (by simp [hr])) (fun r hr => h31 r (by simp [hr]))
          (by rcases hsz with z | z
              · exact Or.inl (fun r hr => z r (by simp [hr]))
              · exact Or.inr z) hp
        rw [hnum] at this
        exact this)
    refine ⟨p', es, ?_, h1, h2, h3, h4, h5, h6, h7⟩
    show nextEntry P fuel s = _
    rw [nextEntry, if_neg (by rw [hst]; decide)]
    have e' : (rewind P s).bind (fun s => (leave P fuel s).bind (fun s => next P fuel s)) = _ :=
      (res_bind_assoc ..).symm.trans (congrArg (fun z => Res.bind z (fun s => next P fuel s)) e)
    refine e'.trans ?_
    rw [e2]
    exact en

end Strigi.Sdf
