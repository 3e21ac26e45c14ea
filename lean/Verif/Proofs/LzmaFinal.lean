import Verif.Proofs.LzmaBuf
import Verif.Proofs.LzmaHunger

/-!
# The decoder reads the format
-/

namespace Strigi
namespace LzmaDec

open Lzma

/-- Data with or without an end mark. -/
inductive Tail' (P : Params) (e : Bool) : State → List UInt8 → List UInt8 → Prop
  | done {s} : e = true → s.code = 0 → Tail' P e s [] []
  | ended {s x} : s.step P x = .ended 0 [] → Tail' P e s x []
  | next {s s' x x' new y} : s.step P x = .next s' x' → s'.past = new.reverse ++ s.past → Tail' P e s' x' y → Tail' P e s x (new ++ y)

theorem tail_of_marked {P : Params} {s : State} {x y : List UInt8} (h : Marked P s x y) : Tail' P false s x y := by
  induction h with
  | ended h => exact .ended h
  | next h1 h2 _ ih => exact .next h1 h2 ih

theorem tail_of_sized {P : Params} {s : State} {x y : List UInt8} (h : Sized P s x y) : Tail' P true s x y := by
  induction h with
  | done h => exact .done rfl h
  | ended h => exact .ended h
  | next h1 h2 _ ih => exact .next h1 h2 ih

/-- The two lists have a common extension. -/
def Fit (a b : List UInt8) : Prop := a <+: b ∨ b <+: a

theorem Fit.common {a b : List UInt8} (h : Fit a b) : ∃ a' b', a ++ a' = b ++ b' := by
  rcases h with ⟨t, h⟩ | ⟨t, h⟩
  · exact ⟨t, [], by rw [h, List.append_nil]⟩
  · exact ⟨[], t, by rw [h, List.append_nil]⟩

theorem Fit.of_common {a a' b b' : List UInt8} (h : a ++ a' = b ++ b') : Fit a b := by
  have h1 : a <+: a ++ a' := List.prefix_append _ _
  have h2 : b <+: a ++ a' := ⟨b', h.symm⟩
  by_cases hl : a.length ≤ b.length
  · exact Or.inl (List.prefix_of_prefix_length_le h1 h2 hl)
  · exact Or.inr (List.prefix_of_prefix_length_le h2 h1 (by omega))

/-- A symbol of the format that the decoder has read. -/
theorem Tail'.step {P : Params} {e : Bool} {s s' : State} {x y w : List UInt8} (T : Tail' P e s x y) (hw : ∀ t, s.step P (w ++ t) = .next s' t) (hf : Fit w x) (hd : e = true → y ≠ [] ∨ s.code ≠ 0) :
    ∃ x' new y', x = w ++ x' ∧ y = new ++ y' ∧ s'.past = new.reverse ++ s.past ∧ Tail' P e s' x' y' := by
  obtain ⟨a, b, hab⟩ := hf.common
  cases T with
  | done he hc => rcases hd he with h | h
                  · exact absurd rfl h
                  · exact absurd hc h
  | ended h =>
    obtain ⟨u, hu, hs⟩ := step_ended h
    have h1 := hs b
    rw [List.append_nil] at hu
    rw [← hu, ← hab, hw a] at h1
    cases h1
  | @next _ s2 _ x' new y' h1 h2 h3 =>
    obtain ⟨u, hu, hs⟩ := step_next h1
    have h4 := hs (x' ++ b)
    rw [← List.append_assoc, ← hu, ← hab, hw a] at h4
    simp only [Outcome.next.injEq] at h4
    obtain ⟨rfl, rfl⟩ := h4
    refine ⟨x', new, y', ?_, rfl, h2, h3⟩
    rw [hu, List.append_assoc, ← List.append_assoc w] at hab
    rw [hu]
    congr 1
    rw [← List.append_assoc u] at hab
    have := List.append_cancel_right hab
    exact (List.append_cancel_right this).symm

theorem Tail'.reads {P : Params} (hP : POk P) {e : Bool} {s s' : State} {u : List UInt8} (R : Reads P s u s') : ∀ {x y : List UInt8}, Tail' P e s x y → Wf P s → Fit u x →
    (e = true → s'.past.length < s.past.length + y.length) → ∃ x' new y', x = u ++ x' ∧ y = new ++ y' ∧ s'.past = new.reverse ++ s.past ∧ Tail' P e s' x' y' := by
  induction R with
  | nil =>
    intro x y T _ _ _
    exact ⟨x, [], y, rfl, rfl, rfl, T⟩
  | @cons s s1 s2 u1 v e1 hr ih =>
    intro x y T W hf hd
    obtain ⟨W1, n1, en1, hn1⟩ := step_wf W hP (e1 [])
    obtain ⟨_, n2, en2⟩ := hr.grow hP W1
    obtain ⟨a, b, hab⟩ := hf.common
    rw [List.append_assoc] at hab
    obtain ⟨x', new, y', rfl, rfl, h3, T'⟩ := T.step e1 (.of_common hab) (fun h => Or.inl fun hy => by
      have := hd h
      rw [hy, en2, en1, List.length_append, List.length_append] at this
      simp at this
      omega)
    rw [List.append_assoc] at hab
    have hab := List.append_cancel_left hab
    obtain ⟨x'', new', y'', rfl, rfl, h6, T''⟩ := ih T' W1 (.of_common hab) (fun h => by
      have := hd h
      rw [h3]
      simp only [List.length_append, List.length_reverse] at this ⊢
      omega)
    exact ⟨x'', new ++ new', y'', by rw [List.append_assoc], by rw [List.append_assoc], by rw [h6, h3, List.reverse_append, List.append_assoc], T''⟩

theorem Tail'.within {P : Params} (hP : POk P) {e : Bool} {n : Nat} {s s' : State} {u x y : List UInt8} (R : Within P n s u s') (T : Tail' P e s x y) (W : Wf P s) (hf : Fit u x)
    (hd : e = true → n ≤ s.past.length + y.length) : ∃ x' new y', x = u ++ x' ∧ y = new ++ y' ∧ s'.past = new.reverse ++ s.past ∧ Tail' P e s' x' y' := by
  rcases R with ⟨rfl, rfl⟩ | ⟨u1, w, s1, rfl, h1, h2, h3⟩
  · exact ⟨x, [], y, rfl, rfl, rfl, T⟩
  · obtain ⟨a, b, hab⟩ := hf.common
    rw [List.append_assoc] at hab
    obtain ⟨x', new, y', rfl, rfl, h6, T'⟩ := T.reads hP h1 W (.of_common hab) (fun h => by have := hd h; omega)
    rw [List.append_assoc] at hab
    have hab := List.append_cancel_left hab
    obtain ⟨x'', new', y'', rfl, rfl, h9, T''⟩ := T'.step h2 (.of_common hab) (fun h => Or.inl fun hy => by
      have := hd h
      rw [hy] at this
      have := congrArg List.length h6
      simp only [List.length_append, List.length_reverse, List.length_nil] at *
      omega)
    exact ⟨x'', new ++ new', y'', by rw [List.append_assoc], by rw [List.append_assoc], by rw [h9, h6, List.reverse_append, List.append_assoc], T''⟩

/-- What follows in the format. -/
def Phase.Tail (P : Params) (e : Bool) : Phase → List UInt8 → List UInt8 → Prop
  | .begin t, x, y => ∃ hdr code w, t ++ x = hdr ++ w ∧ header hdr code ∧ Tail' P e (State.start code) w y
  | .live s t, x, y => Tail' P e s (t ++ x) y

/-- The bytes consumed but not used. -/
def Phase.bytes : Phase → List UInt8
  | .begin t => t
  | .live _ t => t

/-- The state is possible. -/
def Phase.Wf (P : Params) : Phase → Prop
  | .begin _ => True
  | .live s _ => LzmaDec.Wf P s

theorem Phase.advance {P : Params} (hP : POk P) (hd : DicOk P) {e : Bool} {n : Nat} {f : Phase} {s' : State} {x y b t' : List UInt8} (A : Adv P n f b (.live s' t')) (W : f.Wf P) (T : f.Tail P e x y) (hf : Fit b x)
    (hn : e = true → n ≤ f.past.length + y.length) :
    ∃ U x1 new y1, f.bytes ++ b = U ++ t' ∧ f.bytes ++ x = U ++ x1 ∧ y = new ++ y1 ∧ s'.past = new.reverse ++ f.past ∧ Tail' P e s' x1 y1 ∧ Fit t' x1 := by
  obtain ⟨a, c, hab⟩ := hf.common
  cases A with
  | @start t _ hdr u _ code _ h1 h2 h3 =>
    obtain ⟨hdr', code', w, e1, e2, e3⟩ := T
    obtain ⟨hc, hl⟩ := header_code h2
    obtain ⟨_, hl'⟩ := header_code e2
    have hab2 : hdr ++ (u ++ t' ++ a) = hdr' ++ (w ++ c) := by
      rw [← List.append_assoc hdr', ← e1, ← List.append_assoc hdr, ← h1, List.append_assoc, List.append_assoc, hab]
    obtain ⟨rfl, hab3⟩ := List.append_inj hab2 (by omega)
    have hcode : code' = code := by
      obtain ⟨p, q, r, s, z1, z2⟩ := h2
      obtain ⟨p', q', r', s', z3, z4⟩ := e2
      rw [z1] at z3
      cases z3
      rw [z2, z4]
    subst hcode
    rw [List.append_assoc] at hab3
    obtain ⟨x', new, y', rfl, rfl, g1, g2⟩ := e3.within hP h3 (start_wf hd.low hc) (.of_common hab3) hn
    rw [List.append_assoc] at hab3
    exact ⟨hdr ++ u, x', new, y', by rw [List.append_assoc]; exact h1, by rw [List.append_assoc]; exact e1, rfl, g1, g2, .of_common (List.append_cancel_left hab3)⟩
  | @live s t _ u _ _ h1 h2 =>
    have hab3 : u ++ (t' ++ a) = t ++ x ++ c := by
      rw [← List.append_assoc, ← h1, List.append_assoc, List.append_assoc, hab]
    obtain ⟨x', new, y', g0, rfl, g1, g2⟩ := Tail'.within hP h2 T W (.of_common hab3) hn
    rw [g0, List.append_assoc] at hab3
    exact ⟨u, x', new, y', h1, g0, rfl, g1, g2, .of_common (List.append_cancel_left hab3)⟩

theorem more_prefix {P : Params} {s : State} {a b : List UInt8} (hm : s.step P b = .more) (h : a <+: b) : s.step P a = .more := by
  by_contra hne
  obtain ⟨t, rfl⟩ := h
  obtain ⟨u', rest, hx, _, hs⟩ := step_prefix hne
  have := hs (rest ++ t)
  rw [← List.append_assoc, ← hx, hm] at this
  rcases ho : s.step P a with _ | _ | _ | _ <;> rw [ho] at this <;> simp only [setRest] at this <;> first | exact hne ho | cases this

theorem Tail'.not_more {P : Params} {e : Bool} {s : State} {x y : List UInt8} (T : Tail' P e s x y) (h : s.step P x = .more) : e = true ∧ x = [] ∧ y = [] := by
  cases T with
  | done a b => exact ⟨a, rfl, rfl⟩
  | ended h' => rw [h'] at h; cases h
  | next h' => rw [h'] at h; cases h

/-- The decoder, the bytes that it needs, and the bytes that it will write. -/
def Ready (e : Bool) (z : Dec) (x y : List UInt8) : Prop :=
  ∃ P f h pend y', POk P ∧ DicOk P ∧ Holds P z f h ∧ y = pend ++ y' ∧ f.past = pend.reverse ++ h ∧ f.Tail P e x y' ∧ (e = true → y ≠ [])

theorem Holds.wf {P : Params} {z : Dec} {f : Phase} {h : List UInt8} (H : Holds P z f h) : f.Wf P := by
  cases f with
  | begin t => trivial
  | live s t => exact H.1.paused.core.wf

/-- The result of `decoder.run`. -/
def status : Option LStatus → LzmaCode
  | none => .failed
  | some .finishedWithMark => .mark
  | some _ => .more

theorem run_eq (p : Dec) (inp : List UInt8) (space : Int) (finish : Bool) : decoder.run p inp space finish = (do
    let r ← decodeToBuf p space.toNat inp finish
    .ok (r.1, r.2.1, r.2.2.1, status r.2.2.2)) := by
  unfold decoder
  dsimp only
  rfl

theorem Ready.run {e : Bool} {z : Dec} {x y : List UInt8} (H : Ready e z x y) {inp : List UInt8} (hin : Fit inp x) {space : Int} (hsp : 0 < space) {finish : Bool} (he : e = true → space ≤ y.length)
    (hfin : finish = true → e = true ∧ space = y.length) :
    ∃ z' k out code, decoder.run z inp space finish = .ok (z', k, out, code) ∧ k ≤ inp.length ∧ (out.length : Int) ≤ space ∧
      ∃ y', y = out ++ y' ∧
        ((code = .mark ∧ (e = true ∨ x = inp.take k) ∧ y' = []) ∨ (e = true ∧ y' = [] ∧ code = .more) ∨
          (code = .more ∧ ∃ x', x = inp.take k ++ x' ∧ Ready e z' x' y' ∧ ((out.length : Int) = space ∨ k = inp.length))) := by
  obtain ⟨P, f, h, pend, y', hP, hd, H, rfl, hpast, T, hne⟩ := H
  have B := decodeToBuf_ok hP hd (finish := finish) (src := inp) (outSize := space.toNat) H (by omega)
  rw [run_eq]
  generalize decodeToBuf z space.toNat inp finish = res at B
  have hpl := congrArg List.length hpast
  simp only [List.length_append, List.length_reverse] at hpl he hfin
  have hn : e = true → h.length + space.toNat ≤ f.past.length + y'.length := fun z => by have := he z; omega
  have fitk : ∀ k, Fit (inp.take k) x := by
    intro k
    obtain ⟨a, b, hab⟩ := hin.common
    exact .of_common (a' := inp.drop k ++ a) (b' := b) (by rw [← List.append_assoc, List.take_append_drop, hab])
  cases B with
  | @pause z' k f' new st a A c d e1 g =>
    rw [Res.bind_ok]
    have hst : status (some st) = .more := by
      cases st <;> first | rfl | exact absurd rfl e1
    dsimp only
    rw [hst, Nat.zero_add, List.nil_append]
    have hlen : ((new.reverse.length : Nat) : Int) ≤ space := by rw [List.length_reverse]; omega
    have hg : ((new.reverse.length : Nat) : Int) = space ∨ k = inp.length := by
      rw [List.length_reverse]
      rcases g with g | g
      · left; omega
      · exact Or.inr g.1
    cases f' with
    | begin t' =>
      refine ⟨z', k, _, _, rfl, a, hlen, ?_⟩
      cases A with
      | @wait t _ hl =>
        obtain ⟨hdr, code, w, h1, h2, h3⟩ := T
        obtain ⟨g1, g2, g3⟩ := c
        have hnew : new = [] := by
          rcases new with _ | ⟨_, _⟩
          · rfl
          · cases g3
        subst hnew
        have hh : h = [] := g3
        subst hh
        have hpn : pend = [] := by simpa [Phase.past] using hpast.symm
        subst hpn
        refine ⟨y', rfl, Or.inr (Or.inr ⟨rfl, ?_⟩)⟩
        obtain ⟨p, q, hpq⟩ := (fitk k).common
        obtain ⟨_, h5⟩ := header_code h2
        have hxl := congrArg List.length h1
        simp only [List.length_append] at hxl hl
        have hpre : inp.take k <+: x := by
          rcases fitk k with hz | hz
          · exact hz
          · have := hz.length_le
            omega
        obtain ⟨x', rfl⟩ := hpre
        exact ⟨x', rfl, ⟨P, .begin (t ++ inp.take k), [], [], y', hP, hd, ⟨g1, g2, rfl⟩, rfl, rfl, ⟨hdr, code, w, by rw [List.append_assoc]; exact h1, h2, h3⟩, hne⟩, hg⟩
    | live s' t' =>
      obtain ⟨U, x1, new1, y1, e2, e3, rfl, e5, T1, hfit⟩ := Phase.advance hP hd A H.wf T (fitk k) hn
      obtain ⟨R, ht⟩ := c
      have C := R.paused.core
      obtain ⟨m, em, hml⟩ := repeatPast_suffix s'.rep0 z'.remainLen (new ++ h)
      have e6 : new1.reverse ++ pend.reverse = m ++ new := by
        have : new1.reverse ++ pend.reverse ++ h = m ++ new ++ h := by
          rw [List.append_assoc, ← hpast, ← e5, C.past, em, List.append_assoc]
        exact List.append_cancel_right this
      have e7 : pend ++ new1 = new.reverse ++ m.reverse := by
        have := congrArg List.reverse e6
        simpa using this
      refine ⟨z', k, _, _, rfl, a, hlen, m.reverse ++ y1, by rw [← List.append_assoc, e7, List.append_assoc], Or.inr ?_⟩
      by_cases hdone : e = true ∧ m.reverse ++ y1 = []
      · exact Or.inl ⟨hdone.1, hdone.2, rfl⟩
      · right
        refine ⟨rfl, ?_⟩
        have hpre : t' <+: x1 := by
          by_cases hz : t' = []
          · rw [hz]; exact List.nil_prefix
          · rcases hfit with hf | hf
            · exact hf
            · obtain ⟨hm, hr⟩ := R.hungry (by rw [ht]; exact hz)
              rw [ht] at hm
              obtain ⟨q1, q2, q3⟩ := T1.not_more (more_prefix hm hf)
              exfalso
              apply hdone
              refine ⟨q1, ?_⟩
              rw [hr] at hml
              have : m = [] := List.eq_nil_of_length_eq_zero hml
              rw [this, q3]
              rfl
        obtain ⟨x', rfl⟩ := hpre
        have hx : x = inp.take k ++ x' := by
          rw [← List.append_assoc, ← e2, List.append_assoc] at e3
          exact List.append_cancel_left e3
        refine ⟨x', hx, ⟨P, .live s' t', new ++ h, m.reverse, y1, hP, hd, ⟨R, ht⟩, rfl, ?_, T1, fun z hz => hdone ⟨z, hz⟩⟩, hg⟩
        show s'.past = _
        rw [C.past, em, List.reverse_reverse]
  | @mark z' k s' v new a A c d e1 =>
    rw [Res.bind_ok]
    dsimp only
    rw [Nat.zero_add, List.nil_append]
    obtain ⟨U, x1, new1, y1, e2, e3, rfl, e5, T1, hfit⟩ := Phase.advance hP hd A H.wf T (fitk k) hn
    have e7 : pend ++ new1 = new.reverse := by
      have : new1.reverse ++ pend.reverse = new := by
        apply List.append_cancel_right (bs := h)
        rw [List.append_assoc, ← hpast, ← e5, d]
      rw [← this]
      simp
    refine ⟨z', k, _, _, rfl, a, by rw [List.length_reverse]; omega, y1, by rw [← List.append_assoc, e7], Or.inl ⟨rfl, ?_⟩⟩
    obtain ⟨p, q, hpq⟩ := hfit.common
    cases T1 with
    | done z _ => exact ⟨Or.inl z, rfl⟩
    | ended hs =>
      obtain ⟨u, hu, hs'⟩ := step_ended hs
      rw [List.append_nil] at hu
      have h1 := hs' q
      rw [← hu, ← hpq, c p] at h1
      simp only [Outcome.ended.injEq, true_and] at h1
      subst h1
      have := List.append_cancel_right hpq
      subst this
      refine ⟨Or.inr ?_, rfl⟩
      rw [← e3] at e2
      exact (List.append_cancel_left e2).symm
    | next hs _ _ =>
      exfalso
      have h1 := step_next_append hs q
      rw [← hpq, c p] at h1
      cases h1
  | @bad z' k s' v m new a A c d e1 =>
    exfalso
    obtain ⟨U, x1, new1, y1, e2, e3, rfl, e5, T1, hfit⟩ := Phase.advance hP hd A H.wf T hin hn
    obtain ⟨p, q, hpq⟩ := hfit.common
    have hl5 := congrArg List.length e5
    simp only [List.length_append, List.length_reverse] at hl5 hn hfin he
    have noEnd : ∀ c w, s'.step P v = .ended c w → y1 = [] ∧ (c = 0 ∨ (e = true ∧ s'.code = 0)) := by
      intro c w hv
      obtain ⟨u, hu, hs⟩ := step_ended hv
      have h1 := hs (w ++ p)
      rw [← List.append_assoc, ← hu, hpq] at h1
      cases T1 with
      | done hee hc => exact ⟨rfl, Or.inr ⟨hee, hc⟩⟩
      | ended hs =>
        obtain ⟨u', hu', hs'⟩ := step_ended hs
        rw [List.append_nil] at hu'
        have h2 := hs' q
        rw [← hu', h1] at h2
        simp only [Outcome.ended.injEq] at h2
        exact ⟨rfl, Or.inl h2.1⟩
      | next hs _ _ =>
        have h2 := step_next_append hs q
        rw [h1] at h2
        cases h2
    have noCorrupt : s'.step P v = .corrupt → y1 = [] ∧ e = true ∧ s'.code = 0 := by
      intro hv
      have h1 := step_corrupt hv p
      rw [hpq] at h1
      cases T1 with
      | done hee hc => exact ⟨rfl, hee, hc⟩
      | ended hs =>
        obtain ⟨u', hu', hs'⟩ := step_ended hs
        rw [List.append_nil] at hu'
        have h2 := hs' q
        rw [← hu', h1] at h2
        cases h2
      | next hs _ _ =>
        have h2 := step_next_append hs q
        rw [h1] at h2
        cases h2
    have stop : y1 = [] → e = true → s'.code = 0 → ¬ May (h.length + space.toNat) finish s' := by
      rintro rfl h2 h3 (h4 | ⟨_, _, h4⟩)
      · have := hn h2
        simp at this
        omega
      · exact h4 h3
    rcases c with ⟨c1, c2⟩ | ⟨c1, c, w, c2, c3⟩ | ⟨c1, c2, c3⟩
    · obtain ⟨q1, q2, q3⟩ := noCorrupt c2
      exact stop q1 q2 q3 c1
    · obtain ⟨q1, q2⟩ := noEnd c w c3
      rcases q2 with q2 | q2
      · exact c2 q2
      · exact stop q1 q2.1 q2.2 c1
    · obtain ⟨f1, f2⟩ := hfin c1
      rcases c3 with c3 | ⟨c3, c4, s2, w, c5⟩
      · omega
      · have hy1 : y1 = [] := List.eq_nil_of_length_eq_zero (by omega)
        obtain ⟨u, hu, hs⟩ := step_next c5
        have h1 := hs (w ++ p)
        rw [← List.append_assoc, ← hu, hpq] at h1
        have hw : Wf P s' := by
          cases A with
          | start b1 b2 b3 => exact (b3.reads.grow hP (start_wf hd.low (header_code b2).1)).1
          | live b1 b2 => exact (b2.reads.grow hP H.wf).1
        generalize y1 = y2 at hy1 T1
        cases T1 with
        | done _ hc => exact c4 hc
        | ended hs =>
          obtain ⟨u', hu', hs'⟩ := step_ended hs
          rw [List.append_nil] at hu'
          have h2 := hs' q
          rw [← hu', h1] at h2
          cases h2
        | next hs hp _ =>
          obtain ⟨_, n, en, hn1⟩ := step_wf hw hP hs
          rw [hp] at en
          have en := congrArg List.length en
          have hy1 := congrArg List.length hy1
          simp only [List.length_append, List.length_reverse, List.length_nil] at en hy1
          omega
  | @header z' k t a b c d =>
    exfalso
    subst b
    obtain ⟨hdr, code, w, h1, ⟨b1, b2, b3, b4, rfl, _⟩, _⟩ := T
    apply d
    obtain ⟨p, q, hpq⟩ := hin.common
    have hh : t ++ inp ++ p = [0, b1, b2, b3, b4] ++ w ++ q := by rw [List.append_assoc, hpq, ← List.append_assoc, h1]
    rcases hti : t ++ inp with _ | ⟨b, l⟩
    · rw [hti] at c; simp at c
    · rw [hti] at hh
      simp only [List.cons_append, List.cons.injEq] at hh
      rw [hh.1]
      rfl

theorem marked_needs {P : Params} (hP : POk P) {s : State} {x y : List UInt8} (T : Tail' P false s x y) (W : Wf P s) : x ≠ [] := by
  induction T with
  | done h _ => cases h
  | ended h =>
    rintro rfl
    exact ended_needs W h
  | @next s s' x x' new y h1 h2 _ ih =>
    rintro rfl
    obtain ⟨u, hu, _⟩ := step_next h1
    have : x' = [] := by
      have := congrArg List.length hu
      simp only [List.length_append, List.length_nil] at this
      exact List.eq_nil_of_length_eq_zero (by omega)
    exact ih (step_wf W hP h1).1 this

theorem Ready.needs {z : Dec} {x y : List UInt8} (H : Ready false z x y) : x ≠ [] := by
  obtain ⟨P, f, h, pend, y', hP, hd, H, rfl, hpast, T, hne⟩ := H
  rintro rfl
  cases f with
  | begin t =>
    obtain ⟨hdr, code, w, h1, h2, _⟩ := T
    obtain ⟨_, ht, _⟩ := H
    have := congrArg List.length h1
    rw [List.append_nil, List.length_append, (header_code h2).2] at this
    omega
  | live s t =>
    obtain ⟨R, rfl⟩ := H
    have T : Tail' P false s (z.temp ++ []) y' := T
    rw [List.append_nil] at T
    by_cases ht : z.temp = []
    · exact marked_needs hP T R.paused.core.wf ht
    · have := T.not_more (R.hungry ht).1
      cases this.1

/-- The decoder reads data with an end mark. -/
theorem decoder_marked : LzmaMarked decoder False (Ready false) where
  needs h := h.needs
  run {z x y} h inp hin space hsp := by
    obtain ⟨z', k, out, code, e, hk, ho, y', hy, hc⟩ := h.run hin hsp (finish := false) (fun z => by cases z) (fun z => by cases z)
    refine ⟨z', k, out, code, e, hk, ho, y', hy, ?_⟩
    rcases hc with ⟨h1, h2, h3⟩ | ⟨h1, _⟩ | h1
    · rcases h2 with h2 | h2
      · cases h2
      · exact Or.inl ⟨h1, h2, h3⟩
    · cases h1
    · exact Or.inr (Or.inl h1)

/-- The decoder reads data of known size. -/
theorem decoder_sized : LzmaSized decoder False (Ready true) where
  rest h := by
    obtain ⟨_, _, _, _, _, _, _, _, _, _, _, hne⟩ := h
    exact hne rfl
  run {z x y} h inp hin space hsp hle finish hfin := by
    obtain ⟨z', k, out, code, e, hk, ho, y', hy, hc⟩ := h.run hin hsp (finish := finish) (fun _ => hle) (fun z => ⟨rfl, hfin z⟩)
    refine ⟨z', k, out, code, e, hk, ho, y', hy, ?_⟩
    rcases hc with ⟨h1, _, h3⟩ | ⟨_, h2, h3⟩ | h1
    · exact Or.inl ⟨h3, by rw [h1]; decide⟩
    · exact Or.inl ⟨h2, by rw [h3]; decide⟩
    · exact Or.inr (Or.inl h1)

theorem init_ready {e : Bool} {P : Params} (hP : POk P) (hd : DicOk P) {x y hdr w : List UInt8} {code : Nat} (hx : x = hdr ++ w) (hh : header hdr code) (T : Tail' P e (State.start code) w y) (hy : e = true → y ≠ []) :
    Ready e (init P) x y :=
  ⟨P, .begin [], [], [], y, hP, hd, ⟨rfl, by decide, rfl⟩, rfl, rfl, ⟨hdr, code, w, hx, hh, T⟩, hy⟩

end LzmaDec
end Strigi
