import Verif.Proofs.LzmaReal2

/-!
# `LzmaDec_DecodeToDic`
-/

namespace Strigi
namespace LzmaDec

open Lzma

/-! ## More facts about the format -/

theorem step_corrupt {P : Params} {s : State} {x : List UInt8} (h : s.step P x = .corrupt) (t : List UInt8) : s.step P (x ++ t) = .corrupt := by
  obtain ⟨u, rest, hx, hr, ht⟩ := step_prefix (P := P) (s := s) (x := x) (by rw [h]; simp)
  rw [hx, List.append_assoc, ht, h]
  rfl

theorem step_next_append {P : Params} {s s' : State} {x w : List UInt8} (h : s.step P x = .next s' w) (t : List UInt8) : s.step P (x ++ t) = .next s' (w ++ t) := by
  obtain ⟨u, hx, ht⟩ := step_next h
  rw [hx, List.append_assoc, ht]

theorem more_of_none {P : Params} {s : State} {x : List UInt8} (h : run (s.parser P) s.probs ⟨s.range, s.code, x⟩ = none) : s.step P x = .more := by
  unfold State.step
  rw [h]

/-- If the input is not sufficient for a symbol, no symbols are read. -/
theorem Reads.hungry {P : Params} {s s' : State} {u w y : List UInt8} (h : Reads P s u s') (hy : s.step P y = .more) (hp : u ++ w <+: y) : u = [] ∧ s' = s := by
  cases h with
  | nil => exact ⟨rfl, rfl⟩
  | @cons _ s1 _ u1 v e _ =>
    obtain ⟨t, ht⟩ := hp
    rw [← ht, List.append_assoc, List.append_assoc, e] at hy
    cases hy

theorem Reads.grow {P : Params} (hP : POk P) {s s' : State} {u : List UInt8} (h : Reads P s u s') (W : Wf P s) : Wf P s' ∧ ∃ new, s'.past = new ++ s.past := by
  induction h with
  | nil => exact ⟨W, [], rfl⟩
  | @cons s s1 s2 u1 v e _ ih =>
    obtain ⟨W1, n1, e1, _⟩ := step_wf W hP (e [])
    obtain ⟨W2, n2, e2⟩ := ih W1
    exact ⟨W2, n2 ++ n1, by rw [e2, e1, List.append_assoc]⟩

theorem more_short {P : Params} (hP : POk P) {s : State} (W : Wf P s) {x : List UInt8} (h : s.step P x = .more) : x.length < 20 := by
  by_contra hl
  obtain ⟨⟨sym, probs, c⟩, hr⟩ := step_twenty W hP (x := x) (by omega)
  rw [step_eq hr] at h
  cases sym <;> simp only [State.apply] at h <;> (repeat' split at h) <;> cases h

/-! ## One iteration -/

/-- Between two calls. -/
structure Resting (P : Params) (p : Dec) (s : State) (h : List UInt8) : Prop where
  paused : Paused P p s h
  strict : Strict P p h
  flush : p.needFlush = false
  init : p.needInitState = false
  hungry : p.temp ≠ [] → s.step P p.temp = .more ∧ p.remainLen = 0

theorem Resting.setTemp {P : Params} {p : Dec} {s : State} {h : List UInt8} (R : Paused P p s h) (t : List UInt8) : Paused P { p with temp := t } s h := by
  have C := R.core
  have D := C.dict
  exact ⟨⟨⟨D.size, D.low, D.high, D.win, D.count, D.check⟩, C.past, C.back, C.state, C.rep0, C.rep1, C.rep2, C.rep3, C.prop, C.nprobs, C.stored, C.wf⟩, R.rem, R.range, R.code⟩

/-- What an iteration can do. -/
inductive Iter (P : Params) (limit : Nat) (checkEnd : Bool) (p : Dec) (s : State) (src : List UInt8) : Res (DicResult ⊕ (Dec × Nat)) → Prop
  | needs : s.step P (p.temp ++ src) = .more → Iter P limit checkEnd p s src (.ok (.inl ({ p with temp := p.temp ++ src }, src.length, some .needsMoreInput)))
  | run {p' k u s' h'} : k ≤ src.length → p.temp ++ src.take k = u → Reads P s u s' → Paused P p' s' h' → Strict P p' h' → p'.temp = [] → p'.needFlush = false → p'.needInitState = false →
      p'.dicBufSize = p.dicBufSize → Grows p s.past p' h' → p'.dicPos ≤ limit → (p'.remainLen ≠ 0 → p'.dicPos = limit ∧ Pred P s u s' h'.length) → p.dicPos < p'.dicPos → Iter P limit checkEnd p s src (.ok (.inr (p', k)))
  | ended {p' k u v s' c} : k ≤ src.length → p.temp ++ src.take k = u ++ v → Reads P s u s' → (∀ t, s'.step P (v ++ t) = .ended c t) → Over P p' s'.past c → p'.remainLen = 274 →
      Strict P p' s'.past → p'.dicBufSize = p.dicBufSize → Grows p s.past p' s'.past → p'.dicPos ≤ limit → Room limit p s.past s' → Iter P limit checkEnd p s src (.ok (.inr (p', k)))
  | bad {p' k u v s'} : p.temp ++ src = u ++ v → Reads P s u s' → ((s'.step P v = .corrupt ∧ Room limit p s.past s') ∨ (checkEnd = true ∧ u = [] ∧ s' = s ∧ ∃ s'' w, s.step P v = .next s'' w)) → k ≤ src.length →
      p'.dicPos = p.dicPos → (∀ i < p.dicPos, p'.dic i = p.dic i) → p'.dicBufSize = p.dicBufSize → Iter P limit checkEnd p s src (.ok (.inl (p', k, none)))

/-- A symbol that is not a match is not the end mark. -/
theorem apply_other {P : Params} {s : State} {rest : List UInt8} {sym : Symbol} {d : Dummy} (h : DummyRel sym (.ok d)) (hd : d ≠ .match_) :
    State.apply P s rest sym = .corrupt ∨ ∃ s'' w, State.apply P s rest sym = .next s'' w := by
  cases sym with
  | literal b => exact Or.inr ⟨_, _, rfl⟩
  | copy len dist => simp only [DummyRel, Res.ok.injEq] at h; exact absurd h hd
  | shortRep =>
    simp only [State.apply]
    split
    · exact Or.inl rfl
    · exact Or.inr ⟨_, _, rfl⟩
  | rep i len =>
    simp only [State.apply]
    split
    · exact Or.inl rfl
    · exact Or.inr ⟨_, _, rfl⟩

theorem copy_of_match {sym : Symbol} (h : DummyRel sym (.ok .match_)) : ∃ len dist, sym = .copy len dist := by
  cases sym with
  | copy len dist => exact ⟨len, dist, rfl⟩
  | literal b => cases h
  | shortRep => cases h
  | rep i len => cases h

/-- What `LzmaDec_DecodeReal2` does with the input, from whichever buffer. -/
theorem real2_any {P : Params} (hP : POk P) {p : Dec} {s : State} {h x : List UInt8} {limit keep : Nat} {checkEnd : Bool} (H : Paused P p s h) (hr : p.remainLen = 0) (h1 : p.dicPos ≤ limit)
    (hce : checkEnd = decide (p.dicPos ≥ limit)) (h2 : limit ≤ P.dicSize) (hk : 20 ≤ keep ∨ x.length ≤ keep) {r : Symbol × (Ctx → Nat) × Coder}
    (hrun : run (s.parser P) s.probs ⟨s.range, s.code, x⟩ = some r) (hsym : checkEnd = true → ∃ len dist, r.1 = .copy len dist) :
    Real2Result P limit p h s x (decodeReal2 p limit keep x) := by
  have hpast : h = s.past := by
    have := H.core.past
    rw [hr] at this
    exact this.symm
  subst hpast
  by_cases hc : p.dicPos < limit
  · exact real2_ok hP H hr hc h2 hk ⟨r, hrun⟩
  · have : checkEnd = true := by rw [hce]; simp; omega
    obtain ⟨len, dist, e⟩ := hsym this
    obtain ⟨sym, probs, c⟩ := r
    simp only at e
    subst e
    exact real2_end hP H hr (by omega) h2 hrun

theorem take_split {a b c d : List UInt8} {n : Nat} (h : a ++ b.take n = c ++ d) (hl : d.length ≤ (b.take n).length) : c = a ++ b.take ((b.take n).length - d.length) := by
  have h3 := congrArg (List.take c.length) h
  have hlen := congrArg List.length h
  simp only [List.length_append] at hlen
  rw [List.take_left, List.take_append, List.take_of_length_le (by omega), List.take_take, show min (c.length - a.length) n = (b.take n).length - d.length by
    rw [List.length_take] at *; omega] at h3
  exact h3.symm

/-- An iteration with an empty `tempBuf`. -/
theorem fromSource_ok {P : Params} (hP : POk P) {p : Dec} {s : State} {h src : List UInt8} {limit : Nat} {checkEnd : Bool} (R : Resting P p s h) (ht : p.temp = []) (hr : p.remainLen = 0)
    (h1 : p.dicPos ≤ limit) (hce : checkEnd = decide (p.dicPos ≥ limit)) (h2 : limit ≤ P.dicSize) :
    Iter P limit checkEnd p s src (fromSource p limit checkEnd src) := by
  have H := R.paused
  have hpast : h = s.past := by
    have := H.core.past
    rw [hr] at this
    exact this.symm
  subst hpast
  have go : ∀ keep, (20 ≤ keep ∨ src.length ≤ keep) → ∀ r, run (s.parser P) s.probs ⟨s.range, s.code, src⟩ = some r → (checkEnd = true → ∃ len dist, r.1 = .copy len dist) →
      Iter P limit checkEnd p s src (do
        let r ← decodeReal2 p limit keep src
        if r.2.2 then .ok (.inr (r.1, src.length - r.2.1.length)) else .ok (.inl (r.1, 0, none))) := by
    intro keep hk r hrun hsym
    have Q := real2_any hP H hr h1 hce h2 hk hrun hsym
    generalize decodeReal2 p limit keep src = res at Q
    cases Q with
    | @run p' buf' u s' h' a b c d e f g i j =>
      rw [Res.bind_ok]
      dsimp only
      rw [if_pos rfl]
      have hl := congrArg List.length a
      rw [List.length_append] at hl
      refine .run (u := u) (by omega) ?_ b c d (by rw [e.temp, ht]) (by rw [e.flush]; exact R.flush) (by rw [e.init]; exact R.init) e.size f g i j
      rw [ht, List.nil_append, show src.length - buf'.length = u.length by omega]
      conv => lhs; rw [a]
      rw [List.take_left]
    | @ended p' buf' u v s' c a b d e f g i j k room =>
      rw [Res.bind_ok]
      dsimp only
      rw [if_pos rfl]
      have hl := congrArg List.length a
      rw [List.length_append] at hl
      refine .ended (u := u) (v := v) (by omega) ?_ b d e f g i.size j k room
      rw [ht, List.nil_append, show src.length - buf'.length = (u ++ v).length by omega]
      conv => lhs; rw [a]
      rw [List.take_left]
    | @bad p' buf' u v s' a b c d e f =>
      rw [Res.bind_ok]
      dsimp only
      refine .bad (u := u) (v := v) (by rw [ht]; exact a) b (c.imp id fun c => ⟨?_, c.2⟩) (by omega) d e f
      rw [hce]
      simpa using c.1
  unfold fromSource
  dsimp only
  by_cases hc : src.length < 20 ∨ checkEnd = true
  · rw [if_pos hc]
    rcases tryDummy_ok hP H hr src with ⟨e, hn⟩ | ⟨d, r, e, hrun, hd⟩
    · rw [e, Res.bind_ok]
      have hm := more_of_none hn
      have hl := more_short hP H.core.wf hm
      dsimp only
      rw [if_pos (by omega)]
      have := Iter.needs (limit := limit) (checkEnd := checkEnd) (p := p) (P := P) (s := s) (src := src) (by rw [ht]; exact hm)
      rw [ht] at this
      exact this
    · rw [e, Res.bind_ok]
      dsimp only
      by_cases hx : checkEnd = true ∧ d ≠ .match_
      · rw [if_pos hx]
        obtain ⟨sym, probs, c⟩ := r
        have hap := apply_other (P := P) (s := recode s probs c) (rest := c.rest) hd hx.2
        rw [← step_eq hrun] at hap
        have hlim : p.dicPos = limit := by
          have : checkEnd = true := hx.1
          rw [hce] at this
          simp at this
          omega
        exact .bad (u := []) (v := src) (s' := s) (by rw [ht]) .nil (hap.imp (fun z => ⟨z, Or.inr ⟨hlim, rfl⟩⟩) fun z => ⟨hx.1, rfl, rfl, z⟩) (by omega) rfl (fun _ _ => rfl) rfl
      · rw [if_neg hx]
        refine go _ (Or.inr (Nat.le_refl _)) r hrun fun hce => copy_of_match ?_
        have : d = .match_ := by
          by_contra hne
          exact hx ⟨hce, hne⟩
        rw [← this]
        exact hd
  · rw [if_neg hc]
    obtain ⟨r, hrun⟩ := step_twenty H.core.wf hP (x := src) (by omega)
    exact go 20 (Or.inl (Nat.le_refl _)) r hrun fun hce => absurd (Or.inr hce) hc

/-- An iteration with bytes in `tempBuf`. -/
theorem fromTemp_ok {P : Params} (hP : POk P) {p : Dec} {s : State} {h src : List UInt8} {limit : Nat} {checkEnd : Bool} (R : Resting P p s h) (ht : p.temp ≠ [])
    (h1 : p.dicPos ≤ limit) (hce : checkEnd = decide (p.dicPos ≥ limit)) (h2 : limit ≤ P.dicSize) :
    Iter P limit checkEnd p s src (fromTemp p limit checkEnd src) := by
  have H := R.paused
  obtain ⟨hmore, hr⟩ := R.hungry ht
  have hpast : h = s.past := by
    have := H.core.past
    rw [hr] at this
    exact this.symm
  subst hpast
  have hshort := more_short hP H.core.wf hmore
  unfold fromTemp
  dsimp only
  obtain ⟨look, hlook⟩ : ∃ l, min (20 - p.temp.length) src.length = l := ⟨_, rfl⟩
  rw [hlook]
  have hll : (src.take look).length = look := by rw [List.length_take]; omega
  obtain ⟨temp, htemp⟩ : ∃ t, p.temp ++ src.take look = t := ⟨_, rfl⟩
  rw [htemp]
  have htl : temp.length = p.temp.length + look := by rw [← htemp, List.length_append, hll]
  have HT : Paused P { p with temp := temp } s s.past := Resting.setTemp H temp
  have long : ∀ {u w buf' : List UInt8} {s' : State}, temp = u ++ w ++ buf' → Reads P s u s' → s.step P w ≠ .more ∨ (u ≠ [] ∨ s' ≠ s) → buf'.length ≤ look := by
    intro u w buf' s' a b hne
    by_contra hlt
    have hpre : u ++ w <+: p.temp := by
      have hp2 : u ++ w <+: temp := ⟨buf', a.symm⟩
      have hp3 : p.temp <+: temp := ⟨src.take look, htemp⟩
      have := congrArg List.length a
      rw [List.length_append] at this
      exact List.prefix_of_prefix_length_le hp2 hp3 (by omega)
    obtain ⟨e1, e2⟩ := b.hungry hmore hpre
    rcases hne with hne | hne
    · subst e1
      obtain ⟨t, ht⟩ := hpre
      rw [List.nil_append] at ht
      obtain ⟨u', rest, hx, _, hs⟩ := step_prefix hne
      have := hs (rest ++ t)
      rw [← List.append_assoc, ← hx, ht, hmore] at this
      rcases ho : s.step P w with _ | _ | _ | _ <;> rw [ho] at this <;> simp only [setRest] at this <;> first | exact hne ho | cases this
    · rcases hne with hne | hne
      · exact hne e1
      · exact hne e2
  have go : ∀ r, run (s.parser P) s.probs ⟨s.range, s.code, temp⟩ = some r → (checkEnd = true → ∃ len dist, r.1 = .copy len dist) →
      Iter P limit checkEnd p s src (do
        let r ← decodeReal2 { p with temp := temp } limit temp.length temp
        if r.2.2 then
          if r.2.1.length ≤ look then .ok (.inr ({ r.1 with temp := [] }, look - r.2.1.length)) else .fault .undefined
        else .ok (.inl (r.1, 0, none))) := by
    intro r hrun hsym
    have Q := real2_any (p := { p with temp := temp }) (limit := limit) hP HT hr h1 hce h2 (Or.inr (Nat.le_refl temp.length)) hrun hsym
    generalize decodeReal2 { p with temp := temp } limit temp.length temp = res at Q
    cases Q with
    | @run p' buf' u s' h' a b c d e f g i j =>
      rw [Res.bind_ok]
      dsimp only
      rw [if_pos rfl]
      have hb : buf'.length ≤ look := by
        refine long (w := []) (by rw [List.append_nil]; exact a) b (Or.inr (Or.inr ?_))
        rintro rfl
        obtain ⟨new, e1, e2⟩ := f.new
        have j : p.dicPos < p'.dicPos := j
        have e2 : p'.dicPos = p.dicPos + new.length := e2
        have hl := congrArg List.length c.core.past
        rw [repeatPast_length, e1, List.length_append] at hl
        omega
      rw [if_pos hb]
      have hu := take_split (htemp.trans a) (by omega)
      rw [hll] at hu
      refine .run (by omega) hu.symm b (Resting.setTemp c []) d rfl (by show p'.needFlush = false; rw [e.flush]; exact R.flush) (by show p'.needInitState = false; rw [e.init]; exact R.init) e.size ⟨f.new, f.same⟩ g i j
    | @ended p' buf' u v s' c a b d e f g i j k room =>
      rw [Res.bind_ok]
      dsimp only
      rw [if_pos rfl]
      have hb : buf'.length ≤ look := by
        refine long a b ?_
        by_cases hs : s' = s
        · left
          subst hs
          have := d []
          rw [List.append_nil] at this
          rw [this]
          simp
        · exact Or.inr (Or.inr hs)
      rw [if_pos hb]
      have hu := take_split (htemp.trans a) (by omega)
      rw [hll] at hu
      have hD := e.dict
      exact .ended (u := u) (v := v) (by omega) hu.symm b d ⟨⟨hD.size, hD.low, hD.high, hD.win, hD.count, hD.check⟩, e.prop, e.code, e.rem⟩ f g i.size ⟨j.new, j.same⟩ k room
    | @bad p' buf' u v s' a b c d e f =>
      rw [Res.bind_ok]
      dsimp only
      refine .bad (u := u) (v := v ++ src.drop look) ?_ b ?_ (by omega) d e f
      · rw [← List.append_assoc, ← a, ← htemp, List.append_assoc, List.take_append_drop]
      · rcases c with ⟨c, room⟩ | ⟨c1, c2, c3, s'', w, c4⟩
        · exact Or.inl ⟨step_corrupt c _, room⟩
        · refine Or.inr ⟨?_, c2, c3, s'', _, step_next_append c4 _⟩
          rw [hce]
          simpa using c1
  by_cases hc : temp.length < 20 ∨ checkEnd = true
  · rw [if_pos hc]
    rcases tryDummy_ok hP H hr temp with ⟨e, hn⟩ | ⟨d, r, e, hrun, hd⟩
    · rw [e, Res.bind_ok]
      have hm := more_of_none hn
      have hl := more_short hP H.core.wf hm
      have hlk : look = src.length := by omega
      have htm : temp = p.temp ++ src := by rw [← htemp, hlk, List.take_length]
      dsimp only
      rw [htm, hlk]
      exact .needs (by rw [← htm]; exact hm)
    · rw [e, Res.bind_ok]
      dsimp only
      by_cases hx : checkEnd = true ∧ d ≠ .match_
      · rw [if_pos hx]
        obtain ⟨sym, probs, c⟩ := r
        have hap := apply_other (P := P) (s := recode s probs c) (rest := c.rest) hd hx.2
        rw [← step_eq hrun] at hap
        refine .bad (u := []) (v := temp ++ src.drop look) (s' := s) ?_ .nil ?_ (by omega) rfl (fun _ _ => rfl) rfl
        · rw [← htemp, List.append_assoc, List.take_append_drop]; rfl
        · rcases hap with hap | ⟨s'', w, hap⟩
          · refine Or.inl ⟨step_corrupt hap _, Or.inr ⟨?_, rfl⟩⟩
            have : checkEnd = true := hx.1
            rw [hce] at this
            simp at this
            omega
          · exact Or.inr ⟨hx.1, rfl, rfl, s'', _, step_next_append hap _⟩
      · rw [if_neg hx]
        refine go r hrun fun hce => copy_of_match ?_
        have : d = .match_ := by
          by_contra hne
          exact hx ⟨hce, hne⟩
        rw [← this]
        exact hd
  · rw [if_neg hc]
    obtain ⟨r, hrun⟩ := step_twenty H.core.wf hP (x := temp) (by omega)
    exact go r hrun fun hce => absurd (Or.inr hce) hc

end LzmaDec
end Strigi
