import Verif.Proofs.LzmaReal

/-!
# The loop of `LzmaDec_DecodeReal`
-/

namespace Strigi
namespace LzmaDec

open Lzma

theorem nextState : ∀ i, i < 12 → ∀ h : i < kLiteralNextStates.length,
    kLiteralNextStates[i] = if i < 4 then 0 else if i < 10 then i - 3 else i - 6 := by decide

theorem ofNat_add_256 (b : Nat) : UInt8.ofNat (b + 256) = UInt8.ofNat b := by
  apply UInt8.toNat_inj.mp
  simp

/-- A step that goes on consumes a prefix. -/
theorem step_next {P : Params} {s s' : State} {x x' : List UInt8} (h : s.step P x = .next s' x') :
    ∃ u, x = u ++ x' ∧ ∀ t, s.step P (u ++ t) = .next s' t := by
  obtain ⟨u, rest, hx, hr, ht⟩ := step_prefix (P := P) (s := s) (x := x) (by rw [h]; simp)
  rw [h] at hr ht
  simp only [setRest, Outcome.next.injEq, true_and] at hr
  exact ⟨u, by rw [hr]; exact hx, ht⟩

theorem step_ended {P : Params} {s : State} {x x' : List UInt8} {c : Nat} (h : s.step P x = .ended c x') :
    ∃ u, x = u ++ x' ∧ ∀ t, s.step P (u ++ t) = .ended c t := by
  obtain ⟨u, rest, hx, hr, ht⟩ := step_prefix (P := P) (s := s) (x := x) (by rw [h]; simp)
  rw [h] at hr ht
  simp only [setRest, Outcome.ended.injEq, true_and] at hr
  exact ⟨u, by rw [hr]; exact hx, ht⟩

/-- The situation after a symbol that has written something. -/
structure After (P : Params) (limit keep : Nat) (p0 : Dec) (h0 : List UInt8) (s : State) (x buf : List UInt8) (pos : Nat)
    (p2 : Dec) (s1 : State) (h2 : List UInt8) (r2 : Nat) (buf2 x2 : List UInt8) : Prop where
  core : Core P p2 s1 h2 r2
  small : r2 < 274
  full : r2 ≠ 0 → p2.dicPos = limit
  lagging : Lagging p2 s1 buf2 x2
  frame : Frame p2 p0
  grows : Grows p0 h0 p2 h2
  more : pos < p2.dicPos
  le : p2.dicPos ≤ limit
  buf : buf2.length ≤ buf.length
  step : s.step P x = .next s1 x2

theorem Grows.push {p0 p p2 : Dec} {h0 h new : List UInt8} (G : Grows p0 h0 p h) (hp : p2.dicPos = p.dicPos + new.length) (hf : ∀ i < p.dicPos, p2.dic i = p.dic i) :
    Grows p0 h0 p2 (new ++ h) := by
  obtain ⟨n, e, hn⟩ := G.new
  refine ⟨⟨new ++ n, by rw [e, List.append_assoc], by rw [hp, hn, List.length_append]; omega⟩, fun i hi => ?_⟩
  rw [hf i (by omega)]
  exact G.same i hi

/-- After a copy. -/
theorem copy_after {P : Params} {limit keep : Nat} {p0 : Dec} {h0 : List UInt8} {p : Dec} {s s1 : State} {x buf : List UInt8} {m' : Rc} {c : Coder} {probs : Ctx → Nat}
    {st r0 r1 r2 r3 len : Nat} (hP : POk P) (hlim : limit ≤ P.dicSize) (C : Core P p s s.past 0) (F : Frame p p0) (G : Grows p0 h0 p s.past) (hpos : p.dicPos < limit)
    (hm : m'.Raw ∧ m'.coder.normalize = some c ∧ Stored (2 ^ (P.lc + P.lp)) 0 probs m'.probs ∧ m'.buf.length ≤ buf.length)
    (hlen1 : 2 ≤ len) (hlen2 : len < 274) (hr0 : r0 ≤ s.past.length)
    (hstep : s.step P x = .next s1 c.rest)
    (hs1 : s1 = { past := repeatPast r0 len s.past, state := st, rep0 := r0, rep1 := r1, rep2 := r2, rep3 := r3, probs := probs, range := c.range, code := c.code }) :
    ∃ p2 h2 rem, copyMatch { p with range := m'.range, code := m'.code, probs := m'.probs, state := st, rep0 := r0, rep1 := r1, rep2 := r2, rep3 := r3 } limit len = .ok (some (p2, rem)) ∧
      After P limit keep p0 h0 s x buf p.dicPos p2 s1 h2 rem m'.buf c.rest := by
  obtain ⟨hraw, hnorm, hst, hbuf⟩ := hm
  obtain ⟨W1, _⟩ := step_wf C.wf hP hstep
  have hd := C.dict
  have hD : Dict { p with range := m'.range, code := m'.code, probs := m'.probs, state := st, rep0 := r0, rep1 := r1, rep2 := r2, rep3 := r3 } s.past :=
    ⟨hd.size, hd.low, hd.high, hd.win, hd.count, hd.check⟩
  have hprop : p.prop.dicSize = P.dicSize := by rw [C.prop]
  have g0 : 1 ≤ r0 ∧ r0 ≤ P.dicSize := by
    have := W1.rep0
    rw [hs1] at this
    exact ⟨this.1, this.2.1⟩
  obtain ⟨cur, dic', hc, e, D', hf⟩ := copyMatch_ok hD (limit := limit) (len := len) hpos (by show limit ≤ p.prop.dicSize; omega) (by omega) g0.1
    (by show r0 ≤ p.prop.dicSize; omega) hr0
  have hc' : cur = min (limit - p.dicPos) len := hc
  refine ⟨_, repeatPast r0 cur s.past, len - cur, e, ?_⟩
  obtain ⟨new, en, hn⟩ := repeatPast_suffix r0 cur s.past
  refine ⟨⟨D', ?_, ?_, ?_, ?_, ?_, ?_, ?_, C.prop, C.nprobs, ?_, W1⟩, by omega, ?_, ⟨?_, ?_⟩, ⟨F.check, F.flush, F.init, F.temp, F.prop, F.size⟩, ?_, ?_, ?_, hbuf, hstep⟩
  · rw [hs1]
    show repeatPast r0 len s.past = repeatPast r0 (len - cur) (repeatPast r0 cur s.past)
    rw [← repeatPast_add]
    congr 1
    omega
  · intro _
    rw [hs1, repeatPast_length]
    show r0 ≤ _
    omega
  · rw [hs1]
  · rw [hs1]
  · rw [hs1]
  · rw [hs1]
  · rw [hs1]
  · rw [hs1]
    exact hst
  · intro hne
    show p.dicPos + cur = limit
    omega
  · exact hraw
  · rw [hs1]
    exact hnorm
  · rw [en]
    refine G.push ?_ hf
    show p.dicPos + cur = p.dicPos + new.length
    omega
  · show p.dicPos < p.dicPos + cur
    omega
  · show p.dicPos + cur ≤ limit
    omega

/-- After a byte. -/
theorem byte_after {P : Params} {limit keep : Nat} {p0 : Dec} {h0 : List UInt8} {p : Dec} {s s1 : State} {x buf : List UInt8} {m' : Rc} {c : Coder} {probs : Ctx → Nat}
    {st : Nat} {b : UInt8} (hP : POk P) (hlim : limit ≤ P.dicSize) (C : Core P p s s.past 0) (F : Frame p p0) (G : Grows p0 h0 p s.past) (hpos : p.dicPos < limit)
    (hm : m'.Raw ∧ m'.coder.normalize = some c ∧ Stored (2 ^ (P.lc + P.lp)) 0 probs m'.probs ∧ m'.buf.length ≤ buf.length)
    (hstep : s.step P x = .next s1 c.rest)
    (hs1 : s1 = { past := b :: s.past, state := st, rep0 := s.rep0, rep1 := s.rep1, rep2 := s.rep2, rep3 := s.rep3, probs := probs, range := c.range, code := c.code }) :
    ∃ p2, writeByte { p with range := m'.range, code := m'.code, probs := m'.probs } b st = .ok p2 ∧
      After P limit keep p0 h0 s x buf p.dicPos p2 s1 (b :: s.past) 0 m'.buf c.rest := by
  obtain ⟨hraw, hnorm, hst, hbuf⟩ := hm
  obtain ⟨W1, _⟩ := step_wf C.wf hP hstep
  have hd := C.dict
  have hD : Dict { p with range := m'.range, code := m'.code, probs := m'.probs } s.past := ⟨hd.size, hd.low, hd.high, hd.win, hd.count, hd.check⟩
  have hsz : p.prop.dicSize = P.dicSize := by rw [C.prop]
  obtain ⟨dic', e, D', hf⟩ := writeByte_ok hD (by show p.dicPos < p.prop.dicSize; omega) b st
  refine ⟨_, e, ⟨D', ?_, fun h => absurd rfl h, ?_, ?_, ?_, ?_, ?_, C.prop, C.nprobs, ?_, W1⟩, by decide, fun h => absurd rfl h, ⟨?_, ?_⟩, ⟨F.check, F.flush, F.init, F.temp, F.prop, F.size⟩, ?_, ?_, ?_, hbuf, hstep⟩
  · rw [hs1]; rfl
  · rw [hs1]
  · rw [hs1]; exact C.rep0
  · rw [hs1]; exact C.rep1
  · rw [hs1]; exact C.rep2
  · rw [hs1]; exact C.rep3
  · rw [hs1]; exact hst
  · exact hraw
  · rw [hs1]; exact hnorm
  · exact G.push (new := [b]) rfl hf
  · show p.dicPos < p.dicPos + 1
    omega
  · show p.dicPos + 1 ≤ limit
    omega

theorem realLoop_ok {P : Params} (hP : POk P) {limit keep : Nat} {p0 : Dec} {h0 : List UInt8} (hlim : limit ≤ P.dicSize) : ∀ fuel {p : Dec} {s : State} {buf x : List UInt8},
    Core P p s s.past 0 → Lagging p s buf x → Frame p p0 → Grows p0 h0 p s.past → p.dicPos < limit → limit - p.dicPos < fuel →
    (20 ≤ keep ∨ buf.length ≤ keep) → (∃ r, run (s.parser P) s.probs ⟨s.range, s.code, x⟩ = some r) →
    RealResult P limit keep p0 h0 s x (realLoop limit keep p0 fuel p buf 0) := by
  intro fuel
  induction fuel with
  | zero => intros; omega
  | succ n ih =>
    intro p s buf x C L F G hpos hfuel hkeep ⟨⟨sym, probs, c⟩, hr⟩
    obtain ⟨act, m', hex, hrel, hm⟩ := sym_exec hP C L hr
    have hfine := run_result (parser_good C.wf hP) hr
    have hstep := step_eq hr
    have cont : ∀ {p2 : Dec} {s1 : State} {h2 : List UInt8} {r2 : Nat} {buf2 x2 : List UInt8}, After P limit keep p0 h0 s x buf p.dicPos p2 s1 h2 r2 buf2 x2 →
        RealResult P limit keep p0 h0 s x (if p2.dicPos < limit ∧ keep < buf2.length then realLoop limit keep p0 n p2 buf2 r2 else finishReal p2 buf2 r2) := by
      intro p2 s1 h2 r2 buf2 x2 A
      obtain ⟨u, hu, hs⟩ := step_next A.step
      have A1 := A.more
      have A2 := A.buf
      obtain ⟨w, hw⟩ := normalize_rest A.lagging.lag
      have hw : buf2 = w ++ x2 := hw
      have hp0 : p0.dicPos < p2.dicPos := by
        obtain ⟨_, _, e⟩ := G.new
        omega
      split
      · rename_i hc
        have hr2 : r2 = 0 := by
          by_contra hne
          have := A.full hne
          omega
        subst hr2
        have e : s1.past = h2 := A.core.past
        subst e
        refine RealResult.cons hu hs (ih A.core A.lagging A.frame A.grows hc.1 (by omega) (hkeep.imp id (by omega)) ?_)
        rcases hkeep with hk | hk
        · apply step_twenty A.core.wf hP
          have h1 : w.length ≤ 1 := by
            have := A.lagging.lag
            unfold Coder.normalize Rc.coder at this
            dsimp only at this
            rw [hw] at this
            split at this
            · rcases w with _ | ⟨b, w⟩
              · simp
              · simp only [List.cons_append, Option.some.injEq, Coder.mk.injEq] at this
                have hl := congrArg List.length this.2.2
                rw [List.length_append] at hl
                simp
                exact List.eq_nil_of_length_eq_zero (by omega)
            · simp only [Option.some.injEq, Coder.mk.injEq] at this
              have hl := congrArg List.length this.2.2
              rw [List.length_append] at hl
              omega
          have hl : buf2.length = w.length + x2.length := by rw [hw, List.length_append]
          omega
        · omega
      · rename_i hc
        rw [finishReal_ok A.lagging]
        have hr1 := Reads.cons hs .nil
        rw [List.append_nil] at hr1
        refine .run (u := u) (s' := s1) (h' := h2) hu hr1 ⟨⟨⟨A.core.dict.size, A.core.dict.low, A.core.dict.high, A.core.dict.win, A.core.dict.count, A.core.dict.check⟩,
          A.core.past, A.core.back, A.core.state, A.core.rep0, A.core.rep1, A.core.rep2, A.core.rep3, A.core.prop, A.core.nprobs, A.core.stored, A.core.wf⟩, A.small, rfl, rfl⟩
          ⟨A.frame.check, A.frame.flush, A.frame.init, A.frame.temp, A.frame.prop, A.frame.size⟩ ⟨A.grows.new, A.grows.same⟩ A.le A.full hp0 ?_ ?_
        case refine_2 =>
          intro _
          refine ⟨[], u, s, rfl, .nil, hs, ?_⟩
          obtain ⟨n0, e0, g0⟩ := G.new
          obtain ⟨n1, e1, g1⟩ := A.grows.new
          rw [e0, e1, List.length_append, List.length_append]
          omega
        intro hlt
        have hlt : p2.dicPos < limit := hlt
        have hl : buf2.length = w.length + x2.length := by rw [hw, List.length_append]
        omega
    rw [realLoop, hex, Res.bind_ok]
    dsimp only
    have badcase : act = .bad → RealResult P limit keep p0 h0 s x (.ok ({ p0 with probs := m'.probs, dic := p.dic }, m'.buf, false)) := by
      intro hb
      subst hb
      refine .bad (u := []) (v := x) rfl .nil (by rw [hstep]; exact corrupt_of_bad hrel) (Or.inl ?_) rfl G.same rfl
      obtain ⟨n0, e0, g0⟩ := G.new
      rw [e0, List.length_append]
      omega
    cases sym with
    | literal b =>
      simp only [SymRel, Res.ok.injEq] at hrel
      subst hrel
      have hm := hm.resolve_left (by simp)
      have hst12 := C.wf.state
      have hst := C.state
      have hlt : p.state < kLiteralNextStates.length := by simp [kLiteralNextStates]; omega
      dsimp only
      rw [dif_pos hlt]
      have hn := hstep
      simp only [State.apply, recode] at hn
      have hns := nextState p.state (by omega) hlt
      obtain ⟨p2, e, A⟩ := byte_after (keep := keep) (st := kLiteralNextStates[p.state]) (b := UInt8.ofNat (b + 256)) hP hlim C F G hpos hm hn (by rw [hns, ofNat_add_256]; simp only [hst]; rfl)
      rw [e, Res.bind_ok]
      exact cont A
    | copy len dist =>
      obtain ⟨hlen, hdist⟩ : len < 272 ∧ dist < 2 ^ 32 := hfine
      simp only [SymRel] at hrel
      by_cases h1 : dist = 2 ^ 32 - 1
      · rw [if_pos h1, Res.ok.injEq] at hrel
        subst hrel
        have hm := hm.resolve_left (by simp)
        have hn := hstep
        simp only [State.apply] at hn
        rw [if_pos h1] at hn
        obtain ⟨v, hv, hvt⟩ := step_ended hn
        dsimp only
        have LL : Lagging { p with range := m'.range, code := m'.code, probs := m'.probs } (recode s probs c) m'.buf c.rest := ⟨hm.1, hm.2.1⟩
        rw [finishReal_ok LL]
        have hd := C.dict
        refine .ended (u := []) (v := v) (s' := s) hv .nil hvt ⟨⟨hd.size, hd.low, hd.high, hd.win, hd.count, hd.check⟩, C.prop, rfl, by show 274 ≤ len + 274; omega⟩
          ⟨F.check, F.flush, F.init, F.temp, F.prop, F.size⟩ ⟨G.new, G.same⟩ (by show p.dicPos ≤ limit; omega) (Or.inl ?_)
        obtain ⟨n0, e0, g0⟩ := G.new
        rw [e0, List.length_append]
        omega
      · rw [if_neg h1] at hrel
        by_cases h2 : dist + 1 ≤ s.past.length ∧ dist + 1 ≤ P.dicSize
        · rw [if_pos h2, Res.ok.injEq] at hrel
          subst hrel
          have hm := hm.resolve_left (by simp)
          have hn := hstep
          simp only [State.apply] at hn
          rw [if_neg h1, if_pos (show dist + 1 ≤ (recode s probs c).past.length ∧ _ from h2)] at hn
          obtain ⟨p2, h2, rem, e, A⟩ := copy_after (keep := keep) hP hlim C F G hpos hm (len := len + 2) (by omega) (by omega) h2.1 hn rfl
          dsimp only
          refine Eq.mp (congrArg (RealResult P limit keep p0 h0 s x) (congrArg (fun z => z >>= _) e).symm) ?_
          rw [Res.bind_ok]
          exact cont A
        · rw [if_neg h2, Res.ok.injEq] at hrel
          subst hrel
          exact badcase rfl
    | shortRep =>
      simp only [SymRel] at hrel
      by_cases he : s.past = []
      · rw [if_pos he, Res.ok.injEq] at hrel
        subst hrel
        exact badcase rfl
      · rw [if_neg he, Res.ok.injEq] at hrel
        subst hrel
        have hm := hm.resolve_left (by simp)
        have hn := hstep
        simp only [State.apply] at hn
        rw [if_neg (show ¬ (recode s probs c).past = [] from he)] at hn
        simp only [recode] at hn
        have hl : 1 ≤ s.past.length := by
          rcases hq : s.past with _ | ⟨b, t⟩
          · exact absurd hq he
          · simp
        have hd := C.dict
        have hD : Dict { p with range := m'.range, code := m'.code, probs := m'.probs } s.past := ⟨hd.size, hd.low, hd.high, hd.win, hd.count, hd.check⟩
        have hsz : p.prop.dicSize = P.dicSize := by rw [C.prop]
        have hg := hD.get (d := p.rep0) (by rw [C.rep0]; exact C.wf.rep0.1) (by show p.rep0 ≤ p.prop.dicSize; rw [C.rep0, hsz]; exact C.wf.rep0.2.1)
          (by rw [C.rep0]; have := C.wf.rep0.2.2; omega)
        dsimp only
        rw [hg, Res.bind_ok]
        obtain ⟨p2, e, A⟩ := byte_after (keep := keep) (st := if p.state < 7 then 9 else 11) (b := s.past.getD (p.rep0 - 1) 0) hP hlim C F G hpos hm hn (by rw [C.rep0, C.state]; rfl)
        rw [e, Res.bind_ok]
        exact cont A
    | rep i len =>
      obtain ⟨hi, hlen⟩ : i < 4 ∧ len < 272 := hfine
      simp only [SymRel] at hrel
      by_cases he : s.past = []
      · rw [if_pos he, Res.ok.injEq] at hrel
        subst hrel
        exact badcase rfl
      · rw [if_neg he] at hrel
        have hn := hstep
        simp only [State.apply] at hn
        rw [if_neg (show ¬ (recode s probs c).past = [] from he)] at hn
        have hl : 1 ≤ s.past.length := by
          rcases hq : s.past with _ | ⟨b, t⟩
          · exact absurd hq he
          · simp
        have w0 := C.wf.rep0.2.2
        have w1 := C.wf.rep1.2.2
        have w2 := C.wf.rep2.2.2
        have w3 := C.wf.rep3.2.2
        obtain rfl | rfl | rfl | rfl : i = 0 ∨ i = 1 ∨ i = 2 ∨ i = 3 := by omega
        · simp only [Res.ok.injEq] at hrel
          subst hrel
          have hm := hm.resolve_left (by simp)
          obtain ⟨p2, h2, rem, e, A⟩ := copy_after (keep := keep) hP hlim C F G hpos hm (len := len + 2) (by omega) (by omega) (r0 := s.rep0) (by omega) hn rfl
          dsimp only
          refine Eq.mp (congrArg (RealResult P limit keep p0 h0 s x) (congrArg (fun z => z >>= _) e).symm) ?_
          rw [Res.bind_ok]
          exact cont A
        · simp only [Res.ok.injEq] at hrel
          subst hrel
          have hm := hm.resolve_left (by simp)
          obtain ⟨p2, h2, rem, e, A⟩ := copy_after (keep := keep) hP hlim C F G hpos hm (len := len + 2) (by omega) (by omega) (r0 := s.rep1) (by omega) hn rfl
          dsimp only
          refine Eq.mp (congrArg (RealResult P limit keep p0 h0 s x) (congrArg (fun z => z >>= _) e).symm) ?_
          rw [Res.bind_ok]
          exact cont A
        · simp only [Res.ok.injEq] at hrel
          subst hrel
          have hm := hm.resolve_left (by simp)
          obtain ⟨p2, h2, rem, e, A⟩ := copy_after (keep := keep) hP hlim C F G hpos hm (len := len + 2) (by omega) (by omega) (r0 := s.rep2) (by omega) hn rfl
          dsimp only
          refine Eq.mp (congrArg (RealResult P limit keep p0 h0 s x) (congrArg (fun z => z >>= _) e).symm) ?_
          rw [Res.bind_ok]
          exact cont A
        · simp only [Res.ok.injEq] at hrel
          subst hrel
          have hm := hm.resolve_left (by simp)
          obtain ⟨p2, h2, rem, e, A⟩ := copy_after (keep := keep) hP hlim C F G hpos hm (len := len + 2) (by omega) (by omega) (r0 := s.rep3) (by omega) hn rfl
          dsimp only
          refine Eq.mp (congrArg (RealResult P limit keep p0 h0 s x) (congrArg (fun z => z >>= _) e).symm) ?_
          rw [Res.bind_ok]
          exact cont A

end LzmaDec
end Strigi
