import Verif.Proofs.LzmaLoop

/-!
# `LzmaDec_WriteRem`, `LzmaDec_DecodeReal2` and `LzmaDec_TryDummy`
-/

namespace Strigi
namespace LzmaDec

open Lzma

/-- What the functions leave alone. -/
structure Kept (p p0 : Dec) : Prop where
  flush : p.needFlush = p0.needFlush
  init : p.needInitState = p0.needInitState
  temp : p.temp = p0.temp
  size : p.dicBufSize = p0.dicBufSize

theorem Frame.kept {p p0 : Dec} (F : Frame p p0) : Kept p p0 := ⟨F.flush, F.init, F.temp, F.size⟩

/-- The decoder knows when the dictionary is full. -/
def Strict (P : Params) (p : Dec) (h : List UInt8) : Prop := p.checkDicSize = 0 → h.length < P.dicSize

theorem Grows.refl (p : Dec) (h : List UInt8) : Grows p h p h := ⟨⟨[], rfl, rfl⟩, fun _ _ => rfl⟩

theorem Grows.trans {p p1 p2 : Dec} {h h1 h2 : List UInt8} (G : Grows p h p1 h1) (G' : Grows p1 h1 p2 h2) : Grows p h p2 h2 := by
  obtain ⟨n, e, hn⟩ := G.new
  obtain ⟨n', e', hn'⟩ := G'.new
  refine ⟨⟨n' ++ n, by rw [e', e, List.append_assoc], by rw [hn', hn, List.length_append]; omega⟩, fun i hi => ?_⟩
  rw [G'.same i (by omega), G.same i hi]

theorem Grows.le {p p1 : Dec} {h h1 : List UInt8} (G : Grows p h p1 h1) : p.dicPos ≤ p1.dicPos := by
  obtain ⟨n, e, hn⟩ := G.new
  omega

/-- Write what is left of a match. -/
theorem writeRem_ok {P : Params} {p : Dec} {s : State} {h : List UInt8} {limit : Nat} (H : Paused P p s h) (S : Strict P p h) (h1 : p.dicPos ≤ limit) (h2 : limit ≤ P.dicSize) :
    ∃ p' h', writeRem p limit = .ok p' ∧ Paused P p' s h' ∧ Strict P p' h' ∧ Kept p' p ∧ Grows p h p' h' ∧ p'.dicPos ≤ limit ∧ (p'.remainLen ≠ 0 → p'.dicPos = limit) ∧
      (p.remainLen ≠ 0 → p.dicPos < limit → p.dicPos < p'.dicPos) := by
  unfold writeRem
  by_cases hr : p.remainLen ≠ 0 ∧ p.remainLen < kMatchSpecLenStart
  · rw [if_pos hr]
    have C := H.core
    have hprop : p.prop.dicSize = P.dicSize := by rw [C.prop]
    have hd := C.dict
    have hback := C.back hr.1
    have hrem := H.rem
    obtain ⟨len, hlen⟩ : ∃ len, (if limit - p.dicPos < p.remainLen then limit - p.dicPos else p.remainLen) = len := ⟨_, rfl⟩
    have hl1 : len ≤ p.remainLen ∧ len ≤ limit - p.dicPos ∧ (len < p.remainLen → len = limit - p.dicPos) := by
      rw [← hlen]
      split <;> omega
    dsimp only
    rw [hlen]
    clear hlen
    obtain ⟨check, hcheck⟩ : ∃ c, (if p.checkDicSize = 0 ∧ u32 (p.prop.dicSize - p.processedPos) ≤ len then p.prop.dicSize else p.checkDicSize) = c := ⟨_, rfl⟩
    rw [hcheck]
    obtain ⟨dic', e, W, hf⟩ := remLoop_ok (size := P.dicSize) len h
      ({ p with checkDicSize := check, processedPos := u32 (p.processedPos + len), remainLen := p.remainLen - len } : Dec)
      (by rw [← hprop]; exact hd.win) (by rw [← hprop]; exact hd.size) (by show 1 ≤ p.rep0; rw [C.rep0]; exact C.wf.rep0.1)
      (by show p.rep0 ≤ _; rw [C.rep0]; exact C.wf.rep0.2.1) (by show p.rep0 ≤ _; rw [C.rep0]; exact hback) (by show p.dicPos + len ≤ _; omega)
    have hrp : repeatPast p.rep0 len h = repeatPast s.rep0 len h := by rw [C.rep0]
    have A := hd.advance (n := len) (h' := repeatPast s.rep0 len h) (repeatPast_length _ _ _) (by omega) (by rw [hprop, ← hrp]; exact W)
    have hlen' := repeatPast_length s.rep0 len h
    have hsz := hd.high
    have hcnt := hd.count
    have hstr : (check = 0 ∧ h.length + len < P.dicSize ∧ p.dicPos = h.length) ∨ (check = P.dicSize ∧ P.dicSize ≤ h.length + len) := by
      rcases hd.check with ⟨c1, c2, c3⟩ | ⟨c1, c2⟩
      · have := S c1
        rw [Nat.mod_eq_of_lt (by omega)] at hcnt
        have hu : u32 ((p.prop.dicSize : Int) - (p.processedPos : Nat)) = P.dicSize - h.length := by
          rw [hcnt, hprop]
          unfold u32
          rw [Int.emod_eq_of_lt (by omega) (by omega)]
          omega
        rw [hu] at hcheck
        by_cases hx : P.dicSize - h.length ≤ len
        · rw [if_pos ⟨c1, hx⟩] at hcheck
          right
          omega
        · rw [if_neg (fun q => hx q.2)] at hcheck
          left
          omega
      · have := hd.low
        rw [if_neg (fun q => by have := q.1; omega)] at hcheck
        right
        omega
    rw [e]
    obtain ⟨new, en, hn⟩ := repeatPast_suffix s.rep0 len h
    refine ⟨_, repeatPast s.rep0 len h, rfl, ⟨⟨⟨A.size, A.low, A.high, A.win, A.count, ?_⟩, ?_, ?_, C.state, C.rep0, C.rep1, C.rep2, C.rep3, C.prop, C.nprobs, C.stored, C.wf⟩, ?_, H.range, H.code⟩,
      ?_, ⟨rfl, rfl, rfl, rfl⟩, ⟨⟨new, en, ?_⟩, hf⟩, ?_, ?_, ?_⟩
    · rw [hlen']
      show (check = 0 ∧ _ ∧ p.dicPos + len = _) ∨ (check = p.prop.dicSize ∧ _)
      rw [hprop]
      rcases hstr with hs | hs
      · left; exact ⟨hs.1, by omega, by omega⟩
      · right; exact ⟨hs.1, by omega⟩
    · rw [C.past]
      show _ = repeatPast s.rep0 (p.remainLen - len) (repeatPast s.rep0 len h)
      rw [← repeatPast_add]
      congr 1
      omega
    · intro _
      rw [hlen']
      omega
    · show p.remainLen - len < 274
      omega
    · intro h0
      rw [hlen']
      have h0 : check = 0 := h0
      have := hd.low
      omega
    · show p.dicPos + len = p.dicPos + new.length
      omega
    · show p.dicPos + len ≤ limit
      omega
    · show p.remainLen - len ≠ 0 → p.dicPos + len = limit
      omega
    · show p.remainLen ≠ 0 → p.dicPos < limit → p.dicPos < p.dicPos + len
      omega
  · rw [if_neg hr]
    have h0 : p.remainLen = 0 := by
      have := H.rem
      have : kMatchSpecLenStart = 274 := rfl
      omega
    exact ⟨p, h, rfl, H, S, ⟨rfl, rfl, rfl, rfl⟩, Grows.refl p h, h1, fun q => absurd h0 q, fun q => absurd h0 q⟩

/-- What `LzmaDec_DecodeReal2` can do with the input `x` in the state `s`. -/
inductive Real2Result (P : Params) (limit : Nat) (p0 : Dec) (h0 : List UInt8) (s : State) (x : List UInt8) : Res (Dec × List UInt8 × Bool) → Prop
  | run {p' buf' u s' h'} : x = u ++ buf' → Reads P s u s' → Paused P p' s' h' → Strict P p' h' → Kept p' p0 → Grows p0 h0 p' h' → p'.dicPos ≤ limit →
      (p'.remainLen ≠ 0 → p'.dicPos = limit ∧ Pred P s u s' h'.length) → p0.dicPos < p'.dicPos → Real2Result P limit p0 h0 s x (.ok (p', buf', true))
  | ended {p' buf' u v s' c} : x = u ++ v ++ buf' → Reads P s u s' → (∀ t, s'.step P (v ++ t) = .ended c t) → Over P p' s'.past c → p'.remainLen = 274 →
      Strict P p' s'.past → Kept p' p0 → Grows p0 h0 p' s'.past → p'.dicPos ≤ limit → Room limit p0 h0 s' → Real2Result P limit p0 h0 s x (.ok (p', buf', true))
  | bad {p' buf' u v s'} : x = u ++ v → Reads P s u s' → ((s'.step P v = .corrupt ∧ Room limit p0 h0 s') ∨ (limit ≤ p0.dicPos ∧ u = [] ∧ s' = s ∧ ∃ s'' w, s.step P v = .next s'' w)) →
      p'.dicPos = p0.dicPos → (∀ i < p0.dicPos, p'.dic i = p0.dic i) → p'.dicBufSize = p0.dicBufSize → Real2Result P limit p0 h0 s x (.ok (p', buf', false))

/-- After `LzmaDec_DecodeReal` the size of the dictionary is updated. -/
theorem Dict.full {p : Dec} {h : List UInt8} (D : Dict p h) :
    Dict (if p.processedPos ≥ p.prop.dicSize then { p with checkDicSize := p.prop.dicSize } else p) h ∧
      Strict p.prop (if p.processedPos ≥ p.prop.dicSize then { p with checkDicSize := p.prop.dicSize } else p) h := by
  have h1 := D.count
  have h2 := D.high
  have h3 := D.low
  have hm : h.length % 2 ^ 32 ≤ h.length := Nat.mod_le _ _
  split
  · refine ⟨⟨D.size, D.low, D.high, D.win, D.count, Or.inr ⟨rfl, ?_⟩⟩, fun h0 => ?_⟩
    · show p.prop.dicSize ≤ h.length
      omega
    · have h0 : p.prop.dicSize = 0 := h0
      omega
  · refine ⟨D, fun h0 => ?_⟩
    rcases D.check with ⟨c1, c2, c3⟩ | ⟨c1, c2⟩
    · rw [Nat.mod_eq_of_lt (by omega)] at h1
      omega
    · omega

theorem Paused.lagging {P : Params} {p : Dec} {s : State} {h : List UInt8} (H : Paused P p s h) (x : List UInt8) : Lagging p s x x := by
  have hn : 2 ^ 24 ≤ s.range ∧ s.range < 2 ^ 32 ∧ s.code < 2 ^ 32 := H.core.wf.coder
  refine ⟨⟨?_, ?_, ?_⟩, ?_⟩
  · show 253952 ≤ p.range
    rw [H.range]; omega
  · show p.range < 2 ^ 32
    rw [H.range]; omega
  · show p.code < 2 ^ 32
    rw [H.code]; omega
  · unfold Rc.coder Coder.normalize
    dsimp only
    rw [if_neg (by rw [H.range]; omega), H.range, H.code]

/-- The limit for `LzmaDec_DecodeReal` is that of `LzmaDec_DecodeReal2`. -/
theorem limit2_eq {P : Params} {p : Dec} {s : State} {h : List UInt8} {limit : Nat} (H : Paused P p s h) (h2 : limit ≤ P.dicSize) :
    (if p.checkDicSize = 0 then
        let rem := u32 (p.prop.dicSize - p.processedPos)
        if limit - p.dicPos > rem then p.dicPos + rem else limit
      else limit) = limit := by
  have hprop : p.prop.dicSize = P.dicSize := by rw [H.core.prop]
  have hd := H.core.dict
  split
  · rename_i h0
    rcases hd.check with ⟨c1, c2, c3⟩ | ⟨c1, c2⟩
    · have hcnt := hd.count
      have := hd.high
      rw [Nat.mod_eq_of_lt (by omega)] at hcnt
      have hu : u32 ((p.prop.dicSize : Int) - (p.processedPos : Nat)) = P.dicSize - h.length := by
        rw [hcnt, hprop]
        unfold u32
        rw [Int.emod_eq_of_lt (by omega) (by omega)]
        omega
      rw [hu]
      dsimp only
      rw [if_neg (by omega)]
    · have := hd.low
      omega
  · rfl

theorem Core.setCheck {P : Params} {p : Dec} {s : State} {h : List UInt8} {r : Nat} (C : Core P p s h r) :
    Core P (if p.processedPos ≥ p.prop.dicSize then { p with checkDicSize := p.prop.dicSize } else p) s h r := by
  have D := C.dict.full.1
  split
  · rename_i hc
    rw [if_pos hc] at D
    exact ⟨D, C.past, C.back, C.state, C.rep0, C.rep1, C.rep2, C.rep3, C.prop, C.nprobs, C.stored, C.wf⟩
  · exact C

theorem real2_of {P : Params} {p : Dec} {s : State} {h x : List UInt8} {limit keep n : Nat} (H : Paused P p s h) (h2 : limit ≤ P.dicSize)
    (hR : RealResult P limit keep p h s x (decodeReal p limit keep x) ∨
      ∃ p' buf', decodeReal p limit keep x = .ok (p', buf', false) ∧ limit ≤ p.dicPos ∧ (∃ s'' w, s.step P x = .next s'' w) ∧ p'.dicPos = p.dicPos ∧ (∀ i < p.dicPos, p'.dic i = p.dic i) ∧
        p'.dicBufSize = p.dicBufSize) :
    Real2Result P limit p h s x (real2Loop limit keep (n + 1) p x) := by
  rw [real2Loop]
  dsimp only
  have hl2 := limit2_eq H h2
  dsimp only at hl2
  rw [hl2]
  rcases hR with hR | ⟨p', buf', e, g1, g2, g3, g4, g5⟩
  · generalize decodeReal p limit keep x = r at hR
    cases hR with
    | @run p' buf' u s' h' a b c d e f g i j jj =>
      rw [Res.bind_ok]
      dsimp only
      rw [if_pos rfl]
      obtain ⟨q, hq⟩ : ∃ q, (if p'.processedPos ≥ p'.prop.dicSize then { p' with checkDicSize := p'.prop.dicSize } else p') = q := ⟨_, rfl⟩
      have C := c.core.setCheck
      have S := c.core.dict.full.2
      have hsame : q.dicPos = p'.dicPos ∧ q.remainLen = p'.remainLen ∧ q.range = p'.range ∧ q.code = p'.code ∧ q.dic = p'.dic ∧ Kept q p' := by
        rw [← hq]
        split <;> exact ⟨rfl, rfl, rfl, rfl, rfl, ⟨rfl, rfl, rfl, rfl⟩⟩
      rw [hq] at C S ⊢
      rw [c.core.prop] at S
      obtain ⟨i1, i2, i3, i4, i5, i6⟩ := hsame
      have HQ : Paused P q s' h' := ⟨by rw [i2]; exact C, by rw [i2]; exact c.rem, by rw [i3]; exact c.range, by rw [i4]; exact c.code⟩
      obtain ⟨p2, hh, ew, W1, W2, W3, W4, W5, W6, W7⟩ := writeRem_ok HQ S (by omega) h2
      rw [ew, Res.bind_ok]
      have hrem := W1.rem
      have hk : kMatchSpecLenStart = 274 := rfl
      have hG : Grows p h q h' := ⟨by rw [i1]; exact e.new, by rw [i5]; exact e.same⟩
      have hpos : p.dicPos < p2.dicPos := by
        have := W4.le
        omega
      have hpred : p2.remainLen ≠ 0 → Pred P s u s' hh.length := by
        intro z
        have h0 : p'.remainLen ≠ 0 := by
          intro h0
          have ew' : writeRem q limit = .ok q := by
            unfold writeRem
            rw [if_neg (by omega)]
          rw [ew'] at ew
          cases ew
          omega
        obtain ⟨u1, w, s1, a1, a2, a3, a4⟩ := jj h0
        refine ⟨u1, w, s1, a1, a2, a3, ?_⟩
        obtain ⟨n, en, _⟩ := W4.new
        rw [en, List.length_append]
        omega
      have hb : ¬ (p2.dicPos < limit ∧ keep < buf'.length ∧ p2.remainLen < kMatchSpecLenStart) := by
        rintro ⟨b1, b2, _⟩
        have := W4.le
        have := j (by omega)
        omega
      rw [if_neg hb, if_neg (by omega)]
      exact .run a b W1 W2 ⟨by rw [W3.flush, i6.flush, d.flush], by rw [W3.init, i6.init, d.init], by rw [W3.temp, i6.temp, d.temp], by rw [W3.size, i6.size, d.size]⟩ (hG.trans W4) W5 (fun z => ⟨W6 z, hpred z⟩) hpos
    | @ended p' buf' u v s' c a b d e f g i room =>
      rw [Res.bind_ok]
      dsimp only
      rw [if_pos rfl]
      obtain ⟨q, hq⟩ : ∃ q, (if p'.processedPos ≥ p'.prop.dicSize then { p' with checkDicSize := p'.prop.dicSize } else p') = q := ⟨_, rfl⟩
      obtain ⟨D, S⟩ := e.dict.full
      have hsame : q.dicPos = p'.dicPos ∧ q.remainLen = p'.remainLen ∧ q.code = p'.code ∧ q.dic = p'.dic ∧ q.prop = p'.prop ∧ Kept q p' := by
        rw [← hq]
        split <;> exact ⟨rfl, rfl, rfl, rfl, rfl, ⟨rfl, rfl, rfl, rfl⟩⟩
      rw [hq] at D S ⊢
      rw [e.prop] at S
      obtain ⟨i1, i2, i4, i5, i6, i7⟩ := hsame
      have hrem := e.rem
      have hk : kMatchSpecLenStart = 274 := rfl
      have ew : writeRem q limit = .ok q := by
        unfold writeRem
        rw [if_neg (by omega)]
      rw [ew, Res.bind_ok]
      rw [if_neg (by omega)]
      have h274 : (if q.remainLen > kMatchSpecLenStart then kMatchSpecLenStart else q.remainLen) = 274 := by
        split <;> omega
      rw [h274]
      refine .ended a b d ⟨⟨D.size, D.low, D.high, D.win, D.count, D.check⟩, by show q.prop = P; rw [i6, e.prop], by show q.code = c; rw [i4]; exact e.code, Nat.le_refl _⟩ rfl S
        ⟨by show q.needFlush = _; rw [i7.flush, f.flush], by show q.needInitState = _; rw [i7.init, f.init], by show q.temp = _; rw [i7.temp, f.temp], by show q.dicBufSize = _; rw [i7.size, f.size]⟩ ⟨?_, ?_⟩ ?_ room
      · obtain ⟨new, e1, e2⟩ := g.new
        exact ⟨new, e1, by show q.dicPos = _; rw [i1]; exact e2⟩
      · show ∀ i < p.dicPos, q.dic i = p.dic i
        rw [i5]
        exact g.same
      · show q.dicPos ≤ limit
        omega
    | @bad p' buf' u v s' a b c r d e f =>
      rw [Res.bind_ok]
      dsimp only
      exact .bad a b (Or.inl ⟨c, r⟩) d e f
  · rw [e, Res.bind_ok]
    dsimp only
    exact .bad (u := []) (v := x) (s' := s) rfl .nil (Or.inr ⟨g1, rfl, rfl, g2⟩) g3 g4 g5

/-- `LzmaDec_DecodeReal2`. -/
theorem real2_ok {P : Params} (hP : POk P) {p : Dec} {s : State} {x : List UInt8} {limit keep : Nat} (H : Paused P p s s.past) (hr : p.remainLen = 0) (h1 : p.dicPos < limit) (h2 : limit ≤ P.dicSize)
    (hk : 20 ≤ keep ∨ x.length ≤ keep) (hrun : ∃ r, run (s.parser P) s.probs ⟨s.range, s.code, x⟩ = some r) :
    Real2Result P limit p s.past s x (decodeReal2 p limit keep x) := by
  have C := H.core
  rw [hr] at C
  refine real2_of H h2 (Or.inl ?_)
  exact realLoop_ok hP h2 _ C (H.lagging x) ⟨rfl, rfl, rfl, rfl, rfl, rfl⟩ (Grows.refl p s.past) h1 (by omega) hk hrun

/-- `LzmaDec_DecodeReal2` when there is no room: if the next symbol is a match, it must be the end mark. -/
theorem real2_end {P : Params} (hP : POk P) {p : Dec} {s : State} {x : List UInt8} {limit keep : Nat} (H : Paused P p s s.past) (hr : p.remainLen = 0) (h1 : p.dicPos = limit) (h2 : limit ≤ P.dicSize)
    {len dist : Nat} {probs : Ctx → Nat} {c : Coder} (hrun : run (s.parser P) s.probs ⟨s.range, s.code, x⟩ = some (.copy len dist, probs, c)) :
    Real2Result P limit p s.past s x (decodeReal2 p limit keep x) := by
  have C := H.core
  rw [hr] at C
  refine real2_of H h2 ?_
  obtain ⟨act, m', hex, hrel, hm⟩ := sym_exec hP C (H.lagging x) hrun
  have hstep := step_eq hrun
  unfold decodeReal
  rw [realLoop, hex, Res.bind_ok]
  dsimp only
  have hrel0 := hrel
  simp only [SymRel] at hrel
  by_cases e1 : dist = 2 ^ 32 - 1
  · rw [if_pos e1, Res.ok.injEq] at hrel
    subst hrel
    have hm := hm.resolve_left (by simp)
    have hn := hstep
    simp only [State.apply] at hn
    rw [if_pos e1] at hn
    obtain ⟨v, hv, hvt⟩ := step_ended hn
    dsimp only
    have LL : Lagging { p with range := m'.range, code := m'.code, probs := m'.probs } (recode s probs c) m'.buf c.rest := ⟨hm.1, hm.2.1⟩
    rw [finishReal_ok LL]
    have hd := C.dict
    left
    exact .ended (u := []) (v := v) (s' := s) hv .nil hvt ⟨⟨hd.size, hd.low, hd.high, hd.win, hd.count, hd.check⟩, C.prop, rfl, by show 274 ≤ len + 274; omega⟩
      ⟨rfl, rfl, rfl, rfl, rfl, rfl⟩ ⟨⟨[], rfl, rfl⟩, fun _ _ => rfl⟩ (by show p.dicPos ≤ limit; omega) (Or.inr ⟨h1, rfl⟩)
  · rw [if_neg e1] at hrel
    by_cases e2 : dist + 1 ≤ s.past.length ∧ dist + 1 ≤ P.dicSize
    · rw [if_pos e2, Res.ok.injEq] at hrel
      subst hrel
      right
      have hn := hstep
      simp only [State.apply] at hn
      rw [if_neg e1, if_pos (show dist + 1 ≤ (recode s probs c).past.length ∧ _ from e2)] at hn
      dsimp only
      unfold copyMatch
      rw [if_pos h1.symm, Res.bind_ok]
      exact ⟨_, _, rfl, by omega, ⟨_, _, hn⟩, rfl, fun _ _ => rfl, rfl⟩
    · rw [if_neg e2, Res.ok.injEq] at hrel
      subst hrel
      left
      exact .bad (u := []) (v := x) rfl .nil (by rw [hstep]; exact corrupt_of_bad hrel0) (Or.inr ⟨h1, rfl⟩) rfl (fun _ _ => rfl) rfl

/-- The trial tells whether the input is sufficient for the next symbol, and what kind of symbol it is. -/
theorem tryDummy_ok {P : Params} (hP : POk P) {p : Dec} {s : State} {h : List UInt8} (H : Paused P p s h) (hr : p.remainLen = 0) (x : List UInt8) :
    (tryDummy p x = .ok none ∧ run (s.parser P) s.probs ⟨s.range, s.code, x⟩ = none) ∨
      ∃ d r, tryDummy p x = .ok (some d) ∧ run (s.parser P) s.probs ⟨s.range, s.code, x⟩ = some r ∧ DummyRel r.1 (.ok d) := by
  have C := H.core
  rw [hr] at C
  have L := H.lagging x
  have hrel : ∀ a r, DummyRel a r → ∃ d, r = .ok d := by
    intro a r h
    cases a <;> exact ⟨_, h⟩
  have T := check_run hrel (dummy_matches C.agrees C.wf C.prop hP) (parser_good C.wf hP) C.wf.probs C.stored L.raw
  rw [L.lag, Option.bind_some] at T
  unfold tryDummy
  rw [C.nprobs]
  generalize execCheck (1846 + 768 * 2 ^ (P.lc + P.lp)) (dummySymbol p) ⟨p.range, p.code, x, p.probs⟩ = res at T
  rcases hrun : run (s.parser P) s.probs ⟨s.range, s.code, x⟩ with _ | ⟨sym, probs, c⟩
  · rw [hrun] at T
    left
    refine ⟨?_, rfl⟩
    rcases T with rfl | ⟨d, m, rfl, hn⟩
    · rfl
    · rw [Res.bind_ok]
      dsimp only
      rw [hn]
  · rw [hrun] at T
    obtain ⟨d, m, rfl, h2, h3⟩ := T
    right
    refine ⟨d, _, ?_, rfl, h2⟩
    rw [Res.bind_ok]
    dsimp only
    rcases hn : normalizeCheck m with _ | m2
    · exact absurd hn h3
    · rfl

end LzmaDec
end Strigi
