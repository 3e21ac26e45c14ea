import Verif.Proofs.LzmaDict

/-!
# `LzmaDec_DecodeReal` carries out the symbols of the format
-/

namespace Strigi
namespace LzmaDec

open Lzma

/-! ## Facts about the format -/

theorem parser_good {P : Params} {s : State} (W : Wf P s) (hP : POk P) :
    Good (Ctx.Valid (2 ^ (P.lc + P.lp))) Symbol.Fine 3000 22 26 0 (s.parser P) := by
  unfold State.parser
  refine symbol_good W.state ?_ ?_
  · have : s.past.length % 2 ^ P.pb < 2 ^ P.pb := Nat.mod_lt _ (Nat.two_pow_pos _)
    have : 2 ^ P.pb ≤ 2 ^ 4 := Nat.pow_le_pow_right (by decide) hP.pb
    omega
  · have h1 : s.past.length % 2 ^ P.lp + 1 ≤ 2 ^ P.lp := Nat.mod_lt _ (Nat.two_pow_pos _)
    have h2 : (s.past.headD 0).toNat < 256 := (s.past.headD 0).toNat_lt
    have h3 : (s.past.headD 0).toNat / 2 ^ (8 - P.lc) < 2 ^ P.lc := by
      rw [Nat.div_lt_iff_lt_mul (Nat.two_pow_pos _), ← Nat.pow_add, show P.lc + (8 - P.lc) = 8 by have := hP.lc; omega]
      exact h2
    have h4 : (s.past.length % 2 ^ P.lp + 1) * 2 ^ P.lc ≤ 2 ^ P.lp * 2 ^ P.lc := Nat.mul_le_mul_right _ h1
    rw [Nat.pow_add, Nat.mul_comm (2 ^ P.lc)]
    rw [Nat.add_mul] at h4
    omega

/-- The state with a new range coder and new probabilities. -/
def recode (s : State) (probs : Ctx → Nat) (c : Coder) : State := { s with probs := probs, range := c.range, code := c.code }

theorem step_eq {P : Params} {s : State} {x : List UInt8} {sym : Symbol} {probs : Ctx → Nat} {c : Coder}
    (h : run (s.parser P) s.probs ⟨s.range, s.code, x⟩ = some (sym, probs, c)) : s.step P x = State.apply P (recode s probs c) c.rest sym := by
  unfold State.step
  rw [h]
  rfl

theorem normal_any {r c : Nat} {x y : List UInt8} (h : Coder.Normal ⟨r, c, x⟩) : Coder.Normal ⟨r, c, y⟩ := h

/-- The result of `State.apply` does not depend on the rest. -/
def setRest (t : List UInt8) : Outcome → Outcome
  | .more => .more
  | .corrupt => .corrupt
  | .ended c _ => .ended c t
  | .next s _ => .next s t

theorem apply_rest (P : Params) (s : State) (x t : List UInt8) (sym : Symbol) : State.apply P s t sym = setRest t (State.apply P s x sym) := by
  cases sym <;> simp only [State.apply] <;> (repeat' split) <;> rfl

/-- A symbol consumes a prefix of the input and does not depend on what comes after it. -/
theorem step_prefix {P : Params} {s : State} {x : List UInt8} (h : s.step P x ≠ .more) :
    ∃ u rest, x = u ++ rest ∧ s.step P x = setRest rest (s.step P x) ∧ ∀ t, s.step P (u ++ t) = setRest t (s.step P x) := by
  rcases hr : run (s.parser P) s.probs ⟨s.range, s.code, x⟩ with _ | ⟨sym, probs, c⟩
  · exfalso
    apply h
    unfold State.step
    rw [hr]
  · obtain ⟨u, hu, ht⟩ := run_prefix hr
    have e := step_eq hr
    refine ⟨u, c.rest, hu, ?_, fun t => ?_⟩
    · rw [e, ← apply_rest]
    · rw [step_eq (ht t), e]
      exact apply_rest P (recode s probs c) c.rest t sym

/-- What the states after a symbol look like. -/
theorem step_wf {P : Params} {s s' : State} (W : Wf P s) (hP : POk P) {x x' : List UInt8} (h : s.step P x = .next s' x') :
    Wf P s' ∧ ∃ new, s'.past = new ++ s.past ∧ 1 ≤ new.length := by
  rcases hr : run (s.parser P) s.probs ⟨s.range, s.code, x⟩ with _ | ⟨sym, probs, c⟩
  · unfold State.step at h
    rw [hr] at h
    simp at h
  · obtain ⟨hb, hn, _, _⟩ := run_some W.probs (normal_any W.coder) hr
    rw [step_eq hr] at h
    have grow : ∀ {st r0 r1 r2 r3 : Nat} {new : List UInt8}, st < 12 → 1 ≤ new.length →
        (1 ≤ r0 ∧ r0 ≤ P.dicSize ∧ r0 ≤ max 1 s.past.length) → (1 ≤ r1 ∧ r1 ≤ P.dicSize ∧ r1 ≤ max 1 s.past.length) →
        (1 ≤ r2 ∧ r2 ≤ P.dicSize ∧ r2 ≤ max 1 s.past.length) → (1 ≤ r3 ∧ r3 ≤ P.dicSize ∧ r3 ≤ max 1 s.past.length) →
        Wf P { past := new ++ s.past, state := st, rep0 := r0, rep1 := r1, rep2 := r2, rep3 := r3, probs := probs, range := c.range, code := c.code } ∧
          ∃ new', new ++ s.past = new' ++ s.past ∧ 1 ≤ new'.length := by
      intro st r0 r1 r2 r3 new h0 h1 g0 g1 g2 g3
      have hl : (new ++ s.past).length = new.length + s.past.length := List.length_append
      refine ⟨⟨h0, ?_, ?_, ?_, ?_, ?_, hb, hn⟩, new, rfl, h1⟩
      · simp only [hl]; omega
      · simp only [hl]; omega
      · simp only [hl]; omega
      · simp only [hl]; omega
      · intro _ e
        have := congrArg List.length e
        simp only [hl, List.length_nil] at this
        omega
    have growRep : ∀ {st r0 r1 r2 r3 d n : Nat}, st < 12 → 1 ≤ n →
        (1 ≤ r0 ∧ r0 ≤ P.dicSize ∧ r0 ≤ max 1 s.past.length) → (1 ≤ r1 ∧ r1 ≤ P.dicSize ∧ r1 ≤ max 1 s.past.length) →
        (1 ≤ r2 ∧ r2 ≤ P.dicSize ∧ r2 ≤ max 1 s.past.length) → (1 ≤ r3 ∧ r3 ≤ P.dicSize ∧ r3 ≤ max 1 s.past.length) →
        Wf P { past := repeatPast d n s.past, state := st, rep0 := r0, rep1 := r1, rep2 := r2, rep3 := r3, probs := probs, range := c.range, code := c.code } ∧
          ∃ new', repeatPast d n s.past = new' ++ s.past ∧ 1 ≤ new'.length := by
      intro st r0 r1 r2 r3 d n h0 h1 g0 g1 g2 g3
      obtain ⟨new, e, hl⟩ := repeatPast_suffix d n s.past
      rw [e]
      exact grow h0 (by omega) g0 g1 g2 g3
    have hst := W.state
    cases sym with
    | literal b =>
      simp only [State.apply, Outcome.next.injEq] at h
      rw [← h.1]
      have h12 : (if s.state < 4 then 0 else if s.state < 10 then s.state - 3 else s.state - 6) < 12 := by split <;> (try split) <;> omega
      exact grow (new := [UInt8.ofNat b]) h12 (by simp) W.rep0 W.rep1 W.rep2 W.rep3
    | copy len dist =>
      simp only [State.apply] at h
      split at h
      · simp at h
      · split at h
        · rename_i hd
          simp only [Outcome.next.injEq] at h
          rw [← h.1]
          have hd' : dist + 1 ≤ s.past.length ∧ dist + 1 ≤ P.dicSize := hd
          exact growRep (by split <;> omega) (by omega) (by omega) W.rep0 W.rep1 W.rep2
        · simp at h
    | shortRep =>
      simp only [State.apply] at h
      split at h
      · simp at h
      · simp only [Outcome.next.injEq] at h
        rw [← h.1]
        exact growRep (by split <;> omega) (by omega) W.rep0 W.rep1 W.rep2 W.rep3
    | rep i len =>
      simp only [State.apply] at h
      split at h
      · simp at h
      · rw [Outcome.next.injEq] at h
        rw [← h.1]
        split
        · exact growRep (by split <;> omega) (by omega) W.rep0 W.rep1 W.rep2 W.rep3
        · exact growRep (by split <;> omega) (by omega) W.rep1 W.rep0 W.rep2 W.rep3
        · exact growRep (by split <;> omega) (by omega) W.rep2 W.rep0 W.rep1 W.rep3
        · exact growRep (by split <;> omega) (by omega) W.rep3 W.rep0 W.rep1 W.rep2

/-- Twenty bytes are enough. -/
theorem step_twenty {P : Params} {s : State} (W : Wf P s) (hP : POk P) {x : List UInt8} (h : 20 ≤ x.length) :
    ∃ r, run (s.parser P) s.probs ⟨s.range, s.code, x⟩ = some r := run_twenty (parser_good W hP) W.probs (normal_any W.coder) h

/-- Some symbols, which take exactly the bytes `u`. -/
inductive Reads (P : Params) : State → List UInt8 → State → Prop
  | nil {s} : Reads P s [] s
  | cons {s s' s'' u v} : (∀ t, s.step P (u ++ t) = .next s' t) → Reads P s' v s'' → Reads P s (u ++ v) s''

theorem Reads.trans {P : Params} {s s' s'' : State} {u v : List UInt8} (h : Reads P s u s') (h' : Reads P s' v s'') : Reads P s (u ++ v) s'' := by
  induction h with
  | nil => exact h'
  | cons e _ ih => rw [List.append_assoc]; exact .cons e (ih h')

/-! ## `LzmaDec_DecodeReal` -/

/-- The decoder has the state `s`, of whose data the last `r` bytes, a repetition, have not been written yet: what has been written
is `h`. -/
structure Core (P : Params) (p : Dec) (s : State) (h : List UInt8) (r : Nat) : Prop where
  dict : Dict p h
  past : s.past = repeatPast s.rep0 r h
  back : r ≠ 0 → s.rep0 ≤ h.length
  state : p.state = s.state
  rep0 : p.rep0 = s.rep0
  rep1 : p.rep1 = s.rep1
  rep2 : p.rep2 = s.rep2
  rep3 : p.rep3 = s.rep3
  prop : p.prop = P
  nprobs : p.nprobs = 1846 + 768 * 2 ^ (P.lc + P.lp)
  stored : Stored (2 ^ (P.lc + P.lp)) 0 s.probs p.probs
  wf : Wf P s

/-- The range coder of the decoder with the bytes `buf` becomes that of `s` with the bytes `x` when it is normalised. -/
structure Lagging (p : Dec) (s : State) (buf x : List UInt8) : Prop where
  raw : Rc.Raw ⟨p.range, p.code, buf, p.probs⟩
  lag : (Rc.coder ⟨p.range, p.code, buf, p.probs⟩).normalize = some ⟨s.range, s.code, x⟩

/-- What `LzmaDec_DecodeReal` leaves alone. -/
structure Frame (p p0 : Dec) : Prop where
  check : p.checkDicSize = p0.checkDicSize
  flush : p.needFlush = p0.needFlush
  init : p.needInitState = p0.needInitState
  temp : p.temp = p0.temp
  prop : p.prop = p0.prop
  size : p.dicBufSize = p0.dicBufSize

/-- From `p0` and `h0` on the bytes up to `p` and `h` have been written. -/
structure Grows (p0 : Dec) (h0 : List UInt8) (p : Dec) (h : List UInt8) : Prop where
  new : ∃ new, h = new ++ h0 ∧ p.dicPos = p0.dicPos + new.length
  same : ∀ i < p0.dicPos, p.dic i = p0.dic i

/-- Between two calls. -/
structure Paused (P : Params) (p : Dec) (s : State) (h : List UInt8) : Prop where
  core : Core P p s h p.remainLen
  rem : p.remainLen < 274
  range : p.range = s.range
  code : p.code = s.code

/-- After the end mark. -/
structure Over (P : Params) (p : Dec) (h : List UInt8) (code : Nat) : Prop where
  dict : Dict p h
  prop : p.prop = P
  code : p.code = code
  rem : 274 ≤ p.remainLen

/-- The last of the symbols `u` leads from less than `n` bytes to the state `s'`. -/
def Pred (P : Params) (s : State) (u : List UInt8) (s' : State) (n : Nat) : Prop :=
  ∃ u1 w s1, u = u1 ++ w ∧ Reads P s u1 s1 ∧ (∀ t, s1.step P (w ++ t) = .next s' t) ∧ s1.past.length < n

theorem Pred.cons {P : Params} {s s1 s' : State} {u v : List UInt8} {n : Nat} (h : Pred P s1 v s' n) (hr : Reads P s u s1) : Pred P s (u ++ v) s' n := by
  obtain ⟨u1, w, s2, e, h1, h2, h3⟩ := h
  exact ⟨u ++ u1, w, s2, by rw [e, List.append_assoc], hr.trans h1, h2, h3⟩

/-- There was room for a symbol when the state `s'` was reached; or there was none from the beginning. -/
def Room (limit : Nat) (p0 : Dec) (h0 : List UInt8) (s' : State) : Prop :=
  s'.past.length + p0.dicPos < h0.length + limit ∨ (p0.dicPos = limit ∧ s'.past.length = h0.length)

/-- What `LzmaDec_DecodeReal` can do with the input `x` (of which it is supposed to leave `keep` bytes) in the state `s`. -/
inductive RealResult (P : Params) (limit keep : Nat) (p0 : Dec) (h0 : List UInt8) (s : State) (x : List UInt8) : Res (Dec × List UInt8 × Bool) → Prop
  | run {p' buf' u s' h'} : x = u ++ buf' → Reads P s u s' → Paused P p' s' h' → Frame p' p0 → Grows p0 h0 p' h' → p'.dicPos ≤ limit →
      (p'.remainLen ≠ 0 → p'.dicPos = limit) → p0.dicPos < p'.dicPos → (p'.dicPos < limit → buf'.length ≤ keep) →
      (p'.remainLen ≠ 0 → Pred P s u s' h'.length) → RealResult P limit keep p0 h0 s x (.ok (p', buf', true))
  | ended {p' buf' u v s' c} : x = u ++ v ++ buf' → Reads P s u s' → (∀ t, s'.step P (v ++ t) = .ended c t) → Over P p' s'.past c → Frame p' p0 →
      Grows p0 h0 p' s'.past → p'.dicPos ≤ limit → Room limit p0 h0 s' → RealResult P limit keep p0 h0 s x (.ok (p', buf', true))
  | bad {p' buf' u v s'} : x = u ++ v → Reads P s u s' → s'.step P v = .corrupt → Room limit p0 h0 s' → p'.dicPos = p0.dicPos → (∀ i < p0.dicPos, p'.dic i = p0.dic i) →
      p'.dicBufSize = p0.dicBufSize → RealResult P limit keep p0 h0 s x (.ok (p', buf', false))

theorem RealResult.cons {P : Params} {limit keep : Nat} {p0 : Dec} {h0 : List UInt8} {s s1 : State} {x x1 u : List UInt8} {r : Res (Dec × List UInt8 × Bool)}
    (hu : x = u ++ x1) (hs : ∀ t, s.step P (u ++ t) = .next s1 t) (h : RealResult P limit keep p0 h0 s1 x1 r) : RealResult P limit keep p0 h0 s x r := by
  cases h with
  | run a b c d e f g i j k =>
    have hr := Reads.cons hs .nil
    rw [List.append_nil] at hr
    exact .run (u := u ++ _) (by rw [hu, a, List.append_assoc]) (.cons hs b) c d e f g i j fun z => (k z).cons hr
  | ended a b c d e f g r => exact .ended (u := u ++ _) (by rw [hu, a]; simp) (.cons hs b) c d e f g r
  | bad a b c r d e f => exact .bad (u := u ++ _) (by rw [hu, a, List.append_assoc]) (.cons hs b) c r d e f

theorem Core.agrees {P : Params} {p : Dec} {s : State} {h : List UInt8} (C : Core P p s h 0) : Agrees p s := by
  have : s.past = h := C.past
  exact ⟨by rw [this]; exact C.dict, C.state, C.rep0, C.rep1, C.rep2, C.rep3⟩

/-- Read a symbol. -/
theorem sym_exec {P : Params} {p : Dec} {s : State} {h buf x : List UInt8} (hP : POk P) (C : Core P p s h 0) (L : Lagging p s buf x) {sym : Symbol} {probs : Ctx → Nat} {c : Coder}
    (hr : run (s.parser P) s.probs ⟨s.range, s.code, x⟩ = some (sym, probs, c)) :
    ∃ act m', exec p.nprobs (symbol p) ⟨p.range, p.code, buf, p.probs⟩ = .ok (act, m') ∧ SymRel P s sym (.ok act) ∧
      (act = .bad ∨ (m'.Raw ∧ m'.coder.normalize = some c ∧ Stored (2 ^ (P.lc + P.lp)) 0 probs m'.probs ∧ m'.buf.length ≤ buf.length)) := by
  have M := symbol_matches C.agrees C.wf C.prop hP
  obtain ⟨r, m', h1, h2, h3⟩ := exec_run M (parser_good C.wf hP) C.wf.probs C.stored L.raw L.lag hr
  have hok : ∃ act, r = .ok act := by
    cases sym with
    | literal b => exact ⟨_, h2⟩
    | copy len dist =>
      simp only [SymRel] at h2
      split at h2
      · exact ⟨_, h2⟩
      · split at h2 <;> exact ⟨_, h2⟩
    | shortRep =>
      simp only [SymRel] at h2
      split at h2 <;> exact ⟨_, h2⟩
    | rep i len =>
      simp only [SymRel] at h2
      split at h2
      · exact ⟨_, h2⟩
      · split at h2 <;> exact ⟨_, h2⟩
  obtain ⟨act, rfl⟩ := hok
  refine ⟨act, m', ?_, h2, ?_⟩
  · rw [C.nprobs, h1]
    rfl
  · rcases h3 with h3 | h3
    · left
      simpa using h3
    · exact Or.inr h3

theorem corrupt_of_bad {P : Params} {s : State} {sym : Symbol} {probs : Ctx → Nat} {c : Coder} (h : SymRel P s sym (.ok .bad)) :
    State.apply P (recode s probs c) c.rest sym = .corrupt := by
  cases sym with
  | literal b => simp [SymRel] at h
  | copy len dist =>
    simp only [SymRel] at h
    simp only [State.apply]
    split at h
    · simp at h
    · rename_i h1
      rw [if_neg h1]
      split at h
      · simp at h
      · rename_i h2
        exact if_neg h2
  | shortRep =>
    simp only [SymRel] at h
    simp only [State.apply]
    split at h
    · rename_i h1
      exact if_pos h1
    · simp at h
  | rep i len =>
    simp only [SymRel] at h
    simp only [State.apply]
    split at h
    · rename_i h1
      exact if_pos h1
    · split at h <;> simp at h

theorem finishReal_ok {p : Dec} {s : State} {buf x : List UInt8} (L : Lagging p s buf x) (len : Nat) :
    finishReal p buf len = .ok ({ p with range := s.range, code := s.code, remainLen := len }, x, true) := by
  unfold finishReal
  rw [normalize_ok L.raw L.lag, Res.bind_ok]

end LzmaDec
end Strigi
