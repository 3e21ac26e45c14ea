import Verif.Proofs.LzmaDic

/-!
# The loop of `LzmaDec_DecodeToDic`
-/

namespace Strigi
namespace LzmaDec

open Lzma

/-- The entries of the dictionary before the current position are the last bytes of `h`. -/
def Tail (p : Dec) (h : List UInt8) : Prop := p.dicPos ≤ p.dicBufSize ∧ ∀ d, 1 ≤ d → d ≤ p.dicPos → d ≤ h.length → p.dic (p.dicPos - d) = h[d - 1]?

theorem Dict.tail {p : Dec} {h : List UInt8} (D : Dict p h) : Tail p h := by
  have h1 := D.size
  have h2 := D.win.le
  refine ⟨by omega, fun d a b c => ?_⟩
  have := D.win.back d a (by omega) c
  rw [if_neg (by omega)] at this
  exact this

/-- The symbols `u` lead from `s` to `s'`, and each of them was read when there were less than `n` bytes. -/
def Within (P : Params) (n : Nat) (s : State) (u : List UInt8) (s' : State) : Prop := (u = [] ∧ s' = s) ∨ Pred P s u s' n

theorem Pred.reads {P : Params} {s s' : State} {u : List UInt8} {n : Nat} (h : Pred P s u s' n) : Reads P s u s' := by
  obtain ⟨u1, w, s1, e, h1, h2, _⟩ := h
  have := Reads.cons h2 .nil
  rw [List.append_nil] at this
  rw [e]
  exact h1.trans this

theorem Pred.mono {P : Params} {s s' : State} {u : List UInt8} {n m : Nat} (h : Pred P s u s' n) (hm : n ≤ m) : Pred P s u s' m := by
  obtain ⟨u1, w, s1, e, h1, h2, h3⟩ := h
  exact ⟨u1, w, s1, e, h1, h2, by omega⟩

theorem Within.nil {P : Params} {n : Nat} {s : State} : Within P n s [] s := Or.inl ⟨rfl, rfl⟩

theorem Within.reads {P : Params} {n : Nat} {s s' : State} {u : List UInt8} (h : Within P n s u s') : Reads P s u s' := by
  rcases h with ⟨rfl, rfl⟩ | h
  · exact .nil
  · exact h.reads

theorem Within.mono {P : Params} {n m : Nat} {s s' : State} {u : List UInt8} (h : Within P n s u s') (hm : n ≤ m) : Within P m s u s' := h.imp id (·.mono hm)

theorem Within.trans {P : Params} {n : Nat} {s s' s'' : State} {u v : List UInt8} (h : Within P n s u s') (h' : Within P n s' v s'') : Within P n s (u ++ v) s'' := by
  rcases h' with ⟨rfl, rfl⟩ | h'
  · rw [List.append_nil]
    exact h
  · exact Or.inr (h'.cons h.reads)

/-- Every symbol adds some data. -/
theorem Reads.last {P : Params} (hP : POk P) {s s' : State} {u : List UInt8} (h : Reads P s u s') (W : Wf P s) : (u = [] ∧ s' = s) ∨ Pred P s u s' s'.past.length := by
  induction h with
  | nil => exact Or.inl ⟨rfl, rfl⟩
  | @cons s s1 s2 u1 v e hr ih =>
    obtain ⟨W1, n1, e1, h1⟩ := step_wf W hP (e [])
    right
    rcases ih W1 with ⟨rfl, rfl⟩ | h
    · exact ⟨[], u1, s, by simp, .nil, e, by rw [e1, List.length_append]; omega⟩
    · have := Reads.cons e .nil
      rw [List.append_nil] at this
      exact h.cons this

theorem Reads.within {P : Params} (hP : POk P) {n : Nat} {s s' : State} {u : List UInt8} (h : Reads P s u s') (W : Wf P s) (hn : s'.past.length ≤ n) : Within P n s u s' :=
  (h.last hP W).imp id (·.mono hn)

theorem Reads.same {P : Params} (hP : POk P) {s s' : State} {u : List UInt8} (h : Reads P s u s') (W : Wf P s) (hn : s'.past.length = s.past.length) : u = [] ∧ s' = s := by
  rcases h.last hP W with h | ⟨u1, w, s1, _, h1, _, h3⟩
  · exact h
  · obtain ⟨_, new, e⟩ := h1.grow hP W
    rw [e, List.length_append] at h3
    omega

/-- A symbol may be read in the state `s`: there is room, or (in mode `LZMA_FINISH_END`) the code is not zero. -/
def May (n : Nat) (finish : Bool) (s : State) : Prop := s.past.length < n ∨ (finish = true ∧ s.past.length = n ∧ s.code ≠ 0)

/-- Why the decoder reports an error in the state `s` with the input `v`: the next symbol makes no sense, the end mark is
not followed by a zero code, or in mode `LZMA_FINISH_END` there is more data than room (`h` is what has been written). -/
def Wrong (P : Params) (n : Nat) (finish : Bool) (s : State) (h v : List UInt8) : Prop :=
  (May n finish s ∧ s.step P v = .corrupt) ∨ (May n finish s ∧ ∃ c w, c ≠ 0 ∧ s.step P v = .ended c w) ∨
    (finish = true ∧ h.length = n ∧ (n < s.past.length ∨ (s.past.length = n ∧ s.code ≠ 0 ∧ ∃ s' w, s.step P v = .next s' w)))

/-- What `LzmaDec_DecodeToDic` can do in the state `s` with the input `src`, after `tempBuf`; `used` bytes have been consumed before. -/
inductive DicOut (P : Params) (limit n : Nat) (finish : Bool) (p : Dec) (h : List UInt8) (s : State) (src : List UInt8) (used : Nat) : Res DicResult → Prop
  | pause {p' k u s' h' st} : k ≤ src.length → p.temp ++ src.take k = u ++ p'.temp → Within P n s u s' → Resting P p' s' h' → Grows p h p' h' → p'.dicPos ≤ limit →
      st ≠ .finishedWithMark → (p'.dicPos = limit ∨ (k = src.length ∧ s'.step P p'.temp = .more ∧ p'.remainLen = 0)) → p'.dicBufSize = p.dicBufSize →
      DicOut P limit n finish p h s src used (.ok (p', used + k, some st))
  | mark {p' k u v s'} : k ≤ src.length → p.temp ++ src.take k = u ++ v → Within P n s u s' → (∀ t, s'.step P (v ++ t) = .ended 0 t) → Over P p' s'.past 0 → p'.remainLen = 274 →
      Strict P p' s'.past → Grows p h p' s'.past → p'.dicPos ≤ limit → p'.dicBufSize = p.dicBufSize → DicOut P limit n finish p h s src used (.ok (p', used + k, some .finishedWithMark))
  | bad {p' k u v s' h'} : k ≤ src.length → p.temp ++ src = u ++ v → Within P n s u s' → Wrong P n finish s' h' v → (∃ m, s'.past = m ++ h') → (∃ new, h' = new ++ h ∧ p'.dicPos = p.dicPos + new.length) →
      Tail p' h' → p'.dicPos ≤ limit → p'.dicBufSize = p.dicBufSize → DicOut P limit n finish p h s src used (.ok (p', used + k, none))

theorem DicOut.cons {P : Params} {limit n : Nat} {finish : Bool} {p p1 : Dec} {h h1 u1 : List UInt8} {s s1 : State} {src : List UInt8} {used k1 : Nat} {r : Res DicResult}
    (D : DicOut P limit n finish p1 h1 s1 (src.drop k1) (used + k1) r) (hk : k1 ≤ src.length) (hu : p.temp ++ src.take k1 = u1) (hr : Within P n s u1 s1) (ht : p1.temp = [])
    (G : Grows p h p1 h1) (hs : p1.dicBufSize = p.dicBufSize) : DicOut P limit n finish p h s src used r := by
  have hd : (src.drop k1).length = src.length - k1 := List.length_drop
  have htake : ∀ k, src.take (k1 + k) = src.take k1 ++ (src.drop k1).take k := fun k => List.take_add
  cases D with
  | @pause p' k u s' h' st a b c d e f g i j =>
    rw [Nat.add_assoc]
    refine .pause (u := u1 ++ u) (by omega) ?_ (hr.trans c) d (G.trans e) f g (i.imp id fun i => ⟨by omega, i.2⟩) (by rw [j, hs])
    rw [htake, ← List.append_assoc, hu, List.append_assoc, ← b, ht]
    rfl
  | @mark p' k u v s' a b c d e f g i j l =>
    rw [Nat.add_assoc]
    refine .mark (u := u1 ++ u) (v := v) (by omega) ?_ (hr.trans c) d e f g (G.trans i) j (by rw [l, hs])
    rw [htake, ← List.append_assoc, hu, List.append_assoc, ← b, ht]
    rfl
  | @bad p' k u v s' h' a b c d e f g i j =>
    rw [Nat.add_assoc]
    refine .bad (u := u1 ++ u) (v := v) (by omega) ?_ (hr.trans c) d e ?_ g i (by rw [j, hs])
    · rw [List.append_assoc, ← b, ht, List.nil_append, ← hu, List.append_assoc, List.take_append_drop]
    · obtain ⟨n, e1, e2⟩ := G.new
      obtain ⟨n', e3, e4⟩ := f
      exact ⟨n' ++ n, by rw [e3, e1, List.append_assoc], by rw [e4, e2, List.length_append]; omega⟩

/-- After the end mark. -/
theorem dicLoop_over {P : Params} {limit n : Nat} {finish : Bool} {p p0 : Dec} {h0 u v : List UInt8} {s s0 : State} {src0 src : List UInt8} {fuel used k c : Nat}
    (ho : Over P p s.past c) (hr : p.remainLen = 274) (hS : Strict P p s.past) (hk : k ≤ src0.length) (hu : p0.temp ++ src0.take k = u ++ v) (hR : Within P n s0 u s) (hM : May n finish s) (hv : ∀ t, s.step P (v ++ t) = .ended c t)
    (G : Grows p0 h0 p s.past) (hl : p.dicPos ≤ limit) (hs : p.dicBufSize = p0.dicBufSize) :
    DicOut P limit n finish p0 h0 s0 src0 used (dicLoop limit finish (fuel + 1) p src (used + k)) := by
  rw [dicLoop, if_neg (by rw [hr]; decide)]
  by_cases hc : p.code = 0
  · rw [if_pos hc]
    have : c = 0 := by rw [← ho.code]; exact hc
    subst this
    exact .mark hk hu hR hv ho hr hS G hl hs
  · rw [if_neg hc]
    refine .bad (u := u) (v := v ++ src0.drop k) (s' := s) (h' := s.past) hk ?_ hR (Or.inr (Or.inl ⟨hM, c, _, by rw [← ho.code]; exact hc, hv _⟩)) ⟨[], rfl⟩ G.new ho.dict.tail hl hs
    rw [← List.append_assoc, ← hu, List.append_assoc, List.take_append_drop]

theorem flush_done {p : Dec} (h : p.needFlush = false) (src : List UInt8) : flush p src = .ok (p, 0, some true) := by
  unfold flush
  rw [if_neg (by rw [h]; simp)]

theorem dicLoop_ok {P : Params} (hP : POk P) {limit n : Nat} {finish : Bool} (h2 : limit ≤ P.dicSize) : ∀ fuel {p : Dec} {s : State} {h src : List UInt8} {used : Nat}, Resting P p s h → p.dicPos ≤ limit →
    (p.remainLen ≠ 0 → p.dicPos = limit) → h.length + limit = n + p.dicPos → limit - p.dicPos + 2 ≤ fuel → DicOut P limit n finish p h s src used (dicLoop limit finish fuel p src used) := by
  intro fuel
  induction fuel with
  | zero => intros; omega
  | succ fuel ih =>
    intro p s h src used R h1 hfull hlen hn
    have hrem := R.paused.rem
    have hk : kMatchSpecLenStart = 274 := rfl
    have C := R.paused.core
    rw [dicLoop, if_pos (show p.remainLen ≠ kMatchSpecLenStart by omega), flush_done R.flush, Res.bind_ok]
    dsimp only
    rw [List.drop_zero, Nat.add_zero]
    by_cases hm : p.dicPos ≥ limit ∧ p.remainLen = 0 ∧ p.code = 0
    · rw [if_pos hm]
      exact .pause (k := 0) (u := []) (by omega) (by simp) .nil R (Grows.refl p h) h1 (by decide) (Or.inl (by omega)) rfl
    rw [if_neg hm]
    by_cases hf : p.dicPos ≥ limit ∧ finish = false
    · rw [if_pos hf]
      exact .pause (k := 0) (u := []) (by omega) (by simp) .nil R (Grows.refl p h) h1 (by decide) (Or.inl (by omega)) rfl
    rw [if_neg hf]
    by_cases hr : p.dicPos ≥ limit ∧ p.remainLen ≠ 0
    · rw [if_pos hr]
      have hfin : finish = true := by
        cases finish
        · exact absurd ⟨hr.1, rfl⟩ hf
        · rfl
      obtain ⟨m, em, hml⟩ := repeatPast_suffix s.rep0 p.remainLen h
      refine .bad (k := 0) (u := []) (v := p.temp ++ src) (s' := s) (h' := h) (by omega) rfl .nil (Or.inr (Or.inr ⟨hfin, by omega, Or.inl ?_⟩)) ⟨m, by rw [C.past, em]⟩ ⟨[], rfl, rfl⟩ C.dict.tail h1 rfl
      rw [C.past, repeatPast_length]
      omega
    rw [if_neg hr, R.init]
    have hr0 : p.remainLen = 0 := by omega
    have hpast : h = s.past := by
      have := C.past
      rw [hr0] at this
      exact this.symm
    subst hpast
    simp only [Bool.false_eq_true, if_false]
    have hmay : ∀ {u : List UInt8} {s' : State}, Reads P s u s' → Room limit p s.past s' → May n finish s' := by
      intro u s' hr hroom
      rcases hroom with hr1 | ⟨hr1, hr2⟩
      · left; omega
      · right
        obtain ⟨_, rfl⟩ := hr.same hP C.wf hr2
        refine ⟨?_, by omega, fun hz => hm ⟨by omega, hr0, by rw [R.paused.code]; exact hz⟩⟩
        cases finish
        · exact absurd ⟨by omega, rfl⟩ hf
        · rfl
    have I : Iter P limit (decide (p.dicPos ≥ limit)) p s src (if p.temp = [] then fromSource p limit (decide (p.dicPos ≥ limit)) src else fromTemp p limit (decide (p.dicPos ≥ limit)) src) := by
      by_cases ht : p.temp = []
      · rw [if_pos ht]
        exact fromSource_ok hP R ht hr0 h1 rfl h2
      · rw [if_neg ht]
        exact fromTemp_ok hP R ht h1 rfl h2
    generalize (if p.temp = [] then fromSource p limit (decide (p.dicPos ≥ limit)) src else fromTemp p limit (decide (p.dicPos ≥ limit)) src) = res at I
    cases I with
    | needs hmore =>
      rw [Res.bind_ok]
      dsimp only
      refine .pause (k := src.length) (u := []) (s' := s) (h' := s.past) (by omega) (by simp) .nil ⟨Resting.setTemp R.paused _, R.strict, R.flush, R.init, fun _ => ⟨hmore, hr0⟩⟩
        ⟨⟨[], rfl, rfl⟩, fun _ _ => rfl⟩ h1 (by decide) (Or.inr ⟨rfl, hmore, hr0⟩) rfl
    | @run p' k u s' h' a b c d e f g i j l m o q =>
      rw [Res.bind_ok]
      dsimp only
      have R' : Resting P p' s' h' := ⟨d, e, g, i, fun z => absurd f z⟩
      obtain ⟨new, e1, e2⟩ := l.new
      have hl1 := congrArg List.length e1
      rw [List.length_append] at hl1
      have hw : Within P n s u s' := by
        by_cases hz : p'.remainLen = 0
        · refine c.within hP C.wf ?_
          have := d.core.past
          rw [hz] at this
          have this : s'.past = h' := this
          rw [this]
          omega
        · exact Or.inr ((o hz).2.mono (by omega))
      exact (ih R' m (fun z => (o z).1) (by omega) (by omega)).cons a b hw f l j
    | @ended p' k u v s' c a b d e f g i j l m room =>
      rw [Res.bind_ok]
      dsimp only
      obtain ⟨fuel, rfl⟩ : ∃ n', fuel = n' + 1 := ⟨fuel - 1, by omega⟩
      obtain ⟨new, e1, e2⟩ := l.new
      have hl1 := congrArg List.length e1
      rw [List.length_append] at hl1
      exact dicLoop_over f g i a b (d.within hP C.wf (by omega)) (hmay d room) e l m j
    | @bad p' k u v s' a b c d e f g =>
      rw [Res.bind_ok]
      dsimp only
      have hT : Tail p' s.past := by
        have T := C.dict.tail
        refine ⟨by rw [e, g]; exact T.1, fun dd d1 d2 d3 => ?_⟩
        rw [e] at d2 ⊢
        rw [f _ (by omega)]
        exact T.2 dd d1 d2 d3
      rcases c with ⟨c, room⟩ | ⟨c1, c2, c3, s'', w, c4⟩
      · obtain ⟨_, m, em⟩ := b.grow hP C.wf
        have hwin : Within P n s u s' := by
          refine b.within hP C.wf ?_
          rcases room with room | room <;> omega
        exact .bad (u := u) (v := v) (s' := s') (h' := s.past) d a hwin (Or.inl ⟨hmay b room, c⟩) ⟨m, em⟩ ⟨[], rfl, by rw [e]; rfl⟩ hT (by omega) g
      · subst c2 c3
        have hlim : p.dicPos ≥ limit := by simpa using c1
        have hfin : finish = true := by
          cases finish
          · exact absurd ⟨hlim, rfl⟩ hf
          · rfl
        exact .bad (u := []) (v := v) (s' := s') (h' := s'.past) d a .nil (Or.inr (Or.inr ⟨hfin, by omega, Or.inr ⟨by omega, fun hz => hm ⟨hlim, hr0, by rw [R.paused.code]; exact hz⟩, s'', w, c4⟩⟩))
          ⟨[], rfl⟩ ⟨[], rfl, by rw [e]; rfl⟩ hT (by omega) g

/-- `LzmaDec_DecodeToDic` between two calls. -/
theorem decodeToDic_ok {P : Params} (hP : POk P) {limit n : Nat} {finish : Bool} (h2 : limit ≤ P.dicSize) {p : Dec} {s : State} {h src : List UInt8} (R : Resting P p s h) (h1 : p.dicPos < limit) (hn : h.length + limit = n + p.dicPos) :
    DicOut P limit n finish p h s src 0 (decodeToDic p limit src finish) := by
  unfold decodeToDic
  obtain ⟨p', h', e, g1, g2, g3, g4, g5, g6, g7⟩ := writeRem_ok R.paused R.strict (limit := limit) (by omega) h2
  rw [e, Res.bind_ok]
  by_cases ht : p.temp = []
  · have R' : Resting P p' s h' := ⟨g1, g2, by rw [g3.flush]; exact R.flush, by rw [g3.init]; exact R.init, fun z => absurd (by rw [g3.temp]; exact ht) z⟩
    have := dicLoop_ok hP (n := n) h2 (limit - p'.dicPos + 3) (finish := finish) (src := src) (used := 0) R' g5 g6 (by obtain ⟨new, e1, e2⟩ := g4.new; rw [e1, List.length_append]; omega) (by omega)
    refine DicOut.cons (k1 := 0) (u1 := []) (p1 := p') (h1 := h') (s1 := s) (by rw [List.drop_zero]; exact this) (by omega) (by rw [ht]; rfl) .nil (by rw [g3.temp]; exact ht) g4 g3.size
  · obtain ⟨hm, hr⟩ := R.hungry ht
    have ew : writeRem p limit = .ok p := by
      unfold writeRem
      rw [if_neg (by omega)]
    rw [ew] at e
    cases e
    exact dicLoop_ok hP h2 _ R (by omega) (fun z => absurd hr z) hn (by omega)

/-- `LzmaDec_DecodeToDic` after the end mark. -/
theorem decodeToDic_over {p : Dec} {limit : Nat} {finish : Bool} {src : List UInt8} (hr : p.remainLen = 274) :
    decodeToDic p limit src finish = .ok (p, 0, if p.code = 0 then some .finishedWithMark else none) := by
  unfold decodeToDic
  have ew : writeRem p limit = .ok p := by
    unfold writeRem
    rw [if_neg (by rw [hr]; decide)]
  rw [ew, Res.bind_ok, dicLoop, if_neg (by rw [hr]; decide)]

/-! ## The beginning -/

theorem start_wf {P : Params} (hd : 1 ≤ P.dicSize) {code : Nat} (hc : code < 2 ^ 32) : Wf P (State.start code) where
  state := Nat.zero_lt_succ _
  rep0 := ⟨Nat.le_refl 1, hd, Nat.le_refl 1⟩
  rep1 := ⟨Nat.le_refl 1, hd, Nat.le_refl 1⟩
  rep2 := ⟨Nat.le_refl 1, hd, Nat.le_refl 1⟩
  rep3 := ⟨Nat.le_refl 1, hd, Nat.le_refl 1⟩
  past := fun h => by simp [State.start] at h
  probs := fun _ => by simp [State.start]
  coder := ⟨by simp [State.start], by simp [State.start], hc⟩

/-- The decoder when the first five bytes have been read. -/
def started (P : Params) (code : Nat) : Dec :=
  initStateReal { init P with code := code, range := 0xFFFFFFFF, needFlush := false, temp := [] }

theorem started_ok {P : Params} (hd : 1 ≤ P.dicSize) (hd2 : P.dicSize < 2 ^ 32) {code : Nat} (hc : code < 2 ^ 32) : Resting P (started P code) (State.start code) [] where
  paused := {
    core := {
      dict := ⟨rfl, hd, hd2, ⟨by show 0 ≤ _; omega, fun d h1 _ h3 => by simp at h3; omega⟩, rfl, Or.inl ⟨rfl, by simp, rfl⟩⟩
      past := rfl
      back := fun h => absurd rfl h
      state := rfl
      rep0 := rfl
      rep1 := rfl
      rep2 := rfl
      rep3 := rfl
      prop := rfl
      nprobs := by
        show Literal + 768 <<< (P.lc + P.lp) = _
        rw [Nat.shiftLeft_eq]
        rfl
      stored := fun _ _ _ => rfl
      wf := start_wf hd hc }
    rem := Nat.zero_lt_succ _
    range := rfl
    code := rfl }
  strict := fun _ => hd
  flush := rfl
  init := rfl
  hungry := fun h => absurd rfl h

/-- The decoder before that. -/
def waiting (P : Params) (t : List UInt8) : Dec := { init P with temp := t }

theorem waiting_rem (P : Params) (t : List UInt8) : (waiting P t).remainLen ≠ kMatchSpecLenStart := by
  show (0 : Nat) ≠ kMatchSpecLenStart
  decide

theorem started_rem (P : Params) (code : Nat) : (started P code).remainLen ≠ kMatchSpecLenStart := by
  show (0 : Nat) ≠ kMatchSpecLenStart
  decide

/-- There are not enough bytes yet. -/
theorem toDic_short {P : Params} {limit : Nat} {finish : Bool} {t src : List UInt8} (hs : t.length + src.length < 5) :
    decodeToDic (waiting P t) limit src finish = .ok (waiting P (t ++ src), src.length, some .needsMoreInput) := by
  unfold decodeToDic
  have ew : writeRem (waiting P t) limit = .ok (waiting P t) := rfl
  rw [ew, Res.bind_ok, dicLoop, if_pos (waiting_rem P t)]
  unfold flush
  rw [if_pos (show (waiting P t).needFlush = true from rfl)]
  dsimp only
  rw [show (waiting P t).temp = t from rfl, show min (5 - t.length) src.length = src.length by omega, List.take_length, if_pos (by rw [List.length_append]; omega), Res.bind_ok]
  dsimp only
  rw [Nat.zero_add]
  rfl

/-- The first byte is wrong. -/
theorem toDic_wrong {P : Params} {limit : Nat} {finish : Bool} {t src : List UInt8} (ht : t.length < 5) (hs : 5 ≤ t.length + src.length) (h0 : (t ++ src).head? ≠ some 0) :
    decodeToDic (waiting P t) limit src finish = .ok (waiting P (t ++ src.take (5 - t.length)), 5 - t.length, none) := by
  unfold decodeToDic
  have ew : writeRem (waiting P t) limit = .ok (waiting P t) := rfl
  rw [ew, Res.bind_ok, dicLoop, if_pos (waiting_rem P t)]
  unfold flush
  rw [if_pos (show (waiting P t).needFlush = true from rfl)]
  dsimp only
  rw [show (waiting P t).temp = t from rfl, show min (5 - t.length) src.length = 5 - t.length by omega, if_neg (by rw [List.length_append, List.length_take]; omega), if_pos, Res.bind_ok]
  · dsimp only
    rw [Nat.zero_add]
    rfl
  · intro h
    apply h0
    rcases t with _ | ⟨a, t⟩
    · rcases src with _ | ⟨a, src⟩
      · simp at hs
      · simpa using h
    · simpa using h

theorem header_code {x : List UInt8} {code : Nat} (h : header x code) : code < 2 ^ 32 ∧ x.length = 5 := by
  obtain ⟨a, b, c, d, e, hc⟩ := h
  have := a.toNat_lt
  have := b.toNat_lt
  have := c.toNat_lt
  have := d.toNat_lt
  exact ⟨by omega, by rw [e]; rfl⟩

/-- The first five bytes are complete. -/
theorem toDic_header {P : Params} {limit : Nat} {finish : Bool} {t src hdr w : List UInt8} {code : Nat} (hh : header hdr code) (ht : t.length < 5) (hs : t ++ src = hdr ++ w) (hl : 0 < limit) :
    decodeToDic (waiting P t) limit src finish = dicLoop limit finish (limit + 3) (started P code) w (5 - t.length) := by
  obtain ⟨hc, h5⟩ := header_code hh
  have hlen := congrArg List.length hs
  rw [List.length_append, List.length_append, h5] at hlen
  unfold decodeToDic
  have ew : writeRem (waiting P t) limit = .ok (waiting P t) := rfl
  rw [ew, Res.bind_ok, show limit - (waiting P t).dicPos + 3 = limit + 3 from rfl, dicLoop, dicLoop, if_pos (waiting_rem P t), if_pos (started_rem P code),
    flush_done (p := started P code) rfl]
  unfold flush
  rw [if_pos (show (waiting P t).needFlush = true from rfl)]
  dsimp only
  have hfull : t ++ src.take (5 - t.length) = hdr := by
    have := congrArg (List.take 5) hs
    rw [List.take_append, List.take_of_length_le (by omega), ← h5, List.take_left, h5] at this
    exact this
  have hdrop : src.drop (5 - t.length) = w := by
    have := congrArg (List.drop 5) hs
    rw [List.drop_append, List.drop_of_length_le (by omega), ← h5, List.drop_left, h5] at this
    exact this
  obtain ⟨a, b, c, d, e, hcode⟩ := hh
  rw [show (waiting P t).temp = t from rfl, show min (5 - t.length) src.length = 5 - t.length by omega, hfull, if_neg (by rw [h5]; omega), e, if_neg (by simp)]
  unfold initRc
  rw [Res.bind_ok, Res.bind_ok, Res.bind_ok]
  dsimp only
  rw [hdrop, Nat.zero_add, List.drop_zero, Nat.add_zero]
  have hcc : a.toNat * 2 ^ 24 + b.toNat * 2 ^ 16 + c.toNat * 2 ^ 8 + d.toNat = code := by omega
  rw [hcc]
  have hpos : ∀ (X : Prop), ¬ ((waiting P t).dicPos ≥ limit ∧ X) := fun X hx => by
    have : (0 : Nat) ≥ limit := hx.1
    omega
  have hpos2 : ∀ (X : Prop), ¬ ((started P code).dicPos ≥ limit ∧ X) := fun X hx => by
    have : (0 : Nat) ≥ limit := hx.1
    omega
  rw [if_neg (hpos _), if_neg (hpos _), if_neg (hpos _), if_neg (hpos2 _), if_neg (hpos2 _), if_neg (hpos2 _)]
  rfl

end LzmaDec
end Strigi
