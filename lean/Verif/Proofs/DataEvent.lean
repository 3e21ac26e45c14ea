import Verif.EventSpec
import Verif.Proofs.BaseSkip

namespace Strigi

variable {σ α : Type}

theorem sentData_append (a b : List (Event α)) : sentData (a ++ b) = sentData a ++ sentData b := by
  induction a with
  | nil => rfl
  | cons e a ih => cases e <;> simp [sentData, ih]

namespace DataEvent

/-- The relation between the log and the bookkeeping. -/
structure LogInv (h : Handler α) (c : List α) (total : Int) (fin : Bool) (log : List (Event α)) : Prop where
  ok : LogOk h c log
  open' : total ≠ -1 → 0 ≤ total ∧ total ≤ c.length ∧ sentData log = slice c 0 total ∧ ¬ Declined h log
  closed : total = -1 → Declined h log
  finIff : fin = true ↔ .finished ∈ log
  finTotal : fin = true → total ≠ -1 → total = c.length

theorem LogInv.new (h : Handler α) (c : List α) : LogInv h c 0 false [] where
  ok := ⟨by simp [sentData], by simp, by simp, by simp⟩
  open' _ := ⟨by omega, by omega, by simp [sentData, slice], by rintro ⟨l1, d, l2, e, _⟩; simp at e⟩
  closed := by omega
  finIff := by simp
  finTotal := by simp

theorem append_one_cases {β : Type} {l l1 l2 : List β} {a b : β} (e : l ++ [a] = l1 ++ b :: l2) :
    (l2 = [] ∧ l = l1 ∧ a = b) ∨ ∃ l2', l2 = l2' ++ [a] ∧ l = l1 ++ b :: l2' := by
  rcases List.eq_nil_or_concat l2 with rfl | ⟨l2', x, rfl⟩
  · left
    have := List.append_inj' e (by simp)
    simp at this
    exact ⟨rfl, this.1, this.2⟩
  · right
    rw [List.concat_eq_append] at *
    have e2 : l ++ [a] = (l1 ++ b :: l2') ++ [x] := by rw [e]; simp
    have := List.append_inj' e2 (by simp)
    simp at this
    exact ⟨l2', by simp [this.2], this.1⟩

/-- A data event with the next items. -/
theorem LogInv.data {h : Handler α} {c : List α} {total : Int} {fin : Bool} {log : List (Event α)}
    (I : LogInv h c total fin log) (ht : total ≠ -1) {n : Int} (hn : 0 < n) (hl : total + n ≤ c.length) :
    LogInv h c (if h log (slice c total n) then total + n else -1) fin
      (log ++ [.data (slice c total n)]) := by
  obtain ⟨o1, o2, o3, o4⟩ := I.open' ht
  have hs : sentData (log ++ [.data (slice c total n)]) = slice c 0 (total + n) := by
    rw [sentData_append, o3]
    simp only [sentData, List.append_nil]
    have := slice_append (c := c) (p := 0) (n := total) (m := n) (by omega) o1 (by omega)
    rw [Int.zero_add] at this; exact this
  have hfin : fin = false := by
    cases fin with
    | false => rfl
    | true => have := I.finTotal rfl ht; omega
  have hnf : .finished ∉ log := by
    intro z; have := I.finIff.mpr z; rw [hfin] at this; cases this
  refine ⟨⟨?_, ?_, ?_, ?_⟩, ?_, ?_, ?_, ?_⟩
  · rw [hs]; unfold slice; exact ⟨c.drop (total + n).toNat, by simp⟩
  · intro l1 d l2 e hd
    rcases append_one_cases e with ⟨rfl, rfl, e2⟩ | ⟨l2', rfl, e2⟩
    · simp [sentData]
    · exact absurd ⟨l1, d, l2', e2, hd⟩ o4
  · intro l1 l2 e
    rcases append_one_cases e with ⟨rfl, rfl, e2⟩ | ⟨l2', rfl, e2⟩
    · cases e2
    · exact absurd (by rw [e2]; simp) hnf
  · intro l1 l2 e
    rcases append_one_cases e with ⟨rfl, rfl, e2⟩ | ⟨l2', rfl, e2⟩
    · cases e2
    · exact absurd (by rw [e2]; simp) hnf
  · intro z
    split at z
    next hw =>
      rw [if_pos hw]
      refine ⟨by omega, hl, hs, ?_⟩
      rintro ⟨l1, d, l2, e, hd⟩
      rcases append_one_cases e with ⟨rfl, rfl, e2⟩ | ⟨l2', rfl, e2⟩
      · cases e2; rw [hw] at hd; cases hd
      · exact o4 ⟨l1, d, l2', e2, hd⟩
    next => exact absurd rfl z
  · intro z
    split at z
    next => omega
    next hw => exact ⟨log, _, [], rfl, by simpa using hw⟩
  · rw [hfin]; simp [hnf]
  · intro z; rw [hfin] at z; cases z

/-- The end event. -/
theorem LogInv.end' {h : Handler α} {c : List α} {total : Int} {fin : Bool} {log : List (Event α)}
    (I : LogInv h c total fin log) (ht : total = -1 ∨ total = c.length) :
    LogInv h c total true (if fin then log else log ++ [.finished]) := by
  cases fin with
  | true => exact ⟨I.ok, I.open', I.closed, I.finIff, by intro _ z; omega⟩
  | false =>
    have hnf : .finished ∉ log := by
      intro z; have := I.finIff.mpr z; cases this
    simp only [Bool.false_eq_true, if_false]
    have hD : Declined h log → Declined h (log ++ [.finished]) := by
      rintro ⟨l1, d, l2, rfl, hd⟩; exact ⟨l1, d, l2 ++ [.finished], by simp, hd⟩
    refine ⟨⟨?_, ?_, ?_, ?_⟩, ?_, ?_, ?_, ?_⟩
    · rw [sentData_append]; simpa [sentData] using I.ok.sent
    · intro l1 d l2 e hd
      rcases append_one_cases e with ⟨rfl, rfl, e2⟩ | ⟨l2', rfl, e2⟩
      · cases e2
      · have := I.ok.silent l1 d l2' e2 hd
        refine ⟨by rw [sentData_append, this.1]; simp [sentData], ?_⟩
        intro d' hd'
        simp at hd'
        exact this.2 d' hd'
    · intro l1 l2 e
      rcases append_one_cases e with ⟨rfl, rfl, e2⟩ | ⟨l2', rfl, e2⟩
      · exact ⟨hnf, by simp⟩
      · exact absurd (by rw [e2]; simp) hnf
    · intro l1 l2 e hd
      rcases append_one_cases e with ⟨rfl, rfl, e2⟩ | ⟨l2', rfl, e2⟩
      · refine ⟨?_, rfl⟩
        rcases ht with z | z
        · exact absurd (I.closed z) hd
        · rw [(I.open' (by omega)).2.2.1, z]; exact slice_all c
      · exact absurd (by rw [e2]; simp) hnf
    · intro z
      obtain ⟨a, b, d, e⟩ := I.open' z
      refine ⟨a, b, by rw [sentData_append, d]; simp [sentData], ?_⟩
      rintro ⟨l1, x, l2, e1, hx⟩
      rcases append_one_cases e1 with ⟨rfl, rfl, e2⟩ | ⟨l2', rfl, e2⟩
      · cases e2
      · exact e ⟨l1, x, l2', e2, hx⟩
    · intro z; exact hD (I.closed z)
    · simp
    · intro _ z; omega

/-- The invariant of healthy states. -/
structure Inv (P : StreamOps σ α) (h : Handler α) (H : σ → Int → Int → Prop) (c : List α)
    (s : DataEvent σ α) (lo hi : Int) : Prop where
  inp : H s.input lo hi
  ppos : s.pos = P.position s.input
  size : s.size = -1 ∨ s.size = c.length
  st : s.status ≠ .error
  eof : s.status = .eof → s.pos = c.length
  log : LogInv h c s.totalread s.finished s.log
  total : s.totalread ≠ -1 → s.pos ≤ s.totalread

variable {P : StreamOps σ α} {h : Handler α} {H : σ → Int → Int → Prop} {c : List α} {F : Failure}

/-- `read` on a healthy state. -/
theorem read_spec (C : Contract P c F H) (hlen : (c.length : Int) < 2 ^ 31)
    {s : DataEvent σ α} {lo hi : Int}
    (I : Inv P h H c s lo hi) {mn mx : Int} (h1 : 1 ≤ mn) (h2 : mx = 0 ∨ mn ≤ mx) :
    ∃ s' n d, read P h s mn mx = .ok (s', n, d) ∧
      ReadOk c F s.pos mn mx n d s'.pos s'.status ∧
      (s'.status ≠ .error → Inv P h H c s' s.pos s'.pos) ∧
      (s'.status = .error → LogInv h c s'.totalread s'.finished s'.log ∧ s'.log = s.log) ∧
      (s'.totalread ≠ -1 → s'.status ≠ .error → s'.totalread = max s.totalread s'.pos) ∧
      (s.totalread = -1 → s'.totalread = -1) := by
  obtain ⟨a1, a2, a3, a4, a5, a6, a7⟩ := I
  have hr := C.range a1
  obtain ⟨p, n, d, e, r, w⟩ := C.read a1 h1 h2
  unfold read
  rw [e]
  simp only [Res.bind_ok]
  rw [← a2] at r w
  cases r with
  | failed allowed code st =>
    rw [if_pos code]
    exact ⟨_, _, _, rfl, .failed allowed (by omega) rfl, fun z => absurd rfl z, fun _ => ⟨a6, rfl⟩,
      fun _ z => absurd rfl z, fun z => z⟩
  | ended none nodata atEnd' stay st =>
    rw [if_neg (by omega), if_neg (by omega)]
    rw [if_pos (by omega)]
    unfold atEnd
    dsimp only
    have htot : s.totalread = -1 ∨ s.totalread = c.length := by
      by_cases z : s.totalread = -1
      · exact Or.inl z
      · have := a7 z; have := (a6.open' z).2.1; omega
    have hsz : (if s.size = -1 then s.pos else s.size) = c.length := by split <;> omega
    rw [hsz, Res.assert_of (by simp; omega)]
    simp only [Res.bind_ok]
    rw [Res.assert_of (by simp; omega)]
    simp only [Res.bind_ok]
    have hw := w (by rw [st]; simp)
    refine ⟨_, _, _, rfl, .ended none (by rw [nodata]; simp) atEnd' rfl rfl, ?_, (by simp), ?_, fun z => z⟩
    · intro _
      refine ⟨?_, by simp only; omega, Or.inr rfl, by simp, fun _ => by simp only; omega, a6.end' htot, ?_⟩
      · simp only; rw [stay] at hw; exact hw
      · intro z; exact a7 z
    · intro z _; have := a7 z; simp only; omega
  | data pos items inside adv limit enough st =>
    rw [if_neg (by omega), if_pos pos]
    have hw := w st
    have hdl : (d.length : Int) = n := by rw [items]; exact slice_length (by omega) (by omega) inside
    have hrep : ∃ s2, report h s p n d = .ok (s2, n) ∧ s2.pos = s.pos + n ∧ s2.input = p ∧
        s2.size = s.size ∧ s2.status = s.status ∧
        LogInv h c s2.totalread s2.finished s2.log ∧
        (s2.totalread ≠ -1 → s2.totalread = max s.totalread s2.pos) ∧
        (s.totalread = -1 → s2.totalread = -1) := by
      unfold report
      rw [if_neg (c := s.size ≠ -1 ∧ _) (by omega)]
      dsimp only
      by_cases ht : s.totalread ≠ -1 ∧ s.totalread < s.pos + n
      · rw [if_pos ht, narrow32_of_range (by have := a7 ht.1; omega) (by have := a7 ht.1; omega)]
        have h7 := a7 ht.1
        rw [if_pos (by omega)]
        have hsl : slice d (n - (s.pos + n - s.totalread)) (s.pos + n - s.totalread) =
            slice c s.totalread (s.pos + n - s.totalread) := by
          rw [items, slice_slice (by omega) (by omega) (by omega) (by omega)]
          congr 1; omega
        rw [hsl]
        have hd := a6.data ht.1 (n := s.pos + n - s.totalread) (by omega) (by omega)
        rw [show s.totalread + (s.pos + n - s.totalread) = s.pos + n by omega] at hd
        refine ⟨_, rfl, rfl, rfl, rfl, rfl, hd, ?_, fun z => absurd z ht.1⟩
        intro z
        simp only at z ⊢
        split at z
        next hx => rw [if_pos hx]; omega
        next => exact absurd rfl z
      · rw [if_neg ht]
        refine ⟨_, rfl, rfl, rfl, rfl, rfl, a6, ?_, fun z => z⟩
        intro z
        simp only at z ⊢
        omega
    obtain ⟨s2, e2, g1, g2, g3, g4, g5, g6, g7⟩ := hrep
    rw [e2]
    simp only [Res.bind_ok]
    by_cases hmn : n < mn
    · rw [if_pos hmn]
      unfold atEnd
      dsimp only
      have htot : s2.totalread = -1 ∨ s2.totalread = c.length := by
        by_cases z : s2.totalread = -1
        · exact Or.inl z
        · have := g6 z; have := (g5.open' z).2.1; omega
      have hsz : (if s2.size = -1 then s2.pos else s2.size) = c.length := by split <;> omega
      rw [hsz, Res.assert_of (by simp; omega)]
      simp only [Res.bind_ok]
      rw [Res.assert_of (by simp; omega)]
      simp only [Res.bind_ok]
      refine ⟨_, _, _, rfl, .data pos ?_ inside g1 limit (Or.inr (by omega)) (by simp), ?_, (by simp), ?_, g7⟩
      · rw [items, slice_take (Int.le_refl _)]
      · intro _
        refine ⟨?_, by simp only; rw [g2]; omega, Or.inr rfl, by simp, fun _ => by simp only; omega,
          g5.end' htot, ?_⟩
        · simp only; rw [g2, g1, ← adv]; exact hw
        · intro z; have := g6 z; simp only; omega
      · intro z _; exact g6 z
    · rw [if_neg hmn]
      refine ⟨_, _, _, rfl, .data pos ?_ inside g1 limit (Or.inl (by omega)) (by rw [g4]; exact a4), ?_, ?_, ?_, g7⟩
      · rw [items, slice_take (Int.le_refl _)]
      · intro _
        refine ⟨?_, by rw [g2]; omega, by rw [g3]; exact a3, by rw [g4]; exact a4, ?_, g5, ?_⟩
        · rw [g2, g1, ← adv]; exact hw
        · intro z; rw [g4] at z; have := a5 z; omega
        · intro z; have := g6 z; omega
      · intro z; rw [g4] at z; exact absurd z a4
      · intro z _; exact g6 z

theorem Inv.narrow {s : DataEvent σ α} {lo hi lo' hi' : Int} (C : Contract P c F H)
    (I : Inv P h H c s lo hi) (h1 : lo ≤ lo') (h2 : lo' ≤ s.pos) (h3 : s.pos ≤ hi') (h4 : hi' ≤ hi) :
    Inv P h H c s lo' hi' := by
  obtain ⟨a1, a2, a3, a4, a5, a6, a7⟩ := I
  exact ⟨C.narrow a1 h1 (by omega) (by omega) h4, a2, a3, a4, a5, a6, a7⟩

theorem readContract (C : Contract P c F H) (hlen : (c.length : Int) < 2 ^ 31) :
    ReadContract (ops P h) c F (Inv P h H c) where
  range I := by
    have := C.range I.inp
    have := I.ppos
    simp only [ops]; omega
  status I := ⟨I.st, I.eof⟩
  narrow I h1 h2 h3 h4 := I.narrow C h1 h2 h3 h4
  read := by
    intro s lo hi I mn mx h1 h2
    obtain ⟨s', n, d, e, r, i, _⟩ := read_spec C hlen I h1 h2
    exact ⟨s', n, d, e, r, i⟩

/-- The inherited `skip`: what it does to the log. -/
theorem skipLoop_log (C : Contract P c F H) (hlen : (c.length : Int) < 2 ^ 31) :
    ∀ (fuel : Nat) (s : DataEvent σ α) (lo hi k sk : Int), Inv P h H c s lo hi → 0 ≤ k → k.toNat + 1 ≤ fuel →
      ∃ s' r, baseSkipLoop (read P h) fuel s k sk = .ok (s', r) ∧
        LogInv h c s'.totalread s'.finished s'.log ∧
        (s'.totalread ≠ -1 → s'.status ≠ .error → s'.totalread = max s.totalread s'.pos) ∧
        (s.totalread = -1 → s'.totalread = -1) := by
  intro fuel
  induction fuel with
  | zero => intro s lo hi k sk _ _ h; omega
  | succ fuel ih =>
    intro s lo hi k sk I hk hf
    have hr := C.range I.inp
    have hp := I.ppos
    unfold baseSkipLoop
    by_cases hk0 : k > 0
    · rw [if_pos hk0]
      simp only
      have hm : 1 ≤ (if k > 10000000 then 10000000 else k) ∧
          (if k > 10000000 then 10000000 else k) ≤ k := by split <;> omega
      generalize (if k > 10000000 then 10000000 else k) = m at *
      obtain ⟨s1, n, d, e, hro, hs, he, ht, ht2⟩ := read_spec C hlen I (mn := 1) (mx := m) (Int.le_refl _) (by omega)
      rw [e]
      simp only [Res.bind_ok]
      cases hro with
      | data pos items inside adv limit enough st =>
        rw [if_neg (by omega), if_neg (by omega)]
        have := limit (by omega)
        obtain ⟨s2, r, e2, g1, g2, g3⟩ := ih s1 _ _ (k - n) (sk + n) (hs st) (by omega) (by omega)
        refine ⟨s2, r, e2, g1, ?_, fun z => g3 (ht2 z)⟩
        intro z1 z2
        have h1 := g2 z1 z2
        by_cases z3 : s1.totalread = -1
        · exact absurd (g3 z3) z1
        · have h2 := ht z3 st
          -- the position grows
          obtain ⟨s3, r3, e3, g⟩ := baseSkipLoop_spec (readContract (h := h) C hlen) fuel s1 _ _ (k - n) (sk + n)
            (hs st) (by omega) (by omega)
          simp only [ops] at e3 g
          rw [e2] at e3
          cases e3
          rcases g with ⟨_, _, g4, _⟩ | ⟨_, g4, _⟩
          · omega
          · exact absurd g4 z2
      | ended none nodata atEnd stay st =>
        rw [if_neg (by omega), if_pos (by omega)]
        exact ⟨_, _, rfl, (hs (by rw [st]; simp)).log, ht, ht2⟩
      | failed allowed code st =>
        rw [if_pos (by omega)]
        exact ⟨_, _, rfl, (he st).1, fun _ z => absurd st z, ht2⟩
    · rw [if_neg hk0]
      refine ⟨_, _, rfl, I.log, ?_, fun z => z⟩
      intro z _
      have := I.total z
      omega

/-- `skip` on a healthy state. -/
theorem skip_spec (C : Contract P c F H) (Sz : ∀ {s lo hi}, H s lo hi → P.size s = -1 ∨ P.size s = c.length)
    (hlen : (c.length : Int) < 2 ^ 31) {s : DataEvent σ α} {lo hi k : Int} (I : Inv P h H c s lo hi)
    (hk : 0 ≤ k) (hk2 : k < 2 ^ 31) :
    ∃ s' r, skip P h s k = .ok (s', r) ∧
      SkipOk c ⟨F.onRead, F.onRead ∨ F.onSkip⟩ s.pos k r s'.pos s'.status ∧
      (s'.status ≠ .error → Inv P h H c s' s'.pos s'.pos) ∧
      LogInv h c s'.totalread s'.finished s'.log ∧
      (s'.totalread ≠ -1 → s'.status ≠ .error → s'.totalread = max s.totalread s'.pos) ∧
      (s.totalread = -1 → s'.totalread = -1) := by
  unfold skip
  by_cases ht : s.totalread = -1
  · rw [if_pos ht]
    obtain ⟨p, r, e, ok, w⟩ := C.skip I.inp hk hk2
    rw [e]
    simp only [Res.bind_ok]
    have hp := I.ppos
    rw [← hp] at ok
    refine ⟨_, _, rfl, ?_, ?_, I.log, fun z => absurd ht z, fun z => z⟩
    · cases ok with
      | skipped a b c => exact .skipped a b c
      | failed a b => exact .failed (Or.inr a) b
    · intro z
      have hw := w z
      have := C.status hw
      exact ⟨hw, rfl, Sz hw, z, this.2, I.log, fun z => absurd ht z⟩
  · rw [if_neg ht]
    obtain ⟨s', r, e, ok, w⟩ := baseSkip_spec (readContract (h := h) C hlen) I hk
    obtain ⟨s2, r2, e2, g1, g2, g3⟩ := skipLoop_log C hlen (k.toNat + 1) s lo hi k 0 I hk (Nat.le_refl _)
    simp only [ops] at e ok w
    unfold baseSkip at e
    rw [e] at e2
    cases e2
    refine ⟨s', r, e, ?_, w, g1, g2, g3⟩
    cases ok with
    | skipped a b c => exact .skipped a b c
    | failed a b => exact .failed (Or.inl a) b

/-- `reset` backwards on a healthy state. -/
theorem reset_back {s : DataEvent σ α} {lo hi q r : Int} {p : σ} (I : Inv P h H c s lo hi)
    (hq : q ≤ s.pos) (e : P.reset s.input q = .ok (p, r)) (hp : P.position p = r) (hr0 : 0 ≤ r)
    (hr : r ≤ s.pos) {lo' hi' : Int} (w : H p lo' hi') :
    ∃ s', reset P h s q = .ok (s', r) ∧ s'.pos = r ∧ s'.input = p ∧ s'.status ≠ .error ∧ s'.log = s.log ∧
      s'.totalread = s.totalread ∧ Inv P h H c s' lo' hi' := by
  unfold reset
  rw [if_neg (by omega), e]
  simp only [Res.bind_ok]
  rw [if_neg (by omega)]
  have hst : (if r = s.size then Status.eof else Status.ok) ≠ .error := by split <;> simp
  refine ⟨_, rfl, rfl, rfl, hst, rfl, rfl, w, hp.symm, I.size, hst, ?_, I.log, ?_⟩
  · intro z
    have := I.size
    simp only at z ⊢
    split at z
    · omega
    · cases z
  · intro z; have := I.total z; simp only; omega

theorem contract (C : Contract P c .never H) (hlen : (c.length : Int) < 2 ^ 31) :
    Contract (ops P h) c .never (Inv P h H c) where
  range I := (readContract C hlen).range I
  status I := ⟨I.st, I.eof⟩
  narrow I h1 h2 h3 h4 := I.narrow C h1 h2 h3 h4
  size I := by rcases I.size with z | z <;> simp [ops, z]
  read I := (readContract C hlen).read I
  skip := by
    intro s lo hi I k h1 h2
    obtain ⟨s', r, e, ok, w, _⟩ := skip_spec C (fun x => by simpa [Failure.never] using C.size x) hlen I h1 h2
    refine ⟨s', r, e, ?_, w⟩
    cases ok with
    | skipped a b c => exact .skipped a b c
    | failed a b => simp [Failure.never] at a
  reset := by
    intro s lo hi I q h1 h2
    have hr := C.range I.inp
    have hp := I.ppos
    by_cases hq : q > s.pos
    · have hk : 0 ≤ q - s.pos ∧ q - s.pos < 2 ^ 31 := by omega
      obtain ⟨s', r, e, ok, w, _⟩ := skip_spec C (fun x => by simpa [Failure.never] using C.size x) hlen I hk.1 hk.2
      simp only [ops]
      unfold reset
      rw [if_pos hq, e]
      simp only [Res.bind_ok]
      cases ok with
      | skipped a b st =>
        have hq' : s'.pos = q := by omega
        refine ⟨s', by rw [hq'], hq', st, fun z => absurd z (by omega), ?_⟩
        have := w st
        rw [hq'] at this; exact this
      | failed a b => simp [Failure.never] at a
    · obtain ⟨p, e, g1, g2, g3, g4⟩ := C.reset I.inp h1 h2
      obtain ⟨s', e', k1, k2, k3, _, _, k4⟩ := reset_back I (by omega) e g1 (by omega) (by omega) (g3 (by omega))
      obtain ⟨s2, e2, k5, k6, k7, _, _, k8⟩ := reset_back I (by omega) e g1 (by omega) (by omega) g4
      rw [e'] at e2
      cases e2
      exact ⟨s', e', k1, k3, fun _ => k4, k8⟩

theorem softReset (C : Contract P c .never H) (S : SoftReset P c H) (hlen : (c.length : Int) < 2 ^ 31) :
    SoftReset (ops P h) c (Inv P h H c) where
  reset := by
    intro s lo hi I q h1 h2
    have hr := C.range I.inp
    have hp := I.ppos
    by_cases hq : q > s.pos
    · have hk : 0 ≤ q - s.pos ∧ q - s.pos < 2 ^ 31 := by omega
      obtain ⟨s', r, e, ok, w, _⟩ := skip_spec C (fun x => by simpa [Failure.never] using C.size x) hlen I hk.1 hk.2
      simp only [ops]
      unfold reset
      rw [if_pos hq, e]
      simp only [Res.bind_ok]
      cases ok with
      | skipped a b st =>
        have hq' : s'.pos = q := by omega
        exact ⟨s', s'.pos, rfl, rfl, Or.inl hq', st, w st⟩
      | failed a b => simp [Failure.never] at a
    · obtain ⟨p, r, e, g1, g2, g3, g4⟩ := S.reset I.inp h1 h2
      obtain ⟨s', e', k1, k2, k3, _, _, k4⟩ := reset_back I (by omega) e g1 (by omega) (by omega) g4
      exact ⟨s', r, e', k1, by simp only [ops]; omega, k3, k4⟩

theorem inv_new {p : σ} {lo hi : Int} (w : H p lo hi) (hp : P.position p = 0)
    (Sz : P.size p = -1 ∨ P.size p = c.length) :
    Inv P h H c ⟨p, 0, false, 0, P.size p, .ok, []⟩ lo hi :=
  ⟨w, hp.symm, Sz, by simp, by simp, LogInv.new h c, by simp⟩

end DataEvent
end Strigi
