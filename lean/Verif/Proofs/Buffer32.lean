import Verif.Model.Buffer32
import Verif.Proofs.Decompress

namespace Strigi

namespace StreamBuffer

variable {α : Type} {b b' : StreamBuffer α}

open BufferedStream (bind_eq_ok assert_eq_ok)

theorem i32_ok {x : Int} (h0 : -(2 ^ 31) ≤ x) (h1 : x < 2 ^ 31) : i32 x = .ok x := by
  unfold i32; rw [if_pos ⟨h0, h1⟩]

theorem setSize_size {n : Int} (h : b.setSize n = .ok b') (hn : b.size ≤ n) : b'.size = n ∧ b'.offset = b.offset ∧ b'.avail = b.avail := by
  unfold setSize at h
  obtain ⟨h1, h⟩ := assert_eq_ok h
  obtain ⟨_, h⟩ := assert_eq_ok h
  obtain ⟨_, h⟩ := assert_eq_ok h
  obtain ⟨_, h⟩ := assert_eq_ok h
  cases h
  have h1 : 0 ≤ n := by simpa using h1
  unfold size at hn ⊢
  refine ⟨?_, rfl, rfl⟩
  simp only [List.length_append, List.length_take, List.length_replicate]
  omega

/-- A buffer whose numbers are in order. -/
def Wf (b : StreamBuffer α) : Prop := 0 ≤ b.offset ∧ 0 ≤ b.avail ∧ b.offset + b.avail ≤ b.size

theorem slice_drop_length {l : List (Option α)} {o a : Int} (h0 : 0 ≤ o) (h1 : 0 ≤ a) (h2 : o + a ≤ l.length) :
    (slice l o a ++ l.drop a.toNat).length = l.length := by
  unfold slice
  simp only [List.length_append, List.length_take, List.length_drop]
  omega

/-- What `makeSpace` does to the size. -/
theorem makeSpace_size {needed sp : Int} (h : b.makeSpace needed = .ok (b', sp)) :
    Wf b ∧ Wf b' ∧ b'.avail = b.avail ∧ b'.size - b'.offset - b'.avail = sp ∧
      (b.avail + needed ≤ b.size → b'.size = b.size) ∧
      (b.size < b.avail + needed → b.size ≤ b'.size ∧ b'.size < 2 * (b.avail + needed)) := by
  unfold makeSpace at h
  dsimp only at h
  obtain ⟨h1, h⟩ := assert_eq_ok h
  obtain ⟨h2, h⟩ := assert_eq_ok h
  obtain ⟨h3, h⟩ := assert_eq_ok h
  obtain ⟨h4, h⟩ := assert_eq_ok h
  have h1 : 0 ≤ b.offset := by simpa using h1
  have h3 : 0 ≤ b.avail := by simpa using h3
  have h4 : b.avail + b.offset ≤ b.size := by simpa using h4
  refine ⟨⟨h1, h3, by omega⟩, ?_⟩
  split at h
  · cases h
    exact ⟨⟨h1, h3, by omega⟩, rfl, rfl, fun _ => rfl, fun z => by omega⟩
  · rename_i c1
    generalize hres : (if b.avail ≠ 0 then
      if b.offset ≠ 0 then
        (({ b with mem := slice b.mem b.offset b.avail ++ b.mem.drop b.avail.toNat, offset := 0 } : StreamBuffer α),
          b.size - b.offset - b.avail + b.offset)
      else (b, b.size - b.offset - b.avail)
      else (({ b with offset := 0 } : StreamBuffer α), b.size)) = res at h
    obtain ⟨b1, sp1⟩ := res
    have hb : b1.offset = 0 ∧ b1.avail = b.avail ∧ b1.size = b.size ∧ sp1 = b.size - b.avail := by
      split at hres
      · split at hres
        · injection hres with e1 e2
          subst e1
          refine ⟨rfl, rfl, ?_, by omega⟩
          unfold size at h4 ⊢
          rw [slice_drop_length h1 h3 (by omega)]
        · injection hres with e1 e2
          subst e1
          rename_i ho
          have : b.offset = 0 := Classical.not_not.1 ho
          exact ⟨this, rfl, rfl, by omega⟩
      · injection hres with e1 e2
        subst e1
        rename_i ho
        have : b.avail = 0 := Classical.not_not.1 ho
        exact ⟨rfl, rfl, rfl, by omega⟩
    obtain ⟨g1, g2, g3, g4⟩ := hb
    dsimp only at h
    split at h
    · cases h
      exact ⟨⟨by omega, by omega, by omega⟩, g2, by omega, fun _ => g3, fun z => by omega⟩
    · rename_i c2
      split at h
      · rename_i c3
        obtain ⟨b2, e, h⟩ := bind_eq_ok h
        cases h
        obtain ⟨k1, k2, k3⟩ := setSize_size e (by omega)
        exact ⟨⟨by omega, by omega, by omega⟩, by omega, by omega, fun z => by omega, fun z => by omega⟩
      · rename_i c3
        obtain ⟨b2, e, h⟩ := bind_eq_ok h
        cases h
        obtain ⟨k1, k2, k3⟩ := setSize_size e (by omega)
        exact ⟨⟨by omega, by omega, by omega⟩, by omega, by omega, fun z => by omega, fun z => by omega⟩

/-- Below 1 G items nothing overflows. -/
theorem makeSpace32_eq {needed : Int} (hw : Wf b) (hs : b.size < 2 ^ 31) (h0 : 0 ≤ needed) (hn : b.avail + needed ≤ 2 ^ 30) :
    b.makeSpace32 needed = b.makeSpace needed := by
  obtain ⟨w1, w2, w3⟩ := hw
  unfold makeSpace32 makeSpace
  rw [i32_ok (by omega) (by omega), Res.bind_ok]
  dsimp only
  rw [Res.assert_of (decide_eq_true w1), Res.assert_of (decide_eq_true (show 0 ≤ b.size by omega)), Res.assert_of (decide_eq_true w2),
    Res.assert_of (decide_eq_true (show b.avail + b.offset ≤ b.size by omega))]
  simp only [Res.bind_ok]
  split
  · rfl
  · have tail : ∀ (b1 : StreamBuffer α) (sp1 : Int), b1.size = b.size → sp1 = b.size - b.avail →
        (if sp1 ≥ needed then Res.ok (b1, sp1) else do
          let more ← i32 (needed - sp1)
          if b1.size > more then do
            let space ← i32 (sp1 + b1.size)
            let size ← i32 (2 * b1.size)
            let b' ← b1.setSize size
            .ok (b', space)
          else do
            let sum ← i32 (b1.size + needed)
            let size ← i32 (sum - sp1)
            let b' ← b1.setSize size
            .ok (b', needed)) =
        (if sp1 ≥ needed then Res.ok (b1, sp1) else
          if b1.size > needed - sp1 then do
            let b' ← b1.setSize (2 * b1.size)
            .ok (b', sp1 + b1.size)
          else do
            let b' ← b1.setSize (b1.size + needed - sp1)
            .ok (b', needed)) := by
      intro b1 sp1 e1 e2
      split
      · rfl
      · rename_i c
        rw [i32_ok (by omega) (by omega), Res.bind_ok]
        split
        · rw [i32_ok (by omega) (by omega), Res.bind_ok, i32_ok (by omega) (by omega), Res.bind_ok]
        · rw [i32_ok (by omega) (by omega), Res.bind_ok, i32_ok (by omega) (by omega), Res.bind_ok]
    by_cases ca : b.avail ≠ 0
    · rw [if_pos ca, if_pos ca]
      by_cases co : b.offset ≠ 0
      · rw [if_pos co, if_pos co, i32_ok (by omega) (by omega), Res.bind_ok]
        dsimp only
        refine tail _ _ ?_ (by omega)
        unfold size at w3 ⊢
        rw [slice_drop_length w1 w2 (by omega)]
      · rw [if_neg co, if_neg co]
        dsimp only
        have t := tail b (b.size - b.offset - b.avail) rfl (by have := Classical.not_not.1 co; omega)
        have c : ¬ b.size - b.offset - b.avail ≥ needed := by assumption
        rw [if_neg c, if_neg c] at t
        first | exact t | (rw [if_neg c]; exact t) | (rw [if_neg c, if_neg c]; exact t)
    · rw [if_neg ca, if_neg ca]
      dsimp only
      exact tail _ b.size rfl (by have := Classical.not_not.1 ca; omega)

theorem store_size {i : Int} {d : List α} (h : b.store i d = .ok b') : b'.size = b.size ∧ b'.offset = b.offset ∧ b'.avail = b.avail := by
  unfold store at h
  split at h
  · rename_i hi
    cases h
    refine ⟨?_, rfl, rfl⟩
    unfold size at hi ⊢
    simp only [List.length_append, List.length_take, List.length_map, List.length_drop]
    omega
  · cases h

theorem read_size {mx n : Int} {d : List α} (h : b.read mx = .ok (b', n, d)) : b'.size = b.size ∧ Wf b' := by
  unfold read at h
  obtain ⟨_, h⟩ := assert_eq_ok h
  obtain ⟨h1, h⟩ := assert_eq_ok h
  obtain ⟨h2, h⟩ := assert_eq_ok h
  obtain ⟨h3, h⟩ := assert_eq_ok h
  obtain ⟨d1, _, h⟩ := bind_eq_ok h
  have h1 : 0 ≤ b.avail := by simpa using h1
  have h2 : 0 ≤ b.offset := by simpa using h2
  have h3 : b.avail + b.offset ≤ b.size := by simpa using h3
  cases h
  refine ⟨rfl, ?_⟩
  unfold Wf
  dsimp only
  unfold size at h3 ⊢
  dsimp only
  split <;> omega

end StreamBuffer

namespace BufferedStream

variable {φ α : Type} {P : Producer φ α}

open StreamBuffer (i32 i32_ok Wf)

/-- The size of the buffer after a call with the minimum `M`. -/
def Grown (M : Int) (b b' : StreamBuffer α) : Prop :=
  b.size ≤ b'.size ∧ (M ≤ b.size → b'.size = b.size) ∧ (b'.size = b.size ∨ b'.size < 2 * M)

theorem Grown.refl (M : Int) (b : StreamBuffer α) : Grown M b b := ⟨Int.le_refl _, fun _ => rfl, Or.inl rfl⟩

theorem Grown.trans {M : Int} {a b c : StreamBuffer α} (h1 : Grown M a b) (h2 : Grown M b c) : Grown M a c := by
  obtain ⟨x1, x2, x3⟩ := h1
  obtain ⟨y1, y2, y3⟩ := h2
  refine ⟨by omega, fun z => ?_, ?_⟩
  · rw [y2 (by have := x2 z; omega), x2 z]
  · rcases y3 with y3 | y3
    · rcases x3 with x3 | x3
      · left; omega
      · right; omega
    · exact Or.inr y3

theorem Grown.mono {M M' : Int} {a b : StreamBuffer α} (h : Grown M a b) (hm : M ≤ M') : Grown M' a b := by
  obtain ⟨x1, x2, x3⟩ := h
  exact ⟨x1, fun z => x2 (by omega), by omega⟩

theorem grown_write (ntoread maxread : Int) : ∀ (fuel : Nat) (s s' : BufferedStream φ α) (missing w r : Int),
    missing = ntoread - s.buf.avail → writeLoop P ntoread maxread fuel s missing w = .ok (s', r) → Grown ntoread s.buf s'.buf := by
  intro fuel
  induction fuel with
  | zero => intro s s' m w r _ e; cases e
  | succ fuel ih =>
    intro s s' m w r hm e
    unfold writeLoop at e
    split at e
    · rename_i c
      obtain ⟨⟨b1, sp⟩, e1, e⟩ := bind_eq_ok e
      dsimp only at e
      obtain ⟨⟨f, r1⟩, e2, e⟩ := bind_eq_ok e
      dsimp only at e
      obtain ⟨b2, e3, e⟩ := bind_eq_ok e
      obtain ⟨_, e⟩ := assert_eq_ok e
      obtain ⟨_, _, g3, _, g4, g5⟩ := StreamBuffer.makeSpace_size e1
      obtain ⟨k1, k2, k3⟩ := StreamBuffer.store_size e3
      have hg : Grown ntoread s.buf b2 := by
        unfold Grown
        rw [k1]
        by_cases hc : s.buf.avail + m ≤ s.buf.size
        · rw [g4 hc]; exact ⟨by omega, fun _ => rfl, Or.inl rfl⟩
        · obtain ⟨z1, z2⟩ := g5 (by omega)
          exact ⟨z1, fun z => by omega, Or.inr (by omega)⟩
      split at e
      · exact hg.trans (ih _ _ _ _ _ rfl e)
      · exact hg.trans (ih _ _ _ _ _ (by dsimp only; omega) e)
    · cases e; exact Grown.refl _ _

theorem grown_read {s s' : BufferedStream φ α} {mn mx n : Int} {d : List α} (e : read P s mn mx = .ok (s', n, d)) :
    Grown mn s.buf s'.buf := by
  unfold read at e
  split at e
  · cases e; exact Grown.refl _ _
  · split at e
    · cases e; exact Grown.refl _ _
    · dsimp only at e
      generalize (if mn > mx then 0 else mx) = mx at e
      obtain ⟨t, e1, e⟩ := bind_eq_ok e
      have k : Grown mn s.buf t.buf := by
        unfold ensure at e1
        split at e1
        · unfold writeToBuffer at e1
          obtain ⟨⟨u, w⟩, e2, e1⟩ := bind_eq_ok e1
          have := grown_write _ _ _ _ _ _ _ _ rfl e2
          dsimp only at e1
          split at e1 <;> cases e1 <;> exact this
        · cases e1; exact Grown.refl _ _
      split at e
      · cases e; exact k
      · obtain ⟨⟨b, w, d1⟩, e2, e⟩ := bind_eq_ok e
        have hb := (StreamBuffer.read_size e2).1
        have k2 : Grown mn s.buf b := by
          unfold Grown at k ⊢
          rw [hb]; exact k
        dsimp only at e
        split at e
        · cases e; exact k2
        · split at e
          · cases e; exact k2
          · cases e; exact k2

theorem grown_reset {s s' : BufferedStream φ α} {q r : Int} (e : reset s q = .ok (s', r)) : s'.buf.size = s.buf.size := by
  unfold reset at e
  obtain ⟨_, e⟩ := assert_eq_ok e
  split at e
  · cases e; rfl
  · dsimp only at e
    split at e <;> cases e <;> rfl

theorem grown_skip {s s' : BufferedStream φ α} {k r : Int} (e : skip P s k = .ok (s', r)) : Grown 1 s.buf s'.buf := by
  unfold skip at e
  generalize k.toNat + 1 = fuel at e
  have : ∀ (fuel : Nat) (s s' : BufferedStream φ α) (k t r : Int), skipLoop P fuel s k t = .ok (s', r) → Grown 1 s.buf s'.buf := by
    intro fuel
    induction fuel with
    | zero => intro s s' k t r e; cases e
    | succ fuel ih =>
      intro s s' k t r e
      unfold skipLoop at e
      split at e
      · dsimp only at e
        obtain ⟨⟨u, w, d⟩, e1, e⟩ := bind_eq_ok e
        have k1 := grown_read e1
        dsimp only at e
        split at e
        · cases e; exact k1
        · exact k1.trans (ih _ _ _ _ _ e)
      · cases e; exact Grown.refl _ _
  exact this _ _ _ _ _ _ e

/-- The producer does not claim to have stored more than there was space for. -/
def Fits (P : Producer φ α) : Prop := ∀ {f f' : φ} {k : Int} {r : Fill α}, P.fill f k = .ok (f', r) → r.n ≤ k

theorem write32_eq (hf : Fits P) (ntoread maxread : Int) (hn : ntoread ≤ 2 ^ 30) : ∀ (fuel : Nat) (s : BufferedStream φ α) (missing w : Int),
    missing = ntoread - s.buf.avail → Wf s.buf → s.buf.size < 2 ^ 31 →
    writeLoop32 P ntoread maxread fuel s missing w = writeLoop P ntoread maxread fuel s missing w := by
  intro fuel
  induction fuel with
  | zero => intro s m w _ _ _; rfl
  | succ fuel ih =>
    intro s m w hm hw hs
    unfold writeLoop32 writeLoop
    split
    · rename_i c
      rw [StreamBuffer.makeSpace32_eq hw hs (by omega) (by omega)]
      cases e1 : s.buf.makeSpace m with
      | fault x => rfl
      | diverge => rfl
      | ok x =>
        obtain ⟨b1, sp⟩ := x
        simp only [Res.bind_ok]
        obtain ⟨_, g2, g3, g3', g4, g5⟩ := StreamBuffer.makeSpace_size e1
        generalize hsp : (if maxread ≥ ntoread ∧ sp > maxread then maxread else sp) = sp'
        have hsp : sp' ≤ sp := by
          rw [← hsp]; split <;> omega
        cases e2 : P.fill s.prod sp' with
        | fault x => rfl
        | diverge => rfl
        | ok x =>
          obtain ⟨f, r⟩ := x
          simp only [Res.bind_ok]
          cases e3 : b1.store (b1.offset + b1.avail) r.data with
          | fault x => rfl
          | diverge => rfl
          | ok b2 =>
            simp only [Res.bind_ok]
            obtain ⟨k1, k2, k3⟩ := StreamBuffer.store_size e3
            obtain ⟨v1, v2, v3⟩ := g2
            have hr := hf e2
            have hb2 : b2.size < 2 ^ 31 := by
              rw [k1]
              by_cases hc : s.buf.avail + m ≤ s.buf.size
              · rw [g4 hc]; exact hs
              · have := (g5 (by omega)).2; omega
            cases Res.assert (decide ((if r.error = true then Status.error else s.status) ≠ Status.eof)) with
            | fault x => rfl
            | diverge => rfl
            | ok _ =>
              simp only [Res.bind_ok]
              split
              · rw [i32_ok (by omega) (by omega), Res.bind_ok, i32_ok (by omega) (by omega), Res.bind_ok]
                exact ih _ _ _ rfl ⟨by dsimp only; omega, by dsimp only; omega, by
                  unfold StreamBuffer.size at *; dsimp only at *; omega⟩ hb2
              · exact ih _ _ _ (by dsimp only; omega) ⟨by dsimp only; omega, by dsimp only; omega, by dsimp only; omega⟩ hb2
    · rfl

theorem read32_eq (hf : Fits P) {s : BufferedStream φ α} {mn mx : Int} (h0 : -(2 ^ 31) ≤ mn) (hn : mn ≤ 2 ^ 30) (hw : Wf s.buf) (hs : s.buf.size < 2 ^ 31) :
    read32 P s mn mx = read P s mn mx := by
  have he : ∀ mx, ensure32 P s mn mx = ensure P s mn mx := by
    intro mx
    unfold ensure32 ensure
    split
    · rename_i c
      unfold writeToBuffer32 writeToBuffer
      obtain ⟨w1, w2, w3⟩ := hw
      rw [i32_ok (by omega) (by omega), Res.bind_ok, write32_eq hf _ _ hn _ _ _ _ rfl ⟨w1, w2, w3⟩ hs]
    · rfl
  unfold read32 read
  simp only [he]

theorem wf_write (hf : Fits P) (ntoread maxread : Int) : ∀ (fuel : Nat) (s s' : BufferedStream φ α) (missing w r : Int),
    Wf s.buf → writeLoop P ntoread maxread fuel s missing w = .ok (s', r) → Wf s'.buf := by
  intro fuel
  induction fuel with
  | zero => intro s s' m w r _ e; cases e
  | succ fuel ih =>
    intro s s' m w r hw e
    unfold writeLoop at e
    split at e
    · obtain ⟨⟨b1, sp⟩, e1, e⟩ := bind_eq_ok e
      dsimp only at e
      generalize hsp : (if maxread ≥ ntoread ∧ sp > maxread then maxread else sp) = sp' at e
      have hsp : sp' ≤ sp := by
        rw [← hsp]; split <;> omega
      obtain ⟨⟨f, r1⟩, e2, e⟩ := bind_eq_ok e
      dsimp only at e
      obtain ⟨b2, e3, e⟩ := bind_eq_ok e
      obtain ⟨_, e⟩ := assert_eq_ok e
      obtain ⟨_, g2, _, g3, _⟩ := StreamBuffer.makeSpace_size e1
      obtain ⟨k1, k2, k3⟩ := StreamBuffer.store_size e3
      obtain ⟨v1, v2, v3⟩ := g2
      have hr := hf e2
      split at e
      · exact ih _ _ _ _ _ ⟨by dsimp only; omega, by dsimp only; omega, by
          unfold StreamBuffer.size at *; dsimp only at *; omega⟩ e
      · exact ih _ _ _ _ _ ⟨by dsimp only; omega, by dsimp only; omega, by dsimp only; omega⟩ e
    · cases e; exact hw

theorem wf_read (hf : Fits P) {s s' : BufferedStream φ α} {mn mx n : Int} {d : List α} (hw : Wf s.buf)
    (e : read P s mn mx = .ok (s', n, d)) : Wf s'.buf := by
  unfold read at e
  split at e
  · cases e; exact hw
  · split at e
    · cases e; exact hw
    · dsimp only at e
      generalize (if mn > mx then 0 else mx) = mx at e
      obtain ⟨t, e1, e⟩ := bind_eq_ok e
      have k : Wf t.buf := by
        unfold ensure at e1
        split at e1
        · unfold writeToBuffer at e1
          obtain ⟨⟨u, w⟩, e2, e1⟩ := bind_eq_ok e1
          have := wf_write hf _ _ _ _ _ _ _ _ hw e2
          dsimp only at e1
          split at e1 <;> cases e1 <;> exact this
        · cases e1; exact hw
      split at e
      · cases e; exact k
      · obtain ⟨⟨b, w, d1⟩, e2, e⟩ := bind_eq_ok e
        have k2 := (StreamBuffer.read_size e2).2
        dsimp only at e
        split at e
        · cases e; exact k2
        · split at e
          · cases e; exact k2
          · cases e; exact k2

theorem wf_reset {s s' : BufferedStream φ α} {q r : Int} (hw : Wf s.buf) (e : reset s q = .ok (s', r)) : Wf s'.buf := by
  unfold reset at e
  obtain ⟨_, e⟩ := assert_eq_ok e
  split at e
  · cases e; exact hw
  · dsimp only at e
    split at e
    · rename_i c
      cases e
      obtain ⟨v1, v2, v3⟩ := hw
      exact ⟨by dsimp only; omega, by dsimp only; omega, by unfold StreamBuffer.size at *; dsimp only at *; omega⟩
    · cases e; exact hw

theorem skip32_eq (hf : Fits P) {s : BufferedStream φ α} {k : Int} (hw : Wf s.buf) (hs : s.buf.size < 2 ^ 31) :
    skip32 P s k = skip P s k ∧ ∀ {s' r}, skip P s k = .ok (s', r) → Wf s'.buf := by
  unfold skip32 skip
  generalize k.toNat + 1 = fuel
  have : ∀ (fuel : Nat) (s : BufferedStream φ α) (k t : Int), Wf s.buf → s.buf.size < 2 ^ 31 →
      skipLoop32 P fuel s k t = skipLoop P fuel s k t ∧ ∀ {s' r}, skipLoop P fuel s k t = .ok (s', r) → Wf s'.buf := by
    intro fuel
    induction fuel with
    | zero => intro s k t _ _; exact ⟨rfl, fun e => by cases e⟩
    | succ fuel ih =>
      intro s k t hw hs
      unfold skipLoop32 skipLoop
      split
      · dsimp only
        rw [read32_eq hf (by omega) (by omega) hw hs]
        cases e1 : read P s 1 (if k > s.buf.size then s.buf.size else k) with
        | fault x => exact ⟨rfl, fun e => by cases e⟩
        | diverge => exact ⟨rfl, fun e => by cases e⟩
        | ok x =>
          obtain ⟨u, w, d⟩ := x
          simp only [Res.bind_ok]
          have w1 := wf_read hf hw e1
          obtain ⟨g1, g2, g3⟩ := grown_read e1
          split
          · exact ⟨rfl, fun e => by cases e; exact w1⟩
          · refine ih _ _ _ w1 ?_
            rcases g3 with g3 | g3 <;> omega
      · exact ⟨rfl, fun e => by cases e; exact hw⟩
  exact this _ _ _ _ hw hs

end BufferedStream
end Strigi
