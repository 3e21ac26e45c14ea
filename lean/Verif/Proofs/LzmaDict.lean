import Verif.Proofs.LzmaExec

/-!
# The dictionary
-/

namespace Strigi
namespace LzmaDec

open Lzma

variable {dic : Nat → Option UInt8} {pos size : Nat} {h : List UInt8}

theorem repeatPast_length (d : Nat) : ∀ n h, (repeatPast d n h).length = h.length + n := by
  intro n
  induction n with
  | zero => intro h; rfl
  | succ n ih => intro h; rw [repeatPast, ih]; simp; omega

theorem repeatPast_add (d : Nat) : ∀ a b h, repeatPast d (a + b) h = repeatPast d b (repeatPast d a h) := by
  intro a
  induction a with
  | zero => intro b h; rw [Nat.zero_add]; rfl
  | succ a ih => intro b h; rw [show a + 1 + b = (a + b) + 1 by omega, repeatPast, ih]; rfl

theorem repeatPast_succ' (d n : Nat) (h : List UInt8) : repeatPast d (n + 1) h = (repeatPast d n h).getD (d - 1) 0 :: repeatPast d n h := by
  rw [repeatPast_add d n 1]
  rfl

theorem repeatPast_suffix (d : Nat) : ∀ n h, ∃ new, repeatPast d n h = new ++ h ∧ new.length = n := by
  intro n
  induction n with
  | zero => intro h; exact ⟨[], rfl, rfl⟩
  | succ n ih =>
    intro h
    obtain ⟨new, e, hl⟩ := ih (h.getD (d - 1) 0 :: h)
    exact ⟨new ++ [h.getD (d - 1) 0], by rw [repeatPast, e]; simp, by simp [hl]⟩

/-- Write a byte. -/
theorem Window.push (W : Window dic pos size h) (hp : pos < size) (b : UInt8) :
    Window (fun j => if j = pos then some b else dic j) (pos + 1) size (b :: h) := by
  refine ⟨by omega, fun d h1 h2 h3 => ?_⟩
  simp only [List.length_cons] at h3
  by_cases hd : d = 1
  · subst hd
    rw [if_neg (show ¬ pos + 1 < 1 by omega)]
    simp
  · have hb := W.back (d - 1) (by omega) (by omega) (by omega)
    have e : (b :: h)[d - 1]? = h[d - 1 - 1]? := by
      rw [show d - 1 = (d - 1 - 1) + 1 by omega, List.getElem?_cons_succ]
      rfl
    rw [e, ← hb]
    by_cases hx : pos + 1 < d
    · rw [if_pos hx, if_pos (show pos < d - 1 by omega), if_neg (show ¬ pos + 1 + size - d = pos by omega)]
      congr 1
      omega
    · rw [if_neg hx, if_neg (show ¬ pos < d - 1 by omega), if_neg (show ¬ pos + 1 - d = pos by omega)]
      congr 1
      omega

/-- Read a byte. -/
theorem Window.get (W : Window dic pos size h) {d : Nat} (h1 : 1 ≤ d) (h2 : d ≤ size) (h3 : d ≤ h.length) {p : Dec} (hdic : p.dic = dic) (hs : p.dicBufSize = size) {i : Int}
    (hi : i = if pos < d then (pos : Int) + size - d else (pos : Int) - d) : dicGet p i = .ok (h.getD (d - 1) 0) := by
  have hb := W.back d h1 h2 h3
  have hle := W.le
  have e : h[d - 1]? = some (h.getD (d - 1) 0) := by
    rw [List.getD_eq_getElem?_getD, List.getElem?_eq_getElem (by omega)]
    rfl
  rw [e, ← hdic] at hb
  unfold dicGet
  by_cases hd : pos < d
  · rw [if_pos hd] at hb hi
    rw [if_pos (by omega), show i.toNat = pos + size - d by omega, hb]
  · rw [if_neg hd] at hb hi
    rw [if_pos (by omega), show i.toNat = pos - d by omega, hb]

theorem copyStraight_ok {d : Nat} (hd1 : 1 ≤ d) (hd2 : d ≤ size) : ∀ n dest q (h : List UInt8) (p : Dec), Window p.dic dest size h → p.dicBufSize = size →
    d ≤ h.length → (q = if dest < d then dest + size - d else dest - d) → q + (n + 1) ≤ size → dest + (n + 1) ≤ size →
    ∃ dic', copyStraight (n + 1) dest q p = .ok { p with dic := dic' } ∧ Window dic' (dest + (n + 1)) size (repeatPast d (n + 1) h) ∧ (∀ i < dest, dic' i = p.dic i) := by
  intro n
  induction n with
  | zero =>
    intro dest q h p W hs hd hq h1 h2
    have hg := W.get hd1 hd2 hd rfl hs (i := (q : Int)) (by rw [hq]; split <;> omega)
    rw [copyStraight, hg, Res.bind_ok, dicSet, if_pos (by omega), Res.bind_ok, if_neg (by decide)]
    exact ⟨_, rfl, W.push (by omega) _, fun i hi => if_neg (Nat.ne_of_lt hi)⟩
  | succ n ih =>
    intro dest q h p W hs hd hq h1 h2
    have hg := W.get hd1 hd2 hd rfl hs (i := (q : Int)) (by rw [hq]; split <;> omega)
    rw [copyStraight, hg, Res.bind_ok, dicSet, if_pos (by omega), Res.bind_ok, if_pos (by omega)]
    obtain ⟨dic', e, W', hf⟩ := ih (dest + 1) (q + 1) (h.getD (d - 1) 0 :: h) { p with dic := fun j => if j = dest then some (h.getD (d - 1) 0) else p.dic j }
      (W.push (by omega) _) hs (by simp; omega) (by
        have hle := W.le
        rw [hq] at h1 ⊢
        by_cases hx : dest < d
        · rw [if_pos hx] at h1 ⊢
          rw [if_pos (by omega)]
          omega
        · rw [if_neg hx] at h1 ⊢
          rw [if_neg (by omega)]
          omega) (by omega) (by omega)
    refine ⟨dic', e, ?_, fun i hi => ?_⟩
    · rw [show dest + (n + 1 + 1) = dest + 1 + (n + 1) by omega]
      exact W'
    · rw [hf i (by omega)]
      dsimp only
      rw [if_neg (by omega)]

theorem copyAround_ok {d : Nat} (hd1 : 1 ≤ d) (hd2 : d ≤ size) : ∀ n q (h : List UInt8) (p : Dec), Window p.dic p.dicPos size h → p.dicBufSize = size →
    d ≤ h.length → (q = if p.dicPos < d then p.dicPos + size - d else p.dicPos - d) → p.dicPos + (n + 1) ≤ size →
    ∃ dic', copyAround (n + 1) q p = .ok { p with dic := dic', dicPos := p.dicPos + (n + 1) } ∧ Window dic' (p.dicPos + (n + 1)) size (repeatPast d (n + 1) h) ∧
      (∀ i < p.dicPos, dic' i = p.dic i) := by
  intro n
  induction n with
  | zero =>
    intro q h p W hs hd hq h2
    have hg := W.get hd1 hd2 hd rfl hs (i := (q : Int)) (by rw [hq]; split <;> omega)
    rw [copyAround, hg, Res.bind_ok, dicSet, if_pos (by omega), Res.bind_ok]
    dsimp only
    rw [if_neg (by decide)]
    exact ⟨_, rfl, W.push (by omega) _, fun i hi => if_neg (Nat.ne_of_lt hi)⟩
  | succ n ih =>
    intro q h p W hs hd hq h2
    have hg := W.get hd1 hd2 hd rfl hs (i := (q : Int)) (by rw [hq]; split <;> omega)
    rw [copyAround, hg, Res.bind_ok, dicSet, if_pos (by omega), Res.bind_ok]
    dsimp only
    rw [if_pos (by omega)]
    obtain ⟨dic', e, W', hf⟩ := ih (if q + 1 = p.dicBufSize then 0 else q + 1) (h.getD (d - 1) 0 :: h)
      { p with dic := (fun j => if j = p.dicPos then some (h.getD (d - 1) 0) else p.dic j), dicPos := p.dicPos + 1 }
      (W.push (by omega) _) hs (by simp; omega) (by
        have hle := W.le
        dsimp only
        rw [hq, hs]
        by_cases hx : p.dicPos < d
        · rw [if_pos hx]
          by_cases hy : p.dicPos + 1 < d
          · rw [if_pos hy, if_neg (by omega)]
            omega
          · rw [if_neg hy, if_pos (by omega)]
            omega
        · rw [if_neg hx, if_neg (by omega), if_neg (by omega)]
          omega) (by dsimp only; omega)
    refine ⟨dic', ?_, ?_, fun i hi => ?_⟩
    · rw [e]
      congr 2
      show p.dicPos + 1 + (n + 1) = p.dicPos + (n + 1 + 1)
      omega
    · rw [show p.dicPos + (n + 1 + 1) = p.dicPos + 1 + (n + 1) by omega]
      exact W'
    · rw [hf i (by show i < p.dicPos + 1; omega)]
      dsimp only
      rw [if_neg (by omega)]

theorem remLoop_ok : ∀ n (h : List UInt8) (p : Dec), Window p.dic p.dicPos size h → p.dicBufSize = size → 1 ≤ p.rep0 → p.rep0 ≤ size →
    p.rep0 ≤ h.length → p.dicPos + n ≤ size →
    ∃ dic', remLoop n p = .ok { p with dic := dic', dicPos := p.dicPos + n } ∧ Window dic' (p.dicPos + n) size (repeatPast p.rep0 n h) ∧
      (∀ i < p.dicPos, dic' i = p.dic i) := by
  intro n
  induction n with
  | zero => intro h p W hs h1 h2 h3 h4; exact ⟨p.dic, rfl, W, fun i _ => rfl⟩
  | succ n ih =>
    intro h p W hs h1 h2 h3 h4
    have hg := W.get h1 h2 h3 rfl hs (i := backIndex p p.rep0) (by unfold backIndex; rw [hs]; split <;> omega)
    rw [remLoop, hg, Res.bind_ok, dicSet, if_pos (by omega), Res.bind_ok]
    obtain ⟨dic', e, W', hf⟩ := ih (h.getD (p.rep0 - 1) 0 :: h) { p with dic := (fun j => if j = p.dicPos then some (h.getD (p.rep0 - 1) 0) else p.dic j), dicPos := p.dicPos + 1 }
      (W.push (by omega) _) hs h1 h2 (by simp; omega) (by dsimp only; omega)
    refine ⟨dic', ?_, ?_, fun i hi => ?_⟩
    · rw [e]
      congr 2
      show p.dicPos + 1 + n = p.dicPos + (n + 1)
      omega
    · rw [show p.dicPos + (n + 1) = p.dicPos + 1 + n by omega]
      exact W'
    · rw [hf i (by show i < p.dicPos + 1; omega)]
      dsimp only
      rw [if_neg (by omega)]

/-- Any number of bytes has been written, and the counters have been advanced. -/
theorem Dict.advance {p : Dec} {h : List UInt8} (H : Dict p h) {n : Nat} {dic' : Nat → Option UInt8} {h' : List UInt8} (hl : h'.length = h.length + n)
    (hn : p.dicPos + n ≤ p.prop.dicSize) (W : Window dic' (p.dicPos + n) p.prop.dicSize h') :
    Dict { p with dic := dic', dicPos := p.dicPos + n, processedPos := u32 (p.processedPos + n) } h' where
  size := H.size
  low := H.low
  high := H.high
  win := W
  count := by
    have := H.count
    show u32 ((p.processedPos : Int) + n) = _
    unfold u32
    rw [hl]
    omega
  check := by
    show (p.checkDicSize = 0 ∧ h'.length ≤ p.prop.dicSize ∧ p.dicPos + n = h'.length) ∨ _
    rw [hl]
    rcases H.check with h1 | h1
    · exact Or.inl (by omega)
    · exact Or.inr ⟨h1.1, by show p.prop.dicSize ≤ _; omega⟩

/-- Write a literal. -/
theorem writeByte_ok {p : Dec} {h : List UInt8} (H : Dict p h) (hp : p.dicPos < p.prop.dicSize) (b : UInt8) (st : Nat) :
    ∃ dic', writeByte p b st = .ok { p with dic := dic', dicPos := p.dicPos + 1, processedPos := u32 (p.processedPos + 1), state := st } ∧
      Dict { p with dic := dic', dicPos := p.dicPos + 1, processedPos := u32 (p.processedPos + 1), state := st } (b :: h) ∧ (∀ i < p.dicPos, dic' i = p.dic i) := by
  have hs := H.size
  unfold writeByte dicSet
  rw [if_pos (by omega), Res.bind_ok]
  have A := H.advance (n := 1) (h' := b :: h) (by simp) (by omega) (H.win.push (by omega) b)
  exact ⟨_, rfl, ⟨A.size, A.low, A.high, A.win, A.count, A.check⟩, fun i hi => if_neg (Nat.ne_of_lt hi)⟩

/-- Copy a match, as much of it as fits. -/
theorem copyMatch_ok {p : Dec} {h : List UInt8} (H : Dict p h) {limit len : Nat} (h1 : p.dicPos < limit) (h2 : limit ≤ p.prop.dicSize) (hlen : 1 ≤ len)
    (hr1 : 1 ≤ p.rep0) (hr2 : p.rep0 ≤ p.prop.dicSize) (hr3 : p.rep0 ≤ h.length) :
    ∃ cur dic', cur = min (limit - p.dicPos) len ∧
      copyMatch p limit len = .ok (some ({ p with dic := dic', dicPos := p.dicPos + cur, processedPos := u32 (p.processedPos + cur) }, len - cur)) ∧
      Dict { p with dic := dic', dicPos := p.dicPos + cur, processedPos := u32 (p.processedPos + cur) } (repeatPast p.rep0 cur h) ∧ (∀ i < p.dicPos, dic' i = p.dic i) := by
  obtain ⟨n, hn⟩ : ∃ n, min (limit - p.dicPos) len = n + 1 := ⟨min (limit - p.dicPos) len - 1, by omega⟩
  have hcur : (if limit - p.dicPos < len then limit - p.dicPos else len) = n + 1 := by rw [← hn]; split <;> omega
  have hle := H.win.le
  have hs := H.size
  unfold copyMatch
  rw [if_neg (by omega)]
  dsimp only
  rw [hcur]
  have hb : backIndex p p.rep0 = ((if p.dicPos < p.rep0 then p.dicPos + p.prop.dicSize - p.rep0 else p.dicPos - p.rep0 : Nat) : Int) := by
    unfold backIndex
    rw [hs]
    split <;> omega
  by_cases hst : backIndex p p.rep0 + ((n + 1 : Nat) : Int) ≤ (p.dicBufSize : Nat)
  · rw [if_pos hst]
    obtain ⟨dic', e, W', hf⟩ := copyStraight_ok hr1 hr2 n p.dicPos (backIndex p p.rep0).toNat h { p with processedPos := u32 (p.processedPos + (n + 1 : Nat)) } H.win H.size hr3
      (by rw [hb]; rfl) (by omega) (by omega)
    rw [e, Res.bind_ok]
    exact ⟨n + 1, dic', hn.symm, rfl, H.advance (repeatPast_length _ _ _) (by omega) W', hf⟩
  · rw [if_neg hst]
    obtain ⟨dic', e, W', hf⟩ := copyAround_ok hr1 hr2 n (backIndex p p.rep0).toNat h { p with processedPos := u32 (p.processedPos + (n + 1 : Nat)) } H.win H.size hr3
      (by rw [hb]; rfl) (by show p.dicPos + (n + 1) ≤ _; omega)
    rw [e, Res.bind_ok]
    exact ⟨n + 1, dic', hn.symm, rfl, H.advance (repeatPast_length _ _ _) (by omega) W', hf⟩

end LzmaDec
end Strigi
