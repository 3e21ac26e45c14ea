import Verif.Contract
import Verif.Model.SubInputStream

namespace Strigi.SubInputStream

variable {σ α : Type}

/-- The content of a substream at offset `o` with declared length `l` (`-1`: up to the end). -/
def window (c : List α) (o l : Int) : List α := if l = -1 then c.drop o.toNat else slice c o l

/-- How a substream may fail: with its parent, when the parent is too short, and (without a declared
size) when skipping at its end. -/
def fails (F : Failure) (c : List α) (o l : Int) : Failure :=
  ⟨F.onRead ∨ (window c o l).length < l, F.onSkip ∨ (window c o l).length < l ∨ l = -1⟩

structure Inv (P : StreamOps σ α) (c : List α) (o l : Int) (H : σ → Int → Int → Prop)
    (s : SubInputStream σ) (lo hi : Int) : Prop where
  off : s.offset = o
  parent : H s.parent (lo + o) (hi + o)
  ppos : P.position s.parent = s.pos + o
  lo0 : 0 ≤ lo
  lop : lo ≤ s.pos
  hip : s.pos ≤ hi
  hil : hi ≤ (window c o l).length
  st : s.status ≠ .error
  eof : s.status = .eof → s.pos = (window c o l).length
  size : s.size = l ∨ (l = -1 ∧ s.size = (window c o l).length)

theorem window_length {c : List α} {o l : Int} (ho : 0 ≤ o) (hoc : o ≤ c.length) (hl : -1 ≤ l) :
    ((window c o l).length : Int) = if l = -1 then c.length - o else min l (c.length - o) := by
  unfold window
  split
  · simp; omega
  · simp [slice]; omega

theorem window_slice {c : List α} {o l p n : Int} (ho : 0 ≤ o) (hl1 : -1 ≤ l) (hp : 0 ≤ p) (hn : 0 ≤ n)
    (h : p + n ≤ (window c o l).length) : slice (window c o l) p n = slice c (p + o) n := by
  rw [Int.add_comm p o]
  unfold window at *
  split
  · unfold slice
    rw [List.drop_drop]
    congr 2; omega
  · rename_i hl
    rw [if_neg hl] at h
    by_cases hle : p + n ≤ l
    · exact slice_slice ho hp hn hle
    · simp [slice] at h; omega

theorem readParent_spec {P : StreamOps σ α} {c : List α} {F : Failure} {H : σ → Int → Int → Prop}
    (C : Contract P c F H) {o l : Int} (ho : 0 ≤ o) (hoc : o ≤ c.length) (hl : -1 ≤ l)
    {s : SubInputStream σ} {lo hi : Int} (h : Inv P c o l H s lo hi)
    {mn mx mn' mx' : Int} (h1 : 1 ≤ mn') (h2 : mx' = 0 ∨ mn' ≤ mx') (hmn : mn' ≤ mn)
    (hmx : mx ≠ 0 → mx' ≤ mx) (hmx0 : mx' = 0 → mx = 0)
    (hlim : s.size ≠ -1 → mn' ≤ mx' ∧ mx' ≤ s.size - s.pos ∧ (mn' = mn ∨ mn' = s.size - s.pos)
      ∧ s.pos < s.size)
    (hun : s.size = -1 → mn' = mn ∧ mx' = mx) :
    ∃ s' n d, readParent P s mn' mx' = .ok (s', n, d) ∧
      ReadOk (window c o l) (fails F c o l) s.pos mn mx n d s'.pos s'.status ∧
      (s'.status ≠ .error → Inv P c o l H s' s.pos s'.pos) := by
  have hr := C.range h.parent
  have hwl := window_length (c := c) ho hoc hl
  have hpp := h.ppos
  have hsz := h.size
  have a1 := h.lo0; have a2 := h.lop; have a3 := h.hip; have a4 := h.hil
  obtain ⟨p', n, d, e, hro, hs⟩ := C.read h.parent h1 h2
  unfold readParent
  rw [e]
  simp only [Res.bind_ok]
  have hsl : (window c o l).length ≤ s.size ∨ s.size = -1 := by
    rcases hsz with hz | ⟨_, hz⟩
    · by_cases hm : l = -1
      · right; omega
      · left; rw [if_neg hm] at hwl; omega
    · left; omega
  cases hro with
  | data pos items inside adv limit enough st =>
    have hH := hs st
    rw [Res.assert_of (by
      simp only [decide_eq_true_eq]
      by_cases z : mx' = 0
      · omega
      · have := limit z; omega)]
    simp only [Res.bind_ok]
    rw [if_neg (by omega)]
    rw [hpp] at items inside adv enough hH
    have hnx : s.size ≠ -1 → n ≤ s.size - s.pos := by
      intro z; have := hlim z; have := limit (by omega); omega
    have hin : s.pos + n ≤ (window c o l).length := by
      rcases hsz with hz | ⟨_, hz⟩
      · by_cases hm : l = -1
        · rw [if_pos hm] at hwl; omega
        · rw [if_neg hm] at hwl; have := hnx (by omega); omega
      · by_cases hm : s.size = -1
        · omega
        · have := hnx hm; omega
    have hitems : d = slice (window c o l) s.pos n := by
      rw [window_slice ho hl (by omega) (by omega) hin]; exact items
    have hHw : ∀ st' sz', st' ≠ Status.error → (st' = .eof → s.pos + n = (window c o l).length) →
        (sz' = l ∨ (l = -1 ∧ sz' = (window c o l).length)) →
        Inv P c o l H ⟨p', s.offset, s.pos + n, sz', st'⟩ s.pos (s.pos + n) := by
      intro st' sz' q1 q2 q3
      refine ⟨h.off, ?_, by simp only; omega, by omega, by simp only; omega, by simp only; omega, hin,
        q1, q2, q3⟩
      have e5 : s.pos + n + o = P.position p' := by omega
      rw [e5]; exact hH
    by_cases hlt : n < mn'
    · rw [if_pos hlt]
      have hend : s.pos + o + n = c.length := by omega
      by_cases hm : s.size = -1
      · rw [if_pos hm, if_pos (by omega)]
        have hend2 : s.pos + n = (window c o l).length := by
          rcases hsz with hz | ⟨_, hz⟩
          · rw [if_pos (by omega)] at hwl; omega
          · omega
        have hl1 : l = -1 := by omega
        refine ⟨_, _, _, rfl, .data pos hitems hin rfl ?_ (Or.inr hend2) (by simp),
          fun _ => hHw _ _ (by simp) (fun _ => hend2) (Or.inr ⟨hl1, hend2⟩)⟩
        intro z
        have := hmx z
        have := limit (by omega)
        omega
      · rw [if_neg hm]
        have hh := hlim hm
        have hshort : (window c o l).length < l := by
          rcases hsz with hz | ⟨hz1, hz⟩
          · rw [if_neg (by omega)] at hwl; omega
          · rw [if_pos (by omega)] at hwl; omega
        exact ⟨_, _, _, rfl, .failed (Or.inr hshort) (by omega) rfl, fun z => absurd rfl z⟩
    · rw [if_neg hlt]
      have hst' : (if s.pos + n = s.size then Status.eof else s.status) ≠ .error := by
        split
        · simp
        · exact h.st
      have heof' : (if s.pos + n = s.size then Status.eof else s.status) = .eof →
          s.pos + n = (window c o l).length := by
        intro z
        by_cases hq : s.pos + n = s.size
        · omega
        · rw [if_neg hq] at z
          have := h.eof z
          omega
      refine ⟨_, _, _, rfl, .data pos hitems hin rfl ?_ ?_ hst', fun _ => hHw _ _ hst' heof' hsz⟩
      · intro z
        have := hmx z
        by_cases z' : mx' = 0
        · have := hmx0 z'; omega
        · have := limit z'; omega
      · by_cases hm : s.size = -1
        · have := hun hm; omega
        · have := hlim hm
          by_cases hq : mn' = mn
          · omega
          · right; omega
  | ended none nodata atEnd stay st =>
    have hne : P.status p' ≠ .error := by rw [st]; simp
    have hH := hs hne
    rw [hpp] at atEnd stay hH
    rw [Res.assert_of (by simp only [decide_eq_true_eq]; omega)]
    simp only [Res.bind_ok]
    rw [if_neg (by omega), if_pos (by omega)]
    by_cases hm : s.size = -1
    · rw [if_pos hm, if_neg (by omega)]
      have hend2 : s.pos = (window c o l).length := by
        rcases hsz with hz | ⟨_, hz⟩
        · rw [if_pos (by omega)] at hwl; omega
        · omega
      refine ⟨_, _, _, rfl, .ended none nodata hend2 rfl rfl, fun _ => ⟨h.off, ?_, ?_, by omega, ?_, ?_, ?_, ?_, ?_, hsz⟩⟩
      · rw [stay] at hH; exact hH
      · simp only; omega
      · simp only; omega
      · simp only; omega
      · simp only; omega
      · simp
      · intro _; exact hend2
    · rw [if_neg hm]
      have hh := hlim hm
      have hshort : (window c o l).length < l := by
        rcases hsz with hz | ⟨hz1, hz⟩
        · rw [if_neg (by omega)] at hwl; omega
        · rw [if_pos (by omega)] at hwl; omega
      exact ⟨_, _, _, rfl, .failed (Or.inr hshort) (by omega) rfl, fun z => absurd rfl z⟩
  | failed allowed code st =>
    rw [Res.assert_of (by simp only [decide_eq_true_eq]; omega)]
    simp only [Res.bind_ok]
    rw [if_pos (by omega)]
    exact ⟨_, _, _, rfl, .failed (Or.inl allowed) code rfl, fun z => absurd rfl z⟩

theorem read_spec {P : StreamOps σ α} {c : List α} {F : Failure} {H : σ → Int → Int → Prop}
    (C : Contract P c F H) {o l : Int} (ho : 0 ≤ o) (hoc : o ≤ c.length) (hl : -1 ≤ l)
    (hl2 : l < 2 ^ 31) (hc : l = -1 → c.length < 2 ^ 31)
    {s : SubInputStream σ} {lo hi : Int} (h : Inv P c o l H s lo hi)
    {mn mx : Int} (h1 : 1 ≤ mn) (h2 : mx = 0 ∨ mn ≤ mx) :
    ∃ s' n d, read P s mn mx = .ok (s', n, d) ∧
      ReadOk (window c o l) (fails F c o l) s.pos mn mx n d s'.pos s'.status ∧
      (s'.status ≠ .error → Inv P c o l H s' s.pos s'.pos) := by
  have hsz := h.size
  have a1 := h.lo0; have a2 := h.lop; have a3 := h.hip; have a4 := h.hil
  have hwl := window_length (c := c) ho hoc hl
  unfold SubInputStream.read
  by_cases hm : s.size ≠ -1
  · rw [if_pos hm]
    simp only
    have hsl : (window c o l).length ≤ s.size := by
      rcases hsz with hz | ⟨_, hz⟩
      · rw [if_neg (by omega)] at hwl; omega
      · omega
    by_cases hz0 : s.size - s.pos = 0
    · rw [if_pos hz0]
      have hend : s.pos = (window c o l).length := by omega
      refine ⟨_, _, _, rfl, .ended (Or.inl rfl) rfl hend rfl rfl, fun _ =>
        ⟨h.off, ?_, h.ppos, by omega, by simp only; omega, by simp only; omega, by simp only; omega,
          by simp, fun _ => hend, hsz⟩⟩
      simp only
      have := h.ppos
      exact C.narrow h.parent (by omega) (by omega) (by omega) (by omega)
    · rw [if_neg hz0]
      have hleft : s.size - s.pos < 2 ^ 31 := by
        rcases hsz with hz | ⟨hz1, hz⟩
        · omega
        · have := hc hz1; omega
      rw [narrow32_of_range (by omega) hleft]
      have hmn' : 1 ≤ (if mn > s.size - s.pos then s.size - s.pos else mn) ∧
          (if mn > s.size - s.pos then s.size - s.pos else mn) ≤ mn ∧
          (if mn > s.size - s.pos then s.size - s.pos else mn) ≤ s.size - s.pos ∧
          ((if mn > s.size - s.pos then s.size - s.pos else mn) = mn ∨
            (if mn > s.size - s.pos then s.size - s.pos else mn) = s.size - s.pos) := by
        split <;> omega
      generalize (if mn > s.size - s.pos then s.size - s.pos else mn) = mn' at *
      have hmx' : mn' ≤ (if mx < mn' ∨ mx > s.size - s.pos then s.size - s.pos else mx) ∧
          (if mx < mn' ∨ mx > s.size - s.pos then s.size - s.pos else mx) ≤ s.size - s.pos ∧
          (mx ≠ 0 → (if mx < mn' ∨ mx > s.size - s.pos then s.size - s.pos else mx) ≤ mx) := by
        split <;> omega
      generalize (if mx < mn' ∨ mx > s.size - s.pos then s.size - s.pos else mx) = mx' at *
      exact readParent_spec C ho hoc hl h hmn'.1 (Or.inr hmx'.1) hmn'.2.1 hmx'.2.2 (by omega)
        (fun _ => ⟨hmx'.1, hmx'.2.1, hmn'.2.2.2, by omega⟩) (fun z => absurd z hm)
  · rw [if_neg hm]
    exact readParent_spec C ho hoc hl h h1 h2 (Int.le_refl _) (fun _ => Int.le_refl _) (fun z => z)
      (fun z => absurd z hm) (fun _ => ⟨rfl, rfl⟩)

theorem skipParent_spec {P : StreamOps σ α} {c : List α} {F : Failure} {H : σ → Int → Int → Prop}
    (C : Contract P c F H) {o l : Int} (ho : 0 ≤ o) (hoc : o ≤ c.length) (hl : -1 ≤ l)
    (hemp : l = -1 → o < c.length)
    {s : SubInputStream σ} {lo hi : Int} (h : Inv P c o l H s lo hi)
    {k k' : Int} (h1 : 1 ≤ k') (h2 : k' < 2 ^ 31) (hk : k' ≤ k)
    (hlim : s.size ≠ -1 → k' ≤ s.size - s.pos ∧ (k' = k ∨ k' = s.size - s.pos))
    (hun : s.size = -1 → k' = k) :
    ∃ s' r, skipParent P s k' = .ok (s', r) ∧
      SkipOk (window c o l) (fails F c o l) s.pos k r s'.pos s'.status ∧
      (s'.status ≠ .error → Inv P c o l H s' s'.pos s'.pos) := by
  have hr := C.range h.parent
  have hwl := window_length (c := c) ho hoc hl
  have hpp := h.ppos
  have hsz := h.size
  have a1 := h.lo0; have a2 := h.lop; have a3 := h.hip; have a4 := h.hil
  obtain ⟨p', r, e, hsk, hs⟩ := C.skip h.parent (by omega : 0 ≤ k') h2
  unfold skipParent
  rw [e]
  simp only [Res.bind_ok]
  cases hsk with
  | failed allowed st =>
    rw [if_pos st]
    exact ⟨_, _, rfl, .failed (Or.inl allowed) rfl, fun z => absurd rfl z⟩
  | skipped adv res st =>
    rw [if_neg st]
    have hH := hs st
    rw [hpp] at adv res
    by_cases hpos : 0 < r
    · -- some items were skipped
      have hr' : r = P.position p' - (s.pos + o) := by omega
      have hHw : ∀ st', st' ≠ Status.error → (st' = .eof → s.pos + r = (window c o l).length) →
          Inv P c o l H ⟨p', s.offset, s.pos + r, s.size, st'⟩ (s.pos + r) (s.pos + r) := by
        intro st' q1 q2
        refine ⟨h.off, ?_, by simp only; omega, by omega, by simp only; omega, by simp only; omega, ?_,
          q1, q2, hsz⟩
        · have e5 : s.pos + r + o = P.position p' := by omega
          rw [e5]; exact hH
        · rcases hsz with hz | ⟨hz1, hz⟩
          · by_cases hm : l = -1
            · rw [if_pos hm] at hwl; omega
            · rw [if_neg hm] at hwl; have := hlim (by omega); omega
          · have := hlim (by omega); omega
      have hmin : s.pos + r = min (s.pos + k) (window c o l).length := by
        rcases hsz with hz | ⟨hz1, hz⟩
        · by_cases hm : l = -1
          · rw [if_pos hm] at hwl; have := hun (by omega); omega
          · rw [if_neg hm] at hwl; have := hlim (by omega); omega
        · rw [if_pos hz1] at hwl; have := hlim (by omega); omega
      by_cases hq : s.pos + r = s.size
      · rw [if_pos hq]
        have hw : s.pos + r = (window c o l).length := by
          rcases hsz with hz | ⟨hz1, hz⟩
          · by_cases hm : l = -1
            · omega
            · rw [if_neg hm] at hwl; omega
          · omega
        exact ⟨_, _, rfl, .skipped hmin (Or.inl (by simp only; omega)) (by simp),
          fun _ => hHw _ (by simp) (fun _ => hw)⟩
      · rw [if_neg hq, if_neg (by omega)]
        refine ⟨_, _, rfl, .skipped hmin (Or.inl (by simp only; omega)) h.st, fun _ => hHw _ h.st ?_⟩
        intro z
        have := h.eof z
        omega
    · -- nothing was skipped: the parent is at its end
      have hend : s.pos + o = c.length := by omega
      have hallow : (fails F c o l).onSkip := by
        simp only [fails]
        by_cases hm : l = -1
        · exact Or.inr (Or.inr hm)
        · right; left; rw [if_neg hm] at hwl
          have := hlim (by omega)
          omega
      have hne : s.pos + r ≠ s.size := by
        rcases hsz with hz | ⟨hz1, hz⟩
        · by_cases hm : l = -1
          · have := hemp hm; omega
          · have := hlim (by omega); omega
        · have := hlim (by omega); omega
      rw [if_neg hne, if_pos (by omega)]
      exact ⟨_, _, rfl, .failed hallow rfl, fun z => absurd rfl z⟩

theorem contract {P : StreamOps σ α} {c : List α} {F : Failure} {H : σ → Int → Int → Prop}
    (C : Contract P c F H) {o l : Int} (ho : 0 ≤ o) (hoc : o ≤ c.length) (hl : -1 ≤ l)
    (hl2 : l < 2 ^ 31) (hc : l = -1 → c.length < 2 ^ 31) (hemp : l = -1 → o < c.length) :
    Contract (ops P) (window c o l) (fails F c o l) (Inv P c o l H) where
  range h := ⟨h.lo0, h.lop, h.hip, h.hil⟩
  status h := ⟨h.st, h.eof⟩
  narrow h h1 h2 h3 h4 := by
    have := h.ppos; have := h.lo0; have := h.hil
    simp only [ops] at h2 h3
    exact ⟨h.off, C.narrow h.parent (by omega) (by omega) (by omega) (by omega), h.ppos, by omega, h2, h3,
      by omega, h.st, h.eof, h.size⟩
  size h := by
    have := h.size
    have hwl := window_length (c := c) ho hoc hl
    simp only [ops, fails]
    by_cases hm : l = -1
    · omega
    · rw [if_neg hm] at hwl
      rcases this with hz | hz
      · by_cases hs : (window c o l).length < l
        · exact Or.inr (Or.inr (Or.inr hs))
        · right; left; omega
      · omega
  read h := read_spec C ho hoc hl hl2 hc h
  skip := by
    intro s lo hi h k h1 h2
    have a1 := h.lo0; have a2 := h.lop; have a3 := h.hip; have a4 := h.hil; have hpp := h.ppos
    have hsz := h.size
    have hwl := window_length (c := c) ho hoc hl
    have hsl : s.size ≠ -1 → (window c o l).length ≤ s.size := by
      intro z
      rcases hsz with hz | ⟨_, hz⟩
      · rw [if_neg (by omega)] at hwl; omega
      · omega
    have hnar : H s.parent (s.pos + o) (s.pos + o) :=
      C.narrow h.parent (by omega) (by omega) (by omega) (by omega)
    simp only [ops]
    unfold SubInputStream.skip
    by_cases hq : s.size = s.pos
    · rw [if_pos hq]
      have hw := hsl (by omega)
      have hend : s.pos = (window c o l).length := by omega
      exact ⟨_, _, rfl, .skipped (by simp only; omega) (Or.inr ⟨rfl, rfl, hend⟩) (by simp), fun _ =>
        ⟨h.off, hnar, hpp, by simp only; omega, by simp, by simp, by simp only; omega, by simp, fun _ => hend, hsz⟩⟩
    · rw [if_neg hq]
      by_cases hk0 : k = 0
      · rw [if_pos hk0]
        exact ⟨_, _, rfl, .skipped (by omega) (Or.inl (by omega)) h.st, fun _ =>
          ⟨h.off, hnar, hpp, by omega, by omega, by omega, by omega, h.st, h.eof, hsz⟩⟩
      · rw [if_neg hk0]
        by_cases hm : s.size ≠ -1
        · rw [if_pos hm]
          simp only
          have := hsl hm
          have hk' : 1 ≤ (if k > s.size - s.pos then s.size - s.pos else k) ∧
              (if k > s.size - s.pos then s.size - s.pos else k) ≤ k ∧
              (if k > s.size - s.pos then s.size - s.pos else k) ≤ s.size - s.pos ∧
              ((if k > s.size - s.pos then s.size - s.pos else k) = k ∨
                (if k > s.size - s.pos then s.size - s.pos else k) = s.size - s.pos) := by
            split <;> omega
          generalize (if k > s.size - s.pos then s.size - s.pos else k) = k' at *
          exact skipParent_spec C ho hoc hl hemp h hk'.1 (by omega) hk'.2.1 (fun _ => hk'.2.2)
            (fun z => absurd z hm)
        · rw [if_neg hm]
          exact skipParent_spec C ho hoc hl hemp h (by omega) h2 (Int.le_refl _) (fun z => absurd z hm)
            (fun _ => rfl)
  reset := by
    intro s lo hi h q h1 h2
    have a1 := h.lo0; have a2 := h.lop; have a3 := h.hip; have a4 := h.hil; have hpp := h.ppos
    have hwl := window_length (c := c) ho hoc hl
    obtain ⟨p', e, pp, st, k1, k2⟩ := C.reset h.parent (q := q + o) (by omega) (by omega)
    simp only [ops]
    unfold SubInputStream.reset
    rw [Res.assert_of (by simp only [ge_iff_le, decide_eq_true_eq]; omega), h.off]
    simp only [Res.bind_ok]
    rw [e]
    simp only [Res.bind_ok]
    rw [if_neg (by omega)]
    have e1 : q + o - o = q := by omega
    rw [e1]
    have heof : P.status p' = .eof → q = (window c o l).length := by
      intro z
      have := (C.status k2).2 z
      split at hwl <;> omega
    refine ⟨_, rfl, rfl, st, fun z => ?_, ?_⟩
    · exact ⟨rfl, k1 (by omega), by simp only; omega, h.lo0, by simp only; omega, by simp only; omega,
        h.hil, st, heof, h.size⟩
    · exact ⟨rfl, k2, by simp only; omega, by omega, by simp, by simp, by omega, st, heof, h.size⟩

theorem softReset {P : StreamOps σ α} {c : List α} {F : Failure} {H : σ → Int → Int → Prop}
    (C : Contract P c F H) (S : SoftReset P c H) {o l : Int} (ho : 0 ≤ o) (hoc : o ≤ c.length)
    (hl : -1 ≤ l) : SoftReset (ops P) (window c o l) (Inv P c o l H) := by
  constructor
  intro s lo hi h q h1 h2
  have a1 := h.lo0; have a2 := h.lop; have a3 := h.hip; have a4 := h.hil; have hpp := h.ppos
  have hwl := window_length (c := c) ho hoc hl
  obtain ⟨p', r, e, pp, hor, st, k⟩ := S.reset h.parent (q := q + o) (by omega) (by split at hwl <;> omega)
  simp only [ops]
  unfold SubInputStream.reset
  rw [Res.assert_of (by simp only [ge_iff_le, decide_eq_true_eq]; omega), h.off]
  simp only [Res.bind_ok]
  rw [e]
  simp only [Res.bind_ok]
  rw [if_neg (by omega)]
  have heof : P.status p' = .eof → r - o = (window c o l).length := by
    intro z
    have := (C.status k).2 z
    split at hwl <;> omega
  refine ⟨_, _, rfl, rfl, by omega, st, ⟨rfl, ?_, by simp only; omega, by omega, by simp, by simp,
    by omega, st, heof, h.size⟩⟩
  have e1 : r - o + o = r := by omega
  simp only [e1]; exact k

theorem inv_new {P : StreamOps σ α} {c : List α} {F : Failure} {H : σ → Int → Int → Prop}
    (C : Contract P c F H) {p : σ} {lo hi : Int} (h : H p lo hi) {l : Int} (hl : -1 ≤ l) :
    ∃ s, new P p l = .ok s ∧ Inv P c (P.position p) l H s 0 0 ∧ s.pos = 0 := by
  have hr := C.range h
  have hwl := window_length (c := c) (o := P.position p) (l := l) (by omega) (by omega) hl
  refine ⟨⟨p, P.position p, 0, l, .ok⟩, ?_, ⟨rfl, ?_, by simp, by simp, by simp, by simp, by simp, by simp,
    by simp, Or.inl rfl⟩, rfl⟩
  · unfold new; rw [Res.assert_of (by simpa using hl)]; rfl
  · simp only [Int.zero_add]
    exact C.narrow h (by omega) (Int.le_refl _) (Int.le_refl _) (by omega)

end Strigi.SubInputStream
