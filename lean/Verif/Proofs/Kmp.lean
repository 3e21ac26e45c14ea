import Verif.Model.Kmp

namespace Strigi

/-- total access, used in proofs only -/
def at' {α : Type} (d : α) (l : List α) (i : Int) : α := l.getD i.toNat d

theorem aget_ok {α : Type} {d : α} {l : List α} {i : Int} (h0 : 0 ≤ i) (h1 : i < l.length) :
    aget l i = .ok (at' d l i) := by
  unfold aget at'
  rw [if_pos h0]
  have : i.toNat < l.length := by omega
  simp [List.getD, this]

theorem aget_inv {α : Type} {d : α} {l : List α} {i : Int} {a : α} (h : aget l i = .ok a) :
    0 ≤ i ∧ i < l.length ∧ a = at' d l i := by
  unfold aget at h
  split at h
  · cases e : l[i.toNat]? with
    | none => rw [e] at h; cases h
    | some b =>
      rw [e] at h
      cases h
      have := (List.getElem?_eq_some_iff.mp e).1
      exact ⟨by omega, by omega, by simp [at', List.getD, e]⟩
  · cases h

theorem aset_ok {α : Type} {d : α} {l : List α} {i : Int} (a : α) (h0 : 0 ≤ i) (h1 : i < l.length) :
    ∃ l', aset l i a = .ok l' ∧ l'.length = l.length ∧
      ∀ j : Int, 0 ≤ j → at' d l' j = if j = i then a else at' d l j := by
  refine ⟨l.set i.toNat a, ?_, by simp, ?_⟩
  · unfold aset; rw [if_pos ⟨h0, h1⟩]
  · intro j hj
    unfold at'
    by_cases h : j = i
    · subst h
      have : j.toNat < l.length := by omega
      simp [List.getD, this]
    · rw [if_neg h]
      have : i.toNat ≠ j.toNat := by omega
      simp [List.getD, List.getElem?_set_ne this]

theorem at'_replicate {α : Type} {d a : α} {n : Nat} {i : Int} (h0 : 0 ≤ i) (h1 : i < n) :
    at' d (List.replicate n a) i = a := by
  unfold at'
  have : i.toNat < n := by omega
  simp [List.getD, this]

namespace Kmp

/-- byte `k` of a string -/
abbrev X (x : List UInt8) (k : Int) : UInt8 := at' 0 x k

/-- `k` is the length of the longest common suffix of `x[0..i]` and `x`. -/
structure IsSuf (x : List UInt8) (i k : Int) : Prop where
  nonneg : 0 ≤ k
  le : k ≤ i + 1
  eq : ∀ d : Int, 0 ≤ d → d < k → X x (i - d) = X x (x.length - 1 - d)
  max : k ≤ i → X x (i - k) ≠ X x (x.length - 1 - k)

theorem IsSuf.unique {x : List UInt8} {i k l : Int} (hk : IsSuf x i k) (hl : IsSuf x i l) : k = l := by
  rcases Int.lt_trichotomy k l with h | h | h
  · exact absurd (hl.eq k hk.nonneg h) (hk.max (by have := hl.le; omega))
  · exact h
  · exact absurd (hk.eq l hl.nonneg h) (hl.max (by have := hk.le; omega))

def Known (x : List UInt8) (suff : List (Option Int)) (n : Int) : Prop :=
  suff.length = x.length ∧ ∀ j : Int, n ≤ j → j < x.length → ∃ k, at' none suff j = some k ∧ IsSuf x j k

theorem Known.get {x : List UInt8} {suff : List (Option Int)} {n j : Int} (h : Known x suff n)
    (h0 : 0 ≤ j) (h1 : n ≤ j) (h2 : j < x.length) :
    ∃ k, agetInit suff j = .ok k ∧ IsSuf x j k := by
  obtain ⟨k, e, i⟩ := h.2 j h1 h2
  refine ⟨k, ?_, i⟩
  unfold agetInit
  rw [aget_ok (d := none) h0 (by have := h.1; omega), e]; rfl

theorem Known.set {x : List UInt8} {suff : List (Option Int)} {n k : Int} (h : Known x suff (n + 1))
    (h0 : 0 ≤ n) (h1 : n < x.length) (hk : IsSuf x n k) :
    ∃ suff', aset suff n (some k) = .ok suff' ∧ Known x suff' n := by
  obtain ⟨s', e, l, p⟩ := aset_ok (d := none) (some k) h0 (show n < suff.length by have := h.1; omega)
  refine ⟨s', e, by rw [l]; exact h.1, ?_⟩
  intro j h2 h3
  rw [p j (by omega)]
  by_cases hj : j = n
  · subst hj; rw [if_pos rfl]; exact ⟨k, rfl, hk⟩
  · rw [if_neg hj]; exact h.2 j (by omega) h3

theorem suffixScan_spec {x : List UInt8} {f : Int} (hf : f < x.length) :
    ∀ (n : Nat) (g : Int), -1 ≤ g → g ≤ f → g < n →
      (∀ k : Int, g < k → k ≤ f → X x k = X x (k + x.length - 1 - f)) →
      ∃ g', suffixScan x f n g = .ok g' ∧ -1 ≤ g' ∧ g' ≤ g ∧
        (∀ k : Int, g' < k → k ≤ f → X x k = X x (k + x.length - 1 - f)) ∧
        (0 ≤ g' → X x g' ≠ X x (g' + x.length - 1 - f)) := by
  intro n
  induction n with
  | zero => intro g h1 h2 h3 h4; exact ⟨g, rfl, h1, Int.le_refl _, h4, fun z => by omega⟩
  | succ n ih =>
    intro g h1 h2 h3 h4
    unfold suffixScan
    by_cases hg : g ≥ 0
    · rw [if_pos hg, aget_ok (d := 0) hg (by omega), aget_ok (d := 0) (i := g + x.length - 1 - f) (by omega) (by omega)]
      simp only [Res.bind_ok]
      by_cases he : at' 0 x g = at' 0 x (g + x.length - 1 - f)
      · rw [if_pos he]
        obtain ⟨g', e, a, b, c, d⟩ := ih (g - 1) (by omega) (by omega) (by omega) (by
          intro k hk1 hk2
          by_cases hk : k = g
          · subst hk; exact he
          · exact h4 k (by omega) hk2)
        exact ⟨g', e, a, by omega, c, d⟩
      · rw [if_neg he]
        exact ⟨g, rfl, h1, Int.le_refl _, h4, fun _ => he⟩
    · rw [if_neg hg]
      exact ⟨g, rfl, h1, Int.le_refl _, h4, fun z => by omega⟩

/-- the comparison area of the last scan -/
structure FG (x : List UInt8) (n f g : Int) : Prop where
  f0 : n ≤ f
  f1 : f < x.length - 1
  g0 : -1 ≤ g
  g1 : g ≤ f
  eq : ∀ k : Int, g < k → k ≤ f → X x k = X x (k + x.length - 1 - f)
  ne : 0 ≤ g → X x g ≠ X x (g + x.length - 1 - f)

theorem suffixLoop_spec {x : List UInt8} :
    ∀ (n : Nat) (f g : Int) (suff : List (Option Int)), (n : Int) < x.length → Known x suff n →
      (FG x n f g ∨ (n : Int) ≤ g) →
      ∃ suff', suffixLoop x n f g suff = .ok suff' ∧ Known x suff' 0 := by
  intro n
  induction n with
  | zero => intro f g suff _ h _; exact ⟨suff, rfl, h⟩
  | succ n ih =>
    intro f g suff hn hK hfg
    unfold suffixLoop
    dsimp only
    have hK1 : Known x suff ((n : Int) + 1) := by simpa using hK
    -- the scan branch
    have scan : ∀ g0 : Int, -1 ≤ g0 → g0 ≤ n →
        (∀ k : Int, g0 < k → k ≤ (n : Int) → X x k = X x (k + x.length - 1 - n)) →
        ∃ suff', (do
          let g' ← suffixScan x n (g0 + 1).toNat g0
          let suff ← aset suff n (some ((n : Int) - g'))
          suffixLoop x n n g' suff) = .ok suff' ∧ Known x suff' 0 := by
      intro g0 b1 b2 b3
      obtain ⟨g', e, a1, a2, a3, a4⟩ := suffixScan_spec (x := x) (f := n) (by omega) (g0 + 1).toNat g0 b1 b2
        (by omega) b3
      rw [e]
      simp only [Res.bind_ok]
      have hs : IsSuf x n ((n : Int) - g') := by
        refine ⟨by omega, by omega, ?_, ?_⟩
        · intro d h1 h2
          rw [a3 (n - d) (by omega) (by omega)]
          congr 1; omega
        · intro h
          have := a4 (by omega)
          rw [show (n : Int) - (n - g') = g' by omega,
            show (x.length : Int) - 1 - (n - g') = g' + x.length - 1 - n by omega]
          exact this
      obtain ⟨s', e2, k2⟩ := hK1.set (by omega) (by omega) hs
      rw [e2]
      simp only [Res.bind_ok]
      exact ih n g' s' (by omega) k2 (Or.inl ⟨Int.le_refl _, by omega, a1, by omega, a3, a4⟩)
    by_cases hg : (n : Int) > g
    · rw [if_pos hg]
      have hF : FG x (n + 1 : Nat) f g := by
        rcases hfg with h | h
        · exact h
        · omega
      obtain ⟨f0, f1, g0, g1, eq, ne⟩ := hF
      obtain ⟨k, e, hk⟩ := hK1.get (j := n + x.length - 1 - f) (by omega) (by omega) (by omega)
      rw [e]
      simp only [Res.bind_ok]
      by_cases hs : k < (n : Int) - g
      · simp only [hs, decide_true, if_true]
        have hs : IsSuf x n k := by
          refine ⟨hk.nonneg, by omega, ?_, ?_⟩
          · intro d h1 h2
            rw [eq (n - d) (by omega) (by omega), ← hk.eq d h1 h2]
            congr 1; omega
          · intro _
            have := hk.nonneg
            rw [eq (n - k) (by omega) (by omega)]
            have := hk.max (by omega)
            rw [show (n : Int) - k + x.length - 1 - f = n + x.length - 1 - f - k by omega]
            exact this
        obtain ⟨s', e2, k2⟩ := hK1.set (by omega) (by omega) hs
        rw [e2]
        simp only [Res.bind_ok]
        exact ih f g s' (by omega) k2 (Or.inl ⟨by omega, f1, g0, g1, eq, ne⟩)
      · simp only [hs, decide_false, Bool.false_eq_true, if_false]
        rw [if_neg (by omega)]
        refine scan g g0 (by omega) ?_
        intro j h1 h2
        rw [eq j (by omega) (by omega)]
        have := hk.eq (n - j) (by omega) (by omega)
        rw [show j + (x.length : Int) - 1 - f = n + x.length - 1 - f - (n - j) by omega, this]
        congr 1; omega
    · rw [if_neg hg]
      simp only [Res.bind_ok, Bool.false_eq_true, if_false]
      have hmin : (if (n : Int) < g then (n : Int) else g) = n := by split <;> omega
      rw [hmin]
      refine scan n (by omega) (Int.le_refl _) ?_
      intro k h1 h2; omega

theorem suffixes_spec {x : List UInt8} (hx : x ≠ []) : ∃ suff, suffixes x = .ok suff ∧ Known x suff 0 := by
  have hm : 0 < x.length := List.length_pos_iff.mpr hx
  unfold suffixes
  dsimp only
  obtain ⟨s, e, l, p⟩ := aset_ok (d := none) (l := List.replicate x.length (none : Option Int))
    (i := (x.length : Int) - 1) (some (x.length : Int)) (by omega) (by simp; omega)
  rw [e]
  simp only [Res.bind_ok]
  have hc : (((x.length : Int) - 1).toNat : Int) = x.length - 1 := by omega
  refine suffixLoop_spec _ _ _ _ (by omega) ⟨by simpa using l, ?_⟩ (Or.inr (by omega))
  intro j h1 h2
  have hj : j = x.length - 1 := by omega
  rw [p j (by omega), if_pos hj]
  refine ⟨_, rfl, by omega, by omega, ?_, ?_⟩
  · intro d _ _; rw [hj]
  · intro h; omega

/-- `t` is a period of `x` (or its length). -/
def Per (x : List UInt8) (t : Int) : Prop :=
  0 < t ∧ t ≤ x.length ∧ ∀ k : Int, t ≤ k → k < x.length → X x (k - t) = X x k

/-- a shift `t` is compatible with a mismatch at `i` after matching everything right of `i` -/
def Cond (x : List UInt8) (i t : Int) : Prop :=
  (∀ k : Int, i < k → k < x.length → t ≤ k → X x (k - t) = X x k) ∧ (t ≤ i → X x (i - t) ≠ X x i)

structure GsOk (x : List UInt8) (i t : Int) : Prop where
  pos : 1 ≤ t
  le : t ≤ x.length
  cond : Cond x i t
  min : ∀ t' : Int, 1 ≤ t' → t' < t → ¬ Cond x i t'

/-- the smallest period greater than `k` -/
structure BorderMin (x : List UInt8) (k t : Int) : Prop where
  per : Per x t
  gt : k < t
  min : ∀ t' : Int, t' < t → k < t' → ¬ Per x t'

theorem per_iff_suf {x : List UInt8} {i k : Int} (h0 : 0 ≤ i) (h1 : i < x.length - 1) (h : IsSuf x i k) :
    k = i + 1 ↔ Per x (x.length - 1 - i) := by
  constructor
  · intro hk
    refine ⟨by omega, by omega, ?_⟩
    intro j h2 h3
    have := h.eq (x.length - 1 - j) (by omega) (by omega)
    rw [show i - ((x.length : Int) - 1 - j) = j - (x.length - 1 - i) by omega,
      show (x.length : Int) - 1 - (x.length - 1 - j) = j by omega] at this
    exact this
  · intro hp
    apply h.unique
    refine ⟨by omega, by omega, ?_, by omega⟩
    intro d h2 h3
    have := hp.2.2 (x.length - 1 - d) (by omega) (by omega)
    rw [← this]
    congr 1; omega

theorem gsInner_spec {m lim : Int} :
    ∀ (n : Nat) (j : Int) (gs : List Int), 0 ≤ j → j + n = lim → lim ≤ gs.length →
      (∀ k : Int, j ≤ k → k < lim → at' 0 gs k = m) →
      ∃ gs', gsInner m lim n j gs = .ok gs' ∧ gs'.length = gs.length ∧
        ∀ k : Int, 0 ≤ k → at' 0 gs' k = if j ≤ k ∧ k < lim then lim else at' 0 gs k := by
  intro n
  induction n with
  | zero =>
    intro j gs h0 h1 h2 h3
    refine ⟨gs, rfl, rfl, ?_⟩
    intro k hk; rw [if_neg (by omega)]
  | succ n ih =>
    intro j gs h0 h1 h2 h3
    unfold gsInner
    rw [aget_ok (d := 0) h0 (by omega)]
    simp only [Res.bind_ok]
    rw [if_pos (h3 j (Int.le_refl _) (by omega))]
    obtain ⟨g1, e, l, p⟩ := aset_ok (d := 0) (l := gs) lim h0 (by omega)
    rw [e]
    simp only [Res.bind_ok]
    obtain ⟨g2, e2, l2, p2⟩ := ih (j + 1) g1 (by omega) (by omega) (by omega) (by
      intro k hk1 hk2
      rw [p k (by omega), if_neg (by omega)]
      exact h3 k (by omega) hk2)
    refine ⟨g2, e2, by omega, ?_⟩
    intro k hk
    rw [p2 k hk]
    by_cases hj : k = j
    · subst hj
      rw [if_neg (by omega), p k hk, if_pos rfl, if_pos (by omega)]
    · by_cases hk2 : j + 1 ≤ k ∧ k < lim
      · rw [if_pos hk2, if_pos (by omega)]
      · rw [if_neg hk2, p k hk, if_neg hj, if_neg (by omega)]

theorem gsBorderLoop_spec {x : List UInt8} {suff : List (Option Int)} (hK : Known x suff 0) :
    ∀ (n : Nat) (j : Int) (gs : List Int), (n : Int) ≤ x.length → gs.length = x.length →
      0 ≤ j → j + n ≤ x.length →
      (∀ k : Int, 0 ≤ k → k < j → BorderMin x k (at' 0 gs k)) →
      (∀ k : Int, j ≤ k → k < x.length → at' 0 gs k = x.length) →
      (∀ t : Int, t ≤ x.length - 1 - n → Per x t → t ≤ j) →
      ∃ gs', gsBorderLoop x.length suff n j gs = .ok gs' ∧ gs'.length = x.length ∧
        ∀ k : Int, 0 ≤ k → k < x.length → BorderMin x k (at' 0 gs' k) := by
  intro n
  induction n with
  | zero =>
    intro j gs h1 h2 h3 h4 h5 h6 h7
    refine ⟨gs, rfl, h2, ?_⟩
    intro k k0 k1
    by_cases hk : k < j
    · exact h5 k k0 hk
    · rw [h6 k (by omega) k1]
      refine ⟨⟨by omega, Int.le_refl _, by intro _ _ _; omega⟩, k1, ?_⟩
      intro t a b c
      have := h7 t (by simp; omega) c
      omega
  | succ n ih =>
    intro j gs h1 h2 h3 h4 h5 h6 h7
    unfold gsBorderLoop
    dsimp only
    obtain ⟨k, e, hk⟩ := hK.get (j := n) (by omega) (by omega) (by omega)
    rw [e]
    simp only [Res.bind_ok]
    by_cases hb : k = (n : Int) + 1
    · rw [if_pos hb]
      by_cases hj : j < x.length - 1 - n
      · obtain ⟨g1, e1, l1, p1⟩ := gsInner_spec (m := x.length) (lim := x.length - 1 - n)
          ((x.length : Int) - 1 - n - j).toNat j gs h3 (by omega) (by omega)
          (fun i a b => h6 i a (by omega))
        rw [e1]
        simp only [Res.bind_ok]
        rw [if_pos hj]
        have hper : Per x (x.length - 1 - n) := (per_iff_suf (by omega) (by omega) hk).mp hb
        refine ih _ g1 (by omega) (by omega) (by omega) (by omega) ?_ ?_ ?_
        · intro i a b
          rw [p1 i a]
          by_cases hi : i < j
          · rw [if_neg (by omega)]; exact h5 i a hi
          · rw [if_pos (by omega)]
            refine ⟨hper, b, ?_⟩
            intro t t1 t2 t3
            have := h7 t (by omega) t3
            omega
        · intro i a b
          rw [p1 i (by omega), if_neg (by omega)]
          exact h6 i (by omega) b
        · intro t a b; omega
      · rw [show ((x.length : Int) - 1 - n - j).toNat = 0 by omega]
        simp only [gsInner, Res.bind_ok]
        rw [if_neg hj]
        refine ih j gs (by omega) h2 h3 (by omega) h5 h6 ?_
        intro t a b; omega
    · rw [if_neg hb]
      refine ih j gs (by omega) h2 h3 (by omega) h5 h6 ?_
      intro t a b
      by_cases ht : t = x.length - 1 - n
      · subst ht
        exact absurd ((per_iff_suf (by omega) (by have := b.1; omega) hk).mpr b) hb
      · exact h7 t (by omega) b

/-- what the last loop has established for entry `k` when it has reached `i` -/
def SufDone (x : List UInt8) (i k t : Int) : Prop :=
  (∃ i', 0 ≤ i' ∧ i' < i ∧ IsSuf x i' (x.length - 1 - k) ∧ t = x.length - 1 - i' ∧
      ∀ i'' : Int, i' < i'' → i'' < i → ¬ IsSuf x i'' (x.length - 1 - k)) ∨
    ((∀ i' : Int, 0 ≤ i' → i' < i → ¬ IsSuf x i' (x.length - 1 - k)) ∧ BorderMin x k t)

theorem gsSuffixLoop_spec {x : List UInt8} {suff : List (Option Int)} (hK : Known x suff 0) :
    ∀ (n : Nat) (i : Int) (gs : List Int), 0 ≤ i → i + n = x.length - 1 → gs.length = x.length →
      (∀ k : Int, 0 ≤ k → k < x.length → SufDone x i k (at' 0 gs k)) →
      ∃ gs', gsSuffixLoop x.length suff n i gs = .ok gs' ∧ gs'.length = x.length ∧
        ∀ k : Int, 0 ≤ k → k < x.length → SufDone x (x.length - 1) k (at' 0 gs' k) := by
  intro n
  induction n with
  | zero =>
    intro i gs h0 h1 h2 h3
    have : i = (x.length : Int) - 1 := by simpa using h1
    subst this
    exact ⟨gs, rfl, h2, h3⟩
  | succ n ih =>
    intro i gs h0 h1 h2 h3
    unfold gsSuffixLoop
    obtain ⟨k, e, hk⟩ := hK.get (j := i) h0 h0 (by omega)
    rw [e]
    simp only [Res.bind_ok]
    have a1 := hk.nonneg; have a2 := hk.le
    obtain ⟨g1, e1, l1, p1⟩ := aset_ok (d := 0) (l := gs) (i := x.length - 1 - k) (x.length - 1 - i)
      (by omega) (by omega)
    rw [e1]
    simp only [Res.bind_ok]
    refine ih (i + 1) g1 (by omega) (by omega) (by omega) ?_
    intro l b1 b2
    rw [p1 l b1]
    by_cases hl : l = x.length - 1 - k
    · rw [if_pos hl]
      refine Or.inl ⟨i, h0, by omega, ?_, rfl, ?_⟩
      · rw [hl, show (x.length : Int) - 1 - (x.length - 1 - k) = k by omega]; exact hk
      · intro i'' c1 c2; omega
    · rw [if_neg hl]
      rcases h3 l b1 b2 with ⟨i', c1, c2, c3, c4, c5⟩ | ⟨c1, c2⟩
      · refine Or.inl ⟨i', c1, by omega, c3, c4, ?_⟩
        intro i'' d1 d2 d3
        by_cases hi : i'' = i
        · subst hi; have := hk.unique d3; omega
        · exact c5 i'' d1 (by omega) d3
      · refine Or.inr ⟨?_, c2⟩
        intro i' d1 d2 d3
        by_cases hi : i' = i
        · subst hi; have := hk.unique d3; omega
        · exact c1 i' d1 (by omega) d3

theorem cond_of_suf {x : List UInt8} {i k : Int} (h0 : 0 ≤ i) (h : IsSuf x i (x.length - 1 - k)) :
    Cond x k (x.length - 1 - i) := by
  refine ⟨?_, ?_⟩
  · intro l a b c
    have := h.eq (x.length - 1 - l) (by omega) (by omega)
    rw [show i - ((x.length : Int) - 1 - l) = l - (x.length - 1 - i) by omega,
      show (x.length : Int) - 1 - (x.length - 1 - l) = l by omega] at this
    exact this
  · intro ht
    have := h.max (by omega)
    rw [show i - ((x.length : Int) - 1 - k) = k - (x.length - 1 - i) by omega,
      show (x.length : Int) - 1 - (x.length - 1 - k) = k by omega] at this
    exact this

theorem suf_of_cond {x : List UInt8} {k t : Int} (h0 : 1 ≤ t) (hk : k < x.length) (ht : t ≤ k) (h : Cond x k t) :
    IsSuf x (x.length - 1 - t) (x.length - 1 - k) := by
  refine ⟨by omega, by omega, ?_, ?_⟩
  · intro d a b
    have := h.1 (x.length - 1 - d) (by omega) (by omega) (by omega)
    rw [← this]
    congr 1; omega
  · intro _
    have := h.2 ht
    rw [show (x.length : Int) - 1 - t - (x.length - 1 - k) = k - t by omega,
      show (x.length : Int) - 1 - (x.length - 1 - k) = k by omega]
    exact this

theorem per_of_cond {x : List UInt8} {k t : Int} (h0 : 1 ≤ t) (hl : t ≤ x.length) (ht : k < t) (h : Cond x k t) :
    Per x t :=
  ⟨by omega, hl, fun l a b => h.1 l (by omega) b a⟩

theorem gsOk_of_done {x : List UInt8} {k t : Int} (h0 : 0 ≤ k) (h1 : k < x.length)
    (h : SufDone x (x.length - 1) k t) : GsOk x k t := by
  rcases h with ⟨i, a1, a2, a3, a4, a5⟩ | ⟨a1, a2⟩
  · subst a4
    have b1 := a3.le
    refine ⟨by omega, by omega, cond_of_suf a1 a3, ?_⟩
    intro t' c1 c2 c3
    by_cases ht : t' ≤ k
    · exact a5 _ (by omega) (by omega) (suf_of_cond c1 h1 ht c3)
    · omega
  · obtain ⟨⟨p1, p2, p3⟩, gt, mn⟩ := a2
    refine ⟨by omega, p2, ⟨fun l a b c => p3 l c b, fun z => by omega⟩, ?_⟩
    intro t' c1 c2 c3
    by_cases ht : t' ≤ k
    · exact a1 _ (by omega) (by omega) (suf_of_cond c1 h1 ht c3)
    · exact mn t' c2 (by omega) (per_of_cond c1 (by omega) (by omega) c3)

theorem preBmGs_spec {x : List UInt8} (hx : x ≠ []) :
    ∃ gs, preBmGs x = .ok gs ∧ gs.length = x.length ∧
      ∀ k : Int, 0 ≤ k → k < x.length → GsOk x k (at' 0 gs k) := by
  have hm : 0 < x.length := List.length_pos_iff.mpr hx
  obtain ⟨suff, e, hK⟩ := suffixes_spec hx
  unfold preBmGs
  dsimp only
  rw [e]
  simp only [Res.bind_ok]
  obtain ⟨g1, e1, l1, p1⟩ := gsBorderLoop_spec hK x.length 0 (List.replicate x.length (x.length : Int))
    (Int.le_refl _) (by simp) (Int.le_refl _) (by omega) (fun k a b => by omega)
    (fun k a b => at'_replicate a b) (fun t a b => by have := b.1; omega)
  rw [e1]
  simp only [Res.bind_ok]
  obtain ⟨g2, e2, l2, p2⟩ := gsSuffixLoop_spec hK ((x.length : Int) - 1).toNat 0 g1 (Int.le_refl _)
    (by omega) l1 (fun k a b => Or.inr ⟨fun i c d => by omega, p1 k a b⟩)
  exact ⟨g2, e2, l2, fun k a b => gsOk_of_done a b (p2 k a b)⟩

/-- The bad-character table. -/
def BcOk (x : List UInt8) (n : Int) (t : List Int) : Prop :=
  t.length = 256 ∧ ∀ c : UInt8, at' 0 t c.toNat ≤ 1 ∧
    (∀ k : Int, 0 ≤ k → k < n → X x k = c → at' 0 t c.toNat ≤ -k) ∧
    (at' 0 t c.toNat = 1 ∨ ∃ k : Int, 0 ≤ k ∧ k < n ∧ X x k = c ∧ at' 0 t c.toNat = -k)

theorem bmBcLoop_spec {x : List UInt8} :
    ∀ (n : Nat) (i : Int) (t : List Int), 0 ≤ i → i + n = x.length - 1 → BcOk x i t →
      ∃ t', bmBcLoop x n i t = .ok t' ∧ BcOk x (x.length - 1) t' := by
  intro n
  induction n with
  | zero =>
    intro i t h0 h1 h2
    have : i = (x.length : Int) - 1 := by simpa using h1
    subst this
    exact ⟨t, rfl, h2⟩
  | succ n ih =>
    intro i t h0 h1 h2
    unfold bmBcLoop
    rw [aget_ok (d := 0) h0 (by omega)]
    simp only [Res.bind_ok]
    have hc := (at' 0 x i).toNat_lt
    obtain ⟨t1, e, l, p⟩ := aset_ok (d := 0) (l := t) (i := ((at' 0 x i).toNat : Int)) (-i) (by omega)
      (by rw [h2.1]; omega)
    rw [e]
    simp only [Res.bind_ok]
    refine ih (i + 1) t1 (by omega) (by omega) ⟨by rw [l]; exact h2.1, ?_⟩
    intro c
    rw [p _ (by omega)]
    by_cases hcc : c = at' 0 x i
    · subst hcc
      rw [if_pos rfl]
      exact ⟨by omega, fun k a b _ => by omega, Or.inr ⟨i, h0, by omega, rfl, rfl⟩⟩
    · rw [if_neg (by
        intro z; apply hcc
        have : c.toNat = (at' 0 x i).toNat := by omega
        exact UInt8.toNat_inj.mp this)]
      refine ⟨(h2.2 c).1, ?_, ?_⟩
      · intro k a b d
        by_cases hk : k = i
        · subst hk; exact absurd d.symm hcc
        · exact (h2.2 c).2.1 k a (by omega) d
      · rcases (h2.2 c).2.2 with z | ⟨k, a, b, d, e⟩
        · exact Or.inl z
        · exact Or.inr ⟨k, a, by omega, d, e⟩

theorem preBmBc_spec {x : List UInt8} (hx : x ≠ []) :
    ∃ t, preBmBc x = .ok t ∧ BcOk x (x.length - 1) t := by
  have hm : 0 < x.length := List.length_pos_iff.mpr hx
  unfold preBmBc
  refine bmBcLoop_spec _ _ _ (Int.le_refl _) (by omega) ⟨List.length_replicate, ?_⟩
  intro c
  have hc := c.toNat_lt
  rw [at'_replicate (by omega) (by omega)]
  exact ⟨Int.le_refl _, fun k a b => by omega, Or.inl rfl⟩

/-- The state built by `setQuery`. -/
structure Built (x : List UInt8) (s : Searcher) : Prop where
  query : s.query = x
  gsLen : s.gs.length = x.length
  gs : ∀ k : Int, 0 ≤ k → k < x.length → GsOk x k (at' 0 s.gs k)
  bc : BcOk x (x.length - 1) s.bc

theorem setQuery_spec {x : List UInt8} (hx : x ≠ []) : ∃ s, setQuery x = .ok s ∧ Built x s := by
  obtain ⟨gs, e1, l1, g1⟩ := preBmGs_spec hx
  obtain ⟨bc, e2, b2⟩ := preBmBc_spec hx
  refine ⟨⟨x, bc, gs⟩, ?_, rfl, l1, g1, b2⟩
  unfold setQuery
  rw [e1, e2]; rfl

/-- `x` occurs in `hay` at `p` -/
def Occ (x hay : List UInt8) (p : Int) : Prop :=
  0 ≤ p ∧ p + x.length ≤ hay.length ∧ ∀ k : Int, 0 ≤ k → k < x.length → X hay (p + k) = X x k

/-- the remembered factor -/
structure Mem (x hay : List UInt8) (jp u shift : Int) : Prop where
  s1 : 1 ≤ shift
  u0 : 0 < u
  us : u + shift ≤ x.length
  mem : ∀ k : Int, x.length - shift - u ≤ k → k < x.length - shift → X hay (jp + k) = X x k
  per : ∀ k : Int, x.length - u ≤ k → k < x.length → X x (k - shift) = X x k
  src : ∃ io : Int, 0 ≤ io ∧ io < x.length ∧ GsOk x io shift ∧ u = min (x.length - shift) (x.length - 1 - io)

theorem compare_spec {x hay : List UInt8} {jp u shift : Int} (hj0 : 0 ≤ jp) (hj1 : jp + x.length ≤ hay.length)
    (hmem : u = 0 ∨ Mem x hay jp u shift) :
    ∀ (n : Nat) (i : Int), i < n → -1 ≤ i → i < x.length →
      (∀ k : Int, i < k → k < x.length → X hay (jp + k) = X x k) →
      (u ≠ 0 → i ≥ x.length - shift ∨ i < x.length - shift - u) →
      ∃ i', compare x hay jp u shift n i = .ok i' ∧ -1 ≤ i' ∧ i' < x.length ∧
        (∀ k : Int, i' < k → k < x.length → X hay (jp + k) = X x k) ∧
        (0 ≤ i' → X hay (jp + i') ≠ X x i') ∧
        (u ≠ 0 → i' ≥ x.length - shift ∨ i' < x.length - shift - u) := by
  intro n
  induction n with
  | zero => intro i h0 h1 h2 h3 h4; exact ⟨i, rfl, h1, h2, h3, fun z => by omega, h4⟩
  | succ n ih =>
    intro i h0 h1 h2 h3 h4
    unfold compare
    by_cases hi : i ≥ 0
    · rw [if_pos hi, aget_ok (d := 0) hi h2, aget_ok (d := 0) (l := hay) (by omega) (by omega)]
      simp only [Res.bind_ok]
      by_cases he : at' 0 x i = at' 0 hay (jp + i)
      · rw [if_pos he]
        have h3' : ∀ k : Int, i - 1 < k → k < x.length → X hay (jp + k) = X x k := by
          intro k a b
          by_cases hk : k = i
          · subst hk; exact he.symm
          · exact h3 k (by omega) b
        by_cases hu : u ≠ 0 ∧ i - 1 = x.length - 1 - shift
        · rw [if_pos hu]
          have hM := hmem.resolve_left hu.1
          have := hM.us; have := hM.u0
          refine ih (i - 1 - u) (by omega) (by omega) (by omega) ?_ (fun _ => Or.inr (by omega))
          intro k a b
          by_cases hk : i - 1 < k
          · exact h3' k hk b
          · exact hM.mem k (by omega) (by omega)
        · rw [if_neg hu]
          refine ih (i - 1) (by omega) (by omega) (by omega) h3' ?_
          intro hu0
          have := h4 hu0
          omega
      · rw [if_neg he]
        exact ⟨i, rfl, h1, h2, h3, fun _ => fun z => he z.symm, h4⟩
    · rw [if_neg hi]
      exact ⟨i, rfl, h1, h2, h3, fun z => by omega, h4⟩

/-- An occurrence to the right of a window with a mismatch at `i` satisfies the good-suffix condition. -/
theorem occ_cond {x hay : List UInt8} {jp i t : Int} (ht : 1 ≤ t)
    (hm : ∀ k : Int, i < k → k < x.length → X hay (jp + k) = X x k) (hi0 : 0 ≤ i) (hi1 : i < x.length)
    (hne : X hay (jp + i) ≠ X x i) (ho : Occ x hay (jp + t)) : Cond x i t := by
  refine ⟨?_, ?_⟩
  · intro k a b c
    rw [← hm k a b, ← ho.2.2 (k - t) (by omega) (by omega)]
    congr 1; omega
  · intro h
    have := ho.2.2 (i - t) (by omega) (by omega)
    rw [show jp + t + (i - t) = jp + i by omega] at this
    rw [← this]; exact hne

/-- the query has no proper border of three or more bytes, or it repeats one byte -/
def Harmless (x : List UInt8) : Prop :=
  (∀ t : Int, Per x t → t < x.length → x.length - t ≤ 2) ∨ (∀ k : Int, 0 ≤ k → k < x.length → X x k = X x 0)

/-- The situation in which `u + 1` is too large: the factor is a border of `u` bytes, the mismatch is at `i`, the next occurrence
may be `t` bytes further to the right. -/
structure SlipAt (x : List UInt8) (u io i t g l : Int) : Prop where
  u0 : 0 < u
  u1 : u < x.length
  io0 : 0 ≤ io
  io1 : io < x.length - u
  gio : GsOk x io (x.length - u)
  i0 : u ≤ i
  i1 : i < x.length
  t0 : 1 ≤ t
  t1 : t ≤ u
  pre : ∀ k : Int, t ≤ k → k < u → X x (k - t) = X x k
  cond : Cond x i t
  gi : GsOk x i g
  l0 : 0 ≤ l
  l1 : l < x.length - 1
  lc : X x l = X x (i - t)
  last : ∀ k : Int, l < k → k < x.length - 1 → X x k ≠ X x (i - t)
  bg : g < i - l
  bt : u - (x.length - 1 - i) < i - l

def Slip (x : List UInt8) : Prop := ∃ u io i t g l, SlipAt x u io i t g l

theorem last_occ {x : List UInt8} {c : UInt8} : ∀ (n : Nat) (k : Int), 0 ≤ k → k < x.length - 1 → x.length - 1 - k ≤ n → X x k = c →
    ∃ l, k ≤ l ∧ l < x.length - 1 ∧ X x l = c ∧ ∀ k' : Int, l < k' → k' < x.length - 1 → X x k' ≠ c := by
  intro n
  induction n with
  | zero => intro k h0 h1 h2 h3; omega
  | succ n ih =>
    intro k h0 h1 h2 h3
    by_cases h : ∃ k' : Int, k < k' ∧ k' < x.length - 1 ∧ X x k' = c
    · obtain ⟨k', a, b, d⟩ := h
      obtain ⟨l, p1, p2, p3, p4⟩ := ih k' (by omega) b (by omega) d
      exact ⟨l, by omega, p2, p3, p4⟩
    · exact ⟨k, by omega, h1, h3, fun k' a b d => h ⟨k', a, b, d⟩⟩

theorem Harmless.not_slip {x : List UInt8} (hh : Harmless x) : ¬ Slip x := by
  rintro ⟨u, io, i, t, g, l, h⟩
  have u0 := h.u0; have u1 := h.u1; have io0 := h.io0; have io1 := h.io1; have i0 := h.i0; have i1 := h.i1; have t0 := h.t0
  have t1 := h.t1; have l0 := h.l0; have l1 := h.l1; have bg := h.bg; have bt := h.bt
  have g2 := h.gi.pos
  have hli : i - l ≤ t := by
    by_cases hl : l < i - t
    · exact absurd rfl (h.last (i - t) hl (by omega))
    · omega
  rcases hh with hh | hh
  · have hper : Per x (x.length - u) := ⟨by omega, by omega, fun k a b => by
      exact h.gio.cond.1 k (by omega) b a⟩
    have hu3 := hh _ hper (by omega)
    have k1 := h.gi.cond.1 (i + 1) (by omega) (by omega) (by omega)
    have k2 := h.gi.cond.2 (by omega)
    have hg1 : g = 1 := by omega
    have ht2 : t = 2 := by omega
    have k3 := h.cond.1 (i + 1) (by omega) (by omega) (by omega)
    rw [hg1] at k1 k2
    rw [ht2] at k3
    rw [show i + 1 - 1 = i by omega] at k1
    rw [show i + 1 - 2 = i - 1 by omega] at k3
    exact k2 (by rw [k3, k1])
  · by_cases hgi : g ≤ i
    · exact h.gi.cond.2 hgi (by rw [hh (i - g) (by omega) (by omega), hh i (by omega) i1])
    · omega

/-- The shift taken after a mismatch jumps over no occurrence, if the query is harmless. -/
theorem shift_safe {x hay : List UInt8} {jp u shift i b g : Int}
    (hmem : u = 0 ∨ Mem x hay jp u shift)
    (hm : ∀ k : Int, i < k → k < x.length → X hay (jp + k) = X x k) (hi0 : 0 ≤ i) (hi1 : i < x.length)
    (hne : X hay (jp + i) ≠ X x i)
    (hjump : u ≠ 0 → i ≥ x.length - shift ∨ i < x.length - shift - u)
    (hb1 : b ≤ 1) (hb : ∀ k : Int, 0 ≤ k → k < x.length - 1 → X x k = X hay (jp + i) → b ≤ -k)
    (hg : GsOk x i g) {t : Int} (ht : 1 ≤ t) (ho : Occ x hay (jp + t)) :
    g ≤ t ∧ b + i ≤ t ∧ u - (x.length - 1 - i) ≤ t ∧
      (¬ Slip x → b + i > g → u - (x.length - 1 - i) < b + i → u + 1 ≤ t) := by
  have hcond := occ_cond ht hm hi0 hi1 hne ho
  have g1 : g ≤ t := by
    by_cases h : g ≤ t
    · exact h
    · exact absurd hcond (hg.min t ht (by omega))
  have b1 : b + i ≤ t := by
    by_cases h : t ≤ i
    · have := ho.2.2 (i - t) (by omega) (by omega)
      rw [show jp + t + (i - t) = jp + i by omega] at this
      have := hb (i - t) (by omega) (by omega) this.symm
      omega
    · omega
  have tu : u - (x.length - 1 - i) ≤ t := by
    by_cases h : u - (x.length - 1 - i) ≤ t
    · exact h
    · exfalso
      have hu : u ≠ 0 := by omega
      obtain ⟨s1, u0, us, mem, per, src⟩ := hmem.resolve_left hu
      have hj : i ≥ x.length - shift := by
        rcases hjump hu with z | z
        · exact z
        · omega
      -- text at i - shift is the byte x[i]
      have e1 : X hay (jp + (i - shift)) = X x i := by
        rw [mem (i - shift) (by omega) (by omega), per i (by omega) hi1]
      have e2 : X hay (jp + i) = X x (i - t) := by
        have := ho.2.2 (i - t) (by omega) (by omega)
        rw [← this]; congr 1; omega
      have e3 : X hay (jp + (i - shift)) = X x (i - shift - t) := by
        have := ho.2.2 (i - shift - t) (by omega) (by omega)
        rw [← this]; congr 1; omega
      have e4 := per (i - t) (by omega) (by omega)
      rw [show i - t - shift = i - shift - t by omega] at e4
      exact hne (by rw [e2, ← e4, ← e3, e1])
  refine ⟨g1, b1, tu, ?_⟩
  intro hh hbg htb
  by_cases htu : u + 1 ≤ t
  · exact htu
  · exfalso
    have hu : u ≠ 0 := by omega
    obtain ⟨s1, u0, us, mem, per, io, io0, io1, hgio, huio⟩ := hmem.resolve_left hu
    by_cases hs : shift ≤ io
    · -- the strong good-suffix rule: the bytes before the two copies of the factor differ
      have hu2 : u = x.length - 1 - io := by omega
      have ne := hgio.cond.2 hs
      have c1 : X x (io - shift) = X x (io - shift + t) := by
        have h1 := ho.2.2 (io - shift) (by omega) (by omega)
        rw [← h1]
        rw [show jp + t + (io - shift) = jp + (io - shift + t) by omega]
        exact mem _ (by omega) (by omega)
      have c2 : X x (io - shift + t) = X x (io + t) := by
        have := per (io + t) (by omega) (by omega)
        rw [show io + t - shift = io - shift + t by omega] at this
        exact this
      have c3 : X x io = X x (io + t) := by
        have h1 := ho.2.2 io (by omega) (by omega)
        rw [← h1, show jp + t + io = jp + (io + t) by omega]
        exact hm _ (by omega) (by omega)
      exact ne (by rw [c1, c2, c3])
    · -- the factor is a border
      have hu2 : u = x.length - shift := by omega
      have hiu : u ≤ i := by have := hjump hu; omega
      obtain ⟨l, p1, p2, p3, p4⟩ := last_occ (x := x) (c := X x (i - t)) x.length (i - t) (by omega) (by omega) (by omega) rfl
      have hbl : b ≤ -l := by
        refine hb l (by omega) p2 ?_
        have := ho.2.2 (i - t) (by omega) (by omega)
        rw [p3, ← this]; congr 1; omega
      have hsh : (x.length : Int) - u = shift := by omega
      refine hh ⟨u, io, i, t, g, l, u0, by omega, io0, by omega, by rw [hsh]; exact hgio, hiu, hi1, ht, by omega, ?_, hcond, hg, by omega, p2,
        p3, p4, by omega, by omega⟩
      intro k a b
      have h1 := ho.2.2 (k - t) (by omega) (by omega)
      rw [← h1, show jp + t + (k - t) = jp + k by omega]
      exact mem _ (by omega) (by omega)

theorem searchLoop_spec {x hay : List UInt8} {s : Searcher} (hx : x ≠ []) (hs : Built x s) :
    ∀ (n : Nat) (jp u shift i0 : Int), 0 ≤ jp → (hay.length : Int) < jp + n ∧ 0 < n → 0 ≤ i0 →
      (u = 0 ∨ Mem x hay jp u shift) → 1 ≤ shift →
      ∃ i jp', searchLoop s hay n jp u shift i0 = .ok (i, jp') ∧
        (i = -1 → Occ x hay jp') ∧
        (¬ Slip x → (∀ p : Int, p < jp → ¬ Occ x hay p) →
          (i = -1 → ∀ p : Int, p < jp' → ¬ Occ x hay p) ∧ (i ≠ -1 → ∀ p : Int, ¬ Occ x hay p)) := by
  have hm : 0 < x.length := List.length_pos_iff.mpr hx
  intro n
  induction n with
  | zero =>
    intro jp u shift i0 h0 h1 h2 h3 h4
    exact absurd h1.2 (Nat.lt_irrefl 0)
  | succ n ih =>
    intro jp u shift i0 h0 h1 h2 h3 h4
    unfold searchLoop
    dsimp only
    rw [hs.query]
    by_cases hj : jp ≤ (hay.length : Int) - x.length
    · rw [if_pos hj]
      obtain ⟨i, e, c1, c2, c3, c4, c5⟩ := compare_spec h0 (by omega) h3 x.length (x.length - 1)
        (by omega) (by omega) (by omega) (fun k a b => absurd a (by omega)) (fun _ => Or.inl (by omega))
      rw [e]
      simp only [Res.bind_ok]
      by_cases hi : i < 0
      · rw [if_pos hi]
        have hi1 : i = -1 := by omega
        refine ⟨i, jp, rfl, fun _ => ⟨h0, by omega, fun k a b => c3 k (by omega) b⟩, ?_⟩
        intro _ hno
        exact ⟨fun _ => hno, fun z => absurd hi1 z⟩
      · rw [if_neg hi]
        have hc := (at' 0 hay (jp + i)).toNat_lt
        rw [aget_ok (d := 0) (l := hay) (by omega) (by omega)]
        simp only [Res.bind_ok]
        rw [aget_ok (d := 0) (l := s.bc) (by omega) (by have := hs.bc.1; omega)]
        simp only [Res.bind_ok]
        rw [aget_ok (d := 0) (l := s.gs) (by omega) (by have := hs.gsLen; omega)]
        simp only [Res.bind_ok]
        have hg := hs.gs i (by omega) (by omega)
        have hbc := hs.bc.2 (at' 0 hay (jp + i))
        generalize at' 0 s.gs i = g at *
        generalize hbd : at' 0 s.bc (((at' 0 hay (jp + i)).toNat : Nat) : Int) = b at *
        have safe : ∀ t : Int, 1 ≤ t → Occ x hay (jp + t) → _ := fun t ht ho =>
          shift_safe h3 c3 (by omega) c2 (c4 (by omega)) c5 hbc.1 hbc.2.1 hg ht ho
        have gpos := hg.pos
        have nojp : ¬ Occ x hay jp := fun ho => c4 (by omega) (ho.2.2 i (by omega) c2)
        -- no occurrence below the new window
        have step : ∀ sh : Int, 1 ≤ sh → (∀ t : Int, 1 ≤ t → Occ x hay (jp + t) → sh ≤ t) →
            (∀ p : Int, p < jp → ¬ Occ x hay p) → ∀ p : Int, p < jp + sh → ¬ Occ x hay p := by
          intro sh _ hsh hno p hp ho
          rcases Int.lt_trichotomy p jp with z | z | z
          · exact hno p z ho
          · subst z; exact nojp ho
          · have := hsh (p - jp) (by omega) (by rw [show jp + (p - jp) = p by omega]; exact ho)
            omega
        by_cases hsg : max (max (u - (x.length - 1 - i)) (b + i)) g = g
        · rw [if_pos hsg, hsg]
          have hmem' : min (x.length - g) (x.length - 1 - i) = 0 ∨
              Mem x hay (jp + g) (min (x.length - g) (x.length - 1 - i)) g := by
            by_cases hz : min ((x.length : Int) - g) (x.length - 1 - i) = 0
            · exact Or.inl hz
            · right
              have gle := hg.le
              refine ⟨gpos, by omega, by omega, ?_, ?_, ⟨i, by omega, c2, hg, rfl⟩⟩
              · intro k a d
                have := hg.cond.1 (k + g) (by omega) (by omega) (by omega)
                rw [show k + g - g = k by omega] at this
                rw [this, show jp + g + k = jp + (k + g) by omega]
                exact c3 (k + g) (by omega) (by omega)
              · intro k a d
                exact hg.cond.1 k (by omega) d (by omega)
          obtain ⟨i', jp', e', r1, r2⟩ := ih (jp + g) _ g i (by omega) (by omega) (by omega) hmem' gpos
          refine ⟨i', jp', e', r1, ?_⟩
          intro hh hno
          exact r2 hh (step g gpos (fun t a o => (safe t a o).1) hno)
        · rw [if_neg hsg]
          have hnew : ∃ sh : Int, sh = (if u - (x.length - 1 - i) < b + i then
              max (max (max (u - (x.length - 1 - i)) (b + i)) g) (u + 1)
              else max (max (u - (x.length - 1 - i)) (b + i)) g) := ⟨_, rfl⟩
          obtain ⟨sh, hsh⟩ := hnew
          rw [← hsh]
          have hsh1 : 1 ≤ sh := by split at hsh <;> omega
          obtain ⟨i', jp', e', r1, r2⟩ := ih (jp + sh) 0 sh i (by omega) (by omega) (by omega) (Or.inl rfl) hsh1
          refine ⟨i', jp', e', r1, ?_⟩
          intro hh hno
          refine r2 hh (step sh hsh1 ?_ hno)
          intro t a o
          obtain ⟨q1, q2, q3, q4⟩ := safe t a o
          split at hsh
          · have := q4 hh (by omega) (by omega)
            omega
          · omega
    · rw [if_neg hj]
      refine ⟨i0, jp, rfl, fun z => by omega, ?_⟩
      intro _ hno
      refine ⟨fun z => by omega, fun _ p ho => ?_⟩
      by_cases hp : p < jp
      · exact hno p hp ho
      · have := ho.2.1; omega

end Kmp
end Strigi
