import Verif.Proofs.Kmp

/-!
# The queries for which the search can miss an occurrence
-/

namespace Strigi
namespace Kmp

theorem X_append {a b : List UInt8} {k : Int} (h : 0 ≤ k) :
    X (a ++ b) k = if k < a.length then X a k else X b (k - a.length) := by
  unfold X at'
  by_cases hk : k < a.length
  · rw [if_pos hk]
    have : k.toNat < a.length := by omega
    simp [List.getD, List.getElem?_append_left this]
  · rw [if_neg hk]
    have h1 : a.length ≤ k.toNat := by omega
    have h2 : (k - a.length).toNat = k.toNat - a.length := by omega
    simp [List.getD, List.getElem?_append_right h1, h2]

theorem X_take {x : List UInt8} {n : Nat} {k : Int} (h : 0 ≤ k) (h1 : k < n) : X (x.take n) k = X x k := by
  unfold X at'
  have : k.toNat < n := by omega
  simp [List.getD, List.getElem?_take, this]

theorem X_set {x : List UInt8} {n : Nat} {d : UInt8} {k : Int} (h : 0 ≤ k) (h1 : n < x.length) :
    X (x.set n d) k = if k = n then d else X x k := by
  unfold X at'
  by_cases hk : k = n
  · subst hk; rw [if_pos rfl]; simp [List.getD, h1]
  · rw [if_neg hk]
    have : n ≠ k.toNat := by omega
    simp [List.getD, List.getElem?_set_ne this]

/-- One window. -/
theorem searchLoop_step {x hay : List UInt8} {s : Searcher} (hs : Built x s) {n : Nat} {jp u shift i0 i g b : Int} (h0 : 0 ≤ jp)
    (hj : jp + x.length ≤ hay.length) (hmem : u = 0 ∨ Mem x hay jp u shift) (hi0 : 0 ≤ i) (hi1 : i < x.length)
    (hm : ∀ k : Int, i < k → k < x.length → X hay (jp + k) = X x k) (hne : X hay (jp + i) ≠ X x i)
    (hg : at' 0 s.gs i = g) (hb : at' 0 s.bc (((X hay (jp + i)).toNat : Nat) : Int) = b) :
    searchLoop s hay (n + 1) jp u shift i0 =
      if max (max (u - (x.length - 1 - i)) (b + i)) g = g then
        searchLoop s hay n (jp + g) (min (x.length - g) (x.length - 1 - i)) g i
      else searchLoop s hay n (jp + if u - (x.length - 1 - i) < b + i then
              max (max (max (u - (x.length - 1 - i)) (b + i)) g) (u + 1)
              else max (max (u - (x.length - 1 - i)) (b + i)) g) 0 (if u - (x.length - 1 - i) < b + i then
              max (max (max (u - (x.length - 1 - i)) (b + i)) g) (u + 1)
              else max (max (u - (x.length - 1 - i)) (b + i)) g) i := by
  obtain ⟨i', e, c1, c2, c3, c4, c5⟩ := compare_spec h0 hj hmem x.length (x.length - 1)
    (by omega) (by omega) (by omega) (fun k a b => absurd a (by omega)) (fun hu => by
      have := (hmem.resolve_left hu).s1; exact Or.inl (by omega))
  have hii : i' = i := by
    rcases Int.lt_trichotomy i' i with z | z | z
    · exact absurd (c3 i z hi1) hne
    · exact z
    · exact absurd (hm i' z c2) (c4 (by omega))
  subst hii
  conv => lhs; unfold searchLoop
  dsimp only
  rw [hs.query, if_pos (by omega), e]
  simp only [Res.bind_ok]
  rw [if_neg (by omega)]
  have hc := (at' 0 hay (jp + i')).toNat_lt
  rw [aget_ok (d := 0) (l := hay) (by omega) (by omega)]
  simp only [Res.bind_ok]
  rw [aget_ok (d := 0) (l := s.bc) (by omega) (by have := hs.bc.1; omega)]
  simp only [Res.bind_ok]
  rw [aget_ok (d := 0) (l := s.gs) (by omega) (by have := hs.gsLen; omega)]
  simp only [Res.bind_ok]
  rw [hg, show at' 0 s.bc (((at' 0 hay (jp + i')).toNat : Nat) : Int) = b from hb]
  by_cases hsg : max (max (u - (x.length - 1 - i')) (b + i')) g = g
  · rw [if_pos hsg, if_pos hsg, hsg]
  · rw [if_neg hsg, if_neg hsg]

theorem gs_unique {x : List UInt8} {i g g' : Int} (h : GsOk x i g) (h' : GsOk x i g') : g = g' := by
  rcases Int.lt_trichotomy g g' with z | z | z
  · exact absurd h.cond (h'.min g h.pos z)
  · exact z
  · exact absurd h'.cond (h.min g' h'.pos z)

/-- The haystack in which the query is missed. -/
def trap (x : List UInt8) (u io t : Int) (d : UInt8) : List UInt8 :=
  (x.take (x.length - u + t).toNat).set io.toNat d ++ x

theorem slip_missed {x : List UInt8} {s : Searcher} (hs : Built x s) {u io i t g l : Int} (h : SlipAt x u io i t g l) {d : UInt8}
    (hd : d ≠ X x io) : search s (trap x u io t d) = .ok none ∧ Occ x (trap x u io t d) (x.length - u + t) ∧
      (trap x u io t d).length ≤ 2 * x.length := by
  have u0 := h.u0; have u1 := h.u1; have io0 := h.io0; have io1 := h.io1; have i0 := h.i0; have i1 := h.i1; have t0 := h.t0
  have t1 := h.t1; have l0 := h.l0; have l1 := h.l1; have bg := h.bg; have bt := h.bt
  have hlen : ((trap x u io t d).length : Int) = x.length - u + t + x.length := by
    unfold trap; simp; omega
  have htl : (((x.take (x.length - u + t).toNat).set io.toNat d).length : Int) = x.length - u + t := by simp; omega
  have hX : ∀ k : Int, 0 ≤ k → X (trap x u io t d) k =
      if k < x.length - u + t then (if k = io then d else X x k) else X x (k - (x.length - u + t)) := by
    intro k hk
    unfold trap
    rw [X_append hk, htl]
    by_cases hk1 : k < x.length - u + t
    · rw [if_pos hk1, if_pos hk1, X_set hk (by simp; omega), X_take hk (by omega)]
      by_cases hk2 : k = io
      · rw [if_pos (by omega), if_pos hk2]
      · rw [if_neg (by omega), if_neg hk2]
    · rw [if_neg hk1, if_neg hk1]
  have per : ∀ k : Int, x.length - u ≤ k → k < x.length → X x (k - (x.length - u)) = X x k := fun k a b =>
    h.gio.cond.1 k (by omega) b a
  -- the first window
  have w1 : ∀ k : Int, io < k → k < x.length → X (trap x u io t d) (0 + k) = X x k := by
    intro k a b
    rw [Int.zero_add, hX k (by omega)]
    by_cases hk : k < x.length - u + t
    · rw [if_pos hk, if_neg (by omega)]
    · rw [if_neg hk, ← per k (by omega) b, ← h.pre (k - (x.length - u)) (by omega) (by omega)]
      congr 1; omega
  have n1 : X (trap x u io t d) (0 + io) ≠ X x io := by
    rw [Int.zero_add, hX io io0, if_pos (by omega), if_pos rfl]; exact hd
  -- the second one
  have w2 : ∀ k : Int, 0 ≤ k → k < x.length → k < u ∨ i < k → X (trap x u io t d) (x.length - u + k) = X x k := by
    intro k a b c
    rw [hX _ (by omega)]
    by_cases hk : x.length - u + k < x.length - u + t
    · rw [if_pos hk, if_neg (by omega), ← per (x.length - u + k) (by omega) (by omega)]
      congr 1; omega
    · rw [if_neg hk, show (x.length : Int) - u + k - (x.length - u + t) = k - t by omega]
      rcases c with c | c
      · exact h.pre k (by omega) c
      · exact h.cond.1 k c b (by omega)
  have e2 : X (trap x u io t d) (x.length - u + i) = X x (i - t) := by
    rw [hX _ (by omega), if_neg (by omega)]; congr 1; omega
  have n2 : X (trap x u io t d) (x.length - u + i) ≠ X x i := by rw [e2]; exact h.cond.2 (by omega)
  generalize hH : trap x u io t d = hay at *
  refine ⟨?_, ⟨by omega, by omega, ?_⟩, by omega⟩
  · unfold search
    rw [hs.query]
    obtain ⟨n, hn⟩ : ∃ n, hay.length + 1 = n + 1 + 1 + 1 := ⟨hay.length - 2, by omega⟩
    have hg1 : at' 0 s.gs io = x.length - u := gs_unique (hs.gs io io0 (by omega)) h.gio
    have hb1 := (hs.bc.2 (X hay (0 + io))).1
    have hg2 : at' 0 s.gs i = g := gs_unique (hs.gs i (by omega) i1) h.gi
    have hb2 : at' 0 s.bc (((X hay (x.length - u + i)).toNat : Nat) : Int) = -l := by
      rw [e2]
      obtain ⟨q1, q2, q3⟩ := hs.bc.2 (X x (i - t))
      have q4 := q2 l l0 l1 h.lc
      rcases q3 with q3 | ⟨k, k0, k1, k2, k3⟩
      · omega
      · have : ¬ l < k := fun z => h.last k z k1 k2
        omega
    rw [hn, searchLoop_step hs (by omega) (by omega) (Or.inl rfl) io0 (by omega) w1 n1 hg1 rfl, if_pos (by omega)]
    have hmin : min ((x.length : Int) - (x.length - u)) (x.length - 1 - io) = u := by omega
    rw [hmin, Int.zero_add]
    have hM : Mem x hay (x.length - u) u (x.length - u) := by
      refine ⟨by omega, u0, by omega, fun k a b => w2 k (by omega) (by omega) (Or.inl (by omega)), fun k a b => ?_,
        ⟨io, io0, by omega, h.gio, by omega⟩⟩
      exact h.gio.cond.1 k (by omega) b (by omega)
    rw [searchLoop_step hs (by omega) (by omega) (Or.inr hM) (by omega) i1 (fun k a b => w2 k (by omega) b (Or.inr a)) n2 hg2 hb2,
      if_neg (by omega), if_pos (by omega)]
    unfold searchLoop
    dsimp only
    rw [hs.query, if_neg (by omega)]
    simp only [Res.bind_ok]
    rw [if_neg (by omega)]
  · intro k a b
    rw [hX _ (by omega), if_neg (by omega)]
    congr 1; omega

end Kmp
end Strigi
