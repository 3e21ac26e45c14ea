import Verif.Proofs.RobustStreams

/-!
# Which `reset`s the streams do not refuse
-/

namespace Strigi

theorem StringStream.rewinds (c : List UInt8) (hc : c.length < 2 ^ 31) : Rewinds StringStream.ops
    (fun s => s.data = c ∧ 0 ≤ s.pos ∧ s.pos ≤ c.length ∧ s.status ≠ .error) (fun _ a b => 0 ≤ a ∧ b ≤ c.length) where
  read := by
    intro s s' mn mx n d h _ e
    refine ⟨h.2.1, ?_⟩
    simp only [StringStream.ops, Res.ok.injEq] at e
    obtain ⟨hd, h0, h1, _⟩ := h
    subst hd
    have e1 : (s.read mn mx).1 = s' := by rw [e]
    show s'.pos ≤ _
    rw [← e1]
    unfold StringStream.read
    dsimp only
    split
    · exact h1
    · dsimp only
      split <;> omega
  reset := by
    rintro s s' a b q r ⟨hd, h0, h1, _⟩ ⟨w1, w2⟩ ha hb e
    simp only [StringStream.ops, Res.ok.injEq] at e
    refine ⟨?_, w1, w2⟩
    have e1 : (s.reset q).2 = r := by rw [e]
    rw [← e1]
    unfold StringStream.reset
    rw [if_neg (show ¬ q < 0 by omega), hd]
    split
    · rfl
    · show (c.length : Int) = q
      omega

theorem MMapStream.rewinds (c : List UInt8) : Rewinds MMapStream.ops (MMapStream.Inv c) (fun _ a b => 0 ≤ a ∧ b ≤ c.length) where
  read := by
    intro s s' mn mx n d h h1 e
    refine ⟨h.lo, ?_⟩
    obtain ⟨hd, k0, k1, k2, k3⟩ := h
    subst hd
    simp only [MMapStream.ops, MMapStream.read] at e
    rw [if_neg k2] at e
    by_cases he : s.status = .eof
    · rw [if_pos he] at e
      cases e
      exact k1
    · rw [if_neg he] at e
      generalize (if max mn mx ≥ (s.mem.length : Int) - s.pos then (s.mem.length : Int) - s.pos else max mn mx) = n1 at e
      unfold MMapStream.at_ at e
      by_cases hx : 0 ≤ s.pos ∧ s.pos + n1 ≤ s.mem.length
      · rw [if_pos hx, Res.bind_ok] at e
        cases e
        exact hx.2
      · rw [if_neg hx] at e
        cases e
  reset := by
    rintro s s' a b q r ⟨hd, k0, k1, k2, k3⟩ ⟨w1, w2⟩ ha hb e
    subst hd
    simp only [MMapStream.ops, Res.ok.injEq] at e
    refine ⟨?_, w1, w2⟩
    have e1 : (s.reset q).2 = r := by rw [e]
    rw [← e1]
    unfold MMapStream.reset
    rw [if_neg k2]
    split
    · show (s.mem.length : Int) = q
      omega
    · rw [if_neg (by omega)]

theorem SkippingFile.rewinds (c : List UInt8) : Rewinds SkippingFile.ops (SkippingFile.Inv c) (fun _ a b => 0 ≤ a ∧ b ≤ c.length) where
  read := by
    intro s s' mn mx n d h h1 e
    refine ⟨h.lo, ?_⟩
    obtain ⟨hf, hb, k0, k1, hs, k2, k3⟩ := h
    simp only [SkippingFile.ops] at e ⊢
    unfold SkippingFile.read at e
    rw [hf] at e
    dsimp only at e
    have hlen : ∀ x : Int, s.pos + ((slice c s.pos x).length : Int) ≤ c.length := by
      intro x
      unfold slice
      simp only [List.length_take, List.length_drop]
      omega
    generalize (if mx ≤ 0 then max 1024 (max s.buffersize mn) else max mn mx) = x at e
    generalize (if x > s.buffersize ∧ mx ≤ 0 then
        (if s.size ≠ -1 ∧ max x (2 * s.buffersize) > s.size - s.pos then s.size - s.pos + 1 else max x (2 * s.buffersize)) else x) = y at e
    generalize (if x > s.buffersize then y else s.buffersize) = z at e
    by_cases hz : y < 0 ∨ y > z
    · rw [if_pos hz] at e
      cases e
    · rw [if_neg hz] at e
      cases e
      exact hlen y
  reset := by
    rintro s s' a b q r ⟨hf, hb', k0, k1, hs, k2, k3⟩ ⟨w1, w2⟩ ha hb e
    simp only [SkippingFile.ops, Res.ok.injEq] at e
    refine ⟨?_, w1, w2⟩
    have e1 : (s.reset q).2 = r := by rw [e]
    rw [← e1]
    unfold SkippingFile.reset
    rw [hf]
    dsimp only
    rw [if_neg (show ¬ (s.size ≥ 0 ∧ q > s.size) by omega)]
    simp only [CFile.fseek]
    rw [if_neg (show ¬ q < 0 by omega)]
    simp

namespace BufferedStream

theorem rewinds {φ : Type} {P : Producer φ UInt8} {R : φ → List UInt8 → Nat → Prop} (hP : Produces P False R)
    (c : List UInt8) (sz0 : Int) (hsz : sz0 = -1 ∨ sz0 = c.length) :
    Rewinds (ops P) (fun s => Inv R c s ∧ SizeOk c sz0 s) (fun s a b => s.pos - s.buf.offset ≤ a ∧ b ≤ s.pos + s.buf.avail) where
  read := by
    rintro s s' mn mx n d ⟨h, hz⟩ h1 e
    simp only [ops] at e ⊢
    obtain ⟨s1, n1, d1, e1, wf, g⟩ := read_full hP h (mx := mx) h1
    rw [e] at e1
    cases e1
    have := wf.av; have := wf.off
    rcases g with ⟨g1, g2, g3, g4, g5, g6, g7, g8, _⟩ | ⟨g1, g2, g3, g4, g5, g6, g7, _⟩ | ⟨g1, g2, _, g3⟩
    · omega
    · omega
    · exfalso
      unfold SizeOk at hz
      rcases g3 with g3 | g3
      · exact g3
      · omega
  reset := by
    rintro s s' a b q r ⟨h, hz⟩ ⟨w1, w2⟩ ha hb e
    have := h.win.base
    simp only [ops] at e
    obtain ⟨s1, r1, e1, g1, g2, g3, g4, g5, g6, g7, g8⟩ := reset_spec h hz (q := q) (by omega)
    rw [e] at e1
    cases e1
    rw [if_pos (by omega)] at g8
    exact ⟨g8.1, by omega, by omega⟩

end BufferedStream
end Strigi
