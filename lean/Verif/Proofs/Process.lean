import Verif.ProcessSpec
import Verif.Contract
import Verif.Proofs.Decompress

/-!
# Proofs about `ProcessInputStream`
-/

namespace Strigi

/-! ## Invariants of the state of a subclass -/

namespace BufferedStream

variable {φ α : Type} {P : Producer φ α} {J : φ → Prop}

/-- Every call of `fillBuffer` keeps `J`. -/
def Keeps (P : Producer φ α) (J : φ → Prop) : Prop := ∀ {f space f' r}, J f → P.fill f space = .ok (f', r) → J f'

theorem writeLoop_keeps (T : Keeps P J) (nt mx : Int) :
    ∀ (fuel : Nat) (s : BufferedStream φ α) (missing nw : Int) (s' : BufferedStream φ α) (nw' : Int),
      writeLoop P nt mx fuel s missing nw = .ok (s', nw') → J s.prod → J s'.prod := by
  intro fuel
  induction fuel with
  | zero => intro s missing nw s' nw' h; simp [writeLoop] at h
  | succ fuel ih =>
    intro s missing nw s' nw' h hJ
    unfold writeLoop at h
    by_cases hc : missing > 0 ∧ nw ≥ 0
    · rw [if_pos hc] at h
      obtain ⟨⟨b, space⟩, e1, h⟩ := bind_eq_ok h
      simp only at h
      generalize (if mx ≥ nt ∧ space > mx then mx else space) = sp at h
      obtain ⟨⟨f, r⟩, e2, h⟩ := bind_eq_ok h
      obtain ⟨b2, e3, h⟩ := bind_eq_ok h
      obtain ⟨u, e4, h⟩ := bind_eq_ok h
      have hf : J f := T hJ e2
      simp only at h
      split at h
      · exact ih _ _ _ _ _ h hf
      · exact ih _ _ _ _ _ h hf
    · rw [if_neg hc] at h
      cases h
      exact hJ

theorem ensure_keeps (T : Keeps P J) {s s' : BufferedStream φ α} {mn mx : Int} (hJ : J s.prod)
    (h : ensure P s mn mx = .ok s') : J s'.prod := by
  unfold ensure at h
  split at h
  · unfold writeToBuffer at h
    obtain ⟨⟨s1, nw⟩, e, h⟩ := bind_eq_ok h
    have := writeLoop_keeps T _ _ _ _ _ _ _ _ e hJ
    simp only at h
    split at h
    · cases h; exact this
    · cases h; exact this
  · cases h; exact hJ

theorem read_keeps (T : Keeps P J) {s s' : BufferedStream φ α} {mn mx n : Int} {d : List α} (hJ : J s.prod)
    (h : read P s mn mx = .ok (s', n, d)) : J s'.prod := by
  unfold read at h
  split at h
  · cases h; exact hJ
  · split at h
    · cases h; exact hJ
    · obtain ⟨s1, e1, h⟩ := bind_eq_ok h
      have h1 := ensure_keeps T hJ e1
      split at h
      · cases h; exact h1
      · obtain ⟨⟨b, k, d'⟩, e2, h⟩ := bind_eq_ok h
        simp only at h
        split at h
        · cases h; exact h1
        · split at h
          · cases h; exact h1
          · cases h; exact h1

theorem skipLoop_keeps (T : Keeps P J) :
    ∀ (fuel : Nat) {s s' : BufferedStream φ α} {n sk r : Int},
      J s.prod → skipLoop P fuel s n sk = .ok (s', r) → J s'.prod := by
  intro fuel
  induction fuel with
  | zero => intro s s' n sk r _ h; simp [skipLoop] at h
  | succ fuel ih =>
    intro s s' n sk r hJ h
    unfold skipLoop at h
    split at h
    · obtain ⟨⟨s1, k, d⟩, e, h⟩ := bind_eq_ok h
      have h1 := read_keeps T hJ e
      simp only at h
      split at h
      · cases h; exact h1
      · exact ih h1 h
    · cases h; exact hJ

theorem reset_keeps {s s' : BufferedStream φ α} {q r : Int} (hJ : J s.prod)
    (h : reset s q = .ok (s', r)) : J s'.prod := by
  unfold reset at h
  obtain ⟨u, _, h⟩ := bind_eq_ok h
  split at h
  · cases h; exact hJ
  · simp only at h
    split at h
    · cases h; exact hJ
    · cases h; exact hJ

theorem run_keeps (T : Keeps P J) : ∀ (l : List Op) {s s' : BufferedStream φ α}, J s.prod → run (ops P) s l = .ok s' → J s'.prod := by
  intro l
  induction l with
  | nil => intro s s' hJ h; cases h; exact hJ
  | cons op l ih =>
    intro s s' hJ h
    cases op with
    | read mn mx =>
      obtain ⟨⟨s1, n, d⟩, e, h⟩ := bind_eq_ok h
      exact ih (read_keeps T hJ e) h
    | skip k =>
      obtain ⟨⟨s1, n⟩, e, h⟩ := bind_eq_ok h
      exact ih (skipLoop_keeps T _ hJ e) h
    | reset q =>
      obtain ⟨⟨s1, n⟩, e, h⟩ := bind_eq_ok h
      exact ih (reset_keeps hJ e) h

/-- If `fillBuffer` blocks, so does the first `read`. -/
theorem read_blocks {x : φ} {sz mn mx : Int} (h1 : 1 ≤ mn) (hb : ∀ space, 0 < space → P.fill x space = .diverge) :
    read P (new x sz : BufferedStream φ α) mn mx = .diverge := by
  unfold read
  rw [if_neg (by simp [new]), if_neg (by simp [new])]
  simp only
  have he : ∀ mx', ensure P (new x sz : BufferedStream φ α) mn mx' = .diverge := by
    intro mx'
    unfold ensure
    rw [if_pos ⟨rfl, by show mn > 0; omega⟩]
    unfold writeToBuffer writeLoop
    have hm : (new x sz : BufferedStream φ α).buf.makeSpace (mn - (new x sz : BufferedStream φ α).buf.avail) =
        .ok (⟨List.replicate mn.toNat none, 0, 0⟩, mn) := by
      show StreamBuffer.makeSpace StreamBuffer.empty (mn - 0) = _
      unfold StreamBuffer.makeSpace StreamBuffer.setSize StreamBuffer.size StreamBuffer.empty
      simp [Res.assert]
      rw [if_neg (by omega), if_neg (by omega), if_neg (by omega)]
      rw [if_pos (show (0 : Int) ≤ mn by omega)]
      rfl
    rw [if_pos ⟨by show mn - 0 > 0; omega, by omega⟩, hm]
    simp only [Res.bind_ok]
    rw [show (new x sz : BufferedStream φ α).prod = x from rfl, hb _ (by split <;> omega)]
    rfl
  rw [he]
  rfl

end BufferedStream

namespace Process

variable {σ κ : Type} {P : StreamOps σ UInt8} {E : Pipes κ}

/-! ## What the child receives -/

/-- After `j` chunks. -/
def Fed (P : StreamOps σ UInt8) (received : κ → List UInt8) (closed : κ → Prop) (chunks : List (List UInt8))
    (final : List UInt8) (s : State σ κ) : Prop :=
  ∃ j, j ≤ chunks.length ∧ received s.os = (chunks.take j).flatten ∧
    ((∃ i, s.input = some i ∧ Answers P i (chunks.drop j) final ∧ ¬ closed s.os) ∨ (s.input = none ∧ j = chunks.length))

theorem feed_fed {received : κ → List UInt8} {closed : κ → Prop} (hE : E.Lawful received closed) (hW : E.Whole)
    {chunks : List (List UInt8)} {final : List UInt8} {s s' : State σ κ} {b : Bool} (h : Fed P received closed chunks final s)
    (e : feed P E s = .ok (s', b)) : Fed P received closed chunks final s' := by
  obtain ⟨j, hj, hr, hi⟩ := h
  unfold feed at e
  rcases hi with ⟨i, hi, ha, hc⟩ | ⟨hi, hk⟩
  · rw [hi] at e
    simp only at e
    generalize hl : chunks.drop j = rest at ha
    cases ha with
    | @last _ i' n d hs hread he =>
      rw [if_pos hs] at e
      unfold writeToPipe at e
      rw [hread, Res.bind_ok] at e
      simp only at e
      rw [if_pos (Or.inr he)] at e
      cases e
      refine ⟨j, hj, ?_, Or.inr ⟨rfl, ?_⟩⟩
      · show received (E.closeIn s.os) = _
        rw [(hE.close s.os).1, hr]
      · have := congrArg List.length hl
        rw [List.length_drop] at this
        simp only [List.length_nil] at this
        omega
    | @cons _ i' n d _ tail hs hread hn hd hst hrec =>
      rw [if_pos hs] at e
      unfold writeToPipe at e
      rw [hread, Res.bind_ok] at e
      simp only at e
      rw [if_neg (by rw [hst]; simp; omega)] at e
      obtain ⟨⟨k', m⟩, ew, e⟩ := BufferedStream.bind_eq_ok e
      simp only at e
      obtain ⟨_, w2, w3⟩ := hE.write ew
      have hm := hW ew
      rw [if_neg (by omega), if_neg (by omega)] at e
      cases e
      have hlt : j < chunks.length := by
        have := congrArg List.length hl
        rw [List.length_drop] at this
        simp only [List.length_cons] at this
        omega
      have hdj : chunks[j] = d := by
        have : (chunks.drop j)[0]? = some d := by rw [hl]; rfl
        rw [List.getElem?_drop, Nat.add_zero, List.getElem?_eq_getElem hlt] at this
        exact Option.some.inj this
      refine ⟨j + 1, hlt, ?_, Or.inl ⟨i', rfl, ?_, ?_⟩⟩
      · show received k' = _
        rw [w2, hr, List.take_succ_eq_append_getElem hlt, hdj, hm, Int.toNat_natCast, List.take_length]
        simp
      · rw [List.drop_eq_getElem_cons hlt] at hl
        rw [(List.cons.inj hl).2]
        exact hrec
      · show ¬ closed k'
        rw [w3]; exact hc
  · rw [hi] at e
    cases e
    exact ⟨j, hj, hr, Or.inr ⟨hi, hk⟩⟩

theorem fill_fed {received : κ → List UInt8} {closed : κ → Prop} (hE : E.Lawful received closed) (hW : E.Whole)
    {chunks : List (List UInt8)} {final : List UInt8} (fuel : Nat) :
    BufferedStream.Keeps (producer P E fuel) (Fed P received closed chunks final) := by
  intro s space s' r h e
  simp only [producer] at e
  unfold fill at e
  split at e
  · cases e; exact h
  · obtain ⟨⟨s1, b⟩, e1, e⟩ := BufferedStream.bind_eq_ok e
    have h1 := feed_fed hE hW h e1
    obtain ⟨⟨k', n, d⟩, e2, e⟩ := BufferedStream.bind_eq_ok e
    simp only at e2 e
    obtain ⟨w1, w2⟩ := hE.read e2
    have key : ∀ o, Fed P received closed chunks final { s1 with os := k', fdout := o } := by
      intro o
      obtain ⟨j, hj, hr, hi⟩ := h1
      refine ⟨j, hj, by simp only; rw [w1, hr], ?_⟩
      rcases hi with ⟨i, a1, a2, a3⟩ | hi
      · exact Or.inl ⟨i, a1, a2, by simp only; rw [w2]; exact a3⟩
      · exact Or.inr hi
    split at e
    · cases e; exact key _
    · split at e
      · cases e; exact key _
      · cases e; exact key _

/-- A healthy input answers `read(b, 1, 0)` in one way or the other, and its answers are its content. -/
theorem answers {c : List UInt8} {soft : Prop} : ∀ (m : Nat) (s : σ) (lo hi : Int),
    (∀ l, Behaves P c Failure.never soft s lo hi l) → P.status s = .ok → (c.length : Int) - P.position s < m →
    ∃ chunks final, Answers P s chunks final ∧ chunks.flatten ++ final = c.drop (P.position s).toNat := by
  intro m
  induction m with
  | zero =>
    intro s lo hi hb _ hm
    obtain ⟨h1, h2, h3, h4, _⟩ := hb []
    omega
  | succ m ih =>
    intro s lo hi hb hs hm
    have C := Contract.of_behaves P c Failure.never soft
    obtain ⟨s', n, d, e, hr, k⟩ := C.read (s := s) (lo := lo) (hi := hi) hb (min := 1) (max := 0) (by omega) (Or.inl rfl)
    obtain ⟨h1, h2, h3, h4, _⟩ := hb []
    cases hr with
    | data g1 g2 g3 g4 g5 g6 g7 =>
      have hlen : n = d.length := by
        rw [g2]
        unfold slice
        rw [List.length_take, List.length_drop]
        omega
      cases hst : P.status s' with
      | error => exact absurd hst g7
      | eof =>
        refine ⟨[], d, .last hs e hst, ?_⟩
        obtain ⟨_, _, _, _, _, z, _⟩ := k g7 []
        have := z hst
        rw [g2]
        unfold slice
        rw [List.take_of_length_le (by rw [List.length_drop]; omega)]
        rfl
      | ok =>
        obtain ⟨chunks, final, a, hc⟩ := ih s' _ _ (k g7) hst (by omega)
        refine ⟨d :: chunks, final, .cons hs e g1 hlen hst a, ?_⟩
        rw [List.flatten_cons, List.append_assoc, hc, g4, g2]
        unfold slice
        rw [show (P.position s + n).toNat = (P.position s).toNat + n.toNat by omega, ← List.drop_drop, List.take_append_drop]
    | ended g1 g2 g3 g4 g5 =>
      refine ⟨[], d, .last hs e g5, ?_⟩
      rw [g2, List.drop_eq_nil_of_le (by omega)]
      rfl
    | failed g _ _ => exact absurd g (by simp [Failure.never])

/-! ## What the child delivers -/

/-- The producer delivers the output of the child. -/
def Rest (P : StreamOps σ UInt8) (c : List UInt8) (soft : Prop) (R : κ → List UInt8 → Prop) (fuel : Nat)
    (s : State σ κ) (out : List UInt8) (m : Nat) : Prop :=
  m < fuel ∧ ((s.fdout = true ∧ R s.os out ∧ m = out.length + 1 ∧
    ∀ i, s.input = some i → ∃ lo hi, ∀ l, Behaves P c Failure.never soft i lo hi l) ∨ (s.fdout = false ∧ out = [] ∧ m = 0))

theorem feed_rest {c : List UInt8} {soft : Prop} {R : κ → List UInt8 → Prop} (hO : E.Outputs R) {s : State σ κ}
    {out : List UInt8} (h1 : R s.os out) (h2 : ∀ i, s.input = some i → ∃ lo hi, ∀ l, Behaves P c Failure.never soft i lo hi l) :
    ∃ s', feed P E s = .ok (s', false) ∧ s'.fdout = s.fdout ∧ R s'.os out ∧
      ∀ i, s'.input = some i → ∃ lo hi, ∀ l, Behaves P c Failure.never soft i lo hi l := by
  unfold feed
  cases hi : s.input with
  | none => exact ⟨s, rfl, rfl, h1, by rw [hi]; intro i h; cases h⟩
  | some i =>
    simp only
    by_cases hst : P.status i = .ok
    · rw [if_pos hst]
      obtain ⟨lo, hi', hb⟩ := h2 i hi
      have C := Contract.of_behaves P c Failure.never soft
      obtain ⟨i', n, d, e, hr, k⟩ := C.read (s := i) (lo := lo) (hi := hi') hb (min := 1) (max := 0) (by omega) (Or.inl rfl)
      have hne : P.status i' ≠ .error := by
        cases hr with
        | data _ _ _ _ _ _ g => exact g
        | ended _ _ _ _ g => rw [g]; simp
        | failed g _ _ => exact absurd g (by simp [Failure.never])
      unfold writeToPipe
      rw [e, Res.bind_ok]
      simp only
      by_cases hend : n ≤ 0 ∨ P.status i' = .eof
      · rw [if_pos hend]
        refine ⟨{ s with input := none, fdin := false, os := E.closeIn s.os }, ?_, rfl, hO.close h1, by intro i h; cases h⟩
        simp [hne]
      · rw [if_neg hend]
        obtain ⟨k', m, ew, hm, hR⟩ := hO.write h1 d
        rw [ew, Res.bind_ok]
        simp only
        rw [if_neg (by omega)]
        have hpos : P.position i' = P.position i + n := by
          cases hr with
          | data _ _ _ g _ _ _ => exact g
          | ended g _ _ _ _ => omega
          | failed g _ _ => exact absurd g (by simp [Failure.never])
        split
        · obtain ⟨i'', e2, p2, s2, b2, _⟩ := C.reset (s := i') (lo := P.position i) (hi := P.position i') (k hne) (q := P.position i + n) (by omega) (by omega)
          rw [e2, Res.bind_ok]
          refine ⟨_, rfl, rfl, hR, ?_⟩
          intro j hj
          cases hj
          exact ⟨_, _, b2 (by omega)⟩
        · refine ⟨_, rfl, rfl, hR, ?_⟩
          intro j hj
          cases hj
          exact ⟨_, _, k hne⟩
    · rw [if_neg hst]
      exact ⟨s, rfl, rfl, h1, h2⟩

theorem produces {c : List UInt8} {soft : Prop} {R : κ → List UInt8 → Prop} (hO : E.Outputs R) (fuel : Nat) :
    Produces (producer P E fuel) False (Rest P c soft R fuel) where
  fuel h := h.1
  step := by
    intro s out m h space hsp
    obtain ⟨hf, h⟩ := h
    rcases h with ⟨h1, h2, h3, h4⟩ | ⟨h1, h2, h3⟩
    · obtain ⟨s', e1, f1, r1, b1⟩ := feed_rest hO h2 h4
      obtain ⟨k', n, d, e2, hr⟩ := hO.read r1 hsp
      simp only [producer]
      unfold fill
      rw [if_neg (by rw [h1]; simp), e1, Res.bind_ok]
      simp only
      rw [e2, Res.bind_ok]
      simp only
      rcases hr with ⟨g1, g2, g3, out', g4, g5⟩ | ⟨g1, g2⟩
      · rw [if_neg (by omega), if_neg (by omega)]
        refine ⟨_, _, rfl, Or.inl ⟨rfl, g2, g3, out', out'.length + 1, g4, ?_, ?_, Or.inl ⟨?_, g5, rfl, b1⟩⟩⟩
        · rw [h3, g4, List.length_append]; omega
        · rw [h3, g4, List.length_append] at hf; omega
        · show s'.fdout = true
          rw [f1, h1]
      · rw [if_neg (by omega), if_pos g1]
        refine ⟨_, _, rfl, Or.inl ⟨rfl, rfl, by simp only; omega, [], 0, by rw [g2]; rfl, by omega, by omega, Or.inr ⟨rfl, rfl, rfl⟩⟩⟩
    · refine ⟨s, ⟨-1, [], false⟩, ?_, Or.inr (Or.inl ⟨rfl, by simp only; omega, rfl, h2⟩)⟩
      simp only [producer]
      unfold fill
      rw [if_pos h1]

end Process
end Strigi
