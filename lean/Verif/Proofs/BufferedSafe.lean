import Verif.Proofs.BufferedStream

/-!
# Buffered streams over arbitrary producers

No contract, just: no memory outside of objects is touched, no assertion fails, and nothing loops for ever.
-/

namespace Strigi

/-- The outcome is a value with the property, or undefined behaviour that is not an access to memory outside of an
object (a signed overflow). -/
def Res.Calm {α : Type} (Q : α → Prop) (r : Res α) : Prop := (∃ a, r = .ok a ∧ Q a) ∨ r = .fault .undefined

theorem Res.Calm.bind {α β : Type} {Q : α → Prop} {R : β → Prop} {r : Res α} {g : α → Res β} (h : r.Calm Q)
    (hg : ∀ a, Q a → (g a).Calm R) : (r >>= g).Calm R := by
  rcases h with ⟨a, rfl, ha⟩ | rfl
  · exact hg a ha
  · exact Or.inr rfl

theorem Res.Calm.mono {α : Type} {Q R : α → Prop} {r : Res α} (h : r.Calm Q) (hQ : ∀ a, Q a → R a) : r.Calm R := by
  rcases h with ⟨a, rfl, ha⟩ | rfl
  · exact Or.inl ⟨a, rfl, hQ a ha⟩
  · exact Or.inr rfl

theorem Res.Calm.ok {α : Type} {Q : α → Prop} {a : α} (h : Q a) : (Res.ok a).Calm Q := Or.inl ⟨a, rfl, h⟩

namespace BufferedStream

open StreamBuffer (WF)

variable {φ α : Type}

/-- A producer that never stores more than there is space for.  `J` holds for its states, `I f m` for those from
which it is called; `m` bounds the number of calls. -/
structure Guarded (P : Producer φ α) (J : φ → Prop) (I : φ → Nat → Prop) : Prop where
  weak : ∀ {f m}, I f m → J f
  fuel : ∀ {f m}, I f m → m < P.fuel f
  step : ∀ {f m}, I f m → ∀ {space : Int}, 0 < space → (P.fill f space).Calm fun x =>
    J x.1 ∧ (x.2.data.length : Int) ≤ space ∧
      (x.2.n < 0 ∨ (x.2.error = false ∧ x.2.n = x.2.data.length ∧ ∃ m', m' < m ∧ I x.1 m'))

/-- The state of a stream over such a producer. -/
structure Safe (J : φ → Prop) (I : φ → Nat → Prop) (s : BufferedStream φ α) : Prop where
  wf : WF s.buf
  some : 0 < s.buf.size
  weak : J s.prod
  live : s.status ≠ .error → s.finished = false → ∃ m, I s.prod m

variable {P : Producer φ α} {J : φ → Prop} {I : φ → Nat → Prop}

theorem writeLoop_safe (G : Guarded P J I) {nt mx : Int} (hnt : 1 ≤ nt) : ∀ (fuel : Nat) (s : BufferedStream φ α) (missing nw : Int)
    (m : Nat), WF s.buf → 0 < s.buf.size → J s.prod → s.status ≠ .eof → missing ≤ nt →
    (0 ≤ nw → s.status = .ok ∧ I s.prod m) → (if 0 ≤ nw then m + 1 else 0) < fuel →
    (writeLoop P nt mx fuel s missing nw).Calm fun x => WF x.1.buf ∧ 0 < x.1.buf.size ∧ J x.1.prod ∧
      x.1.finished = s.finished ∧ (x.2 < 0 ∨ (x.1.status = .ok ∧ ∃ m, I x.1.prod m)) := by
  intro fuel
  induction fuel with
  | zero => intro s missing nw m _ _ _ _ _ _ h; omega
  | succ fuel ih =>
    intro s missing nw m hwf hsz hJ hst hm hI hf
    rw [writeLoop]
    by_cases hc : missing > 0 ∧ nw ≥ 0
    · rw [if_pos hc]
      obtain ⟨b', space, e1, h1, w1, h2, h3, h4, h5, _⟩ := StreamBuffer.makeSpace_spec hwf missing
      rw [e1, Res.bind_ok]
      simp only
      obtain ⟨hok, hIm⟩ := hI hc.2
      obtain ⟨sp, hsp, hsp0, hsp1⟩ : ∃ sp : Int, (if mx ≥ nt ∧ space > mx then mx else space) = sp ∧ 0 < sp ∧ sp ≤ space := by
        refine ⟨_, rfl, ?_, ?_⟩ <;> split <;> omega
      rw [hsp]
      refine (G.step hIm hsp0).bind ?_
      rintro ⟨f', r⟩ ⟨g1, g2, g3⟩
      simp only at g1 g2 g3
      have hoff := w1.off
      have hav := w1.av
      have hfit := w1.fits
      have hs1 : b'.store (b'.offset + b'.avail) r.data =
          .ok { b' with mem := b'.mem.take (b'.offset + b'.avail).toNat ++ r.data.map some ++ b'.mem.drop ((b'.offset + b'.avail).toNat + r.data.length) } := by
        unfold StreamBuffer.store
        rw [if_pos ⟨by omega, by omega⟩]
      obtain ⟨b2, hb2⟩ : ∃ b2 : StreamBuffer α, b2 = { b' with mem := b'.mem.take (b'.offset + b'.avail).toNat ++ r.data.map some ++ b'.mem.drop ((b'.offset + b'.avail).toNat + r.data.length) } := ⟨_, rfl⟩
      have hsize : b2.size = b'.size := by
        subst hb2
        unfold StreamBuffer.size at *
        simp only [List.length_append, List.length_take, List.length_map, List.length_drop]
        omega
      have ho2 : b2.offset = b'.offset := by rw [hb2]
      have ha2 : b2.avail = b'.avail := by rw [hb2]
      have hw2 : WF b2 := ⟨by omega, by omega, by omega⟩
      have hs2 : 0 < b2.size := by omega
      rw [hs1, ← hb2, Res.bind_ok]
      simp only
      rw [Res.assert_of (by
        simp only [decide_eq_true_eq]
        split
        · decide
        · exact hst), Res.bind_ok]
      rcases g3 with g3 | ⟨g3, g4, m', g5, g6⟩
      · rw [if_neg (by omega)]
        refine (ih { s with prod := f', buf := b2, status := if r.error = true then .error else s.status } missing r.n 0
          hw2 hs2 g1 (by simp only; split; decide; exact hst) hm (by intro z; omega) (by rw [if_neg (by omega)]; rw [if_pos (by omega)] at hf; omega)).mono ?_
        exact fun a ha => ha
      · have hf2 : m + 1 < fuel + 1 := by rwa [if_pos hc.2] at hf
        simp only [g3, Bool.false_eq_true, if_false]
        by_cases hpos : r.n > 0
        · rw [if_pos hpos]
          refine (ih { s with prod := f', buf := { b2 with avail := b2.avail + r.n } } (nt - (b2.avail + r.n)) r.n m'
            ⟨by simp only; omega, by simp only; omega, by simp only; show b2.offset + (b2.avail + r.n) ≤ b2.size; omega⟩ (by show 0 < b2.size; omega) g1 hst (by omega) (fun _ => ⟨hok, g6⟩) (by rw [if_pos (by omega)]; omega)).mono ?_
          exact fun a ha => ha
        · rw [if_neg hpos]
          refine (ih { s with prod := f', buf := b2 } missing r.n m'
            hw2 hs2 g1 hst hm (fun _ => ⟨hok, g6⟩) (by rw [if_pos (by omega)]; omega)).mono ?_
          exact fun a ha => ha
    · rw [if_neg hc]
      refine .ok ⟨hwf, hsz, hJ, rfl, ?_⟩
      by_cases hn : 0 ≤ nw
      · obtain ⟨a, b⟩ := hI hn
        exact Or.inr ⟨a, m, b⟩
      · exact Or.inl (by simp only; omega)

theorem ensure_safe (G : Guarded P J I) {s : BufferedStream φ α} (h : Safe J I s) (hs : s.status = .ok) {mn mx : Int} (hmn : 1 ≤ mn) :
    (ensure P s mn mx).Calm (Safe J I) := by
  unfold ensure
  split
  · rename_i hc
    obtain ⟨m, hm⟩ := h.live (by rw [hs]; decide) (by simpa using hc.1)
    unfold writeToBuffer
    have hav := h.wf.av
    have := G.fuel hm
    refine (writeLoop_safe G hmn _ s _ 0 m h.wf h.some h.weak (by rw [hs]; decide) (by omega) (fun _ => ⟨hs, hm⟩)
      (by rw [if_pos (by omega)]; omega)).bind ?_
    rintro ⟨s', nw⟩ ⟨h1, h2, h3, h4, h5⟩
    simp only at h1 h2 h3 h4 h5
    simp only
    split
    · exact .ok ⟨h1, h2, h3, fun _ z => by simp at z⟩
    · exact .ok ⟨h1, h2, h3, fun _ _ => (h5.resolve_left (by omega)).2⟩
  · exact .ok h

theorem bufRead_safe {b : StreamBuffer α} (h : WF b) (mx : Int) :
    (b.read mx).Calm fun x => WF x.1 ∧ x.1.size = b.size ∧ 0 ≤ x.2.1 ∧ (0 < mx → x.2.1 ≤ mx) := by
  have h1 := h.off; have h2 := h.av; have h3 := h.fits
  have hs : 0 ≤ b.size := by simp [StreamBuffer.size]
  unfold StreamBuffer.read
  rw [Res.assert_of (by simp; omega), Res.assert_of (by simp; omega),
    Res.assert_of (by simp; omega), Res.assert_of (by simp; omega)]
  simp only [Res.bind_ok]
  have hin : ∀ l : List (Option α), (StreamBuffer.initialised l).Calm fun _ => True := by
    intro l
    induction l with
    | nil => exact .ok trivial
    | cons a l ih =>
      cases a with
      | none => exact Or.inr rfl
      | some a => exact ih.bind fun _ _ => .ok trivial
  obtain ⟨m, hm⟩ : ∃ m : Int, (if mx ≤ 0 ∨ mx > b.avail then b.avail else mx) = m := ⟨_, rfl⟩
  rw [hm]
  refine (hin _).bind fun d _ => .ok ⟨⟨?_, ?_, ?_⟩, rfl, ?_, ?_⟩
  · show 0 ≤ b.offset + m
    split at hm <;> omega
  · show 0 ≤ b.avail - m
    split at hm <;> omega
  · show b.offset + m + (b.avail - m) ≤ b.size
    omega
  · show 0 ≤ m
    split at hm <;> omega
  · intro hx
    show m ≤ mx
    split at hm <;> omega

theorem read_safe (G : Guarded P J I) {s : BufferedStream φ α} (h : Safe J I s) {mn : Int} (hmn : 1 ≤ mn) (mx : Int) :
    (read P s mn mx).Calm fun x => Safe J I x.1 ∧ (mn ≤ mx → x.2.1 ≤ mx) := by
  unfold read
  split
  · exact .ok ⟨h, fun _ => by simp only; omega⟩
  · split
    · exact .ok ⟨h, fun _ => by simp only; omega⟩
    · rename_i h1 h2
      have hs : s.status = .ok := by cases hst : s.status <;> simp_all
      refine (ensure_safe G h hs hmn).bind ?_
      intro s1 k1
      split
      · exact .ok ⟨k1, fun _ => by simp only; omega⟩
      · refine (bufRead_safe k1.wf _).bind ?_
        rintro ⟨b, n, d⟩ ⟨g1, g2, g3, g4⟩
        simp only at g1 g2 g3 g4
        have k2 : Safe J I { s1 with buf := b, pos := s1.pos + n } := ⟨g1, by rw [g2]; exact k1.some, k1.weak, k1.live⟩
        have g5 : mn ≤ mx → n ≤ mx := by
          intro z
          rw [if_neg (by omega)] at g4
          exact g4 (by omega)
        simp only
        split
        · exact .ok ⟨⟨k2.wf, k2.some, k2.weak, fun z => absurd rfl z⟩, fun _ => by simp only; omega⟩
        · split
          · rename_i hf
            refine .ok ⟨⟨k2.wf, k2.some, k2.weak, fun _ z => by rw [hf.2.2] at z; cases z⟩, fun z => ?_⟩
            have := g5 z
            simp only
            split <;> omega
          · exact .ok ⟨k2, g5⟩

theorem skipLoop_safe (G : Guarded P J I) : ∀ (fuel : Nat) (s : BufferedStream φ α) (n sk : Int), Safe J I s → 0 ≤ n →
    n < fuel → (skipLoop P fuel s n sk).Calm fun x => Safe J I x.1 := by
  intro fuel
  induction fuel with
  | zero => intro s n sk _ _ h; omega
  | succ fuel ih =>
    intro s n sk h h0 hf
    rw [skipLoop]
    split
    · have hsz := h.some
      obtain ⟨st, hst, h1, h2⟩ : ∃ st : Int, (if n > s.buf.size then s.buf.size else n) = st ∧ 1 ≤ st ∧ st ≤ n := by
        refine ⟨_, rfl, ?_, ?_⟩ <;> split <;> omega
      simp only
      rw [hst]
      refine (read_safe G h (mn := 1) (by omega) st).bind ?_
      rintro ⟨s', k, d⟩ ⟨g1, g2⟩
      simp only at g1 g2
      simp only
      split
      · exact .ok g1
      · exact ih s' _ _ g1 (by have := g2 h1; omega) (by omega)
    · exact .ok h

theorem skip_safe (G : Guarded P J I) {s : BufferedStream φ α} (h : Safe J I s) {n : Int} (hn : 0 ≤ n) :
    (skip P s n).Calm fun x => Safe J I x.1 := skipLoop_safe G _ s n 0 h hn (by omega)

theorem reset_safe {s : BufferedStream φ α} (h : Safe J I s) {q : Int} (hq : 0 ≤ q) :
    (reset s q).Calm fun x => Safe J I x.1 := by
  unfold reset
  rw [Res.assert_of (by simpa using hq), Res.bind_ok]
  split
  · exact .ok h
  · simp only
    split
    · have h1 := h.wf.off; have h2 := h.wf.av; have h3 := h.wf.fits
      rename_i hne hc
      refine .ok ⟨⟨by simp only; omega, by simp only; omega, ?_⟩, h.some, h.weak, fun _ z => h.live hne z⟩
      show s.buf.offset - _ + (s.buf.avail + _) ≤ s.buf.size
      omega
    · exact .ok h

end BufferedStream
end Strigi
