import Verif.Contract
import Verif.Model.StringStream

namespace Strigi.StringStream

variable {α : Type}

/-- Invariant of `StringStream`. -/
structure Inv (c : List α) (s : StringStream α) : Prop where
  data : s.data = c
  lo : 0 ≤ s.pos
  hi : s.pos ≤ c.length
  st : s.status ≠ .error
  eof : s.status = .eof → s.pos = c.length

theorem Inv.new (c : List α) : Inv c (new c) := by
  constructor <;> simp [StringStream.new]

theorem Inv.read {c : List α} {s : StringStream α} (h : Inv c s) (mn mx : Int) :
    Inv c (s.read mn mx).1 := by
  obtain ⟨hd, h0, h1, h2, h3⟩ := h
  subst hd
  unfold StringStream.read
  dsimp only
  split
  · constructor <;> simp <;> omega
  · split <;> split <;> constructor <;> simp_all <;> first | omega | (intro h; have := h3 h; omega)

theorem Inv.skip {c : List α} {s : StringStream α} (h : Inv c s) (n : Int) :
    Inv c (s.skip n).1 := by
  unfold StringStream.skip
  split
  · exact h
  · exact h.read _ _

theorem Inv.reset {c : List α} {s : StringStream α} (h : Inv c s) (q : Int) :
    Inv c (s.reset q).1 := by
  obtain ⟨hd, h0, h1, h2, h3⟩ := h
  subst hd
  unfold StringStream.reset
  split
  · constructor <;> simp
  · split <;> constructor <;> simp <;> omega

theorem read_spec {c : List α} {s : StringStream α} (h : Inv c s) {mn mx : Int} (h1 : 1 ≤ mn)
    (h2 : mx = 0 ∨ mn ≤ mx) :
    ReadOk c .never s.pos mn mx (s.read mn mx).2.1 (s.read mn mx).2.2 (s.read mn mx).1.pos
      (s.read mn mx).1.status := by
  have hi := h.read mn mx
  obtain ⟨hd, k0, k1, k2, k3⟩ := h
  subst hd
  have hst := hi.st
  revert hst
  unfold StringStream.read
  dsimp only
  split
  · intro _; apply ReadOk.ended
    · left; rfl
    · rfl
    · omega
    · rfl
    · rfl
  · intro hst
    apply ReadOk.data
    · split <;> simp only <;> omega
    · rfl
    · split <;> simp only <;> omega
    · rfl
    · intro hm; split <;> simp only <;> omega
    · split <;> simp only <;> omega
    · exact hst

theorem skip_spec {c : List α} {s : StringStream α} (h : Inv c s) {k : Int} (h1 : 0 ≤ k)
    (h2 : k < 2 ^ 31) :
    SkipOk c .never s.pos k (s.skip k).2 (s.skip k).1.pos (s.skip k).1.status := by
  have hi := h.skip k
  obtain ⟨hd, k0, k1, k2, k3⟩ := h
  subst hd
  have hst := hi.st
  revert hst
  unfold StringStream.skip
  split
  · subst_vars; intro hst; apply SkipOk.skipped
    · simp only; omega
    · left; simp
    · exact hst
  · rw [narrow32_of_range (by omega) h2]
    unfold StringStream.read
    dsimp only
    split
    · intro hst; apply SkipOk.skipped
      · simp only; omega
      · right; simp only [true_and]; omega
      · exact hst
    · intro hst; apply SkipOk.skipped
      · simp only; split <;> omega
      · left; simp only; split <;> omega
      · exact hst

/-- `StringStream` satisfies the contract; every position may be reset to. -/
theorem contract (c : List α) :
    Contract (ops (α := α)) c .never
      (fun s lo hi => Inv c s ∧ 0 ≤ lo ∧ lo ≤ s.pos ∧ s.pos ≤ hi ∧ hi ≤ c.length) where
  range h := h.2
  status h := ⟨h.1.st, h.1.eof⟩
  narrow h h1 h2 h3 h4 := ⟨h.1, by have := h.2; simp only [ops] at *; omega⟩
  size h := by right; left; simp only [ops]; rw [h.1.data]
  read := by
    intro s lo hi h mn mx h1 h2
    refine ⟨_, _, _, rfl, read_spec h.1 h1 h2, fun _ => ?_⟩
    have := h.1.read mn mx
    have r := read_spec h.1 h1 h2
    have a1 := this.lo; have a2 := this.hi; have a3 := h.1.lo; have a4 := h.1.hi
    have key : s.pos ≤ (s.read mn mx).1.pos := by
      cases r with
      | data pos _ _ adv => omega
      | ended _ _ _ stay => omega
      | failed a => exact a.elim
    exact ⟨this, a3, key, Int.le_refl _, a2⟩
  skip := by
    intro s lo hi h k h1 h2
    refine ⟨_, _, rfl, skip_spec h.1 h1 h2, fun _ => ⟨h.1.skip k, ?_⟩⟩
    have := h.1.skip k
    have a1 := this.lo; have a2 := this.hi
    exact ⟨a1, Int.le_refl _, Int.le_refl _, a2⟩
  reset := by
    intro s lo hi h q h1 h2
    have hi' := h.1.reset q
    have hp : (s.reset q).1.pos = q ∧ (s.reset q).2 = q := by
      have := h.1.data
      unfold StringStream.reset
      split
      · omega
      · split
        · simp
        · simp only; subst this; omega
    refine ⟨(s.reset q).1, ?_, hp.1, hi'.st, fun _ => ⟨hi', ?_⟩, ⟨hi', ?_⟩⟩
    · simp only [ops]; congr 1; exact Prod.ext rfl hp.2
    · rw [hp.1]; omega
    · rw [hp.1]; omega

theorem softReset (c : List α) :
    SoftReset (ops (α := α)) c
      (fun s lo hi => Inv c s ∧ 0 ≤ lo ∧ lo ≤ s.pos ∧ s.pos ≤ hi ∧ hi ≤ c.length) := by
  constructor
  intro s lo hi h q h1 h2
  obtain ⟨s', e, p, st, _, k⟩ :=
    (contract c).reset (s := s) (lo := 0) (hi := c.length) (q := q)
      ⟨h.1, by have := h.1.lo; have := h.1.hi; omega⟩ h1 h2
  exact ⟨s', q, e, p, Or.inl rfl, st, k⟩

end Strigi.StringStream
