import Verif.Spec

/-!
# Invariant-based form of the stream contract

`Contract ops c F H` is the inductive-invariant form of the specification `Behaves`; `H s lo hi` is an
invariant under which the stream is healthy and can be reset anywhere in `[lo, hi]`.
It is the proof interface between layered streams: wrappers assume it of their input.
-/

namespace Strigi

variable {σ α : Type}

structure Contract (ops : StreamOps σ α) (c : List α) (F : Failure)
    (H : σ → Int → Int → Prop) : Prop where
  range : ∀ {s lo hi}, H s lo hi →
    0 ≤ lo ∧ lo ≤ ops.position s ∧ ops.position s ≤ hi ∧ hi ≤ c.length
  status : ∀ {s lo hi}, H s lo hi →
    ops.status s ≠ .error ∧ (ops.status s = .eof → ops.position s = c.length)
  narrow : ∀ {s lo hi lo' hi'}, H s lo hi → lo ≤ lo' → lo' ≤ ops.position s → ops.position s ≤ hi' →
    hi' ≤ hi → H s lo' hi'
  size : ∀ {s lo hi}, H s lo hi → ops.size s = -1 ∨ ops.size s = c.length ∨ F.onRead
  read : ∀ {s lo hi}, H s lo hi → ∀ {min max}, 1 ≤ min → (max = 0 ∨ min ≤ max) →
    ∃ s' n d, ops.read s min max = .ok (s', n, d) ∧
      ReadOk c F (ops.position s) min max n d (ops.position s') (ops.status s') ∧
      (ops.status s' ≠ .error → H s' (ops.position s) (ops.position s'))
  skip : ∀ {s lo hi}, H s lo hi → ∀ {k}, 0 ≤ k → k < 2 ^ 31 →
    ∃ s' r, ops.skip s k = .ok (s', r) ∧
      SkipOk c F (ops.position s) k r (ops.position s') (ops.status s') ∧
      (ops.status s' ≠ .error → H s' (ops.position s') (ops.position s'))
  reset : ∀ {s lo hi}, H s lo hi → ∀ {q}, lo ≤ q → q ≤ hi →
    ∃ s', ops.reset s q = .ok (s', q) ∧ ops.position s' = q ∧ ops.status s' ≠ .error ∧
      (q ≤ ops.position s → H s' lo hi) ∧ H s' q q

/-- Resets to any position of the stream are tolerated. -/
structure SoftReset (ops : StreamOps σ α) (c : List α) (H : σ → Int → Int → Prop) : Prop where
  reset : ∀ {s : σ} {lo hi : Int}, H s lo hi → ∀ {q : Int}, 0 ≤ q → q ≤ c.length →
    ∃ s' r, ops.reset s q = .ok (s', r) ∧ ops.position s' = r ∧
      (r = q ∨ r = ops.position s) ∧ ops.status s' ≠ .error ∧ H s' r r

/-- The invariant form implies the specification for every sequence of calls. -/
theorem Contract.behaves {ops : StreamOps σ α} {c : List α} {F : Failure}
    {H : σ → Int → Int → Prop} (C : Contract ops c F H) {soft : Prop}
    (hs : soft → SoftReset ops c H) :
    ∀ (l : List Op) {s lo hi}, H s lo hi → Behaves ops c F soft s lo hi l := by
  have base : ∀ {s lo hi}, H s lo hi → Healthy ops c F s lo hi := by
    intro s lo hi h
    have h1 := C.range h
    have h2 := C.status h
    exact ⟨h1.1, h1.2.1, h1.2.2.1, h1.2.2.2, h2.1, h2.2, C.size h⟩
  intro l
  induction l with
  | nil => intro s lo hi h; exact base h
  | cons op l ih =>
    intro s lo hi h
    refine ⟨base h, ?_⟩
    cases op with
    | read min max =>
      intro h1 h2
      obtain ⟨s', n, d, e, r, k⟩ := C.read h h1 h2
      exact ⟨s', n, d, e, r, fun z => ih (k z)⟩
    | skip k =>
      intro h1 h2
      obtain ⟨s', r, e, p, k⟩ := C.skip h h1 h2
      exact ⟨s', r, e, p, fun z => ih (k z)⟩
    | reset q =>
      refine ⟨?_, ?_⟩
      · intro h1 h2
        obtain ⟨s', e, p, st, k1, k2⟩ := C.reset h h1 h2
        exact ⟨s', e, p, st, fun z => ih (k1 z), ih k2⟩
      · intro hsoft h1 h2
        obtain ⟨s', r, e, p, o, st, k⟩ := (hs hsoft).reset h h1 h2
        exact ⟨s', r, e, p, o, st, ih k⟩

theorem Contract.isStream {ops : StreamOps σ α} {c : List α} {F : Failure}
    {H : σ → Int → Int → Prop} (C : Contract ops c F H) {soft : Prop}
    (hs : soft → SoftReset ops c H) {s : σ} (h : H s (ops.position s) (ops.position s)) :
    IsStream ops c F soft s :=
  fun l => C.behaves hs l h

/-- A smaller resettable window promises less. -/
theorem Behaves.narrow {ops : StreamOps σ α} {c : List α} {F : Failure} {soft : Prop} :
    ∀ (l : List Op) {s : σ} {lo hi lo' hi' : Int}, Behaves ops c F soft s lo hi l →
      lo ≤ lo' → lo' ≤ ops.position s → ops.position s ≤ hi' → hi' ≤ hi →
      Behaves ops c F soft s lo' hi' l := by
  intro l
  induction l with
  | nil =>
    intro s lo hi lo' hi' h h1 h2 h3 h4
    simp only [Behaves, Healthy] at h ⊢
    obtain ⟨a1, a2, a3, a4, a5⟩ := h
    exact ⟨by omega, by omega, by omega, by omega, a5⟩
  | cons op l ih =>
    intro s lo hi lo' hi' h h1 h2 h3 h4
    obtain ⟨hh, h⟩ := h
    refine ⟨?_, ?_⟩
    · simp only [Healthy] at hh ⊢
      obtain ⟨a1, a2, a3, a4, a5⟩ := hh
      exact ⟨by omega, by omega, by omega, by omega, a5⟩
    · cases op with
      | read mn mx => exact h
      | skip k => exact h
      | reset q =>
        refine ⟨?_, h.2⟩
        intro q1 q2
        obtain ⟨s', e, p, st, k1, k2⟩ := h.1 (by omega) (by omega)
        exact ⟨s', e, p, st, fun z => ih (k1 z) h1 (by omega) (by omega) h4, k2⟩

/-- Conversely, the specification itself is an invariant: a stream that `IsStream` satisfies the
contract with respect to a suitable `H`.  Hence wrapper theorems may assume just `IsStream` of their
input. -/
theorem Contract.of_behaves (ops : StreamOps σ α) (c : List α) (F : Failure) (soft : Prop) :
    Contract ops c F (fun s lo hi => ∀ l, Behaves ops c F soft s lo hi l) := by
  have base : ∀ {s lo hi}, (∀ l, Behaves ops c F soft s lo hi l) →
      Healthy ops c F s lo hi := fun h => h []
  constructor
  · intro s lo hi h; have := base h; simp only [Healthy] at this; omega
  · intro s lo hi h; have := base h; simp only [Healthy] at this; exact ⟨this.2.2.2.2.1, this.2.2.2.2.2.1⟩
  · intro s lo hi lo' hi' h h1 h2 h3 h4 l; exact Behaves.narrow l (h l) h1 h2 h3 h4
  · intro s lo hi h; have := base h; simp only [Healthy] at this; exact this.2.2.2.2.2.2
  · intro s lo hi h min max h1 h2
    obtain ⟨s', n, d, e, r, _⟩ := (h [.read min max]).2 h1 h2
    refine ⟨s', n, d, e, r, fun z l => ?_⟩
    obtain ⟨s2, n2, d2, e2, _, k2⟩ := (h (.read min max :: l)).2 h1 h2
    rw [e] at e2; cases e2; exact k2 z
  · intro s lo hi h k h1 h2
    obtain ⟨s', r, e, p, _⟩ := (h [.skip k]).2 h1 h2
    refine ⟨s', r, e, p, fun z l => ?_⟩
    obtain ⟨s2, r2, e2, _, k2⟩ := (h (.skip k :: l)).2 h1 h2
    rw [e] at e2; cases e2; exact k2 z
  · intro s lo hi h q h1 h2
    obtain ⟨s', e, p, st, _, _⟩ := (h [.reset q]).2.1 h1 h2
    refine ⟨s', e, p, st, fun z l => ?_, fun l => ?_⟩
    · obtain ⟨s2, e2, _, _, k, _⟩ := (h (.reset q :: l)).2.1 h1 h2
      rw [e] at e2; cases e2; exact k z
    · obtain ⟨s2, e2, _, _, _, k⟩ := (h (.reset q :: l)).2.1 h1 h2
      rw [e] at e2; cases e2; exact k

theorem SoftReset.of_behaves (ops : StreamOps σ α) (c : List α) (F : Failure) (soft : Prop)
    (hs : soft) : SoftReset ops c (fun s lo hi => ∀ l, Behaves ops c F soft s lo hi l) := by
  constructor
  intro s lo hi h q h1 h2
  obtain ⟨s', r, e, p, o, st, _⟩ := (h [.reset q]).2.2 hs h1 h2
  refine ⟨s', r, e, p, o, st, fun l => ?_⟩
  obtain ⟨s2, r2, e2, _, _, _, k⟩ := (h (.reset q :: l)).2.2 hs h1 h2
  rw [e] at e2; cases e2; exact k

/-- Reading a stream that cannot fail with any list of admissible arguments yields a prefix of the
rest of the content; if there are enough calls it yields all of it. -/
theorem Contract.readAll {ops : StreamOps σ α} {c : List α} {F : Failure}
    {H : σ → Int → Int → Prop} (C : Contract ops c F H) (hF : ¬ F.onRead) :
    ∀ (l : List (Int × Int)) {s lo hi}, H s lo hi →
      (∀ a ∈ l, 1 ≤ a.1 ∧ (a.2 = 0 ∨ a.1 ≤ a.2)) →
      ∃ s' d, Strigi.readAll ops s l = .ok (s', d) ∧
        d = slice c (ops.position s) d.length ∧
        ops.position s + d.length = ops.position s' ∧ ops.position s' ≤ c.length ∧
        ((c.length : Int) - ops.position s < l.length → ops.position s' = c.length) := by
  intro l
  induction l with
  | nil =>
    intro s lo hi h _
    have := C.range h
    refine ⟨s, [], rfl, ?_, ?_, ?_, ?_⟩
    · simp [slice]
    · simp
    · omega
    · intro h2; simp at h2; omega
  | cons a l ih =>
    intro s lo hi h ha
    obtain ⟨mn, mx⟩ := a
    have ha1 := ha (mn, mx) (by simp)
    have hr := C.range h
    obtain ⟨s', n, d, e, r, k⟩ := C.read h ha1.1 ha1.2
    cases r with
    | data pos items inside adv limit enough st =>
      obtain ⟨s2, d2, e2, q1, q2, q3, q4⟩ := ih (k st) (fun b hb => ha b (by simp [hb]))
      have hl : (d.length : Int) = n := by
        rw [items]; exact slice_length (by omega) (by omega) inside
      refine ⟨s2, d ++ d2, ?_, ?_, ?_, ?_, ?_⟩
      · rw [Strigi.readAll, e]
        simp only [Res.bind_ok]
        rw [if_neg (by omega), e2]; rfl
      · rw [List.length_append]
        have h3 : ((d.length + d2.length : Nat) : Int) = n + d2.length := by omega
        rw [h3, ← slice_append (by omega) (by omega) (by omega), ← items, ← adv, ← q1]
      · rw [List.length_append]; omega
      · omega
      · intro h4; apply q4; simp only [List.length_cons] at h4; omega
    | ended none nodata atEnd stay st =>
      refine ⟨s', [], ?_, ?_, ?_, ?_, ?_⟩
      · rw [Strigi.readAll, e]
        simp only [Res.bind_ok]
        rw [if_pos (by omega)]
      · simp [slice]
      · simp; omega
      · omega
      · intro _; omega
    | failed allowed code st => exact absurd allowed hF

/-- The invariant holds in every state that is reached. -/
theorem Contract.reaches {ops : StreamOps σ α} {c : List α} {F : Failure}
    {H : σ → Int → Int → Prop} (C : Contract ops c F H) {s₀ : σ}
    (h0 : H s₀ (ops.position s₀) (ops.position s₀)) {s : σ} {lo hi : Int}
    (h : Reaches ops s₀ s lo hi) : H s lo hi := by
  induction h with
  | start => exact h0
  | read _ h1 h2 e st ih =>
    obtain ⟨s', n, d, e', _, k⟩ := C.read ih h1 h2
    rw [e] at e'; cases e'; exact k st
  | skip _ h1 h2 e st ih =>
    obtain ⟨s', r, e', _, k⟩ := C.skip ih h1 h2
    rw [e] at e'; cases e'; exact k st
  | back _ h1 h2 e ih =>
    have := C.range ih
    obtain ⟨s', e', _, _, k, _⟩ := C.reset ih h1 (by omega)
    rw [e] at e'; cases e'; exact k h2
  | reset _ h1 h2 e ih =>
    obtain ⟨s', e', _, _, _, k⟩ := C.reset ih h1 h2
    rw [e] at e'; cases e'; exact k

/-- Any admissible calls on a stream that tolerates resets lead to a healthy state or to an error. -/
theorem Contract.run {ops : StreamOps σ α} {c : List α} {F : Failure}
    {H : σ → Int → Int → Prop} (C : Contract ops c F H) (S : SoftReset ops c H) :
    ∀ (l : List Op) {s lo hi}, H s lo hi → (∀ op ∈ l, Admissible c op) →
      ∃ s', runUntilError ops s l = .ok s' ∧ (ops.status s' = .error ∨ ∃ lo hi, H s' lo hi) := by
  intro l
  induction l with
  | nil => intro s lo hi h _; exact ⟨s, rfl, Or.inr ⟨lo, hi, h⟩⟩
  | cons op l ih =>
    intro s lo hi h hv
    have hv1 := hv op (by simp)
    have hv2 : ∀ op ∈ l, Admissible c op := fun o ho => hv o (by simp [ho])
    have hst := (C.status h).1
    have herr : ∀ {s'}, ops.status s' = .error → runUntilError ops s' l = .ok s' := by
      intro s' z
      cases l with
      | nil => rfl
      | cons op l => rw [runUntilError, if_pos z]
    rw [runUntilError, if_neg hst]
    cases op with
    | read mn mx =>
      obtain ⟨s', n, d, e, _, k⟩ := C.read h hv1.1 hv1.2
      simp only [Op.exec, e, Res.bind_ok]
      by_cases z : ops.status s' = .error
      · exact ⟨s', herr z, Or.inl z⟩
      · exact ih (k z) hv2
    | skip n =>
      obtain ⟨s', r, e, _, k⟩ := C.skip h hv1.1 hv1.2
      simp only [Op.exec, e, Res.bind_ok]
      by_cases z : ops.status s' = .error
      · exact ⟨s', herr z, Or.inl z⟩
      · exact ih (k z) hv2
    | reset q =>
      obtain ⟨s', r, e, _, _, _, k⟩ := S.reset h hv1.1 hv1.2
      simp only [Op.exec, e, Res.bind_ok]
      exact ih k hv2

end Strigi
