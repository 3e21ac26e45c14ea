import Verif.Model.Lifecycle
import Verif.Proofs.Process

/-!
# Streams that do the same, and the memory of the decompressors
-/

namespace Strigi

/-- Both executions end in the same way, with values in the relation `R`. -/
def Res.Like {α β : Type} (R : α → β → Prop) : Res α → Res β → Prop
  | .ok a, .ok b => R a b
  | .fault x, .fault y => x = y
  | .diverge, .diverge => True
  | _, _ => False

theorem Res.Like.bind {α β γ δ : Type} {R : α → β → Prop} {S : γ → δ → Prop} {a : Res α} {b : Res β} {f : α → Res γ} {g : β → Res δ}
    (h : Res.Like R a b) (hf : ∀ x y, R x y → Res.Like S (f x) (g y)) : Res.Like S (a >>= f) (b >>= g) := by
  cases a <;> cases b <;> simp only [Res.Like] at h
  · exact hf _ _ h
  · subst h; exact rfl
  · trivial

/-- the same execution -/
theorem Res.Like.same {α : Type} (a : Res α) : Res.Like (fun x y => x = y) a a := by cases a <;> simp [Res.Like]

theorem Res.Like.eq {α : Type} {a b : Res α} (h : Res.Like (fun x y => x = y) a b) : a = b := by
  cases a <;> cases b <;> simp_all [Res.Like]

theorem Res.Like.mono {α β : Type} {R S : α → β → Prop} {a : Res α} {b : Res β} (h : Res.Like R a b) (hR : ∀ x y, R x y → S x y) :
    Res.Like S a b := by
  cases a <;> cases b <;> simp only [Res.Like] at h ⊢
  · exact hR _ _ h
  · exact h

namespace BufferedStream

variable {φ ψ α : Type}

/-- The stream with the state of the subclass as the other one sees it. -/
def view (e : φ → ψ) (s : BufferedStream φ α) : BufferedStream ψ α := ⟨e s.prod, s.buf, s.finished, s.pos, s.size, s.status⟩

/-- From states with `J` on `P` does what `Q` does. -/
structure Follows (P : Producer φ α) (Q : Producer ψ α) (e : φ → ψ) (J : φ → Prop) : Prop where
  fuel : ∀ f, J f → P.fuel f = Q.fuel (e f)
  step : ∀ f space, J f → Res.Like (fun x y => y = (e x.1, x.2) ∧ J x.1) (P.fill f space) (Q.fill (e f) space)

variable {P : Producer φ α} {Q : Producer ψ α} {e : φ → ψ} {J : φ → Prop}

theorem Follows.keeps (F : Follows P Q e J) : Keeps P J := by
  intro f space f' r hJ h
  have := F.step f space hJ
  rw [h] at this
  revert this
  cases Q.fill (e f) space <;> simp only [Res.Like]
  · exact fun z => z.2
  · exact False.elim
  · exact False.elim

/-- the relation between the states -/
def Same (e : φ → ψ) (J : φ → Prop) (s : BufferedStream φ α) (t : BufferedStream ψ α) : Prop := t = view e s ∧ J s.prod

theorem writeLoop_follows (F : Follows P Q e J) (nt mx : Int) : ∀ (fuel : Nat) (s : BufferedStream φ α) (missing nw : Int), J s.prod →
    Res.Like (fun x y => Same e J x.1 y.1 ∧ y.2 = x.2) (writeLoop P nt mx fuel s missing nw) (writeLoop Q nt mx fuel (view e s) missing nw) := by
  intro fuel
  induction fuel with
  | zero => intro s missing nw _; exact trivial
  | succ fuel ih =>
    intro s missing nw hJ
    unfold writeLoop
    by_cases hc : missing > 0 ∧ nw ≥ 0
    · rw [if_pos hc, if_pos hc]
      refine (Res.Like.same _).bind ?_
      rintro ⟨b, space⟩ _ rfl
      simp only
      refine (F.step _ _ hJ).bind ?_
      rintro ⟨f, r⟩ _ ⟨rfl, hf⟩
      refine (Res.Like.same _).bind ?_
      rintro b2 _ rfl
      refine (Res.Like.same _).bind ?_
      rintro u _ rfl
      simp only
      split
      · exact ih _ _ _ hf
      · exact ih _ _ _ hf
    · rw [if_neg hc, if_neg hc]
      exact ⟨⟨rfl, hJ⟩, rfl⟩

theorem ensure_follows (F : Follows P Q e J) (s : BufferedStream φ α) (mn mx : Int) (hJ : J s.prod) :
    Res.Like (Same e J) (ensure P s mn mx) (ensure Q (view e s) mn mx) := by
  unfold ensure
  by_cases hc : (!s.finished) = true ∧ mn > s.buf.avail
  · rw [if_pos hc, if_pos (show (!(view e s).finished) = true ∧ mn > (view e s).buf.avail from hc)]
    unfold writeToBuffer
    rw [F.fuel _ hJ]
    refine (writeLoop_follows F _ _ _ s _ _ hJ).bind ?_
    rintro ⟨s1, nw⟩ ⟨t1, nw'⟩ ⟨⟨h1, h2⟩, h3⟩
    simp only at h1 h2 h3
    subst h1; subst h3
    simp only
    split
    · exact ⟨rfl, h2⟩
    · exact ⟨rfl, h2⟩
  · rw [if_neg hc, if_neg (show ¬ ((!(view e s).finished) = true ∧ mn > (view e s).buf.avail) from hc)]
    exact ⟨rfl, hJ⟩

theorem read_follows (F : Follows P Q e J) (s : BufferedStream φ α) (mn mx : Int) (hJ : J s.prod) :
    Res.Like (fun x y => Same e J x.1 y.1 ∧ y.2 = x.2) (read P s mn mx) (read Q (view e s) mn mx) := by
  unfold read
  have hst : (view e s).status = s.status := rfl
  rw [hst]
  by_cases h1 : s.status = .error
  · rw [if_pos h1, if_pos h1]; exact ⟨⟨rfl, hJ⟩, rfl⟩
  rw [if_neg h1, if_neg h1]
  by_cases h2 : s.status = .eof
  · rw [if_pos h2, if_pos h2]; exact ⟨⟨rfl, hJ⟩, rfl⟩
  rw [if_neg h2, if_neg h2]
  simp only
  refine (ensure_follows F s _ _ hJ).bind ?_
  rintro s1 _ ⟨rfl, hJ1⟩
  have hst1 : (view e s1).status = s1.status := rfl
  rw [hst1]
  by_cases h3 : s1.status = .error
  · rw [if_pos h3, if_pos h3]; exact ⟨⟨rfl, hJ1⟩, rfl⟩
  rw [if_neg h3, if_neg h3]
  refine (Res.Like.same _).bind ?_
  rintro ⟨b, n, d⟩ _ rfl
  simp only
  show Res.Like _ _ (if s1.pos + n > s1.size ∧ s1.size > 0 then _ else if s1.status = .ok ∧ b.avail = 0 ∧ s1.finished = true then _ else _)
  split
  · exact ⟨⟨rfl, hJ1⟩, rfl⟩
  · split
    · exact ⟨⟨rfl, hJ1⟩, rfl⟩
    · exact ⟨⟨rfl, hJ1⟩, rfl⟩

theorem skipLoop_follows (F : Follows P Q e J) : ∀ (fuel : Nat) (s : BufferedStream φ α) (n sk : Int), J s.prod →
    Res.Like (fun x y => Same e J x.1 y.1 ∧ y.2 = x.2) (skipLoop P fuel s n sk) (skipLoop Q fuel (view e s) n sk) := by
  intro fuel
  induction fuel with
  | zero => intro s n sk _; exact trivial
  | succ fuel ih =>
    intro s n sk hJ
    unfold skipLoop
    by_cases hn : n ≠ 0
    · rw [if_pos hn, if_pos hn]
      simp only
      refine (read_follows F s 1 _ hJ).bind ?_
      rintro ⟨s1, k, d⟩ ⟨t1, k', d'⟩ ⟨⟨h1, h2⟩, h3⟩
      simp only at h1 h2
      cases h3
      subst h1
      simp only
      split
      · exact ⟨⟨rfl, h2⟩, rfl⟩
      · exact ih _ _ _ h2
    · rw [if_neg hn, if_neg hn]
      exact ⟨⟨rfl, hJ⟩, rfl⟩

theorem reset_follows (s : BufferedStream φ α) (q : Int) (hJ : J s.prod) :
    Res.Like (fun x y => Same e J x.1 y.1 ∧ y.2 = x.2) (reset s q) (reset (view e s) q) := by
  unfold reset
  refine (Res.Like.same _).bind ?_
  rintro u _ rfl
  by_cases h1 : s.status = .error
  · rw [if_pos h1, if_pos (show (view e s).status = .error from h1)]; exact ⟨⟨rfl, hJ⟩, rfl⟩
  rw [if_neg h1, if_neg (show ¬ (view e s).status = .error from h1)]
  simp only
  by_cases h2 : s.buf.offset ≥ s.pos - q ∧ -(s.pos - q) ≤ s.buf.avail
  · rw [if_pos h2, if_pos (show (view e s).buf.offset ≥ (view e s).pos - q ∧ -((view e s).pos - q) ≤ (view e s).buf.avail from h2)]
    exact ⟨⟨rfl, hJ⟩, rfl⟩
  · rw [if_neg h2, if_neg (show ¬ ((view e s).buf.offset ≥ (view e s).pos - q ∧ -((view e s).pos - q) ≤ (view e s).buf.avail) from h2)]
    exact ⟨⟨rfl, hJ⟩, rfl⟩

theorem run_follows (F : Follows P Q e J) : ∀ (l : List Op) (s : BufferedStream φ α), J s.prod →
    Res.Like (Same e J) (run (ops P) s l) (run (ops Q) (view e s) l) := by
  intro l
  induction l with
  | nil => intro s hJ; exact ⟨rfl, hJ⟩
  | cons op l ih =>
    intro s hJ
    cases op with
    | read mn mx =>
      refine (read_follows F s mn mx hJ).bind ?_
      rintro ⟨s1, k, d⟩ ⟨t1, k', d'⟩ ⟨⟨h1, h2⟩, h3⟩
      simp only at h1 h2
      subst h1
      exact ih s1 h2
    | skip k =>
      refine (skipLoop_follows F _ s k 0 hJ).bind ?_
      rintro ⟨s1, k⟩ ⟨t1, k'⟩ ⟨⟨h1, h2⟩, h3⟩
      simp only at h1 h2
      subst h1
      exact ih s1 h2
    | reset q =>
      refine (reset_follows s q hJ).bind ?_
      rintro ⟨s1, k⟩ ⟨t1, k'⟩ ⟨⟨h1, h2⟩, h3⟩
      simp only at h1 h2
      subst h1
      exact ih s1 h2

theorem skip_error {P : Producer φ α} {s : BufferedStream φ α} (hs : s.status = .error) (k : Int) : skip P s k = .ok (s, 0) := by
  have hr : ∀ mn mx, read P s mn mx = .ok (s, -2, []) := by intro mn mx; unfold read; rw [if_pos hs]
  unfold skip skipLoop
  by_cases hk : k ≠ 0
  · rw [if_pos hk]
    simp only
    rw [hr, Res.bind_ok]
    simp only
    rw [if_pos (by omega)]
  · rw [if_neg hk]

/-- After an error nothing changes any more, and the subclass is not called. -/
theorem run_error {P : Producer φ α} : ∀ (l : List Op) (s s' : BufferedStream φ α), s.status = .error → run (ops P) s l = .ok s' → s' = s := by
  intro l
  induction l with
  | nil => intro s s' _ h; cases h; rfl
  | cons op l ih =>
    intro s s' hs h
    have hr : ∀ mn mx, read P s mn mx = .ok (s, -2, []) := by intro mn mx; unfold read; rw [if_pos hs]
    cases op with
    | read mn mx =>
      obtain ⟨⟨s1, n, d⟩, e, h⟩ := bind_eq_ok h
      have e : read P s mn mx = _ := e
      rw [hr] at e
      cases e
      exact ih _ _ hs h
    | skip k =>
      obtain ⟨⟨s1, n⟩, e, h⟩ := bind_eq_ok h
      have e : skip P s k = _ := e
      rw [skip_error hs] at e
      cases e
      exact ih _ _ hs h
    | reset q =>
      obtain ⟨⟨s1, n⟩, e, h⟩ := bind_eq_ok h
      have e : reset s q = _ := e
      unfold reset at e
      obtain ⟨u, _, e⟩ := bind_eq_ok e
      rw [if_pos hs] at e
      cases e
      exact ih _ _ hs h

/-- The same: such calls return, whatever they are (unless the position to go back to is negative). -/
theorem run_error_view {P : Producer φ α} {Q : Producer ψ α} (e : φ → ψ) : ∀ (l : List Op) (s : BufferedStream φ α), s.status = .error →
    Res.Like (fun x y => x = s ∧ y = view e s) (run (ops P) s l) (run (ops Q) (view e s) l) := by
  intro l
  induction l with
  | nil => intro s _; exact ⟨rfl, rfl⟩
  | cons op l ih =>
    intro s hs
    have hs' : (view e s).status = .error := hs
    have hr : ∀ mn mx, read P s mn mx = .ok (s, -2, []) := by intro mn mx; unfold read; rw [if_pos hs]
    have hr' : ∀ mn mx, read Q (view e s) mn mx = .ok (view e s, -2, []) := by intro mn mx; unfold read; rw [if_pos hs']
    cases op with
    | read mn mx =>
      show Res.Like _ (read P s mn mx >>= _) (read Q (view e s) mn mx >>= _)
      rw [hr, hr', Res.bind_ok, Res.bind_ok]
      exact ih s hs
    | skip k =>
      show Res.Like _ (skip P s k >>= _) (skip Q (view e s) k >>= _)
      rw [skip_error hs, skip_error hs', Res.bind_ok, Res.bind_ok]
      exact ih s hs
    | reset q =>
      show Res.Like _ (reset s q >>= _) (reset (view e s) q >>= _)
      have hl : Res.Like (fun (x : BufferedStream φ α × Int) (y : BufferedStream ψ α × Int) => x.1 = s ∧ y.1 = view e s) (reset s q) (reset (view e s) q) := by
        unfold reset
        refine (Res.Like.same _).bind ?_
        rintro u _ rfl
        rw [if_pos hs, if_pos hs']
        exact ⟨rfl, rfl⟩
      refine hl.bind ?_
      rintro ⟨s1, k⟩ ⟨t1, k'⟩ ⟨h1, h2⟩
      simp only at h1 h2
      subst h1; subst h2
      exact ih _ hs

end BufferedStream
end Strigi
