import Verif.Contract
import Verif.Model.BaseSkip

namespace Strigi

variable {σ α : Type}

/-- The part of the contract that does not concern `skip` and `reset`. -/
structure ReadContract (ops : StreamOps σ α) (c : List α) (F : Failure)
    (H : σ → Int → Int → Prop) : Prop where
  range : ∀ {s lo hi}, H s lo hi →
    0 ≤ lo ∧ lo ≤ ops.position s ∧ ops.position s ≤ hi ∧ hi ≤ c.length
  status : ∀ {s lo hi}, H s lo hi →
    ops.status s ≠ .error ∧ (ops.status s = .eof → ops.position s = c.length)
  narrow : ∀ {s lo hi lo' hi'}, H s lo hi → lo ≤ lo' → lo' ≤ ops.position s → ops.position s ≤ hi' →
    hi' ≤ hi → H s lo' hi'
  read : ∀ {s lo hi}, H s lo hi → ∀ {min max}, 1 ≤ min → (max = 0 ∨ min ≤ max) →
    ∃ s' n d, ops.read s min max = .ok (s', n, d) ∧
      ReadOk c F (ops.position s) min max n d (ops.position s') (ops.status s') ∧
      (ops.status s' ≠ .error → H s' (ops.position s) (ops.position s'))

theorem Contract.toRead {ops : StreamOps σ α} {c : List α} {F : Failure}
    {H : σ → Int → Int → Prop} (C : Contract ops c F H) : ReadContract ops c F H :=
  ⟨C.range, C.status, C.narrow, C.read⟩

theorem baseSkipLoop_spec {ops : StreamOps σ α} {c : List α} {F : Failure}
    {H : σ → Int → Int → Prop} (C : ReadContract ops c F H) :
    ∀ (fuel : Nat) (s : σ) (lo hi k sk : Int), H s lo hi → 0 ≤ k → k.toNat + 1 ≤ fuel →
      ∃ s' r, baseSkipLoop ops.read fuel s k sk = .ok (s', r) ∧
        ((ops.status s' ≠ .error ∧ H s' (ops.position s') (ops.position s') ∧
            ops.position s' = min (ops.position s + k) c.length ∧
            r = sk + (ops.position s' - ops.position s)) ∨
          (F.onRead ∧ ops.status s' = .error ∧ r < -1)) := by
  intro fuel
  induction fuel with
  | zero => intro s lo hi k sk _ _ h; omega
  | succ fuel ih =>
    intro s lo hi k sk h hk hf
    have hr := C.range h
    unfold baseSkipLoop
    by_cases hk0 : k > 0
    · rw [if_pos hk0]
      simp only
      have hm : 1 ≤ (if k > 10000000 then 10000000 else k) ∧
          (if k > 10000000 then 10000000 else k) ≤ k := by split <;> omega
      generalize (if k > 10000000 then 10000000 else k) = m at *
      obtain ⟨s1, n, d, e, hro, hs⟩ := C.read h (min := 1) (max := m) (Int.le_refl _) (by omega)
      rw [e]
      simp only [Res.bind_ok]
      cases hro with
      | data pos items inside adv limit enough st =>
        rw [if_neg (by omega), if_neg (by omega)]
        have := limit (by omega)
        obtain ⟨s2, r, e2, g⟩ := ih s1 _ _ (k - n) (sk + n) (hs st) (by omega) (by omega)
        refine ⟨s2, r, e2, ?_⟩
        rcases g with ⟨g1, g2, g3, g4⟩ | g
        · exact Or.inl ⟨g1, g2, by omega, by omega⟩
        · exact Or.inr g
      | ended none nodata atEnd stay st =>
        rw [if_neg (by omega), if_pos (by omega)]
        have hne : ops.status s1 ≠ .error := by rw [st]; simp
        refine ⟨_, _, rfl, Or.inl ⟨hne, ?_, by omega, by omega⟩⟩
        exact C.narrow (hs hne) (by omega) (Int.le_refl _) (Int.le_refl _) (Int.le_refl _)
      | failed allowed code st =>
        rw [if_pos (by omega)]
        exact ⟨_, _, rfl, Or.inr ⟨allowed, st, code⟩⟩
    · rw [if_neg hk0]
      refine ⟨_, _, rfl, Or.inl ⟨(C.status h).1, ?_, by omega, by omega⟩⟩
      exact C.narrow h (by omega) (Int.le_refl _) (Int.le_refl _) (by omega)

/-- The inherited `skip` satisfies the contract if `read` does. -/
theorem baseSkip_spec {ops : StreamOps σ α} {c : List α} {F : Failure}
    {H : σ → Int → Int → Prop} (C : ReadContract ops c F H) {s : σ} {lo hi k : Int} (h : H s lo hi)
    (hk : 0 ≤ k) :
    ∃ s' r, baseSkip ops.read s k = .ok (s', r) ∧
      SkipOk c ⟨F.onRead, F.onRead⟩ (ops.position s) k r (ops.position s') (ops.status s') ∧
      (ops.status s' ≠ .error → H s' (ops.position s') (ops.position s')) := by
  obtain ⟨s', r, e, g⟩ := baseSkipLoop_spec C (k.toNat + 1) s lo hi k 0 h hk (Nat.le_refl _)
  refine ⟨s', r, e, ?_, ?_⟩
  · rcases g with ⟨g1, g2, g3, g4⟩ | ⟨g1, g2, _⟩
    · exact .skipped g3 (Or.inl (by omega)) g1
    · exact .failed g1 g2
  · intro z
    rcases g with ⟨g1, g2, g3, g4⟩ | ⟨g1, g2, _⟩
    · exact g2
    · exact absurd g2 z

/-- The inherited `skip` never asks `read` for more than 10000000 items. -/
theorem baseSkipLoop_steps (read : σ → Int → Int → Res (σ × Int × List α)) :
    ∀ (fuel : Nat) (s : σ) (k sk : Int),
      baseSkipLoop (fun s mn mx => if 1 ≤ mx ∧ mx ≤ 10000000 then read s mn mx else .fault .undefined)
        fuel s k sk = baseSkipLoop read fuel s k sk := by
  intro fuel
  induction fuel with
  | zero => intros; rfl
  | succ fuel ih =>
    intro s k sk
    unfold baseSkipLoop
    by_cases hk0 : k > 0
    · rw [if_pos hk0, if_pos hk0]
      simp only
      rw [if_pos (by split <;> omega)]
      congr 1
      funext x
      simp only [ih]
    · rw [if_neg hk0, if_neg hk0]

end Strigi
