import Verif.Proofs.PartSafe
import Verif.Proofs.BufferedAny
import Verif.Model.Base64

/-!
# The base64 decoder over a part, on arbitrary bytes
-/

namespace Strigi.Base64

open StringTerminated (PartOk part_read)

variable {σ : Type} {P : StreamOps σ UInt8} {c : List UInt8} {lo : Int} {H : σ → Prop} {W : σ → Int → Int → Prop}

/-- What the part may still deliver. -/
def left (P : StreamOps σ UInt8) (c : List UInt8) (e : StringTerminated σ) : Nat :=
  if e.status = .ok then (c.length - P.position e.parent).toNat else 0

/-- The number of characters that are not decoded yet. -/
def todoChars (P : StreamOps σ UInt8) (c : List UInt8) (f : State (StringTerminated σ)) : Nat := f.chunk.length + left P c f.input

def Sane (P : StreamOps σ UInt8) (c : List UInt8) (H : σ → Prop) (W : σ → Int → Int → Prop) (o : Int) (f : State (StringTerminated σ)) : Prop :=
  PartOk P c H W f.input ∧ f.input.offset = o

theorem moreData_total (E : Env P c lo H W) {o : Int} {f : State (StringTerminated σ)} (h : Sane P c H W o f) :
    ∃ f' more err, moreData (StringTerminated.ops P) f = .ok (f', more, err) ∧ Sane P c H W o f' ∧ f'.todo = f.todo ∧ f'.count = f.count ∧
      (more = true → f'.chunk ≠ [] ∧ f'.isOpen = f.isOpen ∧ todoChars P c f' ≤ todoChars P c f ∧ err = false) ∧
      (more = false → f'.isOpen = false ∧ todoChars P c f' = 0) := by
  unfold moreData
  by_cases hc : f.chunk = []
  · rw [if_pos hc]
    obtain ⟨e', n, d, er, h', ho, _, hd, hn, hok⟩ := part_read E h.1 (mn := 1) (mx := 0) (by omega) (by omega) (Or.inl rfl)
    show ∃ f' more err, (StringTerminated.read P f.input 1 0 >>= _) = _ ∧ _
    rw [er, Res.bind_ok]
    have hz : n ≤ 0 → left P c e' = 0 := by
      intro z
      unfold left
      rw [if_neg]
      intro y
      have := hok y
      omega
    dsimp only
    by_cases n1 : n < -1
    · rw [if_pos n1]
      refine ⟨_, _, _, rfl, ⟨h', by rw [ho]; exact h.2⟩, rfl, rfl, (fun z => by cases z), fun _ => ⟨rfl, ?_⟩⟩
      simp [todoChars, hc, hz (by omega)]
    rw [if_neg n1]
    by_cases n2 : n ≤ 0
    · rw [if_pos n2]
      refine ⟨_, _, _, rfl, ⟨h', by rw [ho]; exact h.2⟩, rfl, rfl, (fun z => by cases z), fun _ => ⟨rfl, ?_⟩⟩
      simp [todoChars, hc, hz n2]
    rw [if_neg n2]
    have hdl := hd (by omega)
    obtain ⟨g1, g2, g3⟩ := hn (by omega)
    refine ⟨_, _, _, rfl, ⟨h', by rw [ho]; exact h.2⟩, rfl, rfl, fun _ => ⟨?_, rfl, ?_, rfl⟩, fun z => by cases z⟩
    · intro z
      simp only at z
      rw [z] at hdl
      simp at hdl
      omega
    · simp only [todoChars, hc, left, g1, if_true, List.length_nil]
      split
      · rename_i y; rw [g3 y]; omega
      · omega
  · rw [if_neg hc]
    exact ⟨f, _, _, rfl, h, rfl, rfl, fun _ => ⟨hc, rfl, Nat.le_refl _, rfl⟩, fun z => by cases z⟩

theorem loop_total (E : Env P c lo H W) {o : Int} (space : Int) : ∀ (fuel : Nat) (f : State (StringTerminated σ)) (out : List UInt8),
    Sane P c H W o f → f.isOpen = true → f.todo = 0 → todoChars P c f + 1 < fuel → (out.length : Int) ≤ space →
    ∃ f' out' err, loop (StringTerminated.ops P) space fuel f out = .ok (f', out', err) ∧ Sane P c H W o f' ∧
      (out'.length : Int) ≤ space ∧ out'.length + 3 * todoChars P c f' + f'.todo ≤ out.length + 3 * todoChars P c f ∧
      4 * todoChars P c f' + f'.todo + (if f'.isOpen then 1 else 0) < 4 * todoChars P c f + 1 ∧
      (err = true → f'.isOpen = false ∧ f'.todo = 0) := by
  intro fuel
  induction fuel with
  | zero => intro f out _ _ _ z; omega
  | succ fuel ih =>
    intro f out h hopen htodo hf hout
    rw [loop]
    obtain ⟨f1, more, err, em, h1, t1, c1, hm, hz⟩ := moreData_total E h
    rw [em, Res.bind_ok]
    dsimp only
    cases more with
    | false =>
      obtain ⟨z1, z2⟩ := hz rfl
      rw [if_pos (by decide)]
      exact ⟨f1, out, err, rfl, h1, hout, by omega, by rw [z1, z2, t1, htodo]; simp, fun _ => ⟨z1, by omega⟩⟩
    | true =>
      obtain ⟨m1, m2, m3, m4⟩ := hm rfl
      rw [if_neg (by decide)]
      cases hch : f1.chunk with
      | nil => exact absurd hch m1
      | cons x chunk =>
        dsimp only
        have hT : ∀ (b t k : Nat) (op : Bool), todoChars P c { f1 with chunk := chunk, bits := b, todo := t, count := k, isOpen := op } + 1 = todoChars P c f1 := by
          intro b t k op
          simp only [todoChars, hch, List.length_cons]
          omega
        by_cases x1 : x = 61
        · rw [if_pos x1]
          have hdone : ∀ (b t k : Nat), t ≤ 2 → ∃ f' out' err', (.ok (({ f1 with chunk := chunk, bits := b, todo := t, count := k, isOpen := false } : State (StringTerminated σ)), out, false) : Res _) = .ok (f', out', err') ∧
              Sane P c H W o f' ∧ (out'.length : Int) ≤ space ∧ out'.length + 3 * todoChars P c f' + f'.todo ≤ out.length + 3 * todoChars P c f ∧
              4 * todoChars P c f' + f'.todo + (if f'.isOpen then 1 else 0) < 4 * todoChars P c f + 1 ∧
              (err' = true → f'.isOpen = false ∧ f'.todo = 0) := by
            intro b t k ht
            have := hT b t k false
            refine ⟨_, _, _, rfl, h1, hout, ?_, ?_, fun z => by cases z⟩
            · simp only; omega
            · simp only [Bool.false_eq_true, if_false]; omega
          split
          · exact hdone _ 1 _ (by omega)
          · split
            · exact hdone _ 2 _ (by omega)
            · exact hdone f1.bits f1.todo f1.count (by omega)
        rw [if_neg x1]
        by_cases x2 : ¬ inalphabet x
        · rw [if_pos x2]
          have := hT f1.bits f1.todo f1.count f1.isOpen
          obtain ⟨f', out', err', g1, g2, g3, g4, g5, g6⟩ := ih { f1 with chunk := chunk } out h1 (by simp only; rw [m2]; exact hopen) (by simp only; omega) (by omega) hout
          exact ⟨f', out', err', g1, g2, g3, by omega, by omega, g6⟩
        rw [if_neg x2]
        have hfull : ∀ (b t k : Nat) (w : List UInt8), w.length + t ≤ 3 → (out.length : Int) + w.length ≤ space →
            ∃ f' out' err', (.ok (({ f1 with chunk := chunk, bits := b, todo := t, count := k, isOpen := f1.isOpen } : State (StringTerminated σ)), out ++ w, false) : Res _) = .ok (f', out', err') ∧
              Sane P c H W o f' ∧ (out'.length : Int) ≤ space ∧ out'.length + 3 * todoChars P c f' + f'.todo ≤ out.length + 3 * todoChars P c f ∧
              4 * todoChars P c f' + f'.todo + (if f'.isOpen then 1 else 0) < 4 * todoChars P c f + 1 ∧
              (err' = true → f'.isOpen = false ∧ f'.todo = 0) := by
          intro b t k w ht hs
          have := hT b t k f1.isOpen
          refine ⟨_, _, _, rfl, h1, ?_, ?_, ?_, fun z => by cases z⟩
          · rw [List.length_append]; omega
          · rw [List.length_append]; simp only; omega
          · simp only; split <;> omega
        split
        · split
          · have := hfull (f1.bits + decoder x) 3 (f1.count + 1) [] (by simp) (by simpa using hout)
            rw [List.append_nil] at this
            exact this
          · rename_i s1
            split
            · exact hfull (f1.bits + decoder x) 2 (f1.count + 1) [_] (by simp) (by simp; omega)
            · rename_i s2
              rw [List.append_assoc]
              split
              · exact hfull (f1.bits + decoder x) 1 (f1.count + 1) [_, _] (by simp) (by simp at s2 ⊢; omega)
              · rename_i s3
                have := hT 0 f1.todo 0 f1.isOpen
                obtain ⟨f', out', err', g1, g2, g3, g4, g5, g6⟩ := ih { f1 with chunk := chunk, bits := 0, count := 0 }
                  (out ++ ([byte ((f1.bits + decoder x) / 2 ^ 16)] ++ [byte ((f1.bits + decoder x) / 2 ^ 8 % 256)]) ++ [byte ((f1.bits + decoder x) % 256)]) h1
                  (by simp only; rw [m2]; exact hopen) (by simp only; omega) (by omega) (by simp at s3 ⊢; omega)
                refine ⟨f', out', err', g1, g2, g3, ?_, by omega, g6⟩
                simp only [List.length_append, List.length_cons, List.length_nil] at g4
                omega
        · have := hT ((f1.bits + decoder x) * 2 ^ 6) f1.todo (f1.count + 1) f1.isOpen
          obtain ⟨f', out', err', g1, g2, g3, g4, g5, g6⟩ := ih { f1 with chunk := chunk, bits := (f1.bits + decoder x) * 2 ^ 6, count := f1.count + 1 } out h1
            (by simp only; rw [m2]; exact hopen) (by simp only; omega) (by omega) hout
          exact ⟨f', out', err', g1, g2, g3, by omega, by omega, g6⟩

/-- The states from which the decoder may be called. -/
def Calls (P : StreamOps σ UInt8) (c : List UInt8) (H : σ → Prop) (W : σ → Int → Int → Prop) (o : Int) (N : Nat) (f : State (StringTerminated σ)) (m b : Nat) : Prop :=
  Sane P c H W o f ∧ m = 4 * todoChars P c f + f.todo + (if f.isOpen then 1 else 0) + 1 ∧ m + 1 < N ∧ 3 * todoChars P c f + f.todo ≤ b

theorem emits (E : Env P c lo H W) (o : Int) (N : Nat) :
    BufferedStream.Emits (producer (StringTerminated.ops P) N) (Sane P c H W o) (Calls P c H W o N) where
  weak h := h.1
  fuel h := by have := h.2.2.1; simp only [producer]; omega
  step := by
    rintro f m b ⟨h, hm, hN, hb⟩ space hs
    simp only [producer]
    unfold fill
    by_cases h0 : (!f.isOpen) = true ∧ f.todo = 0
    · rw [if_pos h0]
      exact ⟨f, _, rfl, h, by simp; omega, Or.inr (Or.inl (by simp))⟩
    rw [if_neg h0]
    by_cases h1 : f.todo ≠ 0
    · rw [if_pos h1]
      have hone : ∀ (x : UInt8) (bb k : Nat), ∃ f' r, (.ok (({ f with todo := f.todo - 1, bits := bb, count := k } : State (StringTerminated σ)), (⟨1, [x], false⟩ : Fill UInt8)) : Res _) = .ok (f', r) ∧ Sane P c H W o f' ∧
          (r.data.length : Int) ≤ space ∧
          ((r.error = false ∧ r.n = r.data.length ∧ ∃ m' b', m' < m ∧ b' + r.data.length ≤ b ∧ Calls P c H W o N f' m' b') ∨ r.n < 0 ∨
            (r.error = true ∧ r.n = r.data.length ∧ 0 < m ∧ (r.n < space → ∀ space' : Int, 0 < space' →
              ∃ f'' r', fill (StringTerminated.ops P) N f' space' = .ok (f'', r') ∧ Sane P c H W o f'' ∧ r'.n < 0 ∧ (r'.data.length : Int) ≤ space'))) := by
        intro x bb k
        have e : todoChars P c { f with todo := f.todo - 1, bits := bb, count := k } = todoChars P c f := rfl
        refine ⟨_, _, rfl, h, by simp; omega, Or.inl ⟨rfl, by simp, m - 1, b - 1, by omega, by simp; omega, h, ?_, by omega, ?_⟩⟩
        · rw [e]; simp only; omega
        · rw [e]; simp only; omega
      split
      · exact hone _ f.bits f.count
      · split
        · exact hone _ f.bits f.count
        · exact hone _ 0 0
    rw [if_neg h1]
    have hopen : f.isOpen = true := by
      cases hh : f.isOpen
      · exact absurd ⟨by simp [hh], by omega⟩ h0
      · rfl
    obtain ⟨f', out', err, e, g2, g3, g4, g5, g6⟩ := loop_total E space N f [] h hopen (by omega) (by rw [hopen] at hm; simp at hm; omega) (by simp; omega)
    rw [e, Res.bind_ok]
    dsimp only
    simp only [List.length_nil] at g4
    rw [hopen] at hm
    simp only [if_true] at hm
    refine ⟨f', _, rfl, g2, g3, ?_⟩
    simp only
    by_cases hend : out' = [] ∧ (!f'.isOpen) = true ∧ f'.todo = 0
    · rw [if_pos hend]; exact Or.inr (Or.inl (by omega))
    rw [if_neg hend]
    cases err with
    | false =>
      left
      exact ⟨rfl, rfl, _, b - out'.length, by omega, by omega, g2, rfl, by omega, by omega⟩
    | true =>
      obtain ⟨z1, z2⟩ := g6 rfl
      right; right
      refine ⟨rfl, rfl, by omega, fun _ space' hs' => ⟨f', ⟨-1, [], false⟩, ?_, g2, by simp, by simp; omega⟩⟩
      rw [if_pos ⟨by simp [z1], z2⟩]

end Strigi.Base64
