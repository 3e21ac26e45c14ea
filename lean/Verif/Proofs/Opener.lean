import Verif.Model.Opener
import Verif.Proofs.FileStreams

namespace Strigi

variable {α : Type}

namespace FileInputStream

/-- Without I/O errors this is the producer of Model/FileStreams. -/
theorem producerIO_false : (producerIO false : Producer (Option (CFile α)) α) = producer := by
  unfold producerIO producer
  congr 1

/-- What is left in a file that ends with an I/O error: the readable bytes, and something that is never
seen. -/
def RestIO (junk : List α) (f : Option (CFile α)) (rest : List α) (m : Nat) : Prop :=
  match f with
  | none => False
  | some f => 0 ≤ f.off ∧ f.off ≤ f.content.length ∧ rest = f.content.drop f.off.toNat ++ junk ∧
      m = f.content.length - f.off.toNat + 2

theorem producesIO (junk : List α) : Produces (producerIO (α := α) true) True (RestIO junk) where
  fuel := by
    intro f rest m h
    cases f with
    | none => exact h.elim
    | some f => simp only [RestIO] at h; simp only [producerIO]; omega
  step := by
    intro f rest m h space hs
    cases f with
    | none => exact h.elim
    | some f =>
      obtain ⟨h0, h1, h2, h3⟩ := h
      have hl := CFile.fread_length (f := f) (n := space) h0 h1 (by omega)
      simp only [producerIO]
      by_cases hf : ((f.fread space).2.length : Int) < space
      · rw [if_pos ⟨trivial, hf⟩]
        exact ⟨_, _, rfl, Or.inr (Or.inr (Or.inl ⟨trivial, rfl, by simp, by simp only; omega⟩))⟩
      · rw [if_neg (by simp [hf]), if_neg hf]
        have ho : (f.fread space).1 = ⟨f.content, f.off + ((f.fread space).2.length : Int)⟩ := rfl
        have hd : (f.fread space).2 = (f.content.drop f.off.toNat).take space.toNat := rfl
        have hle : space ≤ f.content.length - f.off := by omega
        have hln : ((f.fread space).2.length : Int) = space := by omega
        refine ⟨_, _, rfl, Or.inl ⟨rfl, rfl, by simp only; omega,
          f.content.drop (f.off.toNat + space.toNat) ++ junk, f.content.length - (f.off.toNat + space.toNat) + 2,
          ?_, by omega, ?_⟩⟩
        · simp only
          rw [h2, ← List.append_assoc, hd, ← List.drop_drop, List.take_append_drop]
        · simp only [RestIO, ho, hln]
          refine ⟨by omega, by omega, ?_, ?_⟩
          · rw [show (f.off + space).toNat = f.off.toNat + space.toNat by omega]
          · omega

theorem new_status {c : List α} {b : Int} {sk : Bool} {r : Int} {s : BufferedStream (Option (CFile α)) α}
    (h : new c b sk r = .ok s) : s.status = .ok ∧ s.pos = 0 ∧
      s.size = (if ¬ sk then -1 else if r = 0 ∧ c.length ≥ 1 then -1 else r) := by
  unfold new at h
  dsimp only at h
  generalize (if ¬ sk then -1 else if r = 0 ∧ c.length ≥ 1 then -1 else r) = sz at *
  by_cases h0 : sz = 0
  · rw [if_pos h0] at h; cases h; exact ⟨rfl, rfl, h0.symm⟩
  · rw [if_neg h0] at h
    unfold BufferedStream.setMinBufSize at h
    cases hm : (BufferedStream.new (some (⟨c, 0⟩ : CFile α)) sz).buf.makeSpace
        (if sz ≤ b then sz + 1 else b) with
    | ok v => rw [hm] at h; simp only [Res.bind_ok] at h; cases h; exact ⟨rfl, rfl, rfl⟩
    | fault x => rw [hm] at h; cases h
    | diverge => rw [hm] at h; cases h

/-- `new` always makes a stream, for every reported size. -/
theorem new_healthy {R : Option (CFile α) → List α → Nat → Prop} {t c : List α} {m : Nat}
    (hR : R (some ⟨t, 0⟩) c m) (b : Int) (sk : Bool) (r : Int)
    (h0 : (if ¬ sk then -1 else if r = 0 ∧ t.length ≥ 1 then -1 else r) ≠ (0 : Int)) :
    ∃ s, new t b sk r = .ok s ∧ BufferedStream.Healthy R c
      (if ¬ sk then -1 else if r = 0 ∧ t.length ≥ 1 then -1 else r) s 0 0 := by
  unfold new
  dsimp only
  generalize (if ¬ sk then -1 else if r = 0 ∧ t.length ≥ 1 then -1 else r) = sz at *
  rw [if_neg h0]
  obtain ⟨s, e, p, hh⟩ := BufferedStream.setMinBufSize_healthy hR sz (if sz ≤ b then sz + 1 else b)
  exact ⟨s, e, hh⟩

end FileInputStream

namespace SkippingFile

theorem readIO_false (s : SkippingFile α) (mn mx : Int) : s.readIO false mn mx = s.read mn mx := by
  unfold readIO read
  cases s.file with
  | none => rfl
  | some f => simp

end SkippingFile

end Strigi
