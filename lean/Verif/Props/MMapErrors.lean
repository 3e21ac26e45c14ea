import Verif.Model.MMapErrors
import Verif.Props.FileStreams
import Verif.Proofs.Decompress

/-!
# Mapped files that cannot be opened or mapped: C141
-/

namespace Strigi.Props

variable {α : Type}

/-- The state of the model without failures. -/
def mapped (s : MMapStream α) : MMapFile α := ⟨if s.mem = [] then none else some s.mem, s.mem.length, s.pos, s.status⟩

/-- **C141**: if nothing fails, this is the mapped file of C32 (and of the other properties): the constructor and all calls
correspond. -/
theorem C141_same (c : List α) :
    MMapFile.new (some c) true = mapped (MMapStream.new c) ∧
    ∀ s : MMapStream α,
      (∀ mn mx s' n d, MMapStream.ops.read s mn mx = .ok (s', n, d) → MMapFile.ops.read (mapped s) mn mx = .ok (mapped s', n, d)) ∧
      (∀ k, MMapFile.skip (mapped s) k = (mapped (s.skip k).1, (s.skip k).2)) ∧
      ∀ q, MMapFile.reset (mapped s) q = (mapped (s.reset q).1, (s.reset q).2) := by
  refine ⟨?_, fun s => ⟨?_, ?_, ?_⟩⟩
  · cases c with
    | nil => rfl
    | cons a c =>
      unfold MMapFile.new mapped MMapStream.new
      dsimp only
      rw [if_pos (show ((a :: c).length : Int) > 0 by simp), if_pos rfl, if_neg (by simp)]
  · intro mn mx s' n d e
    change s.read mn mx = .ok (s', n, d) at e
    unfold MMapStream.read at e
    by_cases h1 : s.status = .error
    · rw [if_pos h1] at e
      cases e
      simp [MMapFile.ops, MMapFile.data, MMapFile.readRaw, mapped, h1]
    · rw [if_neg h1] at e
      by_cases h2 : s.status = .eof
      · rw [if_pos h2] at e
        cases e
        simp [MMapFile.ops, MMapFile.data, MMapFile.readRaw, mapped, h2]
      · rw [if_neg h2] at e
        have h3 : s.status = .ok := by
          cases h : s.status with
          | ok => rfl
          | eof => exact absurd h h2
          | error => exact absurd h h1
        dsimp only at e
        obtain ⟨x, e1, e⟩ := BufferedStream.bind_eq_ok e
        cases e
        have hd : (mapped s).at_ (if max mn mx ≥ (s.mem.length : Int) - s.pos then (s.mem.length : Int) - s.pos else max mn mx) = .ok d := by
          generalize (if max mn mx ≥ (s.mem.length : Int) - s.pos then (s.mem.length : Int) - s.pos else max mn mx) = n at e1 ⊢
          unfold MMapStream.at_ at e1
          split at e1
          · rename_i h
            injection e1 with e1
            unfold MMapFile.at_ mapped
            dsimp only
            by_cases hm : s.mem = []
            · rw [if_pos hm]
              dsimp only
              rw [hm] at h e1
              simp only [List.length_nil] at h
              have h0 : n ≤ 0 := by omega
              rw [if_pos h0, ← e1]; simp [slice]
            · rw [if_neg hm]
              dsimp only
              rw [if_pos (by exact h), e1]
          · cases e1
        simp only [MMapFile.ops, MMapFile.data]
        rw [if_pos (show (mapped s).status = .ok from h3)]
        simp only [MMapFile.readRaw]
        rw [if_neg (show ¬ (mapped s).status = .error from h1), if_neg (show ¬ (mapped s).status = .eof from h2)]
        dsimp only
        rw [show (mapped s).size = s.mem.length from rfl, show (mapped s).pos = s.pos from rfl, hd, Res.bind_ok]
        rfl
  · intro k
    unfold MMapFile.skip MMapStream.skip mapped
    dsimp only
    split <;> rfl
  · intro q
    unfold MMapFile.reset MMapStream.reset mapped
    dsimp only
    split
    · rfl
    · split
      · rfl
      · split <;> rfl

/-- **C141**: a file that cannot be opened: nothing is delivered, and the status is `Error`, as long as `skip` is not called. -/
theorem C141_unopened (m : Bool) (mn mx q : Int) :
    let s : MMapFile α := MMapFile.new none m
    s.status = .error ∧ MMapFile.ops.read s mn mx = .ok (s, -2, []) ∧ MMapFile.ops.reset s q = .ok (s, -2) := by
  refine ⟨rfl, ?_, rfl⟩
  simp [MMapFile.ops, MMapFile.data, MMapFile.readRaw, MMapFile.new]

/-- **C141**, the defect: any `skip` (also of no bytes at all) turns the error into the end of a file: from then on, whatever the client
does, the file looks like an empty one, with the size -1 and the position -1. -/
theorem C141_skip_hides (m : Bool) (n : Int) (h : 0 ≤ n) :
    ∃ s : MMapFile α, MMapFile.ops.skip (MMapFile.new none m) n = .ok (s, -1) ∧ s.status = .eof ∧ s.pos = -1 ∧
      (∀ mn mx, MMapFile.ops.read s mn mx = .ok (s, -1, [])) ∧ (∀ k, 0 ≤ k → MMapFile.ops.skip s k = .ok (s, 0)) ∧
      ∀ q, 0 ≤ q → MMapFile.ops.reset s q = .ok (s, -1) := by
  refine ⟨⟨none, -1, -1, .eof⟩, ?_, rfl, rfl, ?_, ?_, ?_⟩
  · simp only [MMapFile.ops, MMapFile.new, MMapFile.skip]
    rw [if_pos (by omega)]
    rfl
  · intro mn mx
    simp [MMapFile.ops, MMapFile.data, MMapFile.readRaw]
  · intro k hk
    simp only [MMapFile.ops, MMapFile.skip]
    rw [if_pos (by omega)]
    rfl
  · intro q hq
    simp only [MMapFile.ops, MMapFile.reset]
    rw [if_neg (by simp), if_pos (by omega)]

/-- **C141**: a file `c` that can be opened but not mapped: the same, as long as `skip` is not called. -/
theorem C141_unmapped (c : List α) (hc : c ≠ []) (mn mx q : Int) :
    let s : MMapFile α := MMapFile.new (some c) false
    s.status = .error ∧ MMapFile.ops.read s mn mx = .ok (s, -2, []) ∧ MMapFile.ops.reset s q = .ok (s, -2) := by
  have e : MMapFile.new (some c) false = ⟨none, c.length, 0, .error⟩ := by
    unfold MMapFile.new
    dsimp only
    have : 0 < c.length := List.length_pos_iff.2 hc
    rw [if_pos (by omega)]
    rfl
  simp only [e]
  refine ⟨trivial, ?_, rfl⟩
  simp [MMapFile.ops, MMapFile.data, MMapFile.readRaw]

/-- **C141**, the defect: `skip` to the end of such a file claims to have skipped all of it and forgets the error; after a `reset` to any
earlier position the status is `Ok`, and `read` returns a positive number and a pointer near the null pointer: looking at the bytes is
undefined. -/
theorem C141_null (c : List α) (n q mn mx : Int) (hn : c.length ≤ n) (hq : 0 ≤ q) (hq' : q < c.length) (hm : 1 ≤ mn) :
    ∃ s s' s'' : MMapFile α, ∃ k : Int,
      MMapFile.ops.skip (MMapFile.new (some c) false) n = .ok (s, c.length) ∧ s.status = .eof ∧
      MMapFile.ops.reset s q = .ok (s', q) ∧ s'.status = .ok ∧
      MMapFile.readRaw s' mn mx = (s'', k) ∧ 1 ≤ k ∧ MMapFile.ops.read s' mn mx = .fault .outOfBounds := by
  have e : MMapFile.new (some c) false = ⟨none, c.length, 0, .error⟩ := by
    unfold MMapFile.new
    dsimp only
    rw [if_pos (by omega)]
    rfl
  have e1 : MMapFile.ops.skip (MMapFile.new (some c) false) n = .ok (⟨none, c.length, 0 + ((c.length : Int) - 0), .eof⟩, (c.length : Int)) := by
    rw [e]
    simp only [MMapFile.ops, MMapFile.skip]
    rw [if_pos (by omega)]
    simp
  have e2 : MMapFile.ops.reset (⟨none, c.length, 0 + ((c.length : Int) - 0), .eof⟩ : MMapFile α) q = .ok (⟨none, c.length, q, .ok⟩, q) := by
    simp only [MMapFile.ops, MMapFile.reset]
    rw [if_neg (by simp), if_neg (by omega), if_neg (by omega)]
  have e3 : 1 ≤ (MMapFile.readRaw (⟨none, c.length, q, .ok⟩ : MMapFile α) mn mx).2 := by
    simp only [MMapFile.readRaw]
    rw [if_neg (by simp), if_neg (by simp)]
    dsimp only
    split <;> omega
  refine ⟨_, _, _, _, e1, rfl, e2, rfl, rfl, e3, ?_⟩
  simp only [MMapFile.ops, MMapFile.data, MMapFile.at_]
  rw [if_pos trivial, if_neg (by omega)]
  rfl

/-- Such a file of three bytes: the client skips all of it, goes back and reads. -/
example : (do let (s, r) ← MMapFile.ops.skip (MMapFile.new (some [1, 2, 3]) false) 3
              let (s, q) ← MMapFile.ops.reset s 1
              .ok (r, q, s.status, (s.readRaw 1 0).2) : Res (Int × Int × Status × Int)) = .ok (3, 1, .ok, 1) := by decide
example := C141_null (α := Nat) [1, 2, 3] 3 1 1 0 (by decide) (by decide) (by decide) (by decide)

end Strigi.Props
