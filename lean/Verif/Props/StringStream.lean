import Verif.Proofs.StringStream

/-!
# Properties C01–C04: the in-memory stream
-/

namespace Strigi.Props

open StringStream

variable {α : Type}

/-- No sequence of calls makes a `StringStream` fault, and the invariant holds afterwards. -/
theorem stringStream_run (c : List α) (l : List Op) :
    ∃ s, run ops (StringStream.new c) l = .ok s ∧ Inv c s := by
  suffices H : ∀ (l : List Op) (s : StringStream α), Inv c s → ∃ s', run ops s l = .ok s' ∧ Inv c s' from
    H l _ (Inv.new c)
  intro l
  induction l with
  | nil => intro s h; exact ⟨s, rfl, h⟩
  | cons op l ih =>
    intro s h
    cases op with
    | read mn mx => exact ih _ (h.read mn mx)
    | skip n => exact ih _ (h.skip n)
    | reset q => exact ih _ (h.reset q)

/-- **C01** (with C02–C04 for all admissible calls): an in-memory stream is a stream over its source in
the sense of the whole `StreamBase` contract; it never fails, and every position can be reset to. -/
theorem C01_isStream (c : List α) : IsStream ops c .never True (StringStream.new c) :=
  (contract c).isStream (fun _ => softReset c)
    ⟨Inv.new c, by simp [ops, StringStream.new]⟩

/-- **C01**: after any calls with any arguments, every `read` that returns `k > 0` hands out exactly the
`k` items of the source that start at the position reported before the call, and the position grows by
`k`. -/
theorem C01_read_exact (c : List α) (l : List Op) (mn mx : Int) :
    ∃ s s' k d, run ops (StringStream.new c) l = .ok s ∧ ops.read s mn mx = .ok (s', k, d) ∧
      (0 < k → 0 ≤ ops.position s ∧ ops.position s + k ≤ c.length ∧
        d = (c.drop (ops.position s).toNat).take k.toNat ∧ (d.length : Int) = k ∧
        ops.position s' = ops.position s + k) ∧
      (¬ 0 < k → k = -1 ∧ ops.position s' = ops.position s) := by
  obtain ⟨s, e, h⟩ := stringStream_run c l
  refine ⟨s, (s.read mn mx).1, (s.read mn mx).2.1, (s.read mn mx).2.2, e, rfl, ?_, ?_⟩
  · intro hk
    have h0 := h.lo; have h1 := h.hi; have h2 := h.data
    have hd : (s.read mn mx).2.2 = slice c s.pos (s.read mn mx).2.1 ∧
        s.pos + (s.read mn mx).2.1 ≤ c.length ∧
        (s.read mn mx).1.pos = s.pos + (s.read mn mx).2.1 := by
      revert hk
      subst h2
      unfold StringStream.read
      dsimp only
      by_cases hz : (s.data.length : Int) - s.pos = 0
      · rw [if_pos hz]; intro hk; simp at hk
      · rw [if_neg hz]; intro _
        refine ⟨rfl, ?_, rfl⟩
        simp only; split <;> omega
    refine ⟨h0, hd.2.1, hd.1, ?_, hd.2.2⟩
    rw [hd.1]; exact slice_length h0 (Int.le_of_lt hk) hd.2.1
  · have h1 := h.hi; have h2 := h.data
    subst h2
    unfold StringStream.read
    dsimp only
    split
    · intro _; exact ⟨rfl, rfl⟩
    · intro hk; exfalso; apply hk; simp only; split <;> omega

/-- **C02**: `read(min, max)` with `1 ≤ min ≤ max` returns at most `max` items, at least `min` unless the
end is hit, and `-1` exactly when the position was at the end. -/
theorem C02_read_limits (c : List α) (l : List Op) (mn mx : Int) (h1 : 1 ≤ mn) (h2 : mn ≤ mx) :
    ∃ s s' k d, run ops (StringStream.new c) l = .ok s ∧ ops.read s mn mx = .ok (s', k, d) ∧
      k ≤ mx ∧ (mn ≤ k ∨ ops.position s' = c.length) ∧
      (k = -1 ↔ ops.position s = c.length) ∧ (ops.position s' = c.length ↔ ops.status s' = .eof) := by
  obtain ⟨s, e, h⟩ := stringStream_run c l
  refine ⟨s, (s.read mn mx).1, (s.read mn mx).2.1, (s.read mn mx).2.2, e, rfl, ?_⟩
  have h0 := h.lo; have h3 := h.hi; have h4 := h.data; have h5 := h.eof
  subst h4
  have h6 := (h.read mn mx).eof
  revert h6
  simp only [ops]
  unfold StringStream.read
  dsimp only
  split
  · intro _; simp only [true_iff]; refine ⟨by omega, Or.inr (by omega), by omega, by simp; omega⟩
  · intro h6
    simp only at h6 ⊢
    refine ⟨?_, ?_, ?_, ?_⟩
    · split <;> omega
    · split <;> omega
    · split <;> omega
    · exact ⟨fun z => by rw [if_pos z], h6⟩

/-- **C02**, negative part: with `1 ≤ max < min`, for which the documentation promises "no limit", the
in-memory stream returns fewer than `min` items although more are left. -/
theorem C02_max_below_min :
    ∃ (c : List Nat) (mn mx : Int) (s' : StringStream Nat) (d : List Nat) (k : Int),
      1 ≤ mx ∧ mx < mn ∧ ops.read (StringStream.new c) mn mx = .ok (s', k, d) ∧
      k < mn ∧ ops.position s' < c.length :=
  ⟨[1, 2, 3], 2, 1, _, _, _, by decide, by decide, rfl, by decide, by decide⟩

/-- **C03**: `reset` clamps its argument to the stream, returns the resulting position, and the status
is `Eof` exactly when that is the end. -/
theorem C03_reset (c : List α) (l : List Op) (q : Int) :
    ∃ s s' r, run ops (StringStream.new c) l = .ok s ∧ ops.reset s q = .ok (s', r) ∧
      r = max 0 (min q c.length) ∧ ops.position s' = r ∧
      (c ≠ [] ∨ 0 ≤ q → (ops.status s' = .eof ↔ r = c.length)) ∧
      (ops.status s' ≠ .eof → ops.status s' = .ok) := by
  obtain ⟨s, e, h⟩ := stringStream_run c l
  refine ⟨s, (s.reset q).1, (s.reset q).2, e, rfl, ?_⟩
  have h4 := h.data
  subst h4
  have hl : s.data ≠ [] → 0 < s.data.length := fun h => List.length_pos_iff.mpr h
  simp only [ops]
  unfold StringStream.reset
  split
  · refine ⟨?_, rfl, ?_, by simp⟩
    · simp only; omega
    · rintro (h | h)
      · have := hl h; simp; omega
      · omega
  · split
    · refine ⟨?_, rfl, ?_, by simp⟩
      · simp only; omega
      · intro _; simp; omega
    · refine ⟨?_, rfl, ?_, by simp⟩
      · simp only; omega
      · intro _; simp

/-- **C04**: `skip(n)`, `0 ≤ n < 2^31`, advances by `min(n, remaining)` and returns the number of items
skipped, `-1` when the position is already at the end and `n > 0`. -/
theorem C04_skip (c : List α) (l : List Op) (n : Int) (h1 : 0 ≤ n) (h2 : n < 2 ^ 31) :
    ∃ s s' r, run ops (StringStream.new c) l = .ok s ∧ ops.skip s n = .ok (s', r) ∧
      ops.position s' = min (ops.position s + n) c.length ∧
      (r = if ops.position s = c.length ∧ 0 < n then -1 else ops.position s' - ops.position s) := by
  obtain ⟨s, e, h⟩ := stringStream_run c l
  refine ⟨s, (s.skip n).1, (s.skip n).2, e, rfl, ?_⟩
  have h0 := h.lo; have h3 := h.hi; have h4 := h.data
  subst h4
  simp only [ops]
  unfold StringStream.skip
  split
  · subst_vars; simp only; refine ⟨by omega, ?_⟩; rw [if_neg (by omega)]; omega
  · rw [narrow32_of_range (by omega) h2]
    unfold StringStream.read
    dsimp only
    split
    · simp only; refine ⟨by omega, ?_⟩; rw [if_pos (by omega)]
    · simp only; refine ⟨by split <;> omega, ?_⟩; rw [if_neg (c := _ ∧ _) (by omega)]; omega

/-- **C04**, negative part: from `2^31` on the 32-bit narrowing makes `skip` skip a different amount:
`skip(2^32 + 5)` on any stream with more than 5 remaining items skips exactly 5. -/
theorem C04_skip_narrow (c : List α) (h : 5 < c.length) :
    ∃ s', ops.skip (StringStream.new c) (2 ^ 32 + 5) = .ok (s', 5) ∧ ops.position s' = 5 := by
  refine ⟨⟨c, 5, .ok⟩, ?_, rfl⟩
  have e : narrow32 (2 ^ 32 + 5) = 5 := by decide
  simp only [ops, StringStream.skip, StringStream.new]
  rw [if_neg (by decide), e]
  unfold StringStream.read
  dsimp only
  rw [if_neg (by omega), if_neg (by omega), if_neg (by omega)]
  rfl

/-- **C66**: a stream constructed from zero-terminated memory (length `-1`) holds exactly the items before
the first zero and is a stream over them in the sense of the whole contract. -/
theorem C66_zero_terminated [DecidableEq α] (nul : α) (text behind : List α) (h : nul ∉ text) :
    ∃ s, StringStream.newZ nul (text ++ nul :: behind) = .ok s ∧ ops.size s = text.length ∧
      ops.position s = 0 ∧ IsStream ops text .never True s := by
  refine ⟨StringStream.new text, ?_, rfl, rfl, C01_isStream text⟩
  have h1 : (text ++ nul :: behind).takeWhile (· ≠ nul) = text := by
    rw [List.takeWhile_append_of_pos]
    · simp
    · intro a ha
      have : a ≠ nul := fun z => h (z ▸ ha)
      simpa using this
  unfold StringStream.newZ
  rw [if_pos (by simp), h1]
  rfl

/-- Non-vacuity: concrete calls on a concrete stream. -/
example : (do
    let s ← run ops (StringStream.new [10, 20, 30, 40, 50]) [.read 1 2, .skip 2, .reset 1]
    let (s', k, d) ← ops.read s 2 3
    pure (ops.position s, k, d, ops.position s')) = Res.ok (1, 3, [20, 30, 40], 4) := by decide

end Strigi.Props
