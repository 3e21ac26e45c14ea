import Verif.Proofs.FileStreams

/-!
# C32–C34, C63: the file streams
-/

namespace Strigi.Props

open Strigi

variable {α : Type}

/-- **C32**: a memory-mapped file is a stream over the bytes of the file that never fails; all
positions may be reset to. -/
theorem C32_mmap_isStream (c : List α) : IsStream MMapStream.ops c .never True (MMapStream.new c) :=
  (MMapStream.contract c).isStream (fun _ => MMapStream.softReset c)
    ⟨MMapStream.Inv.new c, by simp [MMapStream.ops, MMapStream.new]⟩

theorem mmap_run (c : List α) : ∀ (l : List Op) (s : MMapStream α), MMapStream.Inv c s →
    (∀ op ∈ l, match op with | .read mn mx => 1 ≤ mn ∧ (mx = 0 ∨ mn ≤ mx) | .skip k => 0 ≤ k | .reset _ => True) →
    ∃ s', run MMapStream.ops s l = .ok s' ∧ MMapStream.Inv c s' := by
  intro l
  induction l with
  | nil => intro s h _; exact ⟨s, rfl, h⟩
  | cons op l ih =>
    intro s h hv
    have hv1 := hv op (by simp)
    have hv2 := fun o ho => hv o (List.mem_cons_of_mem _ ho)
    cases op with
    | read mn mx =>
      obtain ⟨s', n, d, e, i, _⟩ := MMapStream.read_spec h hv1.1 hv1.2
      obtain ⟨s2, e2, i2⟩ := ih s' i hv2
      refine ⟨s2, ?_, i2⟩
      rw [run, show MMapStream.ops.read s mn mx = _ from e]; exact e2
    | skip k =>
      obtain ⟨i, _⟩ := MMapStream.skip_spec h hv1
      obtain ⟨s2, e2, i2⟩ := ih _ i hv2
      exact ⟨s2, e2, i2⟩
    | reset q =>
      obtain ⟨i, _⟩ := MMapStream.reset_spec h (q := q)
      obtain ⟨s2, e2, i2⟩ := ih _ i hv2
      exact ⟨s2, e2, i2⟩

/-- **C32**: after any calls, `reset(q)` goes to `q` clamped to the file, and `skip(k)` skips exactly
`min(k, remaining)`. -/
theorem C32_mmap_reset_skip (c : List α) (l : List Op)
    (hl : ∀ op ∈ l, match op with
      | .read mn mx => 1 ≤ mn ∧ (mx = 0 ∨ mn ≤ mx) | .skip k => 0 ≤ k | .reset _ => True) :
    ∃ s, run MMapStream.ops (MMapStream.new c) l = .ok s ∧
      (∀ q, ∃ s', MMapStream.ops.reset s q = .ok (s', max 0 (min q c.length)) ∧
        s'.pos = max 0 (min q c.length) ∧ (s'.status = .eof → s'.pos = c.length)) ∧
      (∀ k, 0 ≤ k → ∃ s', MMapStream.ops.skip s k = .ok (s', min k (c.length - s.pos)) ∧
        s'.pos = s.pos + min k (c.length - s.pos)) := by
  obtain ⟨s, e, i⟩ := mmap_run c l _ (MMapStream.Inv.new c) hl
  refine ⟨s, e, ?_, ?_⟩
  · intro q
    obtain ⟨j, p, r⟩ := MMapStream.reset_spec i (q := q)
    have r' : (s.reset q).2 = max 0 (min q c.length) := by
      rw [r]; split
      · omega
      · split <;> omega
    refine ⟨(s.reset q).1, ?_, by omega, j.eof⟩
    simp only [MMapStream.ops]; congr 1; exact Prod.ext rfl r'
  · intro k hk
    have h := MMapStream.skip_spec i hk
    have i1 := i.mem; have i2 := i.lo; have i3 := i.hi
    have r : (s.skip k).2 = min k (c.length - s.pos) := by
      unfold MMapStream.skip; dsimp only; rw [i1]; split <;> simp only <;> omega
    have p : (s.skip k).1.pos = s.pos + min k (c.length - s.pos) := by
      unfold MMapStream.skip; dsimp only; rw [i1]; split <;> simp only <;> omega
    refine ⟨(s.skip k).1, ?_, p⟩
    simp only [MMapStream.ops]; congr 1; exact Prod.ext rfl r

/-- Non-vacuity of C32. -/
example : (do let r ← MMapStream.ops.read (MMapStream.new [1, 2, 3, 4]) 1 3
              let r2 ← MMapStream.ops.reset r.1 1
              let r3 ← MMapStream.ops.read r2.1 2 0
              .ok (r.2, r2.2, r3.2) : Res _) = .ok ((3, [1, 2, 3]), 1, (2, [2, 3])) := by decide

/-- **C33**: the unbuffered file stream over a file whose size the system reports is a stream over the
bytes of the file that never fails; all positions may be reset to. -/
theorem C33_skippingfile_isStream (c : List α) :
    IsStream SkippingFile.ops c .never True (SkippingFile.new c) :=
  (SkippingFile.contract c).isStream (fun _ => SkippingFile.softReset c)
    ⟨SkippingFile.Inv.new c, by simp [SkippingFile.ops, SkippingFile.new]⟩

/-- **C33**: at the end of the file the result of `read` is `0`, never the documented `-1`. -/
theorem C33_end_is_zero (c : List α) (l : List Op) (hl : ∀ op ∈ l, Admissible c op) :
    ∃ s, runUntilError SkippingFile.ops (SkippingFile.new c) l = .ok s ∧
      ∀ mn mx, 1 ≤ mn → (mx = 0 ∨ mn ≤ mx) →
        ∃ s' n d, SkippingFile.ops.read s mn mx = .ok (s', n, d) ∧ 0 ≤ n ∧
          (s.pos = c.length → n = 0) := by
  obtain ⟨s, e, k⟩ := (SkippingFile.contract c).run (SkippingFile.softReset c) l
    (s := SkippingFile.new c) (lo := 0) (hi := 0)
    ⟨SkippingFile.Inv.new c, by simp [SkippingFile.new]⟩ hl
  refine ⟨s, e, ?_⟩
  have key : ∃ lo hi, SkippingFile.Healthy c s lo hi := by
    rcases k with k | k
    · exfalso
      have : ∀ (l : List Op) (s s' : SkippingFile α), SkippingFile.Inv c s →
          (∀ op ∈ l, Admissible c op) → runUntilError SkippingFile.ops s l = .ok s' →
          SkippingFile.Inv c s' := by
        intro l
        induction l with
        | nil => intro s s' h _ e; cases e; exact h
        | cons op l ih =>
          intro s s' h hv e
          have hv1 := hv op (by simp)
          have hv2 := fun o ho => hv o (List.mem_cons_of_mem _ ho)
          rw [runUntilError, if_neg (show ¬ SkippingFile.ops.status s = .error from h.st)] at e
          cases op with
          | read mn mx =>
            obtain ⟨s1, n, d, e1, i, _⟩ := SkippingFile.read_spec h hv1.1 hv1.2
            rw [Op.exec, show SkippingFile.ops.read s mn mx = _ from e1] at e
            exact ih s1 s' i hv2 e
          | skip n =>
            exact ih _ s' (SkippingFile.skip_spec h hv1.1).1 hv2 e
          | reset q =>
            exact ih _ s' (SkippingFile.reset_spec h hv1.1).1 hv2 e
      exact (this l _ s (SkippingFile.Inv.new c) hl e).st k
    · exact k
  obtain ⟨lo, hi, h⟩ := key
  intro mn mx h1 h2
  obtain ⟨s', n, d, e, i, k1, k2, r⟩ := SkippingFile.read_spec h.1 h1 h2
  refine ⟨s', n, d, e, by omega, ?_⟩
  intro hp
  cases r with
  | data pos items inside => omega
  | ended none => omega
  | failed a => exact a.elim

/-- **C33**: with a size that is not known (files of `/proc`, pipes) the position can leave the file:
`skip` past the end succeeds and reports more than there is. -/
theorem C33_unknown_size_overshoot (c : List α) (h : c ≠ []) (k : Int) (hk : (c.length : Int) < k) :
    ∃ s', SkippingFile.ops.skip (SkippingFile.new c true 0) k = .ok (s', k) ∧
      SkippingFile.ops.position s' = k ∧ SkippingFile.ops.status s' = .ok := by
  have hl : 1 ≤ c.length := by cases c with
    | nil => exact absurd rfl h
    | cons a l => simp
  have e : SkippingFile.new c true 0 = ⟨some ⟨c, 0⟩, 0, 0, -1, .ok⟩ := by
    simp [SkippingFile.new, h]
  have hr : (SkippingFile.new c true 0).skip k = (⟨some ⟨c, k⟩, 0, k, -1, .ok⟩, k) := by
    have n1 : ¬ k < 0 := by omega
    have n2 : ¬ k = -1 := by omega
    have n3 : ¬ k = -2 := by omega
    simp [e, SkippingFile.skip, SkippingFile.reset, CFile.fseek, n1, n2, n3]
  refine ⟨⟨some ⟨c, k⟩, 0, k, -1, .ok⟩, ?_, rfl, rfl⟩
  simp only [SkippingFile.ops, hr]

/-- **C63**: `FileInputStream` over a file is a stream over the bytes of the file, for every buffer size
and whether or not the system reports its size (`reported = 0` for a non-empty file: `/proc`). -/
theorem C63_file_isStream (c : List α) (buffersize : Int) (seekable : Bool) (reported : Int)
    (h : reported = 0 ∨ reported = c.length) :
    ∃ s, FileInputStream.new c buffersize seekable reported = .ok s ∧
      IsStream (BufferedStream.ops FileInputStream.producer) c .never True s := by
  have toNever : ∀ (sz : Int), sz = -1 ∨ sz = c.length →
      BufferedStream.fails False c sz = .never := by
    intro sz hsz
    have : (False ∨ (sz ≠ -1 ∧ sz ≠ (c.length : Int))) = False := by
      apply propext; constructor
      · rintro (z | ⟨z1, z2⟩)
        · exact z
        · omega
      · exact False.elim
    simp only [BufferedStream.fails, Failure.never, this]
  have hR : FileInputStream.Rest (some ⟨c, 0⟩) c (c.length + 2) := by
    refine ⟨by simp, by simp, by simp, by simp⟩
  unfold FileInputStream.new
  dsimp only
  have hsz : ∃ sz : Int, sz = (if ¬ seekable then -1 else
    if reported = 0 ∧ c.length ≥ 1 then -1 else reported) := ⟨_, rfl⟩
  obtain ⟨sz, hsz⟩ := hsz
  rw [← hsz]
  have hs : sz = -1 ∨ sz = c.length := by
    split at hsz
    · omega
    · split at hsz <;> omega
  by_cases h0 : sz = 0
  · rw [if_pos h0]
    have hc : c = [] := by
      have : c.length = 0 := by omega
      exact List.eq_nil_of_length_eq_zero this
    subst hc
    refine ⟨_, rfl, ?_⟩
    rw [← toNever 0 (by simp)]
    exact (BufferedStream.contract FileInputStream.produces [] 0).isStream
      (fun _ => BufferedStream.softReset _ _ _ _)
      (BufferedStream.healthy_new (m := 0) (show FileInputStream.Rest none [] 0 from ⟨rfl, rfl⟩) 0)
  · rw [if_neg h0]
    obtain ⟨s, e, p, hh⟩ := BufferedStream.setMinBufSize_healthy hR sz
      (if sz ≤ buffersize then sz + 1 else buffersize)
    refine ⟨s, e, ?_⟩
    rw [← toNever sz hs]
    refine (BufferedStream.contract FileInputStream.produces c sz).isStream
      (fun _ => BufferedStream.softReset _ _ _ _) ?_
    simp only [BufferedStream.ops, p]
    exact hh

/-- Non-vacuity of C63: a file of unknown size. -/
example : (do let s ← FileInputStream.new [1, 2, 3] 2 true 0
              let r ← (BufferedStream.ops FileInputStream.producer).read s 5 0
              .ok r.2 : Res _) = .ok (3, [1, 2, 3]) := by decide

/-- **C34**: a user of `SkippingFileInputStream2` who skips past the buffered data and resets back is
told that the reset succeeded, and then reads bytes of another position. Content `[10..15]`, buffer of 2:
after reading one byte, skipping 3 (position 4) and resetting to 3, the byte at 3 should be 13; the
stream returns 10. -/
theorem C34_wrong_bytes_after_skip :
    (do let o := SkippingBuffered.ops FileInputStream.producer SkippingBuffered.advanceFile
        let s ← FileInputStream.new [10, 11, 12, 13, 14, 15] 2
        let (s, _, d1) ← o.read s 1 1
        let (s, k) ← o.skip s 3
        let p1 := o.position s
        let (s, q) ← o.reset s 3
        let (s, n, d2) ← o.read s 1 1
        .ok (d1, k, p1, q, n, d2, o.position s) :
        Res (List Nat × Int × Int × Int × Int × List Nat × Int))
      = .ok ([10], 3, 4, 3, 1, [10], 4) := by
  rfl

/-- **C34**: the same with the default `advanceInput` of `SkippingBufferedStream`, and resetting forward
to the end of the data of the last read, which `StreamBase` guarantees to succeed, fails. -/
theorem C34_forward_reset_fails :
    (do let o := SkippingBuffered.ops FileInputStream.producer
                   (SkippingBuffered.advanceDefault FileInputStream.producer)
        let s ← FileInputStream.new [10, 11, 12, 13, 14, 15] 2
        let (s, n, _) ← o.read s 2 2
        let (s, q0) ← o.reset s 0
        let (s, q2) ← o.reset s 2
        .ok (n, q0, q2, o.position s) : Res _) = .ok (2, 0, 0, 0) := by
  decide

/-- **C34**: what does hold: as long as only `read` is used, the bytes of the file are delivered in
order. -/
theorem C34_reads_only (c : List α) (buffersize : Int) (hc : c ≠ [])
    (l : List (Int × Int)) (hl : ∀ a ∈ l, 1 ≤ a.1 ∧ (a.2 = 0 ∨ a.1 ≤ a.2)) :
    ∃ s s' d, FileInputStream.new c buffersize = .ok s ∧
      readAll (SkippingBuffered.ops FileInputStream.producer SkippingBuffered.advanceFile) s l
        = .ok (s', d) ∧ d <+: c ∧ ((c.length : Int) < l.length → d = c) := by
  have hl0 : c.length ≠ 0 := fun z => hc (List.eq_nil_of_length_eq_zero z)
  have hR : FileInputStream.Rest (some ⟨c, 0⟩) c (c.length + 2) := by
    refine ⟨by simp, by simp, by simp, by simp⟩
  obtain ⟨s, e, p, hh⟩ := BufferedStream.setMinBufSize_healthy hR (c.length : Int)
      (if (c.length : Int) ≤ buffersize then (c.length : Int) + 1 else buffersize)
  have hnew : FileInputStream.new c buffersize = .ok s := by
    unfold FileInputStream.new
    dsimp only
    rw [if_neg (show ¬ (¬ (true = true)) by simp), if_neg (show ¬ ((c.length : Int) = 0 ∧ c.length ≥ 1) by omega),
      if_neg (show ¬ ((c.length : Int) = 0) by omega)]
    exact e
  have same : ∀ (l : List (Int × Int)) (s : BufferedStream (Option (CFile α)) α),
      readAll (SkippingBuffered.ops FileInputStream.producer SkippingBuffered.advanceFile) s l =
      readAll (BufferedStream.ops FileInputStream.producer) s l := by
    intro l
    induction l with
    | nil => intro s; rfl
    | cons a l ih =>
      intro s
      simp only [readAll]
      show ((BufferedStream.ops FileInputStream.producer).read s a.1 a.2 >>= _) = _
      congr 1
      funext r
      rw [ih]
  obtain ⟨s', d, e1, h1, h2, h3, h4⟩ :=
    (BufferedStream.contract FileInputStream.produces c c.length).readAll (by simp [BufferedStream.fails]) l hh hl
  refine ⟨s, s', d, hnew, by rw [same]; exact e1, ?_, ?_⟩
  · rw [h1]; simp only [BufferedStream.ops, p, slice]
    exact List.take_prefix _ _
  · intro z
    simp only [BufferedStream.ops, p] at h2 h4 h3
    have := h4 (by omega)
    rw [h1]; simp only [BufferedStream.ops, p, slice]
    simp only [Int.toNat_zero, List.drop_zero]
    apply List.take_of_length_le; omega

end Strigi.Props
