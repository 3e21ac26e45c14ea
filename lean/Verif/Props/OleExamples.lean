import Verif.Props.Ole
import Verif.Props.StringStream

/-!
# Files for the theorems about `OleInputStream`

Concrete files which meet the hypotheses of the theorems, and C95: a well-formed file of which a stream is missing.
-/

namespace Strigi.Props

open Ole OleFile

set_option linter.constructorNameAsVariable false

theorem knownSize_stringStream (c : List UInt8) (soft : Prop) : KnownSize StringStream.ops c soft (StringStream.new c) := by
  intro s lo hi h
  have hd : s.data = c := by
    induction h with
    | start => rfl
    | @read s s' lo hi mn mx n d _ _ _ e ih =>
      simp only [StringStream.ops, Res.ok.injEq] at e
      rw [show s' = (s.read mn mx).1 by rw [e]]
      unfold StringStream.read
      simp only
      split <;> exact ih
    | @skip s s' lo hi k r _ _ _ e ih =>
      simp only [StringStream.ops, Res.ok.injEq] at e
      rw [show s' = (s.skip k).1 by rw [e]]
      unfold StringStream.skip StringStream.read
      simp only
      split
      · exact ih
      · split <;> exact ih
    | @back s s' lo hi q r _ _ _ e ih =>
      simp only [StringStream.ops, Res.ok.injEq] at e
      rw [show s' = (s.reset q).1 by rw [e]]
      unfold StringStream.reset
      split
      · exact ih
      · split <;> exact ih
    | @reset s s' lo hi q r _ _ _ e ih =>
      simp only [StringStream.ops, Res.ok.injEq] at e
      rw [show s' = (s.reset q).1 by rw [e]]
      unfold StringStream.reset
      split
      · exact ih
      · split <;> exact ih
    | @jump s s' lo hi q r _ _ _ _ e ih =>
      simp only [StringStream.ops, Res.ok.injEq] at e
      rw [show s' = (s.reset q).1 by rw [e]]
      unfold StringStream.reset
      split
      · exact ih
      · split <;> exact ih
  show ((s.data.length : Nat) : Int) = c.length
  rw [hd]

/-! ## A file with small streams -/

/-- Bytes 0, 1, 2, … -/
def counting (n : Nat) : List UInt8 := (List.range n).map UInt8.ofNat

/-- A record that is not used. -/
def noRecord : List UInt8 := oleRecord [] 0 0 0

/-- A file with two small streams, "a" (pieces 0 and 1 of the ministream) and "b" (piece 4). -/
def smallOle : List UInt8 :=
  oleHeader 1 2 ++ (oleTable [0xfffffffd, 0xfffffffe, 0xfffffffe, 0xfffffffe] ++
    ((oleRecord [82] 5 3 512 ++ (oleRecord [97] 2 0 100 ++ (oleRecord [98] 2 4 10 ++ noRecord))) ++
      (oleTable [1, 0xfffffffe, 0xffffffff, 0xffffffff, 0xfffffffe] ++ counting 512)))

def smallLayout : Layout where
  bat := [0]
  dir := [1]
  minifat := [2]
  mini := [3]

theorem smallOle_wellFormed : WellFormed smallOle smallLayout where
  length := by decide +kernel
  magic := by decide +kernel
  nBat := by decide +kernel
  bat := by decide +kernel
  nXBat := by decide +kernel
  enough := by decide
  xStart := by show word smallOle 0x44 < 0; decide +kernel
  xRange := by decide +kernel
  xNext := by intro j h; cases h
  xNodup := by decide
  xLast := by intro b h; cases h
  full := by decide +kernel
  dirStart := by show word smallOle 0x30 = ((1 : Nat) : Int); decide +kernel
  dirChain := .last (by decide) (by decide +kernel)
  minifatStart := by show word smallOle 0x3c = ((2 : Nat) : Int); decide +kernel
  minifatChain := fun _ => .last (by decide) (by decide +kernel)
  miniStart := by show word smallOle (blockAt 1 + 0x74) = ((3 : Nat) : Int); decide +kernel
  miniChain := fun _ => .last (by decide) (by decide +kernel)
  inside := by
    have h : ∀ b ∈ [0, 1, 2, 3], blockAt b + 512 ≤ smallOle.length := by decide +kernel
    intro b hb
    refine h b ?_
    simp only [smallLayout, List.mem_cons, List.not_mem_nil, or_false, false_or] at hb ⊢
    omega

/-- The streams of the file. -/
def entryA : ArchiveEntry := ⟨{ filename := [97], size := 100 }, counting 100⟩
def entryB : ArchiveEntry := ⟨{ filename := [98], size := 10 }, (counting 266).drop 256⟩

theorem smallOle_lists : Lists smallOle smallLayout (records smallOle smallLayout.dir).tail [] [0, 1, 4] [(0, entryA), (4, entryB)] := by
  have hr : (records smallOle smallLayout.dir).tail = [oleRecord [97] 2 0 100, oleRecord [98] 2 4 10, noRecord] := by decide +kernel
  rw [hr]
  have hA : entryA = ⟨{ filename := nameOf (oleRecord [97] 2 0 100), size := lengthOf (oleRecord [97] 2 0 100) },
      (([0, 1] : List Nat).flatMap (piece smallOle smallLayout.mini)).take (lengthOf (oleRecord [97] 2 0 100)).toNat⟩ := by decide +kernel
  have hB : entryB = ⟨{ filename := nameOf (oleRecord [98] 2 4 10), size := lengthOf (oleRecord [98] 2 4 10) },
      (([4] : List Nat).flatMap (piece smallOle smallLayout.mini)).take (lengthOf (oleRecord [98] 2 4 10)).toNat⟩ := by decide +kernel
  rw [hA, hB]
  refine Lists.small (l := [1]) (by unfold IsStreamRecord; decide +kernel) (by decide +kernel) (by decide +kernel)
    (.cons (by decide) (by decide +kernel) (.last (by decide) (by decide +kernel))) (by decide) (by decide +kernel) ?_
  refine Lists.small (l := []) (by unfold IsStreamRecord; decide +kernel) (by decide +kernel) (by decide +kernel)
    (.last (by decide) (by decide +kernel)) (by decide) (by decide +kernel) ?_
  exact .other (by unfold IsStreamRecord; decide +kernel) .nil

/-- **C95** (refuted claim: all streams of a well-formed file are presented): the number of the first piece of a small
stream is compared with the number of the last *block* of the file.  Here a well-formed file has the streams "a" and
"b", but only "a" is presented, whatever the client does. -/
theorem C95_skipped : WellFormed smallOle smallLayout ∧
    Lists smallOle smallLayout (records smallOle smallLayout.dir).tail [] [0, 1, 4] [(0, entryA), (4, entryB)] ∧
    ∃ p, Ole.new StringStream.ops (StringStream.new smallOle) = .ok p ∧
      Presents Ole.ops Failure.never True .eof p [entryA] := by
  refine ⟨smallOle_wellFormed, smallOle_lists, ?_⟩
  obtain ⟨p, e, h⟩ := C94_ole smallOle_wellFormed smallOle_lists (by decide) (by decide) (by decide) (by decide)
    (by intro b hb; cases hb) (C01_isStream smallOle) rfl (knownSize_stringStream _ _)
  refine ⟨p, e, ?_⟩
  have hf : (([(0, entryA), (4, entryB)] : List (Nat × ArchiveEntry)).filter fun x => x.1 + 2 ≤ smallOle.length / 512).map (·.2) = [entryA] := by
    decide +kernel
  rwa [hf] at h

/-- Non-vacuity of C98: a client that stops after the first stream. -/
example : ∃ p p', Ole.new StringStream.ops (StringStream.new smallOle) = .ok p ∧ Ole.destroy p = .ok () ∧
    Ole.nextEntry p = .ok p' ∧ Ole.destroy p' = .fault .undefined :=
  C98_double_delete smallOle_wellFormed smallOle_lists (by decide) (by decide) (by decide) (by decide)
    (by intro b hb; cases hb) ⟨(0, entryA), by simp, by decide +kernel⟩ (C01_isStream smallOle) rfl (knownSize_stringStream _ _)

/-! ## A file with a big stream -/

/-- A file with a big stream "c" of 4096 bytes, whose blocks are not in order, and the small stream "b". -/
def bigOle : List UInt8 :=
  oleHeader 1 2 ++ (oleTable [0xfffffffd, 0xfffffffe, 0xfffffffe, 0xfffffffe, 0xfffffffe, 4, 5, 6, 7, 8, 9, 10] ++
    ((oleRecord [82] 5 3 512 ++ (oleRecord [99] 2 11 4096 ++ (noRecord ++ oleRecord [98] 2 4 10))) ++
      (oleTable [0xffffffff, 0xffffffff, 0xffffffff, 0xffffffff, 0xfffffffe] ++ (counting 512 ++
        [8, 7, 6, 5, 4, 3, 2, 1].flatMap fun i => List.replicate 512 i))))

def bigEntry : ArchiveEntry :=
  ⟨{ filename := [99], size := 4096 }, [1, 2, 3, 4, 5, 6, 7, 8].flatMap fun i => List.replicate 512 i⟩

theorem bigOle_wellFormed : WellFormed bigOle smallLayout where
  length := by decide +kernel
  magic := by decide +kernel
  nBat := by decide +kernel
  bat := by decide +kernel
  nXBat := by decide +kernel
  enough := by decide
  xStart := by show word bigOle 0x44 < 0; decide +kernel
  xRange := by decide +kernel
  xNext := by intro j h; cases h
  xNodup := by decide
  xLast := by intro b h; cases h
  full := by decide +kernel
  dirStart := by show word bigOle 0x30 = ((1 : Nat) : Int); decide +kernel
  dirChain := .last (by decide) (by decide +kernel)
  minifatStart := by show word bigOle 0x3c = ((2 : Nat) : Int); decide +kernel
  minifatChain := fun _ => .last (by decide) (by decide +kernel)
  miniStart := by show word bigOle (blockAt 1 + 0x74) = ((3 : Nat) : Int); decide +kernel
  miniChain := fun _ => .last (by decide) (by decide +kernel)
  inside := by
    have h : ∀ b ∈ [0, 1, 2, 3], blockAt b + 512 ≤ bigOle.length := by decide +kernel
    intro b hb
    refine h b ?_
    simp only [smallLayout, List.mem_cons, List.not_mem_nil, or_false, false_or] at hb ⊢
    omega

theorem bigOle_lists : Lists bigOle smallLayout (records bigOle smallLayout.dir).tail [11, 10, 9, 8, 7, 6, 5, 4] [4] [(11, bigEntry), (4, entryB)] := by
  have hr : (records bigOle smallLayout.dir).tail = [oleRecord [99] 2 11 4096, noRecord, oleRecord [98] 2 4 10] := by decide +kernel
  rw [hr]
  have hA : bigEntry = ⟨{ filename := nameOf (oleRecord [99] 2 11 4096), size := lengthOf (oleRecord [99] 2 11 4096) },
      (([11, 10, 9, 8, 7, 6, 5, 4] : List Nat).flatMap (block bigOle)).take (lengthOf (oleRecord [99] 2 11 4096)).toNat⟩ := by
    have hb : ∀ i ∈ [11, 10, 9, 8, 7, 6, 5, 4], block bigOle i = List.replicate 512 (UInt8.ofNat (12 - i)) := by decide +kernel
    rw [show nameOf (oleRecord [99] 2 11 4096) = [99] by decide +kernel, show lengthOf (oleRecord [99] 2 11 4096) = 4096 by decide +kernel]
    have he : ([11, 10, 9, 8, 7, 6, 5, 4] : List Nat).flatMap (block bigOle) = [1, 2, 3, 4, 5, 6, 7, 8].flatMap fun i => List.replicate 512 i := by
      simp only [List.flatMap_cons, List.flatMap_nil, hb 11 (by decide), hb 10 (by decide), hb 9 (by decide), hb 8 (by decide),
        hb 7 (by decide), hb 6 (by decide), hb 5 (by decide), hb 4 (by decide)]
      rfl
    rw [he, List.take_of_length_le]
    · rfl
    · decide +kernel
  have hB : entryB = ⟨{ filename := nameOf (oleRecord [98] 2 4 10), size := lengthOf (oleRecord [98] 2 4 10) },
      (([4] : List Nat).flatMap (piece bigOle smallLayout.mini)).take (lengthOf (oleRecord [98] 2 4 10)).toNat⟩ := by decide +kernel
  rw [hA, hB]
  refine Lists.big (l := [10, 9, 8, 7, 6, 5, 4]) (big := []) (by unfold IsStreamRecord; decide +kernel) (by decide +kernel) (by decide +kernel)
    ?_ (by decide +kernel) (by decide +kernel) ?_
  · have hl : ∀ x ∈ [11, 10, 9, 8, 7, 6, 5], lookup bigOle [0] x = ((x - 1 : Nat) : Int) := by decide +kernel
    refine .cons (by decide) (hl 11 (by decide)) (.cons (by decide) (hl 10 (by decide)) (.cons (by decide) (hl 9 (by decide))
      (.cons (by decide) (hl 8 (by decide)) (.cons (by decide) (hl 7 (by decide)) (.cons (by decide) (hl 6 (by decide))
        (.cons (by decide) (hl 5 (by decide)) (.last (by decide) (by decide +kernel))))))))
  · refine .other (by unfold IsStreamRecord; decide +kernel) ?_
    refine Lists.small (l := []) (by unfold IsStreamRecord; decide +kernel) (by decide +kernel) (by decide +kernel)
      (.last (by decide) (by decide +kernel)) (by decide) (by decide +kernel) .nil

/-- Non-vacuity of C94. -/
example : ∃ p, Ole.new StringStream.ops (StringStream.new bigOle) = .ok p ∧
    Presents Ole.ops Failure.never True .eof p [bigEntry, entryB] :=
  C94_ole_all bigOle_wellFormed bigOle_lists (by decide) (by decide) (by decide) (by decide)
    (by intro b hb; cases hb) (by
      intro x hx _
      have h : ∀ x ∈ ([(11, bigEntry), (4, entryB)] : List (Nat × ArchiveEntry)), x.1 + 2 ≤ bigOle.length / 512 := by decide +kernel
      exact h x hx) (C01_isStream bigOle) rfl (knownSize_stringStream _ _)

/-! ## Files that are not well-formed -/

/-- A file whose directory is a chain that leads back to itself: block 1 follows block 1. -/
def cyclicOle : List UInt8 :=
  oleHeader 1 2 ++ (oleTable [0xfffffffd, 1, 2, 3] ++
    ((oleRecord [82] 5 3 512 ++ (oleRecord [97] 2 0 100 ++ (oleRecord [98] 2 1 10 ++ noRecord))) ++
      (oleTable [0, 1] ++ counting 512)))

/-- Non-vacuity of C48 and C49: files of any kind, for example one with cyclic chains, of which two entries are found
in two calls — the directory is read a second time, because its first block is not marked as used, and no more. -/
example : (∃ p₀, Ole.new StringStream.ops (StringStream.new cyclicOle) = .ok p₀ ∧ ∃ p, Reach Ole.ops p₀ 2 p) ∧
    Sound (Ole.new StringStream.ops (StringStream.new cyclicOle)) ∧
    Ole.new StringStream.ops (StringStream.new cyclicOle) ≠ .diverge := by
  have h1 := C49_memory_safe (f := cyclicOle) (by decide +kernel) (C01_isStream cyclicOle) rfl (knownSize_stringStream _ _)
  have h2 := C48_terminates (f := cyclicOle) (by decide +kernel) (C01_isStream cyclicOle) rfl (knownSize_stringStream _ _)
  refine ⟨?_, h1.1, h2.1⟩
  have h : (match Ole.new StringStream.ops (StringStream.new cyclicOle) with
      | .ok p₀ => (match Ole.nextEntry p₀ with
        | .ok p₁ => (match Ole.nextEntry p₁ with
          | .ok p₂ => p₁.open_ && p₂.open_
          | _ => false)
        | _ => false)
      | _ => false) = true := by decide +kernel
  revert h
  generalize Ole.new StringStream.ops (StringStream.new cyclicOle) = z
  intro h
  match z, h with
  | .ok p₀, h =>
    refine ⟨p₀, rfl, ?_⟩
    simp only at h
    cases e1 : Ole.nextEntry p₀ with
    | ok p₁ =>
      rw [e1] at h
      simp only at h
      cases e2 : Ole.nextEntry p₁ with
      | ok p₂ =>
        rw [e2] at h
        simp only [Bool.and_eq_true] at h
        exact ⟨p₂, .next (e := p₂.es) (.next (e := p₁.es) .start e1 (if_pos h.1)) e2 (if_pos h.2)⟩
      | fault _ => rw [e2] at h; simp at h
      | diverge => rw [e2] at h; simp at h
    | fault _ => rw [e1] at h; simp at h
    | diverge => rw [e1] at h; simp at h

/-- A header with a BAT of one block, number 0, and an extension of `nx` blocks from block `x` on. -/
def xHeader (pt x nx : Nat) : List UInt8 :=
  [0xd0, 0xcf, 0x11, 0xe0, 0xa1, 0xb1, 0x1a, 0xe1] ++ List.replicate 36 0 ++ le4 1 ++ le4 pt ++ List.replicate 8 0 ++ le4 0xfffffffe ++
    List.replicate 4 0 ++ le4 x ++ le4 nx ++ le4 0 ++ List.replicate 432 0xff

/-- A file whose last block belongs to the extension of the BAT (which is not needed in a file this small). -/
def lastOle : List UInt8 :=
  xHeader 1 2 1 ++ (oleTable [0xfffffffd, 0xfffffffe, 0xfffffffc] ++
    ((oleRecord [82] 5 0xfffffffe 0 ++ (noRecord ++ (noRecord ++ noRecord))) ++ (List.replicate 508 0xff ++ le4 0xfffffffe)))

def lastLayout : Layout where
  xbat := [2]
  bat := [0]
  dir := [1]

theorem lastOle_wellFormed : WellFormed lastOle lastLayout where
  length := by decide +kernel
  magic := by decide +kernel
  nBat := by decide +kernel
  bat := by decide +kernel
  nXBat := by decide +kernel
  enough := by decide
  xStart := by show word lastOle 0x44 = ((2 : Nat) : Int); decide +kernel
  xRange := by decide +kernel
  xNext := by
    intro j h
    have h : j + 1 < 1 := h
    omega
  xNodup := by decide
  xLast := by
    intro b h
    cases h
    decide +kernel
  full := by decide +kernel
  dirStart := by show word lastOle 0x30 = ((1 : Nat) : Int); decide +kernel
  dirChain := .last (by decide) (by decide +kernel)
  minifatStart := by show word lastOle 0x3c < 0; decide +kernel
  minifatChain := fun h => absurd rfl h
  miniStart := by show word lastOle (blockAt 1 + 0x74) < 0; decide +kernel
  miniChain := fun h => absurd rfl h
  inside := by
    have h : ∀ b ∈ [0, 1, 2], blockAt b + 512 ≤ lastOle.length := by decide +kernel
    intro b hb
    refine h b ?_
    simp only [lastLayout, List.mem_cons, List.not_mem_nil, or_false] at hb ⊢
    omega

/-- Non-vacuity of C96. -/
example : ∃ p, Ole.new StringStream.ops (StringStream.new lastOle) = .ok p ∧ p.status = .error ∧
    ∃ p', Ole.nextEntry p = .ok p' ∧ Ole.ops.entry p' = none :=
  C96_last_block_rejected lastOle_wellFormed (b := 2) (by decide) (by decide +kernel) (C01_isStream lastOle) rfl
    (knownSize_stringStream _ _)

/-- With one more byte at the end the same file is accepted: C96 is about the last byte. -/
example : ∃ p, Ole.new StringStream.ops (StringStream.new (lastOle ++ [0])) = .ok p ∧ p.status = .ok := by
  have h : (match Ole.new StringStream.ops (StringStream.new (lastOle ++ [0])) with
      | .ok p => decide (p.status = .ok)
      | _ => false) = true := by decide +kernel
  revert h
  generalize Ole.new StringStream.ops (StringStream.new (lastOle ++ [0])) = z
  intro h
  match z, h with
  | .ok p, h => exact ⟨p, rfl, by simpa using h⟩

/-- Non-vacuity of C97: an empty file. -/
example : ∃ p p', Ole.new StringStream.ops (StringStream.new []) = .ok p ∧ p.status = .error ∧
    Ole.nextEntry p = .ok p' ∧ p'.status = .eof := by
  obtain ⟨p', h1, h2, _⟩ := C97_error_lost (P := StringStream.ops) (StringStream.new ([] : List UInt8)) (p := broken) rfl rfl
  exact ⟨broken, p', rfl, rfl, h1, h2⟩

/-- Non-vacuity of C99: a header which asks for 2²⁴ blocks. -/
example : Ole.new StringStream.ops (StringStream.new (xHeader 1 2 0x1000000)) = .fault .undefined :=
  C99_overflow (f := xHeader 1 2 0x1000000) (by decide +kernel) (by decide +kernel) (by decide +kernel) (by decide +kernel)
    (C01_isStream _) rfl

end Strigi.Props
