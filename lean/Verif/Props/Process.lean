import Verif.Proofs.Process
import Verif.Props.BufferedStream
import Verif.Props.StringStream

/-!
# Properties of `ProcessInputStream`: C52 (what the child receives), C101 (short writes), C102 (children that wait for
the end of their input), C103 (the output), C104 (the destructor)
-/

namespace Strigi.Props

open Process

section
variable {σ κ : Type} {P : StreamOps σ UInt8} {E : Pipes κ} {received : κ → List UInt8} {closed : κ → Prop}
variable {c : List UInt8} {soft : Prop}

/-- **C52**: the child receives the chunks that the input returns, in order and without gaps, except for what is
returned together with the end of the input.  Exactly: at any time the child has received the first `j` chunks, and
all of them if its standard input has been closed.  (Writes take all bytes.) -/
theorem C52_received (hE : E.Lawful received closed) (hW : E.Whole) {input : σ} {chunks : List (List UInt8)} {final : List UInt8}
    (ha : Answers P input chunks final) {k : κ} (h0 : received k = []) (hc : ¬ closed k) (fuel : Nat) (l : List Op)
    {s : BufferedStream (State σ κ) UInt8} (h : run (Process.ops P E fuel) (Process.new (some input) k) l = .ok s) :
    ∃ j, j ≤ chunks.length ∧ received s.prod.os = (chunks.take j).flatten ∧ (closed s.prod.os → j = chunks.length) := by
  obtain ⟨j, hj, hr, hi⟩ := BufferedStream.run_keeps (fill_fed hE hW (chunks := chunks) (final := final) fuel) l
    (⟨0, Nat.zero_le _, by rw [List.take_zero]; exact h0, Or.inl ⟨input, rfl, ha, hc⟩⟩) h
  refine ⟨j, hj, hr, ?_⟩
  intro hcl
  rcases hi with ⟨_, _, _, hn⟩ | ⟨_, hk⟩
  · exact absurd hcl hn
  · exact hk

/-- The chunks and the last answer of a healthy input are its content. -/
theorem C52_answers {input : σ} (hi : IsStream P c Failure.never soft input) (hs : P.status input = .ok)
    (hp : P.position input = 0) : ∃ chunks final, Answers P input chunks final ∧ chunks.flatten ++ final = c := by
  obtain ⟨chunks, final, a, h⟩ := answers (c.length + 1) input _ _ hi hs (by omega)
  rw [hp] at h
  exact ⟨chunks, final, a, h⟩

/-- **C52** (refuted claim: all bytes of the input are written to the child): if the last read of the input returns
bytes together with the end, these bytes are lost; the child never receives the whole input. -/
theorem C52_lost (hE : E.Lawful received closed) (hW : E.Whole) {input : σ} {chunks : List (List UInt8)} {final : List UInt8}
    (ha : Answers P input chunks final) (hcont : chunks.flatten ++ final = c) (hf : final ≠ []) {k : κ} (h0 : received k = [])
    (hc : ¬ closed k) (fuel : Nat) (l : List Op) {s : BufferedStream (State σ κ) UInt8}
    (h : run (Process.ops P E fuel) (Process.new (some input) k) l = .ok s) :
    received s.prod.os ≠ c ∧ (closed s.prod.os → received s.prod.os ++ final = c) := by
  obtain ⟨j, hj, hr, hcl⟩ := C52_received hE hW ha h0 hc fuel l h
  have hsplit : (chunks.take j).flatten ++ (chunks.drop j).flatten = chunks.flatten := by
    rw [← List.flatten_append, List.take_append_drop]
  refine ⟨?_, ?_⟩
  · intro he
    have h1 := congrArg List.length (he.symm.trans hr)
    have h2 := congrArg List.length hsplit
    have h3 := congrArg List.length hcont
    have h4 := List.length_pos_iff.2 hf
    rw [List.length_append] at h2 h3
    omega
  · intro hh
    rw [hr, hcl hh, List.take_length, hcont]

/-- **C52**: if the input reports its end separately, the child has received everything when its standard input is
closed. -/
theorem C52_complete (hE : E.Lawful received closed) (hW : E.Whole) {input : σ} {chunks : List (List UInt8)}
    (ha : Answers P input chunks []) (hcont : chunks.flatten ++ [] = c) {k : κ} (h0 : received k = [])
    (hc : ¬ closed k) (fuel : Nat) (l : List Op) {s : BufferedStream (State σ κ) UInt8}
    (h : run (Process.ops P E fuel) (Process.new (some input) k) l = .ok s) (hh : closed s.prod.os) : received s.prod.os = c := by
  obtain ⟨j, hj, hr, hcl⟩ := C52_received hE hW ha h0 hc fuel l h
  rw [hr, hcl hh, List.take_length, ← hcont, List.append_nil]

theorem string_answers (c : List UInt8) : Answers StringStream.ops (StringStream.new c) [] c := by
  by_cases h : c = []
  · subst h
    exact .last rfl rfl rfl
  · have hl := List.length_pos_iff.2 h
    have e : StringStream.ops.read (StringStream.new c) 1 0 = .ok (⟨c, c.length, .eof⟩, c.length, c) := by
      show Res.ok (StringStream.read _ _ _) = _
      unfold StringStream.read StringStream.new
      simp only [Int.sub_zero]
      rw [if_neg (by omega), if_pos (Or.inr (by omega))]
      simp [slice]
    exact .last rfl e rfl

/-- **C52**: if the input is a stream in memory, the child receives nothing at all. -/
theorem C52_memory (hE : E.Lawful received closed) (hW : E.Whole) {k : κ} (h0 : received k = [])
    (hc : ¬ closed k) (fuel : Nat) (l : List Op) {s : BufferedStream (State (StringStream UInt8) κ) UInt8}
    (h : run (Process.ops StringStream.ops E fuel) (Process.new (some (StringStream.new c)) k) l = .ok s) :
    received s.prod.os = [] := by
  obtain ⟨j, hj, hr, _⟩ := C52_received hE hW (string_answers c) h0 hc fuel l h
  rw [hr, List.take_nil]
  rfl

/-- **C101** (refuted claim: bytes that the pipe did not take are written later): if a write takes only `m` of the `n`
bytes, the input is set to the position behind all of them: the other bytes are lost, and the next write continues
behind them. -/
theorem C101_short_write (hE : E.Lawful received closed) {input i : σ} {lo hi : Int}
    (hb : ∀ l, Behaves P c Failure.never soft input lo hi l) {n m : Int} {d : List UInt8} {s : State σ κ} {k : κ}
    (hread : P.read input 1 0 = .ok (i, n, d)) (hn : 0 < n) (hst : P.status i ≠ .eof)
    (hw : E.write s.os d = .ok (k, m)) (h0 : 0 ≤ m) (hm : m < n) :
    ∃ i', writeToPipe P E s input = .ok ({ s with input := some i', os := k }, false) ∧
      P.position i' = P.position input + n ∧ d = slice c (P.position input) n ∧
      received k = received s.os ++ slice c (P.position input) m ∧ ∃ lo' hi', ∀ l, Behaves P c Failure.never soft i' lo' hi' l := by
  have C := Contract.of_behaves P c Failure.never soft
  obtain ⟨i2, n2, d2, e, hr, kk⟩ := C.read (s := input) (lo := lo) (hi := hi) hb (min := 1) (max := 0) (by omega) (Or.inl rfl)
  rw [hread] at e
  cases e
  cases hr with
  | ended g _ _ _ _ => omega
  | failed g _ _ => exact absurd g (by simp [Failure.never])
  | data g1 g2 g3 g4 g5 g6 g7 =>
    obtain ⟨i', e2, p2, s2, b2, _⟩ := C.reset (s := i) (lo := P.position input) (hi := P.position i) (kk g7) (q := P.position input + n) (by omega) (by omega)
    refine ⟨i', ?_, p2, g2, ?_, _, _, b2 (by omega)⟩
    · unfold writeToPipe
      rw [hread, Res.bind_ok]
      simp only
      rw [if_neg (by simp [hst]; omega), hw, Res.bind_ok]
      simp only
      rw [if_neg (by omega), if_pos (by omega), e2]
      rfl
    · obtain ⟨_, w, _⟩ := hE.write hw
      rw [w, g2]
      unfold slice
      rw [List.take_take, Nat.min_eq_left (by omega)]

/-- **C102** (refuted claim: the output of every program can be read): with a child that delivers nothing before its
standard input is closed (`sort`, `md5sum`), and any input, the first `read` blocks for ever — or the child receives
nothing, because the input came in one piece. -/
theorem C102_deadlock (hE : E.Lawful received closed) (hW : E.Whole) (hwait : E.Waits closed)
    (hwr : ∀ k d, ∃ k' m, E.write k d = .ok (k', m)) {input : σ} (hi : IsStream P c Failure.never soft input) {k : κ}
    (h0 : received k = []) (hc : ¬ closed k) (fuel : Nat) :
    (∀ mn mx, 1 ≤ mn → (Process.ops P E fuel).read (Process.new (some input) k) mn mx = .diverge) ∨
      ∀ l s, run (Process.ops P E fuel) (Process.new (some input) k) l = .ok s → received s.prod.os = [] := by
  have hread : ∀ {x : State σ κ}, x.fdout = true → ∀ {x' : State σ κ} {b : Bool}, feed P E x = .ok (x', b) → ¬ closed x'.os →
      (∀ mn mx, 1 ≤ mn → BufferedStream.read (producer P E fuel) (BufferedStream.new x) mn mx = .diverge) := by
    intro x hx x' b e hcl mn mx h1
    refine BufferedStream.read_blocks h1 ?_
    intro space _
    simp only [producer]
    unfold fill
    rw [if_neg (by rw [hx]; simp), e, Res.bind_ok]
    simp only
    rw [hwait _ _ hcl]
    rfl
  by_cases hs : P.status input = .ok
  · obtain ⟨chunks, final, a, hcont⟩ := answers (c.length + 1) input _ _ hi hs (by
      obtain ⟨z1, z2, _⟩ := hi []
      omega)
    cases chunks with
    | nil =>
      right
      intro l s h
      obtain ⟨j, hj, hr, _⟩ := C52_received hE hW a h0 hc fuel l h
      rw [hr, List.take_nil]
      rfl
    | cons d chunks =>
      left
      cases a with
      | @cons _ i' n d _ tail hs hr hn hd hst hrec =>
        obtain ⟨k', m, ew⟩ := hwr k d
        have hm := hW ew
        refine hread (x := { input := some input, fdin := true, os := k }) rfl
          (x' := { input := some i', fdin := true, os := k' }) (b := false) ?_ ?_
        · unfold feed
          simp only
          rw [if_pos hs]
          unfold writeToPipe
          rw [hr, Res.bind_ok]
          simp only
          rw [if_neg (by rw [hst]; simp; omega), ew, Res.bind_ok]
          simp only
          rw [if_neg (by omega), if_neg (by omega)]
        · show ¬ closed k'
          rw [(hE.write ew).2.2]
          exact hc
  · left
    refine hread (x := { input := some input, fdin := true, os := k }) rfl
      (x' := { input := some input, fdin := true, os := k }) (b := false) ?_ hc
    unfold feed
    simp only
    rw [if_neg hs]

/-- **C103**: the stream over a process delivers the output of the process, without input or if the output does not
depend on the input; for every way in which the output is cut into pieces by the pipe. -/
theorem C103_output {R : κ → List UInt8 → Prop} (hO : E.Outputs R) {k : κ} {out : List UInt8} (hk : R k out) {input : Option σ}
    (hi : ∀ i, input = some i → IsStream P c Failure.never soft i) (fuel : Nat) (hf : out.length + 1 < fuel) :
    IsStream (Process.ops P E fuel) out Failure.never True (Process.new input k) := by
  have hR : Rest P c soft R fuel { input := input, fdin := input.isSome, os := k } out (out.length + 1) :=
    ⟨hf, Or.inl ⟨rfl, hk, rfl, fun i hi' => ⟨_, _, hi i hi'⟩⟩⟩
  have h := BufferedStream.healthy_new hR (-1)
  have hP := produces (P := P) (c := c) (soft := soft) hO fuel
  have C := BufferedStream.contract hP out (-1)
  rw [show BufferedStream.fails False out (-1) = Failure.never by simp [BufferedStream.fails, Failure.never]] at C
  exact C.isStream (fun _ => BufferedStream.softReset _ _ out (-1)) h

/-- **C104** (refuted claim: the destructor ends the child): the arguments of `kill` are swapped.  The signal SIGTERM
is never sent to the child (unless it is process 15, and then it is); instead process 15 gets the signal whose number is
that of the child; then the destructor waits for the child. -/
theorem C104_not_killed (s : State σ κ) (pid : Int) (h1 : pid ≠ -1) (h15 : pid ≠ 15) :
    Call.kill pid 15 ∉ Process.destroy s pid ∧ Call.kill 15 pid ∈ Process.destroy s pid ∧
      (Process.destroy s pid).getLast? = some (Call.wait pid) := by
  unfold Process.destroy
  rw [if_pos h1]
  refine ⟨?_, by simp, by simp⟩
  cases s.fdin <;> cases s.fdout <;> simp <;> omega

end

/-! ## Examples -/

/-- Two children: one that delivers `abc` in two pieces and ignores its input; one that counts its input and delivers
the number when it is complete.  The state: what was received, whether the input is closed, what is left to deliver. -/
structure Child where
  got : List UInt8
  shut : Bool
  out : List (List UInt8)
deriving DecidableEq, Repr

def talker : Pipes Child where
  write k d := .ok ({ k with got := k.got ++ d }, d.length)
  closeIn k := { k with shut := true }
  read k space :=
    match k.out with
    | [] => .ok (k, 0, [])
    | ch :: cs =>
      if (ch.length : Int) ≤ space then .ok ({ k with out := cs }, ch.length, ch)
      else .ok ({ k with out := ch.drop space.toNat :: cs }, space, ch.take space.toNat)

def counter : Pipes Child where
  write k d := .ok ({ k with got := k.got ++ d }, d.length)
  closeIn k := { k with shut := true, out := [[UInt8.ofNat k.got.length]] }
  read k space := if k.shut = false then .diverge else talker.read k space

theorem talker_keeps {k k' : Child} {space n : Int} {d : List UInt8} (h : talker.read k space = .ok (k', n, d)) :
    k'.got = k.got ∧ k'.shut = k.shut := by
  simp only [talker] at h
  split at h
  · cases h; exact ⟨rfl, rfl⟩
  · split at h
    · cases h; exact ⟨rfl, rfl⟩
    · cases h; exact ⟨rfl, rfl⟩

theorem talker_lawful : talker.Lawful Child.got (fun k => k.shut = true) where
  write := by
    intro k d k' m h
    simp only [talker] at h
    cases h
    simp
  read := by
    intro k space k' n d h
    obtain ⟨h1, h2⟩ := talker_keeps h
    rw [h1, h2]
    exact ⟨rfl, Iff.rfl⟩
  close k := ⟨rfl, rfl⟩

theorem counter_lawful : counter.Lawful Child.got (fun k => k.shut = true) where
  write := by
    intro k d k' m h
    simp only [counter] at h
    cases h
    simp
  read := by
    intro k space k' n d h
    simp only [counter] at h
    split at h
    · cases h
    · obtain ⟨h1, h2⟩ := talker_keeps h
      rw [h1, h2]
      exact ⟨rfl, Iff.rfl⟩
  close k := ⟨rfl, rfl⟩

theorem talker_outputs : talker.Outputs (fun k out => k.out.flatten = out ∧ ∀ x ∈ k.out, x ≠ []) where
  read := by
    rintro k out ⟨rfl, hne⟩ space hs
    simp only [talker]
    cases ho : k.out with
    | nil => exact ⟨_, _, _, rfl, Or.inr ⟨rfl, rfl⟩⟩
    | cons ch cs =>
      simp only
      have h1 := List.length_pos_iff.2 (hne ch (by rw [ho]; simp))
      have h2 : ∀ x ∈ cs, x ≠ [] := fun x hx => hne x (by rw [ho]; simp [hx])
      by_cases hc : (ch.length : Int) ≤ space
      · rw [if_pos hc]
        exact ⟨_, _, _, rfl, Or.inl ⟨by omega, rfl, hc, cs.flatten, by simp, rfl, h2⟩⟩
      · rw [if_neg hc]
        refine ⟨_, _, _, rfl, Or.inl ⟨by omega, ?_, by omega, (ch.drop space.toNat :: cs).flatten, ?_, rfl, ?_⟩⟩
        · rw [List.length_take]; omega
        · rw [List.flatten_cons, List.flatten_cons, ← List.append_assoc, List.take_append_drop]
        · intro x hx
          rcases List.mem_cons.1 hx with rfl | hx
          · intro h0
            have := congrArg List.length h0
            rw [List.length_drop] at this
            simp only [List.length_nil] at this
            omega
          · exact h2 x hx
  write := by
    rintro k out ⟨h1, h2⟩ d
    exact ⟨_, _, rfl, by omega, h1, h2⟩
  close := fun h => h

/-- Non-vacuity of C103: `talker` with an input. -/
example : IsStream (Process.ops StringStream.ops talker 9) [97, 98, 99] Failure.never True
    (Process.new (some (StringStream.new [1, 2])) ⟨[], false, [[97, 98], [99]]⟩) :=
  C103_output (c := [1, 2]) (soft := True) (k := ⟨[], false, [[97, 98], [99]]⟩) (input := some (StringStream.new [1, 2])) talker_outputs
    ⟨rfl, by decide⟩ (by intro i h; cases h; exact C01_isStream _) 9 (by decide)

/-- Non-vacuity of C52 (nothing arrives): reading all of the output of `counter` over a stream in memory of three bytes
gives the number 0. -/
example : ∃ s, run (Process.ops StringStream.ops counter 9) (Process.new (some (StringStream.new [1, 2, 3])) ⟨[], false, []⟩) [.read 9 9] = .ok s ∧
    s.prod.os.got = [] ∧ s.prod.os.shut = true ∧
    (Process.ops StringStream.ops counter 9).read (Process.new (some (StringStream.new [1, 2, 3])) ⟨[], false, []⟩) 9 9 = .ok (s, 1, [0]) := by
  refine ⟨_, rfl, rfl, rfl, rfl⟩

/-- Non-vacuity of `C52_complete`: an input (with no memory for more than one byte) that reports its end separately; `talker` then has got everything. -/
example : ∃ s, run (Process.ops (BufferedStream.ops chunkProducer) talker 9)
      (Process.new (some (BufferedStream.new [[1, 2], [3]])) ⟨[], false, [[97], [98], [99], [100]]⟩) [.read 9 9] = .ok s ∧
    s.prod.os.got = [1, 2, 3] ∧ s.prod.os.shut = true := by
  refine ⟨_, rfl, rfl, rfl⟩

example : Answers (BufferedStream.ops (chunkProducer (α := UInt8))) (BufferedStream.new [[1, 2], [3]]) [[1], [2], [3]] [] :=
  .cons rfl rfl (by decide) rfl rfl (.cons rfl rfl (by decide) rfl rfl (.cons rfl rfl (by decide) rfl rfl (.last rfl rfl rfl)))

/-- Non-vacuity of C102: `counter` over an input in two chunks blocks for ever. -/
example (mn mx : Int) (h : 1 ≤ mn) : (Process.ops (BufferedStream.ops chunkProducer) counter 9).read
    (Process.new (some (BufferedStream.new [[1, 2], [3]])) ⟨[], false, []⟩) mn mx = .diverge := by
  have hi : IsStream (BufferedStream.ops (chunkProducer (α := UInt8))) [1, 2, 3] Failure.never True (BufferedStream.new [[1, 2], [3]]) := by
    have hP := chunkProducer_produces (α := UInt8)
    have C := BufferedStream.contract hP [1, 2, 3] (-1)
    rw [show BufferedStream.fails False ([1, 2, 3] : List UInt8) (-1) = Failure.never by simp [BufferedStream.fails, Failure.never]] at C
    exact C.isStream (fun _ => BufferedStream.softReset _ _ _ (-1)) (BufferedStream.healthy_new ⟨rfl, rfl⟩ (-1))
  rcases C102_deadlock (P := BufferedStream.ops (chunkProducer (α := UInt8))) counter_lawful (by intro k d k' m h; simp only [counter] at h; cases h; rfl)
    (by intro k space h; simp only [Bool.not_eq_true] at h; simp only [counter]; rw [if_pos h]) (fun k d => ⟨_, _, rfl⟩) hi
    (k := ⟨[], false, []⟩) rfl (by simp) 9 with z | z
  · exact z mn mx h
  · have := BufferedStream.read_blocks (α := UInt8) (P := producer (BufferedStream.ops chunkProducer) counter 9)
      (x := ⟨some (BufferedStream.new [[1, 2], [3]]), true, true, ⟨[], false, []⟩⟩) (sz := -1) (mn := mn) (mx := mx) h (fun space _ => rfl)
    exact this

/-- A child whose input pipe takes at most two bytes at a time. -/
def narrowPipe : Pipes Child where
  write k d := .ok ({ k with got := k.got ++ d.take 2 }, min 2 d.length)
  closeIn k := { k with shut := true }
  read k space := talker.read k space

/-- Non-vacuity of C101: of `123`, `45` and `6` the child gets `12`, `45` and `6`. -/
example : (do
    let input : BufferedStream (List (List UInt8)) UInt8 := ⟨[[1, 2, 3], [4, 5], [6]], ⟨List.replicate 8 none, 0, 0⟩, false, 0, -1, .ok⟩
    let s ← run (Process.ops (BufferedStream.ops chunkProducer) narrowPipe 9)
      (Process.new (some input) ⟨[], false, [[97], [98], [99], [100], [101]]⟩) [.read 9 9]
    Res.ok s.prod.os) = .ok ⟨[1, 2, 4, 5, 6], true, []⟩ := by decide +kernel

/-- Non-vacuity of C104. -/
example : Process.destroy ({ input := none, fdin := false, os := () } : State Unit Unit) 4711 = [.closeOut, .kill 15 4711, .wait 4711] := rfl

end Strigi.Props
