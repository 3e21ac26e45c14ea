import Verif.Props.Process
import Verif.Proofs.Decompress

/-!
# Property C105: failures and descriptors of `ProcessInputStream`
-/

namespace Strigi

namespace BufferedStream

variable {φ α : Type} {P : Producer φ α} {I E : φ → Prop}

theorem run_tracks (T : Tracked P I E) : ∀ (l : List Op) {s s' : BufferedStream φ α}, Tracks I E s →
    run (ops P) s l = .ok s' → Tracks I E s' := by
  intro l
  induction l with
  | nil => intro s s' hJ h; cases h; exact hJ
  | cons op l ih =>
    intro s s' hJ h
    cases op with
    | read mn mx =>
      obtain ⟨⟨s1, n, d⟩, e, h⟩ := bind_eq_ok h
      exact ih (read_tracks T hJ e) h
    | skip k =>
      obtain ⟨⟨s1, n⟩, e, h⟩ := bind_eq_ok h
      exact ih (skipLoop_tracks T _ hJ e) h
    | reset q =>
      obtain ⟨⟨s1, n⟩, e, h⟩ := bind_eq_ok h
      exact ih (reset_tracks hJ e) h

theorem writeLoop_error (nt mx : Int) :
    ∀ (fuel : Nat) (s : BufferedStream φ α) (missing nw : Int) (s' : BufferedStream φ α) (nw' : Int),
      writeLoop P nt mx fuel s missing nw = .ok (s', nw') → s.status = .error → s'.status = .error := by
  intro fuel
  induction fuel with
  | zero => intro s missing nw s' nw' h; simp [writeLoop] at h
  | succ fuel ih =>
    intro s missing nw s' nw' h hs
    unfold writeLoop at h
    by_cases hc : missing > 0 ∧ nw ≥ 0
    · rw [if_pos hc] at h
      obtain ⟨⟨b, space⟩, e1, h⟩ := bind_eq_ok h
      simp only at h
      generalize (if mx ≥ nt ∧ space > mx then mx else space) = sp at h
      obtain ⟨⟨f, r⟩, e2, h⟩ := bind_eq_ok h
      obtain ⟨b2, e3, h⟩ := bind_eq_ok h
      obtain ⟨u, e4, h⟩ := bind_eq_ok h
      simp only at h
      have hst : (if r.error then Status.error else s.status) = .error := by rw [hs]; split <;> rfl
      split at h
      · exact ih _ _ _ _ _ h hst
      · exact ih _ _ _ _ _ h hst
    · rw [if_neg hc] at h
      cases h
      exact hs

/-- If the next call of `fillBuffer` sets the status to `Error`, the `read` that makes it returns -2. -/
theorem read_error {s s' : BufferedStream φ α} {mn mx r : Int} {out : List α} (hst : s.status = .ok) (hfin : s.finished = false)
    (hb : s.buf.avail < mn) (hf : ∀ space f' r, P.fill s.prod space = .ok (f', r) → r.error = true)
    (h : read P s mn mx = .ok (s', r, out)) : r = -2 ∧ s'.status = .error := by
  unfold read at h
  rw [if_neg (by simp [hst]), if_neg (by simp [hst])] at h
  simp only at h
  obtain ⟨s1, e1, h⟩ := bind_eq_ok h
  have key : s1.status = .error := by
    unfold ensure at e1
    rw [if_pos ⟨by simp [hfin], hb⟩] at e1
    unfold writeToBuffer at e1
    obtain ⟨⟨s2, nw⟩, e2, e1⟩ := bind_eq_ok e1
    have h2 : s2.status = .error := by
      unfold writeLoop at e2
      rw [if_pos ⟨by omega, by omega⟩] at e2
      obtain ⟨⟨b, space⟩, _, e2⟩ := bind_eq_ok e2
      simp only at e2
      obtain ⟨⟨f, rr⟩, e3, e2⟩ := bind_eq_ok e2
      obtain ⟨b2, _, e2⟩ := bind_eq_ok e2
      obtain ⟨u, _, e2⟩ := bind_eq_ok e2
      have := hf _ _ _ e3
      simp only at e2
      split at e2
      · exact writeLoop_error _ _ _ _ _ _ _ _ e2 (by simp [this])
      · exact writeLoop_error _ _ _ _ _ _ _ _ e2 (by simp [this])
    simp only at e1
    split at e1
    · cases e1; exact h2
    · cases e1; exact h2
  rw [if_pos key] at h
  cases h
  exact ⟨rfl, key⟩

end BufferedStream

namespace Props

open Process

section
variable {σ κ : Type} {P : StreamOps σ UInt8} {E : Pipes κ}

/-- `Failed` records the failures of the system calls: it only becomes true when `write` or `read` returns a negative
number. -/
structure Pipes.Records (E : Pipes κ) (Failed : κ → Prop) : Prop where
  write : ∀ {k d k' m}, E.write k d = .ok (k', m) → 0 ≤ m → ¬ Failed k → ¬ Failed k'
  read : ∀ {k space k' n d}, E.read k space = .ok (k', n, d) → 0 ≤ n → ¬ Failed k → ¬ Failed k'
  close : ∀ {k}, ¬ Failed k → ¬ Failed (E.closeIn k)

theorem feed_unfailed {Failed : κ → Prop} (hF : Pipes.Records E Failed) {s s' : State σ κ}
    (e : feed P E s = .ok (s', false)) (h : ¬ Failed s.os) : ¬ Failed s'.os := by
  unfold feed at e
  split at e
  · cases e; exact h
  · split at e
    · unfold writeToPipe at e
      simp only at e
      obtain ⟨⟨i, n, d⟩, e1, e⟩ := BufferedStream.bind_eq_ok e
      simp only at e
      split at e
      · simp only [Res.ok.injEq, Prod.mk.injEq] at e
        obtain ⟨rfl, _⟩ := e
        exact hF.close h
      · obtain ⟨⟨k, m⟩, e2, e⟩ := BufferedStream.bind_eq_ok e
        simp only at e
        split at e
        · cases e
        · have := hF.write e2 (by omega) h
          split at e
          · obtain ⟨q, _, e⟩ := BufferedStream.bind_eq_ok e
            cases e; exact this
          · cases e; exact this
    · cases e; exact h

theorem tracked_unfailed {Failed : κ → Prop} (hF : Pipes.Records E Failed) (fuel : Nat) :
    BufferedStream.Tracked (producer P E fuel) (fun f => ¬ Failed f.os) (fun f => ¬ Failed f.os) := by
  have key : ∀ {f : State σ κ} {space f' r}, ¬ Failed f.os → fill P E f space = .ok (f', r) → r.error = false → ¬ Failed f'.os := by
    intro f space f' r h e he
    unfold fill at e
    split at e
    · cases e; exact h
    · obtain ⟨⟨s1, b⟩, e1, e⟩ := BufferedStream.bind_eq_ok e
      obtain ⟨⟨k', n, d⟩, e2, e⟩ := BufferedStream.bind_eq_ok e
      simp only at e2 e
      have hb : b = false → ¬ Failed s1.os := by
        rintro rfl; exact feed_unfailed hF e1 h
      split at e
      · cases e; cases he
      · split at e
        · cases e; exact hF.read e2 (by omega) (hb he)
        · cases e; exact hF.read e2 (by omega) (hb he)
  exact ⟨fun h _ e he _ => key h e he, fun h _ e he _ => key h e he⟩

/-- **C105**: whatever the child, the system and the client do: as long as the stream is not in state `Error`, no
`write` and no `read` of the pipes has failed.  So a failure of a system call is never reported as the regular end. -/
theorem C105_failures {Failed : κ → Prop} (hF : Pipes.Records E Failed) {input : Option σ} {k : κ} (hk : ¬ Failed k)
    (fuel : Nat) (l : List Op) {s : BufferedStream (State σ κ) UInt8}
    (h : run (Process.ops P E fuel) (Process.new input k) l = .ok s) (hs : s.status ≠ .error) : ¬ Failed s.prod.os := by
  rcases BufferedStream.run_tracks (tracked_unfailed (P := P) hF fuel) l (Or.inr (Or.inl ⟨rfl, hk⟩)) h with z | z | z
  · exact absurd z hs
  · exact z.2
  · exact z.2

/-- **C105**: if the input of a stream without buffered data fails, the call that notices it returns -2. -/
theorem C105_input_fails {i i' : σ} {n : Int} {d : List UInt8} {s s' : BufferedStream (State σ κ) UInt8} {mn mx r : Int} {out : List UInt8}
    (hst : s.status = .ok) (hfin : s.finished = false) (hout : s.prod.fdout = true) (hb : s.buf.avail = 0) (hmn : 1 ≤ mn)
    (hi : s.prod.input = some i) (hok : P.status i = .ok) (hr : P.read i 1 0 = .ok (i', n, d)) (hn : n ≤ 0)
    (he : P.status i' = .error) (fuel : Nat)
    (h : (Process.ops P E fuel).read s mn mx = .ok (s', r, out)) : r = -2 ∧ s'.status = .error := by
  refine BufferedStream.read_error hst hfin (by omega) ?_ h
  intro space f' rr e
  simp only [producer] at e
  unfold fill at e
  rw [if_neg (by simp [hout])] at e
  have hfeed : feed P E s.prod = .ok ({ s.prod with input := none, fdin := false, os := E.closeIn s.prod.os }, true) := by
    unfold feed
    rw [hi]
    simp only
    rw [if_pos hok]
    unfold writeToPipe
    simp only
    rw [hr]
    simp only [Res.bind_ok]
    rw [if_pos (Or.inl hn), he]
    rfl
  rw [hfeed] at e
  simp only [Res.bind_ok] at e
  obtain ⟨⟨k', n', d'⟩, _, e⟩ := BufferedStream.bind_eq_ok e
  simp only at e
  split at e
  · cases e; rfl
  · split at e
    · cases e; rfl
    · cases e; rfl

/-- `closes` counts how often the writing end of the input pipe was closed. -/
structure Pipes.Counts (E : Pipes κ) (closes : κ → Nat) : Prop where
  write : ∀ {k d k' m}, E.write k d = .ok (k', m) → closes k' = closes k
  read : ∀ {k space k' n d}, E.read k space = .ok (k', n, d) → closes k' = closes k
  close : ∀ k, closes (E.closeIn k) = closes k + 1

/-- **C105**: at the latest the destructor closes the pipe to the child, and it is never closed twice. -/
theorem C105_closed_once {closes : κ → Nat} (hC : Pipes.Counts E closes) {input : Option σ} {k : κ} (hk : closes k = 0)
    (fuel : Nat) (l : List Op) {s : BufferedStream (State σ κ) UInt8} (pid : Int)
    (h : run (Process.ops P E fuel) (Process.new input k) l = .ok s) :
    closes s.prod.os + (Process.destroy s.prod pid).count Call.closeIn = if input.isSome then 1 else 0 := by
  have T : BufferedStream.Keeps (producer P E fuel) (fun f => (f.fdin = false → f.input = none) ∧
      closes f.os + (if f.fdin then 1 else 0) = if input.isSome then 1 else 0) := by
    intro f space f' r hJ e
    simp only [producer] at e
    unfold fill at e
    split at e
    · cases e; exact hJ
    · obtain ⟨⟨s1, b⟩, e1, e⟩ := BufferedStream.bind_eq_ok e
      obtain ⟨⟨k', n', d'⟩, e2, e⟩ := BufferedStream.bind_eq_ok e
      simp only at e2 e
      have h1 : (s1.fdin = false → s1.input = none) ∧
          closes s1.os + (if s1.fdin then 1 else 0) = if input.isSome then 1 else 0 := by
        unfold feed at e1
        split at e1
        · cases e1; exact hJ
        · rename_i i hi
          have hfd : f.fdin = true := by
            cases hz : f.fdin with
            | true => rfl
            | false => rw [hJ.1 hz] at hi; cases hi
          have hcl := hJ.2
          rw [hfd] at hcl
          simp only [if_true] at hcl
          split at e1
          · unfold writeToPipe at e1
            simp only at e1
            obtain ⟨⟨i2, n, d⟩, _, e1⟩ := BufferedStream.bind_eq_ok e1
            simp only at e1
            split at e1
            · simp only [Res.ok.injEq, Prod.mk.injEq] at e1
              obtain ⟨rfl, _⟩ := e1
              refine ⟨fun _ => rfl, ?_⟩
              simp only [hC.close, Bool.false_eq_true, if_false]
              omega
            · obtain ⟨⟨k2, m⟩, e3, e1⟩ := BufferedStream.bind_eq_ok e1
              have := hC.write e3
              simp only at e1
              split at e1
              · cases e1
                refine ⟨fun _ => rfl, ?_⟩
                simp only [hfd, if_true]; omega
              · split at e1
                · obtain ⟨q, _, e1⟩ := BufferedStream.bind_eq_ok e1
                  cases e1
                  refine ⟨fun z => ?_, ?_⟩
                  · simp only [hfd] at z; cases z
                  · simp only [hfd, if_true]; omega
                · cases e1
                  refine ⟨fun z => ?_, ?_⟩
                  · simp only [hfd] at z; cases z
                  · simp only [hfd, if_true]; omega
          · cases e1; exact hJ
      have hrd := hC.read e2
      rw [← hrd] at h1
      split at e
      · cases e; exact h1
      · split at e
        · cases e; exact h1
        · cases e; exact h1
  have := (BufferedStream.run_keeps T l (by
    unfold Process.new BufferedStream.new
    simp only [hk]
    cases input <;> simp) h).2
  rw [← this]
  unfold Process.destroy
  cases s.prod.fdin <;> cases s.prod.fdout <;> by_cases hp : pid = -1 <;> simp [hp]

end

/-- Non-vacuity of C105: a child that dies at once, so that `write` fails; the flag records it, `closes` counts. -/
def deadChild : Pipes (Bool × Nat) where
  write k _ := .ok ((true, k.2), -1)
  closeIn k := (k.1, k.2 + 1)
  read k _ := .ok (k, 0, [])

example : Pipes.Records deadChild (fun k => k.1 = true) ∧ Pipes.Counts deadChild (·.2) :=
  ⟨⟨fun e h => by cases e; omega, fun e _ h => by cases e; exact h, fun h => h⟩,
    ⟨fun e => by cases e; rfl, fun e => by cases e; rfl, fun _ => rfl⟩⟩

/-- The client sees the failure; the destructor closes both pipes. -/
example : (do
    let input : BufferedStream (List (List UInt8)) UInt8 := ⟨[[1, 2, 3], [4, 5], [6]], ⟨List.replicate 8 none, 0, 0⟩, false, 0, -1, .ok⟩
    let r ← (Process.ops (BufferedStream.ops chunkProducer) deadChild 9).read (Process.new (some input) (false, 0)) 1 0
    Res.ok (r.2.1, r.1.status, r.1.prod.os, r.1.prod.fdin)) = .ok (-2, .error, (true, 0), true) := by decide +kernel

end Props
end Strigi
