import Verif.Proofs.DataEvent
import Verif.Props.BufferedStream
import Verif.Props.StringStream

/-!
# Properties C23 and C24: data events
-/

namespace Strigi.Props

open DataEvent

variable {σ α : Type}

theorem dataEvent_exec {P : StreamOps σ α} {c : List α} {F : Failure} {H : σ → Int → Int → Prop}
    {h : Handler α} (C : Contract P c F H) (S : SoftReset P c H)
    (Sz : ∀ {s lo hi}, H s lo hi → P.size s = -1 ∨ P.size s = c.length)
    (hlen : (c.length : Int) < 2 ^ 31) {s : DataEvent σ α} {lo hi : Int}
    (I : Inv P h H c s lo hi) (op : Op) (hop : Admissible c op) :
    ∃ s', op.exec (ops P h) s = .ok s' ∧ (s'.status ≠ .error → ∃ lo hi, Inv P h H c s' lo hi) ∧
      LogInv h c s'.totalread s'.finished s'.log ∧
      (s'.totalread ≠ -1 → s'.status ≠ .error → s'.totalread = max s.totalread s'.pos) ∧
      (s.totalread = -1 → s'.totalread = -1) := by
  have hr := C.range I.inp
  have hp := I.ppos
  cases op with
  | read mn mx =>
    obtain ⟨s', n, d, e, r, i, j, k, l⟩ := read_spec C hlen I hop.1 hop.2
    refine ⟨s', by simp only [Op.exec, ops, e, Res.bind_ok], fun z => ⟨_, _, i z⟩, ?_, k, l⟩
    by_cases z : s'.status = .error
    · exact (j z).1
    · exact (i z).log
  | skip k =>
    obtain ⟨s', r, e, ok, w, g1, g2, g3⟩ := skip_spec C Sz hlen I hop.1 hop.2
    exact ⟨s', by simp only [Op.exec, ops, e, Res.bind_ok], fun z => ⟨_, _, w z⟩, g1, g2, g3⟩
  | reset q =>
    have hq := hop
    simp only [Admissible] at hq
    by_cases hq1 : q > s.pos
    · obtain ⟨s', r, e, ok, w, g1, g2, g3⟩ := skip_spec C Sz hlen I (k := q - s.pos) (by omega) (by omega)
      refine ⟨s', ?_, fun z => ⟨_, _, w z⟩, g1, g2, g3⟩
      simp only [Op.exec, ops, DataEvent.reset]
      rw [if_pos hq1, e]
      rfl
    · obtain ⟨p, r, e, g1, g2, g3, g4⟩ := S.reset I.inp hq.1 hq.2
      obtain ⟨s', e', k1, k2, k3, k4, k5, k6⟩ := reset_back I (by omega) e g1 (by omega) (by omega) g4
      refine ⟨s', by simp only [Op.exec, ops, e', Res.bind_ok], fun _ => ⟨_, _, k6⟩, k6.log, ?_, ?_⟩
      · intro z _
        rw [k5] at z ⊢
        have := I.total z
        omega
      · intro z; rw [k5]; exact z

theorem dataEvent_run {P : StreamOps σ α} {c : List α} {F : Failure} {H : σ → Int → Int → Prop}
    {h : Handler α} (C : Contract P c F H) (S : SoftReset P c H)
    (Sz : ∀ {s lo hi}, H s lo hi → P.size s = -1 ∨ P.size s = c.length)
    (hlen : (c.length : Int) < 2 ^ 31) :
    ∀ (l : List Op), (∀ op ∈ l, Admissible c op) → ∀ (s : DataEvent σ α) (lo hi : Int),
      Inv P h H c s lo hi →
      ∃ s', runUntilError (ops P h) s l = .ok s' ∧
        LogInv h c s'.totalread s'.finished s'.log ∧
        (s'.totalread ≠ -1 → s'.status ≠ .error →
          s'.totalread = max s.totalread (furthest (ops P h) s l)) ∧
        (s.totalread = -1 → s'.totalread = -1) := by
  intro l
  induction l with
  | nil =>
    intro _ s lo hi I
    refine ⟨s, rfl, I.log, ?_, fun z => z⟩
    intro z _
    have := I.total z
    simp only [furthest, ops]; omega
  | cons op l ih =>
    intro hl s lo hi I
    obtain ⟨s', e, g1, g2, g3, g4⟩ := dataEvent_exec C S Sz hlen I op (hl op (by simp))
    have hst : (ops P h).status s ≠ .error := I.st
    rw [runUntilError, if_neg hst, e]
    simp only [Res.bind_ok]
    by_cases hs' : s'.status = .error
    · refine ⟨s', ?_, g2, fun _ z => absurd hs' z, g4⟩
      cases l with
      | nil => rfl
      | cons op l => rw [runUntilError, if_pos]; exact hs'
    · obtain ⟨lo', hi', I'⟩ := g1 hs'
      obtain ⟨s2, e2, k1, k2, k3⟩ := ih (fun o ho => hl o (by simp [ho])) s' lo' hi' I'
      refine ⟨s2, e2, k1, ?_, fun z => k3 (g4 z)⟩
      intro z1 z2
      have h1 := k2 z1 z2
      have h2 : s'.totalread ≠ -1 := fun z => z1 (k3 z)
      have h3 := g3 h2 hs'
      have h4 : s.totalread ≠ -1 := fun z => h2 (g4 z)
      have h5 := I.total h4
      have h6 : s'.pos ≤ furthest (ops P h) s' l := by
        cases l with
        | nil => exact Int.le_refl _
        | cons op l =>
          unfold furthest
          rw [if_neg (show (ops P h).status s' ≠ .error from hs')]
          split
          · exact Int.le_max_left _ _
          · exact Int.le_refl _
      have h7 : furthest (ops P h) s (op :: l) = max s.pos (furthest (ops P h) s' l) := by
        rw [furthest, if_neg hst, e]; rfl
      rw [h7]; omega

/-- **C23**, **C24**, core: for every input that satisfies the stream contract (and does not declare a
wrong size), every handler and every sequence of calls, the calls made on the handler satisfy the
specification `LogOk`; and while the handler has not declined and no error was reported, the amount of
data sent is the furthest position reached. -/
theorem C23_events_contract {P : StreamOps σ α} {c : List α} {F : Failure} {H : σ → Int → Int → Prop}
    (C : Contract P c F H) (S : SoftReset P c H)
    (Sz : ∀ {s lo hi}, H s lo hi → P.size s = -1 ∨ P.size s = c.length)
    (hlen : (c.length : Int) < 2 ^ 31) {p : σ} {lo hi : Int} (hH : H p lo hi) (hp : P.position p = 0)
    (h : Handler α) (l : List Op) (hl : ∀ op ∈ l, Admissible c op) :
    ∃ s s', DataEvent.new P p = .ok s ∧ runUntilError (ops P h) s l = .ok s' ∧ LogOk h c s'.log ∧
      (¬ Declined h s'.log → (ops P h).status s' ≠ .error →
        ((sentData s'.log).length : Int) = furthest (ops P h) s l) := by
  have I := inv_new (h := h) (c := c) hH hp (Sz hH)
  obtain ⟨s', e, g1, g2, _⟩ := dataEvent_run C S Sz hlen l hl _ _ _ I
  refine ⟨_, s', by unfold DataEvent.new; rw [Res.assert_of (by simp [hp])]; rfl, e, g1.ok, ?_⟩
  intro hd hst
  have hne : s'.totalread ≠ -1 := fun z => hd (g1.closed z)
  obtain ⟨o1, o2, o3, _⟩ := g1.open' hne
  rw [o3, slice_length (by omega) o1 (by omega), g2 hne hst]
  have h6 : 0 ≤ furthest (ops P h) ⟨p, 0, false, 0, P.size p, .ok, []⟩ l := by
    cases l with
    | nil => exact Int.le_refl 0
    | cons op l =>
      unfold furthest
      rw [if_neg (by simp [ops])]
      split
      · exact Int.le_max_left _ _
      · exact Int.le_refl 0
  simp only; omega

/-- **C23**: every item of the content is sent at most once and in order (what was sent is a prefix of the
content), nothing is sent after the handler has declined, and while it has not, exactly the items up to
the furthest position have been sent — for every stream (that does not fail while reading), every
handler and every sequence of reads, skips and resets. -/
theorem C23_events {P : StreamOps σ α} {c : List α} {F : Failure} {p : σ}
    (hs : IsStream P c F True p) (hF : ¬ F.onRead) (hlen : (c.length : Int) < 2 ^ 31)
    (hp : P.position p = 0) (h : Handler α) (l : List Op) (hl : ∀ op ∈ l, Admissible c op) :
    ∃ s s', DataEvent.new P p = .ok s ∧ runUntilError (ops P h) s l = .ok s' ∧
      sentData s'.log <+: c ∧
      (∀ l1 d l2, s'.log = l1 ++ .data d :: l2 → h l1 d = false → ∀ d', .data d' ∉ l2) ∧
      (¬ Declined h s'.log → (ops P h).status s' ≠ .error →
        ((sentData s'.log).length : Int) = furthest (ops P h) s l) := by
  have C := Contract.of_behaves P c F True
  obtain ⟨s, s', e1, e2, g1, g2⟩ := C23_events_contract C (SoftReset.of_behaves P c F True trivial)
    (fun x => by
      have := C.size x
      rcases this with z | z | z
      · exact Or.inl z
      · exact Or.inr z
      · exact absurd z hF) hlen hs hp h l hl
  exact ⟨s, s', e1, e2, g1.sent, fun l1 d l2 a b => (g1.silent l1 d l2 a b).2, g2⟩

/-- **C23**: the stream itself is a stream over the same content: events do not disturb the data. -/
theorem C23_transparent {P : StreamOps σ α} {c : List α} {soft : Prop} {p : σ}
    (hs : IsStream P c .never soft p) (hlen : (c.length : Int) < 2 ^ 31) (hp : P.position p = 0)
    (h : Handler α) :
    ∃ s, DataEvent.new P p = .ok s ∧ IsStream (ops P h) c .never soft s := by
  have C := Contract.of_behaves P c .never soft
  refine ⟨_, by unfold DataEvent.new; rw [Res.assert_of (by simp [hp])]; rfl, ?_⟩
  refine (DataEvent.contract (h := h) C hlen).isStream
    (fun z => DataEvent.softReset C (SoftReset.of_behaves P c .never soft z) hlen) ?_
  have := inv_new (h := h) (c := c) (P := P) (H := fun s lo hi => ∀ l, Behaves P c .never soft s lo hi l) hs hp
    (by simpa [Failure.never] using C.size hs)
  rw [hp] at this; exact this

/-- **C24**: `handleEnd` is called at most once, and when it is called and the handler has not declined
before, all the content had been passed to `handleData` and nothing is sent afterwards. -/
theorem C24_handleEnd {P : StreamOps σ α} {c : List α} {F : Failure} {p : σ}
    (hs : IsStream P c F True p) (hF : ¬ F.onRead) (hlen : (c.length : Int) < 2 ^ 31)
    (hp : P.position p = 0) (h : Handler α) (l : List Op) (hl : ∀ op ∈ l, Admissible c op) :
    ∃ s s', DataEvent.new P p = .ok s ∧ runUntilError (ops P h) s l = .ok s' ∧
      ∀ l1 l2, s'.log = l1 ++ .finished :: l2 →
        (.finished ∉ l1 ∧ .finished ∉ l2) ∧ (¬ Declined h l1 → sentData l1 = c ∧ l2 = []) := by
  have C := Contract.of_behaves P c F True
  obtain ⟨s, s', e1, e2, g1, g2⟩ := C23_events_contract C (SoftReset.of_behaves P c F True trivial)
    (fun x => by
      have := C.size x
      rcases this with z | z | z
      · exact Or.inl z
      · exact Or.inr z
      · exact absurd z hF) hlen hs hp h l hl
  exact ⟨s, s', e1, e2, fun l1 l2 a => ⟨g1.once l1 l2 a, g1.complete l1 l2 a⟩⟩

/-- **C24**: every read that returns fewer than `min` items without an error leaves `handleEnd` called,
for any input and any state. -/
theorem C24_end_is_reported (P : StreamOps σ α) (h : Handler α) (s s' : DataEvent σ α) (mn mx n : Int)
    (d : List α) (hf : s.finished = true → .finished ∈ s.log)
    (e : (ops P h).read s mn mx = .ok (s', n, d)) (hn : n < mn)
    (hst : (ops P h).status s' ≠ .error) : .finished ∈ s'.log := by
  simp only [ops, DataEvent.read] at e hst
  cases hr : P.read s.input mn mx with
  | fault f => rw [hr] at e; cases e
  | diverge => rw [hr] at e; cases e
  | ok x =>
    obtain ⟨p, n', d'⟩ := x
    rw [hr] at e
    simp only [Res.bind_ok] at e
    by_cases h1 : n' < -1
    · rw [if_pos h1] at e; cases e; exact absurd rfl hst
    · rw [if_neg h1] at e
      have key : ∀ s2 : DataEvent σ α, (s2.finished = true → .finished ∈ s2.log) →
          ∀ s3, DataEvent.atEnd s2 = .ok s3 → .finished ∈ s3.log := by
        intro s2 h2 s3 h3
        unfold DataEvent.atEnd at h3
        dsimp only at h3
        generalize (if s2.size = -1 then s2.pos else s2.size) = z at h3
        unfold Res.assert at h3
        split at h3
        · simp only [Res.bind_ok] at h3
          split at h3
          · simp only [Res.bind_ok] at h3
            cases h3
            simp only
            split
            next hh => exact h2 hh
            next => simp
          · cases h3
        · cases h3
      have fin2 : ∀ (x : Res (DataEvent σ α × Int)), (∀ s2 m, x = .ok (s2, m) →
            (s2.finished = true → .finished ∈ s2.log)) →
          (x >>= fun y => if y.2 < mn then (do let s ← DataEvent.atEnd y.1; .ok (s, y.2, d'.take y.2.toNat))
            else .ok (y.1, y.2, d'.take y.2.toNat)) = .ok (s', n, d) → .finished ∈ s'.log := by
        intro x hx ex
        cases x with
        | fault f => cases ex
        | diverge => cases ex
        | ok y =>
          obtain ⟨s2, m⟩ := y
          simp only [Res.bind_ok] at ex
          by_cases hm : m < mn
          · rw [if_pos hm] at ex
            cases ha : DataEvent.atEnd s2 with
            | fault f => rw [ha] at ex; cases ex
            | diverge => rw [ha] at ex; cases ex
            | ok s3 =>
              rw [ha] at ex
              cases ex
              exact key s2 (hx _ _ rfl) s' ha
          · rw [if_neg hm] at ex; injection ex with ex; injection ex with _ ex; injection ex with ex _; omega
      by_cases hn' : n' > 0
      · rw [if_pos hn'] at e
        refine fin2 (DataEvent.report h s p n' d') ?_ e
        intro s2 m hx
        unfold DataEvent.report at hx
        dsimp only at hx
        generalize (if s.size ≠ -1 ∧ s.pos + n' > s.size then narrow32 (s.size - s.pos) else n') = nr at hx
        split at hx
        · split at hx
          · cases hx; intro z; simp only at z ⊢; simp [hf z]
          · cases hx
        · cases hx; exact hf
      · rw [if_neg hn'] at e
        refine fin2 (.ok ({ s with input := p }, n')) ?_ e
        intro s2 m hx
        cases hx; exact hf

/-- "This function will be called exactly once" (dataeventinputstream.h:68-73) does not hold when a handler
has declined and the rest is skipped: the end is reached and reported by the status, but `handleEnd` has
not been called. -/
theorem C24_not_called_after_fast_skip :
    ∃ (h : Handler Nat) (s s' : DataEvent (StringStream Nat) Nat),
      DataEvent.new StringStream.ops (StringStream.new [1, 2, 3]) = .ok s ∧
      run (ops StringStream.ops h) s [.read 1 1, .skip 2] = .ok s' ∧
      (ops StringStream.ops h).status s' = .eof ∧ s'.log = [.data [1]] :=
  ⟨fun _ _ => false, _, _, rfl, rfl, by decide, by decide⟩

/-- Non-vacuity: a chunked input, rereading and skipping; and the hypotheses of C23 for it. -/
example : (do
    let s ← DataEvent.new (BufferedStream.ops chunkProducer) (BufferedStream.new [[1, 2], [3, 4], [5, 6, 7]])
    let s ← runUntilError (ops (BufferedStream.ops chunkProducer) (fun _ _ => true)) s
      [.read 3 3, .reset 1, .read 1 1, .read 3 3, .skip 1, .reset 2, .read 9 0]
    pure (s.log, s.status)) =
    Res.ok ([.data [1, 2, 3], .data [4, 5], .data [6], .data [7], .finished], .eof) := by decide +kernel

example : IsStream StringStream.ops [1, 2, 3] .never True (StringStream.new [1, 2, 3]) ∧
    StringStream.ops.position (StringStream.new [1, 2, 3]) = 0 := ⟨C01_isStream _, rfl⟩

end Strigi.Props
