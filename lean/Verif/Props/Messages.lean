import Verif.Proofs.Messages
import Verif.Props.IconvState
import Verif.Props.Lzma
import Verif.Props.Decompress
import Verif.Props.GZipCompress

/-!
# A stream that fails says why
-/

namespace Strigi

open BufferedStream (bind_eq_ok Speaks Told view Follows Same)

/-! ## The input of all the examples -/

/-- The states of a `StringStream` over at least `lo` items. -/
def StringStream.Good {α : Type} (lo : Int) (s : StringStream α) : Prop :=
  0 ≤ s.pos ∧ s.pos ≤ s.data.length ∧ s.status ≠ .error ∧ lo ≤ s.data.length

theorem StringStream.read_good {α : Type} {lo : Int} {s : StringStream α} (h : Good lo s) (mn mx : Int) :
    Good lo (s.read mn mx).1 ∧ -1 ≤ (s.read mn mx).2.1 := by
  obtain ⟨h1, h2, h3, h4⟩ := h
  unfold read
  simp only
  by_cases hl : (s.data.length : Int) - s.pos = 0
  · rw [if_pos hl]; exact ⟨⟨h1, h2, (fun z => by cases z), h4⟩, by simp⟩
  · rw [if_neg hl]
    refine ⟨⟨?_, ?_, ?_, h4⟩, ?_⟩
    · simp only; split <;> omega
    · simp only; split <;> omega
    · simp only
      generalize (if mx > (s.data.length : Int) - s.pos ∨ mx < 1 then (s.data.length : Int) - s.pos else mx) = k
      by_cases hk : s.pos + k = s.data.length
      · rw [if_pos hk]; exact fun z => by cases z
      · rw [if_neg hk]; exact h3
    · simp only; split <;> omega

/-- A `StringStream` never fails, so that it has nothing to say. -/
theorem StringStream.explains {α : Type} (lo : Int) : Explains (StringStream.ops (α := α)) (fun _ => "") (Good lo) where
  read {s s' mn mx n d} h e := by
    have e := Res.ok.inj e
    have := read_good h mn mx
    rw [e] at this
    exact ⟨this.1, fun z => by have := this.2; simp only at this; omega⟩
  skip {s s' k r} h e := by
    have e := Res.ok.inj e
    unfold skip at e
    split at e
    · cases e; exact h
    · cases e; exact (read_good h _ _).1
  reset {s s' q r} h e := by
    have e := Res.ok.inj e
    obtain ⟨h1, h2, h3, h4⟩ := h
    unfold reset at e
    split at e
    · cases e; exact ⟨Int.le_refl _, Int.natCast_nonneg _, (fun z => by cases z), h4⟩
    · split at e
      · cases e; exact ⟨by simp only; omega, by simp only; omega, (fun z => by cases z), h4⟩
      · cases e; exact ⟨Int.natCast_nonneg _, Int.le_refl _, (fun z => by cases z), h4⟩
  error h z := absurd z h.2.2.1

theorem StringStream.good_new {α : Type} (c : List α) : Good 0 (StringStream.new c) :=
  ⟨Int.le_refl _, Int.natCast_nonneg _, (fun z => by cases z), Int.natCast_nonneg _⟩

/-! ## Reads that fail -/

namespace BufferedStream

variable {φ α : Type} {B : Producer φ α}

theorem loop_zero {s : BufferedStream φ α} (h : Bare s) {n : Int} (hn : 1 ≤ n) {f : φ} (hf : B.fill s.prod n = .ok (f, ⟨0, [], false⟩)) (k : Nat) :
    ∃ s', Bare s' ∧ s'.prod = f ∧ s'.pos = s.pos ∧ writeLoop B n n (k + 1) s n 0 = writeLoop B n n k s' n 0 := by
  obtain ⟨b, sp, e, hsp, wf, hs, ha, -, -, -, -, -⟩ := StreamBuffer.makeSpace_spec h.wf n
  have hav := h.avail
  have w1 := wf.off; have w3 := wf.fits
  have hspace : (if n ≥ n ∧ sp > n then n else sp) = n := by split <;> omega
  have hst : b.store (b.offset + b.avail) [] = .ok b := by
    unfold StreamBuffer.store
    rw [if_pos ⟨by omega, by simp only [List.length_nil]; omega⟩]
    simp
  refine ⟨{ s with prod := f, buf := b }, ⟨wf, (by show b.avail = 0; omega), h.going, h.status, h.size⟩, rfl, rfl, ?_⟩
  conv => lhs; unfold writeLoop
  rw [if_pos ⟨by omega, by omega⟩, e]
  simp only [Res.bind_ok]
  rw [hspace, hf]
  simp only [Res.bind_ok]
  rw [hst]
  simp only [Res.bind_ok, Bool.false_eq_true, if_false]
  rw [Res.assert_of (by rw [h.status]; rfl)]
  simp only [Res.bind_ok]
  rw [if_neg (by omega)]

theorem loop_fail {s : BufferedStream φ α} (h : Bare s) {n : Int} (hn : 1 ≤ n) {f : φ} (hf : B.fill s.prod n = .ok (f, ⟨-1, [], true⟩)) (k : Nat) :
    ∃ s', writeLoop B n n (k + 2) s n 0 = .ok (s', -1) ∧ s'.prod = f ∧ s'.status = .error ∧ s'.size = s.size ∧ s'.pos = s.pos := by
  obtain ⟨b, sp, e, hsp, wf, hs, ha, -, -, -, -, -⟩ := StreamBuffer.makeSpace_spec h.wf n
  have hav := h.avail
  have w1 := wf.off; have w3 := wf.fits
  have hspace : (if n ≥ n ∧ sp > n then n else sp) = n := by split <;> omega
  have hst : b.store (b.offset + b.avail) [] = .ok b := by
    unfold StreamBuffer.store
    rw [if_pos ⟨by omega, by simp only [List.length_nil]; omega⟩]
    simp
  refine ⟨{ s with prod := f, buf := b, status := .error }, ?_, rfl, rfl, rfl, rfl⟩
  unfold writeLoop
  rw [if_pos ⟨by omega, by omega⟩, e]
  simp only [Res.bind_ok]
  rw [hspace, hf]
  simp only [Res.bind_ok]
  rw [hst]
  simp only [Res.bind_ok, if_true]
  rw [Res.assert_of (by rfl)]
  simp only [Res.bind_ok]
  rw [if_neg (by omega)]
  unfold writeLoop
  rw [if_neg (by omega)]

/-- A read of exactly `n` items: `fillBuffer` has nothing to give first, and fails then. -/
theorem read_fails {s : BufferedStream φ α} (h : Bare s) {n : Int} (hn : 1 ≤ n) {f f' : φ}
    (hf : f = s.prod ∨ B.fill s.prod n = .ok (f, ⟨0, [], false⟩)) (hf' : B.fill f n = .ok (f', ⟨-1, [], true⟩)) (hfuel : 2 ≤ B.fuel s.prod) :
    ∃ s', read B s n n = .ok (s', -2, []) ∧ s'.prod = f' ∧ s'.status = .error ∧ s'.size = s.size ∧ s'.pos = s.pos := by
  obtain ⟨k, hk⟩ : ∃ k, B.fuel s.prod = k + 2 := ⟨B.fuel s.prod - 2, by omega⟩
  have hav := h.avail
  have key : ∃ s', writeLoop B n n (B.fuel s.prod + 1) s (n - s.buf.avail) 0 = .ok (s', -1) ∧ s'.prod = f' ∧ s'.status = .error ∧ s'.size = s.size ∧
      s'.pos = s.pos := by
    rw [hk, hav, Int.sub_zero]
    rcases hf with hf | hf
    · subst hf; exact loop_fail h hn hf' _
    · obtain ⟨s1, g1, g2, g3, g4⟩ := loop_zero h hn hf (k + 2)
      rw [g4]
      obtain ⟨s', q1, q2, q3, q4, q5⟩ := loop_fail g1 hn (by rw [g2]; exact hf') k
      exact ⟨s', q1, q2, q3, by rw [q4, g1.size, h.size], by rw [q5, g3]⟩
  obtain ⟨s', q1, q2, q3, q4, q5⟩ := key
  refine ⟨{ s' with finished := true }, ?_, q2, q3, q4, q5⟩
  unfold read
  rw [if_neg (by rw [h.status]; decide), if_neg (by rw [h.status]; decide)]
  simp only [if_neg (show ¬ n > n by omega)]
  unfold ensure
  rw [if_pos ⟨by rw [h.going]; rfl, by omega⟩]
  unfold writeToBuffer
  rw [q1, Res.bind_ok]
  simp only
  rw [if_pos (by omega), Res.bind_ok, if_pos (by exact q3)]

theorem bare_min {s s' : BufferedStream φ α} (h : Bare s) {n : Int} (e : setMinBufSize s n = .ok s') : Bare s' ∧ s'.prod = s.prod := by
  obtain ⟨b, sp, e1, hsp, wf, hs, ha, -, -, -, -, -⟩ := StreamBuffer.makeSpace_spec h.wf n
  unfold setMinBufSize at e
  rw [e1, Res.bind_ok] at e
  cases e
  exact ⟨⟨wf, by have := h.avail; simp only; omega, h.going, h.status, h.size⟩, rfl⟩

end BufferedStream

/-! ## The texts change nothing else -/

theorem Unpack.said_follows {σ ζ : Type} (P : StreamOps σ UInt8) (err : σ → String) (D : Decompressor ζ) (keep : Bool) (N : Nat) :
    Follows (producerSaid P err D keep N) (producer P D keep N) Said.st (fun _ => True) where
  fuel _ _ := rfl
  step f space _ := by
    have dec : ∀ g : Said (State σ ζ), Res.Like (fun x y => y = (x.1.st, x.2) ∧ True) (decompressSaid P D keep g space) (decompress P D keep g.st space) := by
      intro g
      unfold decompressSaid
      cases decompress P D keep g.st space with
      | ok x => exact ⟨rfl, trivial⟩
      | fault x => exact rfl
      | diverge => trivial
    show Res.Like _ (fillSaid P err D keep f space) (fill P D keep f.st space)
    unfold fillSaid fill
    by_cases ho : f.st.isOpen = false
    · rw [if_pos ho, if_pos ho]; exact ⟨rfl, trivial⟩
    rw [if_neg ho, if_neg ho]
    by_cases ha : f.st.availOut ≠ 0
    · rw [if_pos ha, if_pos ha]
      have : Res.Like (fun x y => y = x.st) (readSaid P err keep f) (readFromStream P f.st) := by
        unfold readSaid readFromStream
        refine (Res.Like.same _).bind ?_
        rintro ⟨i, n, d⟩ _ rfl
        simp only
        generalize hc : (if keep = true then decide (n < -1) else decide (n ≤ -1)) = c
        by_cases h2 : n < 1
        · cases c
          · rw [if_neg (by decide), if_pos h2, if_pos h2]; exact rfl
          · rw [if_pos rfl, if_pos h2]; exact rfl
        · have : c = false := by
            rw [← hc]
            cases keep <;> simp <;> omega
          subst this
          rw [if_neg (by decide), if_neg h2, if_neg h2]
          exact rfl
      refine this.bind ?_
      rintro g _ rfl
      by_cases hf : g.st.failed = true
      · rw [if_pos hf, if_pos hf]; exact ⟨rfl, trivial⟩
      · rw [if_neg hf, if_neg hf]; exact dec g
    · rw [if_neg ha, if_neg ha]; exact dec f

theorem LzmaStream.said_follows {σ ζ : Type} (P : StreamOps σ UInt8) (err : σ → String) (D : LzmaDecoder ζ) (N : Nat) :
    Follows (producerSaid P err D N) (producer P D N) Said.st (fun _ => True) where
  fuel _ _ := rfl
  step f space _ := by
    have dec : ∀ g : Said (State σ ζ), Res.Like (fun x y => y = (x.1.st, x.2) ∧ True) (decompressSaid D g space) (decompress D g.st space) := by
      intro g
      unfold decompressSaid
      cases decompress D g.st space with
      | ok x => exact ⟨rfl, trivial⟩
      | fault x => exact rfl
      | diverge => trivial
    show Res.Like _ (fillSaid P err D f space) (fill P D f.st space)
    unfold fillSaid fill
    by_cases ho : f.st.failed = true
    · rw [if_pos ho, if_pos ho]; exact ⟨rfl, trivial⟩
    rw [if_neg ho, if_neg ho]
    by_cases hm : f.st.msize = f.st.done
    · rw [if_pos hm, if_pos hm]; exact ⟨rfl, trivial⟩
    rw [if_neg hm, if_neg hm]
    by_cases ha : f.st.availIn = []
    · rw [if_pos ha, if_pos ha]
      have : Res.Like (fun x y => y = x.st) (readSaid P err f) (readFromStream P f.st) := by
        unfold readSaid readFromStream
        refine (Res.Like.same _).bind ?_
        rintro ⟨i, n, d⟩ _ rfl
        simp only
        by_cases h2 : n < 1
        · by_cases h1 : n ≤ -1
          · rw [if_pos h1, if_pos h2]; exact rfl
          · rw [if_neg h1, if_pos h2, if_pos h2]; exact rfl
        · rw [if_neg (show ¬ n ≤ -1 by omega), if_neg h2, if_neg h2]
          exact rfl
      refine this.bind ?_
      rintro g _ rfl
      by_cases hf : g.st.failed = true
      · rw [if_pos hf, if_pos hf]; exact ⟨rfl, trivial⟩
      · rw [if_neg hf, if_neg hf]; exact dec g
    · rw [if_neg ha, if_neg ha]; exact dec f

theorem GZipCompress.said_follows {σ ζ : Type} (P : StreamOps σ UInt8) (err : σ → String) (K : Compressor ζ) (N : Nat) :
    Follows (producerSaid P err K N) (producer P K N) Said.st (fun _ => True) where
  fuel _ _ := rfl
  step f space _ := by
    show Res.Like _ (fillSaid P err K f space) (fill P K f.st space)
    unfold fillSaid
    cases fill P K f.st space with
    | ok x => exact ⟨rfl, trivial⟩
    | fault x => exact rfl
    | diverge => trivial

theorem Base64.said_follows {σ : Type} (P : StreamOps σ UInt8) (err : σ → String) (N : Nat) :
    Follows (producerSaid P err N) (producer P N) Said.st (fun _ => True) where
  fuel _ _ := rfl
  step f space _ := by
    show Res.Like _ (fillSaid P err N f space) (fill P N f.st space)
    unfold fillSaid
    cases fill P N f.st space with
    | ok x => exact ⟨rfl, trivial⟩
    | fault x => exact rfl
    | diverge => trivial

theorem Iconv.said_follows {σ τ α : Type} (P : StreamOps σ UInt8) (err : σ → String) (cs : Charset τ α) (N : Nat) :
    Follows (producerSaid P err cs N) (producer P cs N) Said.st (fun _ => True) where
  fuel _ _ := rfl
  step f space _ := by
    show Res.Like _ (fillSaid P err cs f space) (fill P cs f.st space)
    unfold fillSaid fill
    by_cases ho : f.st.isOpen ∧ f.st.offset = 0
    · rw [if_pos ho, if_pos ho]
      refine (Res.Like.same _).bind ?_
      rintro ⟨i, n, d⟩ _ rfl
      simp only
      by_cases h1 : n < -1
      · rw [if_pos h1, if_pos h1]; exact ⟨rfl, trivial⟩
      rw [if_neg h1, if_neg h1]
      by_cases h2 : n < 1
      · rw [if_pos h2, if_pos h2]; exact ⟨rfl, trivial⟩
      rw [if_neg h2, if_neg h2]
      by_cases h3 : f.st.chars.length + n > bufSize
      · rw [if_pos h3, if_pos h3]; exact rfl
      · rw [if_neg h3, if_neg h3]; exact ⟨rfl, trivial⟩
    · rw [if_neg ho, if_neg ho]; exact ⟨rfl, trivial⟩

/-! ## A part of a stream -/

theorem SubInputStream.explains {σ α : Type} {P : StreamOps σ α} {err : σ → String} {H : σ → Prop} (E : Explains P err H) {lo : Int}
    (back : ∀ {s s' q r}, H s → lo ≤ q → P.reset s q = .ok (s', r) → (lo ≤ r → P.status s' ≠ .error) ∧ (r < lo → err s' ≠ "")) :
    Explains (opsSaid P err) Said.msg (fun s => H s.st.parent ∧ s.st.offset = lo ∧ (s.st.status = .error → s.msg ≠ "")) := by
  have hread : ∀ {s s' : Said (SubInputStream σ)} {mn mx n : Int} {d : List α}, (H s.st.parent ∧ s.st.offset = lo ∧ (s.st.status = .error → s.msg ≠ "")) →
      readParentSaid P err s mn mx = .ok (s', n, d) →
      (H s'.st.parent ∧ s'.st.offset = lo ∧ (s'.st.status = .error → s'.msg ≠ "")) ∧ (n < -1 → s'.msg ≠ "") := by
    intro s s' mn mx n d h e
    unfold readParentSaid at e
    obtain ⟨⟨p, k, x⟩, er, e⟩ := bind_eq_ok e
    obtain ⟨hp, hk⟩ := E.read h.1 er
    obtain ⟨u, _, e⟩ := bind_eq_ok e
    simp only at e
    by_cases h1 : k < -1
    · rw [if_pos h1] at e
      cases e
      exact ⟨⟨hp, h.2.1, fun _ => hk h1⟩, fun _ => hk h1⟩
    rw [if_neg h1] at e
    by_cases h2 : k < mn
    · rw [if_pos h2] at e
      by_cases h3 : s.st.size = -1
      · rw [if_pos h3] at e
        split at e
        · cases e; exact ⟨⟨hp, h.2.1, fun z => by cases z⟩, fun z => by omega⟩
        · cases e; exact ⟨⟨hp, h.2.1, fun z => by cases z⟩, fun z => by omega⟩
      · rw [if_neg h3] at e
        cases e
        exact ⟨⟨hp, h.2.1, fun _ => by simp⟩, fun _ => by simp⟩
    · rw [if_neg h2] at e
      cases e
      refine ⟨⟨hp, h.2.1, fun z => ?_⟩, fun z => by omega⟩
      simp only at z
      split at z
      · cases z
      · exact h.2.2 z
  have hskip : ∀ {s s' : Said (SubInputStream σ)} {k r : Int}, (H s.st.parent ∧ s.st.offset = lo ∧ (s.st.status = .error → s.msg ≠ "")) →
      skipParentSaid P err s k = .ok (s', r) → H s'.st.parent ∧ s'.st.offset = lo ∧ (s'.st.status = .error → s'.msg ≠ "") := by
    intro s s' k r h e
    unfold skipParentSaid at e
    obtain ⟨⟨p, x⟩, er, e⟩ := bind_eq_ok e
    have hp := E.skip h.1 er
    simp only at e
    split at e
    · rename_i hs
      cases e; exact ⟨hp, h.2.1, fun _ => E.error hp hs⟩
    · split at e
      · cases e; exact ⟨hp, h.2.1, fun z => by cases z⟩
      · split at e
        · cases e; exact ⟨hp, h.2.1, fun _ => by simp⟩
        · cases e; exact ⟨hp, h.2.1, h.2.2⟩
  constructor
  · intro s s' mn mx n d h e
    have e : readSaid P err s mn mx = _ := e
    unfold readSaid at e
    by_cases h1 : s.st.size ≠ -1
    · rw [if_pos h1] at e
      simp only at e
      by_cases h2 : s.st.size - s.st.pos = 0
      · rw [if_pos h2] at e
        cases e
        exact ⟨⟨h.1, h.2.1, fun z => by cases z⟩, fun z => by omega⟩
      · rw [if_neg h2] at e
        exact hread h e
    · rw [if_neg h1] at e
      exact hread h e
  · intro s s' k r h e
    have e : skipSaid P err s k = _ := e
    unfold skipSaid at e
    split at e
    · cases e; exact ⟨h.1, h.2.1, fun z => by cases z⟩
    · split at e
      · cases e; exact h
      · split at e
        · exact hskip h e
        · exact hskip h e
  · intro s s' q r h e
    have e : resetSaid P err s q = _ := e
    unfold resetSaid at e
    obtain ⟨u, ha, e⟩ := bind_eq_ok e
    obtain ⟨⟨p, x⟩, er, e⟩ := bind_eq_ok e
    have hq : 0 ≤ q := by
      by_cases hq : q ≥ 0
      · exact hq
      · simp [Res.assert, hq] at ha
    have hp := E.reset h.1 er
    obtain ⟨b1, b2⟩ := back h.1 (by have := h.2.1; omega) er
    simp only at e
    by_cases h1 : x < s.st.offset
    · rw [if_pos h1] at e
      cases e
      exact ⟨hp, h.2.1, fun _ => b2 (by rw [← h.2.1]; exact h1)⟩
    · rw [if_neg h1] at e
      cases e
      exact ⟨hp, h.2.1, fun z => absurd z (b1 (by rw [← h.2.1]; omega))⟩
  · intro s h z
    exact h.2.2 z

namespace Props

/-! ## C150: a stream whose status is Error has a text -/

section

variable {σ ζ : Type} {P : StreamOps σ UInt8} {err : σ → String} {H : σ → Prop}

/-- The texts change nothing: with them and without them all calls end in the same way. -/
theorem C150_texts_only {τ α : Type} (P : StreamOps σ UInt8) (err : σ → String) (N : Nat) (l : List Op) :
    (∀ (D : Decompressor ζ) keep (s : BufferedStream (Said (Unpack.State σ ζ)) UInt8),
      Res.Like (fun x y => y = view Said.st x) (run (BufferedStream.ops (Unpack.producerSaid P err D keep N)) s l)
        (run (BufferedStream.ops (Unpack.producer P D keep N)) (view Said.st s) l)) ∧
    (∀ (D : LzmaDecoder ζ) (s : BufferedStream (Said (LzmaStream.State σ ζ)) UInt8),
      Res.Like (fun x y => y = view Said.st x) (run (BufferedStream.ops (LzmaStream.producerSaid P err D N)) s l)
        (run (BufferedStream.ops (LzmaStream.producer P D N)) (view Said.st s) l)) ∧
    (∀ (K : Compressor ζ) (s : BufferedStream (Said (GZipCompress.State σ ζ)) UInt8),
      Res.Like (fun x y => y = view Said.st x) (run (BufferedStream.ops (GZipCompress.producerSaid P err K N)) s l)
        (run (GZipCompress.ops P K N) (view Said.st s) l)) ∧
    (∀ (s : BufferedStream (Said (Base64.State σ)) UInt8),
      Res.Like (fun x y => y = view Said.st x) (run (BufferedStream.ops (Base64.producerSaid P err N)) s l)
        (run (BufferedStream.ops (Base64.producer P N)) (view Said.st s) l)) ∧
    (∀ (cs : Charset τ α) (s : BufferedStream (Said (Iconv.State σ τ)) α),
      Res.Like (fun x y => y = view Said.st x) (run (BufferedStream.ops (Iconv.producerSaid P err cs N)) s l)
        (run (BufferedStream.ops (Iconv.producer P cs N)) (view Said.st s) l)) :=
  ⟨fun D keep s => (BufferedStream.run_follows (Unpack.said_follows P err D keep N) l s trivial).mono (fun _ _ h => h.1),
    fun D s => (BufferedStream.run_follows (LzmaStream.said_follows P err D N) l s trivial).mono (fun _ _ h => h.1),
    fun K s => (BufferedStream.run_follows (GZipCompress.said_follows P err K N) l s trivial).mono (fun _ _ h => h.1),
    fun s => (BufferedStream.run_follows (Base64.said_follows P err N) l s trivial).mono (fun _ _ h => h.1),
    fun cs s => (BufferedStream.run_follows (Iconv.said_follows P err cs N) l s trivial).mono (fun _ _ h => h.1)⟩

/-- `GZipInputStream` over an input that says why it fails: so does it, whatever the data, the decompressor and the calls, from the
constructor on. -/
theorem C150_gzip (E : Explains P err H) (D : Decompressor ζ) (N : Nat) :
    ∃ H' : BufferedStream (Said (Unpack.State σ ζ)) UInt8 → Prop,
      Explains (BufferedStream.ops (Unpack.producerSaid P err D true N)) BufferedStream.error H' ∧
      ∀ {i s}, H i → Unpack.newSaid D (GZip.checkMagic P i) = .ok s → H' s := by
  refine ⟨_, (Unpack.gzip_speaks E D N).explains, fun {i s} hi e => ?_⟩
  unfold Unpack.newSaid at e
  obtain ⟨⟨j, ok⟩, e1, e⟩ := bind_eq_ok e
  have hj : H j := by
    unfold GZip.checkMagic at e1
    obtain ⟨⟨a, n, d⟩, r1, e1⟩ := bind_eq_ok e1
    obtain ⟨⟨b, r⟩, r2, e1⟩ := bind_eq_ok e1
    have ha := (E.read hi r1).1
    have hb := E.reset ha r2
    simp only at e1
    split at e1
    · cases e1; exact hb
    · obtain ⟨x, _, e1⟩ := bind_eq_ok e1
      split at e1
      · cases e1; exact hb
      · obtain ⟨y, _, e1⟩ := bind_eq_ok e1
        cases e1; exact hb
  simp only at e
  split at e
  · exact BufferedStream.told_min (BufferedStream.told_new (f := ⟨Unpack.start D j, ""⟩) ⟨hj, fun z => by cases z⟩ _) e
  · cases e
    exact ⟨fun z => absurd rfl z, fun _ => Or.inl (by simp [BufferedStream.new])⟩

/-- The same for the compressor. -/
theorem C150_compress (E : Explains P err H) (K : Compressor ζ) (N : Nat) :
    ∃ H' : BufferedStream (Said (GZipCompress.State σ ζ)) UInt8 → Prop,
      Explains (BufferedStream.ops (GZipCompress.producerSaid P err K N)) BufferedStream.error H' ∧
      ∀ {i}, H i → H' (BufferedStream.new ⟨⟨i, some K.init, []⟩, ""⟩) :=
  ⟨_, (GZipCompress.speaks E K N).explains, fun h => BufferedStream.told_new h _⟩

/-- The same for `Base64InputStream`. -/
theorem C150_base64 (E : Explains P err H) (N : Nat) :
    ∃ H' : BufferedStream (Said (Base64.State σ)) UInt8 → Prop,
      Explains (BufferedStream.ops (Base64.producerSaid P err N)) BufferedStream.error H' ∧
      ∀ {i}, H i → ∀ st : Base64.State σ, st.input = i → H' (BufferedStream.new ⟨st, ""⟩) :=
  ⟨_, (Base64.speaks E N).explains, fun h st hs => BufferedStream.told_new (by rw [← hs] at h; exact h) _⟩

/-- The same for `EncodingInputStream` and `InputStreamReader`, for every encoding. -/
theorem C150_encoding {τ α : Type} (E : Explains P err H) (cs : Charset τ α) (N : Nat) :
    ∃ H' : BufferedStream (Said (Iconv.State σ τ)) α → Prop,
      Explains (BufferedStream.ops (Iconv.producerSaid P err cs N)) BufferedStream.error H' ∧
      ∀ {i}, H i → ∀ st : Iconv.State σ τ, st.input = i → H' (BufferedStream.new ⟨st, ""⟩) :=
  ⟨_, (Iconv.speaks E cs N).explains, fun h st hs => BufferedStream.told_new (by rw [← hs] at h; exact h) _⟩

/-- The same for a part of a stream, if the input can be put back to positions of the part (or says why not). -/
theorem C150_part {α : Type} {P : StreamOps σ α} (E : Explains P err H) {i : σ}
    (hi : H i) {size : Int}
    (back : ∀ {s s' q r}, H s → P.position i ≤ q → P.reset s q = .ok (s', r) →
      (P.position i ≤ r → P.status s' ≠ .error) ∧ (r < P.position i → err s' ≠ "")) :
    ∃ H' : Said (SubInputStream σ) → Prop,
      Explains (SubInputStream.opsSaid P err) Said.msg H' ∧ ∀ {s}, SubInputStream.new P i size = .ok s → H' ⟨s, ""⟩ := by
  refine ⟨_, SubInputStream.explains E back, fun {s} e => ?_⟩
  unfold SubInputStream.new at e
  obtain ⟨u, _, e⟩ := bind_eq_ok e
  cases e
  exact ⟨hi, rfl, fun z => by cases z⟩

/-- A stack: gzip data in a part of a stream in memory, in base64. -/
example {z : Type} (D : Decompressor z) (N M : Nat) :
    ∃ H', Explains (BufferedStream.ops (Unpack.producerSaid (BufferedStream.ops (Base64.producerSaid StringStream.ops (fun _ => "") M))
      BufferedStream.error D true N)) BufferedStream.error H' := by
  obtain ⟨H1, E1, -⟩ := C150_base64 (StringStream.explains 0) M
  obtain ⟨H2, E2, -⟩ := C150_gzip E1 D N
  exact ⟨H2, E2⟩

example : ∃ H', Explains (SubInputStream.opsSaid StringStream.ops (fun _ => "")) Said.msg H' ∧
    ∀ {s}, SubInputStream.new StringStream.ops (⟨[1, 2, 3], 1, .ok⟩ : StringStream Nat) 5 = .ok s → H' ⟨s, ""⟩ := by
  refine C150_part (StringStream.explains 1) (i := ⟨[1, 2, 3], 1, .ok⟩) ⟨by decide, by decide, by decide, by decide⟩ ?_
  intro s s' q r h hq e
  have hq : 1 ≤ q := hq
  have hl : 1 ≤ (s.data.length : Int) := h.2.2.2
  have g := ((StringStream.explains 1).reset h e).2.2.1
  refine ⟨fun _ => g, fun z => ?_⟩
  exfalso
  have z : r < 1 := z
  have e := Res.ok.inj e
  unfold StringStream.reset at e
  rw [if_neg (by omega)] at e
  split at e
  · cases e; omega
  · cases e; omega

/-- A part that ends too early says so. -/
example : (do
    let s ← SubInputStream.new StringStream.ops (⟨[1, 2, 3], 1, .ok⟩ : StringStream Nat) 5
    SubInputStream.readSaid StringStream.ops (fun _ => "") ⟨s, ""⟩ 3 3) =
    .ok (⟨⟨⟨[1, 2, 3], 3, .eof⟩, 1, 0, 5, .error⟩, "Premature end of stream\n"⟩, -2, [2, 3]) := by decide

/-! ## Where the text is missing -/

/-- `BZ2InputStream` and `LZMAInputStream`: the text is missing only if the input itself has not failed (it only ended). -/
theorem C150_bz2_lzma (E : Explains P err H) (N : Nat) :
    (∀ (D : Decompressor ζ) {i : σ} {s s' : BufferedStream (Said (Unpack.State σ ζ)) UInt8} {l : List Op}, H i →
      Unpack.newSaid D (BZ2.checkMagic P i) = .ok s → run (BufferedStream.ops (Unpack.producerSaid P err D false N)) s l = .ok s' →
      s'.status = .error → s'.error ≠ "" ∨ P.status s'.prod.st.input ≠ .error) ∧
    (∀ (D : LzmaDecoder ζ) {z0 : ζ} {i : σ} {s s' : BufferedStream (Said (LzmaStream.State σ ζ)) UInt8} {l : List Op}, H i →
      LzmaStream.newSaid P D z0 i = .ok s → run (BufferedStream.ops (LzmaStream.producerSaid P err D N)) s l = .ok s' →
      s'.status = .error → s'.error ≠ "" ∨ P.status s'.prod.st.input ≠ .error) := by
  constructor
  · intro D i s s' l hi e r hs
    refine (BufferedStream.run_told (Unpack.bz2_speaks E D N) l ?_ r).error hs
    unfold Unpack.newSaid at e
    obtain ⟨⟨j, ok⟩, e1, e⟩ := bind_eq_ok e
    have hj : H j := by
      unfold BZ2.checkMagic at e1
      obtain ⟨⟨a, n, d⟩, r1, e1⟩ := bind_eq_ok e1
      obtain ⟨⟨b, r⟩, r2, e1⟩ := bind_eq_ok e1
      have ha := (E.read hi r1).1
      have hb := E.reset ha r2
      simp only at e1
      split at e1
      · cases e1; exact hb
      · obtain ⟨x, _, e1⟩ := bind_eq_ok e1
        cases e1; exact hb
    simp only at e
    split at e
    · exact BufferedStream.told_min (BufferedStream.told_new (f := ⟨Unpack.start D j, ""⟩) ⟨hj, rfl⟩ _) e
    · cases e
      exact ⟨fun z => absurd rfl z, fun _ => Or.inl (by simp [BufferedStream.new])⟩
  · intro D z0 i s s' l hi e r hs
    refine (BufferedStream.run_told (LzmaStream.speaks E D N) l ?_ r).error hs
    unfold LzmaStream.newSaid at e
    obtain ⟨x, e1, e⟩ := bind_eq_ok e
    have hj := (E.read hi (show P.read i 13 13 = .ok (x.1, x.2.1, x.2.2) from e1)).1
    obtain ⟨ok, e2, e⟩ := bind_eq_ok e
    split at e
    · obtain ⟨z, _, e⟩ := bind_eq_ok e
      obtain ⟨size, _, e⟩ := bind_eq_ok e
      refine BufferedStream.told_min (BufferedStream.told_new ?_ _) e
      exact ⟨hj, fun z => by cases z⟩
    · cases e
      exact ⟨fun z => absurd rfl z, fun _ => Or.inl (by simp [BufferedStream.new])⟩

/-- The difference: compressed data that ends too early.  All data was handed out, the decompressor has taken all input and there is no
more.  `GZipInputStream` (`keep`) says "unexpected end of stream"; `BZ2InputStream` says nothing. -/
theorem C150_cut (D : Decompressor ζ) (keep : Bool) (N : Nat) (hN : 2 ≤ N) {s : BufferedStream (Said (Unpack.State σ ζ)) UInt8}
    (h : BufferedStream.Bare s) (ho : s.prod.st.isOpen = true) (ha : s.prod.st.availOut ≠ 0) {i : σ} {d : List UInt8}
    (hr : P.read s.prod.st.input 1 0 = .ok (i, -1, d)) (he : err i = "") {n : Int} (hn : 1 ≤ n) :
    ∃ s', (BufferedStream.ops (Unpack.producerSaid P err D keep N)).read s n n = .ok (s', -2, []) ∧ s'.status = .error ∧
      s'.error = if keep then "unexpected end of stream" else "" := by
  have hf : (Unpack.producerSaid P err D keep N).fill s.prod n =
      .ok (⟨{ s.prod.st with input := i, failed := true }, if keep then "unexpected end of stream" else ""⟩, ⟨-1, [], true⟩) := by
    show Unpack.fillSaid P err D keep s.prod n = _
    unfold Unpack.fillSaid
    rw [if_neg (by rw [ho]; decide), if_pos ha]
    unfold Unpack.readSaid
    rw [hr, Res.bind_ok]
    simp only
    cases keep
    · rw [if_pos (by simp), Res.bind_ok]
      simp only [if_true, he, Bool.false_eq_true, if_false]
    · rw [if_neg (by simp), if_pos (by decide), Res.bind_ok]
      simp only [if_true]
  obtain ⟨s', q1, q2, q3, q4, q5⟩ := BufferedStream.read_fails h hn (Or.inl rfl) hf hN
  refine ⟨s', q1, q3, ?_⟩
  unfold BufferedStream.error
  rw [if_neg (by rw [q4, h.size]; omega), q2]

/-- The same for an `LZMAInputStream` whose data ends too early, and whose header does not tell the size of the content. -/
theorem C150_cut_lzma (D : LzmaDecoder ζ) (N : Nat) (hN : 2 ≤ N) {s : BufferedStream (Said (LzmaStream.State σ ζ)) UInt8}
    (h : BufferedStream.Bare s) (ho : s.prod.st.failed = false) (hm : s.prod.st.msize ≠ s.prod.st.done) (ha : s.prod.st.availIn = []) {i : σ}
    {d : List UInt8} (hr : P.read s.prod.st.input 1 0 = .ok (i, -1, d)) (he : err i = "") {n : Int} (hn : 1 ≤ n) :
    ∃ s', (BufferedStream.ops (LzmaStream.producerSaid P err D N)).read s n n = .ok (s', -2, []) ∧ s'.status = .error ∧ s'.error = "" := by
  have hf : (LzmaStream.producerSaid P err D N).fill s.prod n =
      .ok (⟨{ s.prod.st with input := i, failed := true }, ""⟩, ⟨-1, [], true⟩) := by
    show LzmaStream.fillSaid P err D s.prod n = _
    unfold LzmaStream.fillSaid
    rw [if_neg (by rw [ho]; decide), if_neg hm, if_pos ha]
    unfold LzmaStream.readSaid
    rw [hr, Res.bind_ok]
    simp only
    rw [if_pos (by decide), Res.bind_ok]
    simp only [if_true, he]
  obtain ⟨s', q1, q2, q3, q4, q5⟩ := BufferedStream.read_fails h hn (Or.inl rfl) hf hN
  refine ⟨s', q1, q3, ?_⟩
  unfold BufferedStream.error
  rw [if_neg (by rw [q4, h.size]; omega), q2]

end

/-- For the examples: a decompressor that takes everything and has no result yet. -/
def slowDecompressor : Decompressor Unit where
  init := ()
  run _ inp _ := ((), inp.length, [], .more)

/-- The magic bytes of bz2. -/
def bz2Magic : List UInt8 := [0x42, 0x5a, 0x68, 0x39, 0x31, 0x41, 0x59, 0x26, 0x53, 0x59]

/-- The magic bytes of bz2, and nothing behind them: an error without a text. -/
example : ∃ s s', Unpack.newSaid slowDecompressor (BZ2.checkMagic StringStream.ops
      (StringStream.new bz2Magic)) = .ok s ∧
    (BufferedStream.ops (Unpack.producerSaid StringStream.ops (fun _ => "") slowDecompressor false 9)).read s 4 4 = .ok (s', -2, []) ∧
    s'.status = .error ∧ s'.error = "" := by
  have hm : BZ2.checkMagic StringStream.ops (StringStream.new bz2Magic) =
      .ok (StringStream.new bz2Magic, true) := by decide
  unfold Unpack.newSaid
  rw [hm, Res.bind_ok]
  simp only [if_true]
  generalize hs : BufferedStream.new (α := UInt8) (Said.mk (Unpack.start slowDecompressor
    (StringStream.new bz2Magic)) "") = s0
  have hb : BufferedStream.Bare s0 := by rw [← hs]; exact BufferedStream.bare_new _
  obtain ⟨b, sp, e1, -⟩ := StreamBuffer.makeSpace_spec hb.wf 262144
  have e : BufferedStream.setMinBufSize s0 262144 = .ok { s0 with buf := b } := by
    unfold BufferedStream.setMinBufSize
    rw [e1, Res.bind_ok]
  obtain ⟨g1, g2⟩ := BufferedStream.bare_min hb e
  have hp : s0.prod = Said.mk (Unpack.start slowDecompressor
    (StringStream.new bz2Magic)) "" := by rw [← hs]; rfl
  obtain ⟨s', q1, q2, q3, q4, q5⟩ := BufferedStream.read_fails
    (B := Unpack.producerSaid StringStream.ops (fun _ => "") slowDecompressor false 9) g1 (n := 4) (by decide)
    (f := ⟨⟨⟨bz2Magic, 10, .eof⟩, true, (), [], 4, false⟩, ""⟩)
    (f' := ⟨⟨⟨bz2Magic, 10, .eof⟩, true, (), [], 4, true⟩, ""⟩)
    (Or.inr (by simp only [hp]; decide)) (by decide) (show 2 ≤ 9 by decide)
  refine ⟨_, s', e, q1, q3, ?_⟩
  unfold BufferedStream.error
  rw [if_neg (by rw [q4, g1.size]; omega), q2]

/-- A state that meets the conditions of `C150_cut`: the input has ended, and the decompressor waits for more. -/
example (keep : Bool) : ∃ s', (BufferedStream.ops (Unpack.producerSaid StringStream.ops (fun _ => "") slowDecompressor keep 9)).read
      (BufferedStream.new ⟨⟨⟨[7], 1, .eof⟩, true, (), [], 4, false⟩, ""⟩) 4 4 = .ok (s', -2, []) ∧ s'.status = .error ∧
      s'.error = if keep then "unexpected end of stream" else "" :=
  C150_cut _ _ _ (by decide) (BufferedStream.bare_new _) rfl (by decide) (i := ⟨[7], 1, .eof⟩) (d := []) (by decide) rfl (by decide)

/-- The same for `C150_cut_lzma`. -/
example : ∃ s', (BufferedStream.ops (LzmaStream.producerSaid StringStream.ops (fun _ => "") storedLzma 9)).read
      (BufferedStream.new ⟨⟨⟨[7], 1, .eof⟩, (), [], -1, 0, false, false⟩, ""⟩) 4 4 = .ok (s', -2, []) ∧ s'.status = .error ∧ s'.error = "" :=
  C150_cut_lzma _ _ (by decide) (BufferedStream.bare_new _) rfl (by decide) rfl (i := ⟨[7], 1, .eof⟩) (d := []) (by decide) rfl (by decide)

/-- For the examples: an input that cannot be read, and says so. -/
def deadOps : StreamOps Unit UInt8 where
  read _ _ _ := .ok ((), -2, [])
  skip _ _ := .ok ((), -2)
  reset _ _ := .ok ((), -2)
  position _ := 0
  size _ := -1
  status _ := .error

theorem dead_explains : Explains deadOps (fun _ => "Could not read.") (fun _ => True) :=
  ⟨fun _ _ => ⟨trivial, fun _ => by decide⟩, fun _ _ => trivial, fun _ _ => trivial, fun _ _ => by decide⟩

/-- Over it a `BZ2InputStream` always has a text when it fails. -/
example {z : Type} (D : Decompressor z) (N : Nat) {s s' : BufferedStream (Said (Unpack.State Unit z)) UInt8} {l : List Op}
    (e : Unpack.newSaid D (BZ2.checkMagic deadOps ()) = .ok s)
    (r : run (BufferedStream.ops (Unpack.producerSaid deadOps (fun _ => "Could not read.") D false N)) s l = .ok s') (hs : s'.status = .error) :
    s'.error ≠ "" :=
  ((C150_bz2_lzma dead_explains N).1 D trivial e r hs).elim id (fun g => absurd rfl g)

/-- `SignatureInputStream` takes over the status of its input, not the text. -/
example : ∃ s, SignatureStream.read deadOps (SignatureStream.new deadOps () 0) 1 1 = .ok (s, -2, []) ∧ s.status = .error ∧ s.error = "" :=
  ⟨_, rfl, rfl, rfl⟩

end Props
end Strigi
