import Verif.Proofs.MailSafe
import Verif.Proofs.RewindStreams
import Verif.Props.ArchiveSafe
import Verif.Props.Mail
import Verif.Proofs.StringTerminated

/-!
# The mail reader on arbitrary bytes: C132, and what `read` does with a maximum below the minimum: C133
-/

namespace Strigi.Props

variable {σ : Type} {P : StreamOps σ UInt8} {c : List UInt8} {input : σ}

/-- A new buffered file. -/
theorem file_new (c : List UInt8) (bufsize : Int) (seekable : Bool) : ∃ s sz, FileInputStream.new c bufsize seekable = .ok s ∧ s.pos = 0 ∧
    (sz = -1 ∨ sz = (c.length : Int)) ∧ BufferedStream.Inv FileInputStream.Rest c s ∧ BufferedStream.SizeOk c sz s := by
  have hR : FileInputStream.Rest (some ⟨c, 0⟩) c (c.length + 2) := ⟨by simp, by simp, by simp, by simp⟩
  unfold FileInputStream.new
  dsimp only
  obtain ⟨sz, hsz⟩ : ∃ sz : Int, sz = (if ¬ seekable then -1 else
    if (c.length : Int) = 0 ∧ c.length ≥ 1 then -1 else (c.length : Int)) := ⟨_, rfl⟩
  rw [← hsz]
  have hs : sz = -1 ∨ sz = c.length := by
    split at hsz
    · omega
    · split at hsz <;> omega
  by_cases h0 : sz = 0
  · rw [if_pos h0]
    have hc : c = [] := List.eq_nil_of_length_eq_zero (by omega)
    subst hc
    have hh := BufferedStream.healthy_new (m := 0) (show FileInputStream.Rest (α := UInt8) none [] 0 from ⟨rfl, rfl⟩) 0
    exact ⟨_, 0, rfl, rfl, Or.inr rfl, hh.1, hh.2.1⟩
  · rw [if_neg h0]
    obtain ⟨s, e, hp, hh⟩ := BufferedStream.setMinBufSize_healthy hR sz (if sz ≤ bufsize then sz + 1 else bufsize)
    exact ⟨s, sz, e, hp, hs, hh.1, hh.2.1⟩

/-! ## C132 -/

/-- **C132**: whatever the bytes of a file (below 2 GB) are, whatever `iconv` does with the header values and whatever the uninitialised
member of the reader contains, `MailInputStream` reads the header, and then every call of `nextEntry()`, `read` (minimum at most 1 GB, no
maximum or one not below the minimum), `skip` and `reset` returns: nothing outside of objects is touched, no assertion fails, nothing loops
for ever.  There are at most as many entries as four times their number fit into the file (or one, the body of a mail without parts). -/
theorem C132_mail {H : σ → Prop} {W : σ → Int → Int → Prop} {lo : Int} (hlo : lo ≤ 1) (R : Robust P c lo H)
    (hs : ∀ s, H s → P.status s ≠ .error) (hw : Rewinds P H W) (hc : c.length < 2 ^ 31) (hi : H input) (h0 : P.position input = 0)
    (conv : List UInt8 → List UInt8 → List UInt8) (stale : Int) (N fuel : Nat) (hN : 4 * c.length + 3 < N) (hf : c.length + 1 < fuel) :
    ∃ p₀, Mail.new P conv stale fuel input = .ok p₀ ∧ ∀ n p, VisitsBy MildRead (Mail.ops P conv stale N fuel) p₀ n p →
      SmoothBy MildRead (Mail.ops P conv stale N fuel) p ∧ (n ≤ 1 ∨ 4 * n ≤ c.length) := by
  have E : Env P c lo H W := ⟨R, hlo, hs, hw, hc⟩
  obtain ⟨p₀, e, g1, g2, g3⟩ := Mail.new_total E conv stale hf hi h0
  refine ⟨p₀, e, fun n p hv => ?_⟩
  obtain ⟨h1, h2⟩ := (Mail.tame E conv stale hN (Nat.le_refl (3 * c.length)) hf).smooth (Mail.Ok.fresh g3 rfl g1 g2) hv
  exact ⟨h2, Mail.ok_count h1⟩

/-- **C132**, the streams: the in-memory stream, the mapped file, the file read with `fseeko` and the buffered file (whatever its buffer
size; the size of the file may be unknown) are inputs as C132 wants them. -/
theorem C132_streams (c : List UInt8) (hc : c.length < 2 ^ 31) :
    (∃ H W, Robust StringStream.ops c 1 H ∧ (∀ s, H s → StringStream.ops.status s ≠ .error) ∧ Rewinds StringStream.ops H W ∧
      H (StringStream.new c)) ∧
    (∃ H W, Robust MMapStream.ops c 0 H ∧ (∀ s, H s → MMapStream.ops.status s ≠ .error) ∧ Rewinds MMapStream.ops H W ∧
      H (MMapStream.new c)) ∧
    (∃ H W, Robust SkippingFile.ops c 1 H ∧ (∀ s, H s → SkippingFile.ops.status s ≠ .error) ∧ Rewinds SkippingFile.ops H W ∧
      H (SkippingFile.new c)) ∧
    (∀ (bufsize : Int) (seekable : Bool), ∃ s H W, FileInputStream.new c bufsize seekable = .ok s ∧ s.pos = 0 ∧
      Robust (BufferedStream.ops FileInputStream.producer) c 1 H ∧
      (∀ s, H s → (BufferedStream.ops FileInputStream.producer).status s ≠ .error) ∧
      Rewinds (BufferedStream.ops FileInputStream.producer) H W ∧ H s) := by
  refine ⟨⟨_, _, StringStream.robust c hc 1, fun s h => h.2.2.2, StringStream.rewinds c hc, by simp [StringStream.new]⟩,
    ⟨_, _, MMapStream.robust c, fun s h => h.st, MMapStream.rewinds c, MMapStream.Inv.new c⟩,
    ⟨_, _, SkippingFile.robust c 1, fun s h => h.st, SkippingFile.rewinds c, SkippingFile.Inv.new c⟩, ?_⟩
  intro bufsize seekable
  obtain ⟨s, sz, e, hp, hs, h1, h2⟩ := file_new c bufsize seekable
  exact ⟨s, _, _, e, hp, BufferedStream.robust FileInputStream.produces c sz hs 1, fun s h => h.1.st,
    BufferedStream.rewinds FileInputStream.produces c sz hs, h1, h2⟩

/-- An arbitrary file: the mail of C83 with the delimiter behind the second part cut in two, and rubbish behind it. -/
def brokenMail : List UInt8 := exampleMail.take (exampleMail.length - 6) ++ List.replicate 40 255

/-- C132 on this file, from a mapped file: there are two entries, and a client can read the first one. -/
example (conv : List UInt8 → List UInt8 → List UInt8) (stale : Int) :
    (∃ p₀, Mail.new MMapStream.ops conv stale 1000 (MMapStream.new brokenMail) = .ok p₀ ∧
      ∀ n p, VisitsBy MildRead (Mail.ops MMapStream.ops conv stale 1000 1000) p₀ n p →
        SmoothBy MildRead (Mail.ops MMapStream.ops conv stale 1000 1000) p ∧ (n ≤ 1 ∨ 4 * n ≤ brokenMail.length)) ∧
    (do
      let p ← Mail.new MMapStream.ops (fun _ x => x) 0 1000 (MMapStream.new brokenMail)
      let p ← Mail.nextEntry MMapStream.ops (fun _ x => x) 0 1000 p
      match p.entry with
      | none => .diverge
      | some e => do
        let (e, n, d) ← (Mail.entryOps MMapStream.ops 1000).read e 1 0
        let p ← Mail.nextEntry MMapStream.ops (fun _ x => x) 0 1000 { p with entry := some e }
        .ok (n, d, p.entry.isSome)) = .ok (1, [104], true) := by
  constructor
  · obtain ⟨H, W, R, h1, h2, h3⟩ := (C132_streams brokenMail (by decide +kernel)).2.1
    exact C132_mail (by omega) R h1 h2 (by decide +kernel) h3 rfl conv stale 1000 1000 (by decide +kernel) (by decide +kernel)
  · decide +kernel

/-! ## C133 -/

/-- **C133**: on a mapped file, a file read with `fseeko` and a buffered file a maximum below the minimum is no limit: a `read` that
delivers less than the minimum has met the end, whatever the maximum is, and whatever was done before (`H` holds for a new stream and is
kept by all calls). -/
theorem C133_no_limit (c : List UInt8) :
    (∃ H, Robust MMapStream.ops c 0 H ∧ H (MMapStream.new c) ∧ ∀ s s' mn mx n d, H s → 1 ≤ mn → mn < 2 ^ 31 →
      MMapStream.ops.read s mn mx = .ok (s', n, d) → n < mn → s'.status = .eof ∧ s'.pos = c.length) ∧
    (∃ H, Robust SkippingFile.ops c 1 H ∧ H (SkippingFile.new c) ∧ ∀ s s' mn mx n d, H s → 1 ≤ mn → mn < 2 ^ 31 →
      SkippingFile.ops.read s mn mx = .ok (s', n, d) → n < mn → s'.status = .eof ∧ s'.pos = c.length) ∧
    (∀ (bufsize : Int) (seekable : Bool), ∃ s₀ H, FileInputStream.new c bufsize seekable = .ok s₀ ∧
      Robust (BufferedStream.ops FileInputStream.producer) c 1 H ∧ H s₀ ∧ ∀ s s' mn mx n d, H s → 1 ≤ mn → mn < 2 ^ 31 →
      (BufferedStream.ops FileInputStream.producer).read s mn mx = .ok (s', n, d) → n < mn → s'.status = .eof ∧ s'.pos = c.length) := by
  have key : ∀ {st : Status} {p : Int}, st ≠ .ok → st ≠ .error → (st = .error ∨ p = c.length) → st = .eof ∧ p = c.length := by
    intro st p h1 h2 h3
    refine ⟨?_, h3.resolve_left h2⟩
    cases st <;> simp_all
  refine ⟨⟨_, MMapStream.robust c, MMapStream.Inv.new c, ?_⟩, ⟨_, SkippingFile.robust c 1, SkippingFile.Inv.new c, ?_⟩, ?_⟩
  · intro s s' mn mx n d h h1 h2 e hn
    obtain ⟨g1, g2⟩ := MMapStream.short_any h h1 e hn
    obtain ⟨s1, n1, d1, e1, h', _⟩ := (MMapStream.robust c).read h mn mx (by omega) h2
    rw [e] at e1; cases e1
    exact key g1 h'.st g2
  · intro s s' mn mx n d h h1 h2 e hn
    obtain ⟨g1, g2⟩ := SkippingFile.short_any h h1 e hn
    obtain ⟨s1, n1, d1, e1, h', _⟩ := (SkippingFile.robust c 1).read h mn mx (by omega) h2
    rw [e] at e1; cases e1
    exact key g1 h'.st g2
  · intro bufsize seekable
    obtain ⟨s₀, sz, e, hp, hs, h1, h2⟩ := file_new c bufsize seekable
    refine ⟨s₀, _, e, BufferedStream.robust FileInputStream.produces c sz hs 1, ⟨h1, h2⟩, ?_⟩
    intro s s' mn mx n d h h1 h2 e hn
    obtain ⟨g1, g2⟩ := BufferedStream.short_any FileInputStream.produces c sz hs h h1 e hn
    obtain ⟨s1, n1, d1, e1, h', _⟩ := (BufferedStream.robust FileInputStream.produces c sz hs 1).read h mn mx (by omega) h2
    rw [e] at e1; cases e1
    exact key g1 h'.1.st g2

/-- **C133**, the exception of C02: the in-memory stream takes a maximum below the minimum as a limit, and delivers less than the minimum
although there is more. -/
theorem C133_string_limit (c : List UInt8) (mn mx : Int) (h0 : 0 < mx) (_h1 : mx < mn) (h2 : mx < c.length) :
    ∃ s, StringStream.ops.read (StringStream.new c) mn mx = .ok (s, mx, c.take mx.toNat) ∧ s.status = .ok := by
  simp only [StringStream.ops, StringStream.new, StringStream.read]
  rw [if_neg (by omega)]
  have e : (if mx > (c.length : Int) - 0 ∨ mx < 1 then (c.length : Int) - 0 else mx) = mx := if_neg (by omega)
  rw [e]
  refine ⟨⟨c, 0 + mx, .ok⟩, ?_, rfl⟩
  rw [if_neg (by omega)]
  simp [slice]

/-- **C133**, a second exception: a part that ends with a text, on an in-memory stream.  If the text is not there and less than the
minimum plus the length of the text is left, a maximum below the minimum limits the `read` as well. -/
theorem C133_terminated_limit (c q : List UInt8) (hq : q ≠ []) (hn : ∀ p, ¬ OccursAt q c p) (mn mx : Int) (h0 : 0 < mx) (h1 : mx < mn)
    (h2 : mx < c.length) (h3 : (c.length : Int) < mn + q.length) :
    ∃ s s', StringTerminated.new StringStream.ops (StringStream.new c) q = .ok s ∧
      StringTerminated.read StringStream.ops s mn mx = .ok (s', mx, c.take mx.toNat) ∧ s'.status = .ok := by
  obtain ⟨k, ek, hk⟩ := Kmp.setQuery_spec hq
  have hkq : k.query = q := hk.1
  have eN : StringTerminated.new StringStream.ops (StringStream.new c) q = .ok ⟨StringStream.new c, k, 0, 0, 0, -1, .ok⟩ := by
    unfold StringTerminated.new
    rw [ek]
    rfl
  obtain ⟨r, er, hr, _⟩ := search_spec (hay := c) hq hk
  have hr0 : r = none := by
    cases r with
    | none => rfl
    | some p =>
      obtain ⟨m, rfl⟩ := occ_nonneg (hr p rfl)
      exact absurd ((occ_iff m).1 (hr m rfl)) (hn m)
  subst hr0
  have hc : 0 < c.length := by omega
  have e1 : StringStream.ops.read (StringStream.new c) (mn + q.length) (mn + q.length) = .ok (⟨c, c.length, .eof⟩, c.length, c) := by
    simp only [StringStream.ops, StringStream.new, StringStream.read]
    rw [if_neg (by omega)]
    have e : (if mn + (q.length : Int) > (c.length : Int) - 0 ∨ mn + (q.length : Int) < 1 then (c.length : Int) - 0 else mn + q.length) = c.length := by
      rw [if_pos (by omega)]; omega
    rw [e]
    simp [slice]
  have e2 : StringStream.ops.reset (⟨c, c.length, .eof⟩ : StringStream UInt8) (0 + mx) = .ok (⟨c, 0 + mx, .ok⟩, 0 + mx) := by
    simp only [StringStream.ops, StringStream.reset]
    rw [if_neg (by omega), if_pos (by omega)]
  refine ⟨_, ⟨⟨c, 0 + mx, .ok⟩, k, 0, 0 + c.length, 0 + mx, -1, .ok⟩, eN, ?_, rfl⟩
  unfold StringTerminated.read
  have ep : StringStream.ops.position (StringStream.new c) = 0 := rfl
  have en : narrow32 (0 - 0) = 0 := by decide
  dsimp only
  rw [ep, en, if_neg (by simp), if_neg (by simp), if_neg (by omega), hkq]
  rw [if_neg (show ¬ mn = 0 by omega), if_pos (show mx > 0 ∧ mx < mn + (q.length : Int) by omega), e1, Res.bind_ok]
  dsimp only
  rw [if_neg (by omega), if_neg (by omega), er, Res.bind_ok]
  dsimp only
  rw [if_neg (by omega), if_pos (by omega), e2, Res.bind_ok]
  simp only [StringTerminated.finish]
  rw [if_pos h0, if_neg (by simp)]

/-- **C133**, a negative maximum on such a part: the code goes back in front of the part.  The stream says that it delivered -3 bytes and
that all is well (in-memory stream), or an assertion fails (buffered file). -/
theorem C133_terminated_negative :
    (do
      let s ← StringTerminated.new StringStream.ops (StringStream.new [97, 98, 99, 100, 101, 102]) [45, 45]
      let (s, n, d) ← StringTerminated.read StringStream.ops s 5 (-3)
      .ok (n, d, s.status)) = .ok (-3, [], .ok) ∧
    (do
      let p ← FileInputStream.new [97, 98, 99, 100, 101, 102] 1024
      let s ← StringTerminated.new (BufferedStream.ops FileInputStream.producer) p [45, 45]
      let (_, n, _) ← StringTerminated.read (BufferedStream.ops FileInputStream.producer) s 5 (-3)
      .ok n) = .fault .assertion := by
  constructor <;> decide +kernel

end Strigi.Props
