import Verif.Proofs.TellsErrors
import Verif.Model.Opener

/-!
# Read errors below an archive reader: C140
-/

namespace Strigi.Props

variable {σ ζ : Type} {P : StreamOps σ UInt8} {H : σ → Prop} {input : σ}

/-- **C140**, `tar`: whatever the bytes are, whatever a client does, and wherever a read error occurs: an archive whose input has failed never
looks like one that has ended, and there are no more entries. -/
theorem C140_tar (F : FailStop P H) (h : H input) (fuel : Nat) :
    TellsErrors (Tar.ops P fuel) (fun p => p.toProvider.current) P (Tar.new input) :=
  (Tar.watch F fuel).tells h (fun z => by cases z)

/-- **C140**, `cpio`. -/
theorem C140_cpio (F : FailStop P H) (h : H input) (fuel : Nat) :
    TellsErrors (Cpio.ops P fuel) (fun p => p.toProvider.current) P (Cpio.new input) :=
  (Cpio.watch F fuel).tells h (fun z => by cases z)

/-- **C140**, `ar`; the constructor reads, too. -/
theorem C140_ar (F : FailStop P H) (h : H input) (fuel : Nat) {p₀ : Ar.State σ} (e : Ar.new P input = .ok p₀) :
    TellsErrors (Ar.ops P fuel) (fun p => p.toProvider.current) P p₀ := by
  obtain ⟨a, _, c⟩ := Ar.k_new F h e
  exact (Ar.watch F fuel).tells a (fun z => absurd z c)

/-- **C140**, SD files. -/
theorem C140_sdf (F : FailStop P H) (h : H input) (fuel : Nat) :
    TellsErrors (Sdf.ops P fuel) (fun p => p.toProvider.current) P (Sdf.new input) :=
  (Sdf.watch F fuel).tells h (fun z => by cases z)

/-- **C140**, `zip`, whatever the decompressor does. -/
theorem C140_zip (F : FailStop P H) (h : H input) (D : Decompressor ζ) (mktime : TextUtils.Tm → Int) (N fuel : Nat) :
    TellsErrors (Zip.ops P D mktime N fuel) Zip.State.current P (Zip.new input) :=
  (Zip.watch F mktime fuel).tells h (fun z => by cases z)

/-- **C140**: every buffered stream is such an input, whatever its `fillBuffer()` does: a file with I/O errors, a decompressor on damaged
data, a process; and so is an in-memory stream (which never fails). -/
theorem C140_inputs :
    (∀ {φ : Type} (Q : Producer φ UInt8), FailStop (BufferedStream.ops Q) (fun _ => True)) ∧
    FailStop (StringStream.ops (α := UInt8)) (fun s => s.status ≠ .error) :=
  ⟨fun Q => BufferedStream.failStop Q, StringStream.failStop⟩

/-! ### Mails -/

/-- **C140**, mails are different: if the input of a multipart mail has failed between two parts, `nextEntry()` says that the mail has
ended. -/
theorem C140_mail_masked (F : FailStop P H) (conv : List UInt8 → List UInt8 → List UInt8) (stale : Int) (fuel : Nat)
    {p p' : Mail.State σ} (h : H p.input) (ho : p.status = .ok) (hb : p.boundary ≠ []) (hn : p.entry = none)
    (he : P.status p.input = .error) (e : Mail.nextEntry P conv stale fuel p = .ok p') :
    p'.status = .eof ∧ p'.entry = none ∧ P.status p'.input = .error := by
  have line : ∀ {s s' : Mail.State σ}, H s.input → P.status s.input = .error → Mail.readHeaderLine P stale fuel s = .ok s' →
      s'.status = .eof ∧ s'.entry = s.entry ∧ P.status s'.input = .error ∧ s'.len < 1 := by
    intro s s' h he e
    unfold Mail.readHeaderLine at e
    obtain ⟨⟨i, r⟩, e1, e⟩ := BufferedStream.bind_eq_ok e
    obtain ⟨h1, k1⟩ := F.reset h e1
    cases fuel with
    | zero => cases e
    | succ fuel =>
      unfold Mail.lineLoop at e
      obtain ⟨⟨j, n, d⟩, e2, e⟩ := BufferedStream.bind_eq_ok e
      dsimp only at e
      obtain ⟨g1, g2⟩ := F.dead h1 (k1.1 he) e2
      rw [if_pos (show n < 0 + 1 by omega)] at e
      cases e
      exact ⟨rfl, rfl, g2, show n < 1 by omega⟩
  unfold Mail.nextEntry at e
  rw [if_neg (fun z => z ho), if_neg hb] at e
  obtain ⟨s, e1, e⟩ := BufferedStream.bind_eq_ok e
  unfold Mail.leave at e1
  rw [hn] at e1
  cases e1
  rw [if_neg (fun z => z ho)] at e
  obtain ⟨t, e2, e⟩ := BufferedStream.bind_eq_ok e
  have ht : t.status = .eof ∧ t.entry = none ∧ P.status t.input = .error := by
    cases fuel with
    | zero => cases e2
    | succ fuel =>
      unfold Mail.scanBody at e2
      rw [if_pos ho] at e2
      obtain ⟨u, e3, e2⟩ := BufferedStream.bind_eq_ok e2
      obtain ⟨a1, a2, a3, a4⟩ := line h he e3
      obtain ⟨⟨v, b⟩, e4, e2⟩ := BufferedStream.bind_eq_ok e2
      have hd : Mail.isDashed u = .ok false := by
        unfold Mail.isDashed
        rw [if_neg (by omega)]
      unfold Mail.bodyLine at e4
      rw [hd] at e4
      cases e4
      dsimp only at e2
      rw [if_neg (show ¬ (false = true) by simp)] at e2
      cases fuel with
      | zero => cases e2
      | succ fuel =>
        unfold Mail.scanBody at e2
        rw [if_neg (by rw [a1]; simp)] at e2
        cases e2
        exact ⟨a1, a2.trans hn, a3⟩
  cases e
  unfold Mail.found
  rw [ht.2.1]
  exact ⟨rfl, rfl, ht.2.2⟩

/-- **C140**, mails: neither does the constructor tell that the input has failed. -/
theorem C140_mail_new_masked (F : FailStop P H) (conv : List UInt8 → List UInt8 → List UInt8) (stale : Int) (fuel : Nat)
    {p' : Mail.State σ} (h : H input) (he : P.status input = .error) (e : Mail.new P conv stale fuel input = .ok p') :
    p'.status = .eof ∧ P.status p'.input = .error := by
  unfold Mail.new Mail.readHeader at e
  obtain ⟨s, e1, e⟩ := BufferedStream.bind_eq_ok e
  have hs : s.status = .eof ∧ P.status s.input = .error := by
    unfold Mail.readHeaderLine at e1
    obtain ⟨⟨i, r⟩, e2, e1⟩ := BufferedStream.bind_eq_ok e1
    obtain ⟨h1, k1⟩ := F.reset h e2
    cases fuel with
    | zero => cases e1
    | succ fuel =>
      unfold Mail.lineLoop at e1
      obtain ⟨⟨j, n, d⟩, e3, e1⟩ := BufferedStream.bind_eq_ok e1
      dsimp only at e1
      obtain ⟨g1, g2⟩ := F.dead h1 (k1.1 he) e3
      rw [if_pos (show n < 0 + 1 by omega)] at e1
      cases e1
      exact ⟨rfl, g2⟩
  cases fuel with
  | zero => cases e
  | succ fuel =>
    unfold Mail.headerLoop at e
    rw [if_neg (by rw [hs.1]; simp)] at e
    cases e
    exact hs

/-! ### Examples -/

/-- A file of which only the first bytes can be read. -/
abbrev badDisk : StreamOps (BufferedStream (Option (CFile UInt8)) UInt8) UInt8 := BufferedStream.ops (FileInputStream.producerIO true)

/-- A `cpio` header of a file `a` of 4 bytes. -/
def cpioSample : List UInt8 :=
  [48, 55, 48, 55, 48, 49] ++ List.replicate 40 48 ++ List.replicate 8 48 ++ [48, 48, 48, 48, 48, 48, 48, 52] ++ List.replicate 32 48 ++
    [48, 48, 48, 48, 48, 48, 48, 50] ++ List.replicate 8 48 ++ [97, 0, 1, 2]

/-- The file behind the archive can be read up to the middle of the only member: there is an entry, and then an error (not the end). -/
example : (do let f ← FileInputStream.new cpioSample 64 true 200
              let p ← Cpio.nextEntry badDisk 100 (Cpio.new f)
              let q ← Cpio.nextEntry badDisk 100 p
              .ok (p.entry.isSome, badDisk.status p.toProvider.current, q.entry.isSome, q.status, badDisk.status q.toProvider.current) : Res _) =
    .ok (true, .ok, false, .error, .error) := by decide +kernel

/-- `Content-Type: multipart/mixed; boundary=x`, and an empty line. -/
def mailSample : List UInt8 :=
  [67, 111, 110, 116, 101, 110, 116, 45, 84, 121, 112, 101, 58, 32, 109, 117, 108, 116, 105, 112, 97, 114, 116, 47, 109, 105, 120, 101, 100,
   59, 32, 98, 111, 117, 110, 100, 97, 114, 121, 61, 120, 13, 10, 13, 10, 45]

/-- A mail of which only the header can be read: it looks like a mail without parts. -/
example : (do let f ← FileInputStream.new mailSample 46 true 200
              let p ← Mail.new badDisk (fun _ t => t) 0 100 f
              let q ← Mail.nextEntry badDisk (fun _ t => t) 0 100 p
              .ok (p.status, p.boundary, q.entry.isSome, q.status, badDisk.status q.input) : Res _) =
    .ok (.ok, [[120]], false, .eof, .error) := by decide +kernel

end Strigi.Props
