import Verif.Proofs.Opener
import Verif.Props.FileStreams

/-!
# C120–C122: `FileStreamOpener`, and files with I/O errors or with a changing size
-/

namespace Strigi.Props

open FileInputStream

variable {α : Type}

/-- `name` is what follows the last `/` of `url` (all of `url` if it has none). -/
def LastComponent (url name : List UInt8) : Prop :=
  (47 : UInt8) ∉ name ∧ (url = name ∨ ∃ dir, url = dir ++ 47 :: name)

/-- The path that the operating system is asked for: the url up to its first zero byte. -/
def PathOf (url path : List UInt8) : Prop :=
  (0 : UInt8) ∉ path ∧ (url = path ∨ ∃ rest, url = path ++ 0 :: rest)

theorem cstr_path (url : List UInt8) : PathOf url (FileStreamOpener.cstr url) := by
  unfold FileStreamOpener.cstr PathOf
  induction url with
  | nil => simp
  | cons a l ih =>
    by_cases h : a = 0
    · subst h; simp
    · rw [List.takeWhile_cons_of_pos (by simpa using h)]
      obtain ⟨i1, i2⟩ := ih
      refine ⟨by simp only [List.mem_cons, not_or]; exact ⟨fun z => h z.symm, i1⟩, ?_⟩
      rcases i2 with i2 | ⟨r, i2⟩
      · left; rw [← i2]
      · right; exact ⟨r, by rw [List.cons_append, ← i2]⟩

theorem pathOf_unique {url p q : List UInt8} (hp : PathOf url p) (hq : PathOf url q) : p = q := by
  induction url generalizing p q with
  | nil =>
    rcases hp with ⟨_, e | ⟨r, e⟩⟩ <;> rcases hq with ⟨_, e' | ⟨r', e'⟩⟩
    · rw [← e, ← e']
    · simp at e'
    · simp at e
    · simp at e
  | cons a l ih =>
    have step : ∀ {p : List UInt8}, PathOf (a :: l) p → (a = 0 ∧ p = []) ∨
        (a ≠ 0 ∧ ∃ p', p = a :: p' ∧ PathOf l p') := by
      intro p h
      cases p with
      | nil =>
        rcases h with ⟨_, e | ⟨r, e⟩⟩
        · simp at e
        · left; simp only [List.nil_append, List.cons.injEq] at e; exact ⟨e.1, rfl⟩
      | cons b p =>
        obtain ⟨n, e⟩ := h
        have hab : a = b := by
          rcases e with e | ⟨r, e⟩
          · simp only [List.cons.injEq] at e; exact e.1
          · simp only [List.cons_append, List.cons.injEq] at e; exact e.1
        subst hab
        right
        refine ⟨fun z => n (by rw [z]; exact List.mem_cons_self), p, rfl, ?_, ?_⟩
        · intro z; exact n (List.mem_cons_of_mem _ z)
        · rcases e with e | ⟨r, e⟩
          · simp only [List.cons.injEq, true_and] at e; exact Or.inl e
          · simp only [List.cons_append, List.cons.injEq, true_and] at e; exact Or.inr ⟨r, e⟩
    rcases step hp with ⟨a0, rfl⟩ | ⟨a1, p', rfl, hp'⟩ <;>
      rcases step hq with ⟨b0, rfl⟩ | ⟨b1, q', rfl, hq'⟩
    · rfl
    · exact absurd a0 b1
    · exact absurd b0 a1
    · rw [ih hp' hq']

/-- **C120**: an url whose file cannot be opened gives no stream. -/
theorem C120_none (fs : FileSystem) (url path : List UInt8) (hp : PathOf url path)
    (h : fs.fopen path = none) : FileStreamOpener.openStream fs url = .ok none := by
  rw [pathOf_unique hp (cstr_path url)] at h
  simp [FileStreamOpener.openStream, FileStreamOpener.newFile, h]

/-- **C120**: an url whose file can be opened gives a stream over the bytes of the file, also where the
system reports the size `0` for a file that is not empty. -/
theorem C120_open (fs : FileSystem) (url path : List UInt8) (hp : PathOf url path) (f : OnDisk)
    (h : fs.fopen path = some f) (hb : f.broken = false)
    (hr : f.reported = 0 ∨ f.reported = f.bytes.length) :
    ∃ s, FileStreamOpener.openStream fs url = .ok (some (false, s)) ∧
      IsStream (BufferedStream.ops (producerIO false)) f.bytes .never True s := by
  rw [pathOf_unique hp (cstr_path url)] at h
  obtain ⟨s, e, i⟩ := C63_file_isStream f.bytes 1048576 f.seekable f.reported hr
  have st := (new_status e).1
  refine ⟨s, ?_, by rw [producerIO_false]; exact i⟩
  simp [FileStreamOpener.openStream, FileStreamOpener.newFile, h, e, st, hb]

/-- **C120**: whatever can be opened gives a stream, also a directory. -/
theorem C120_some (fs : FileSystem) (url path : List UInt8) (hp : PathOf url path) (f : OnDisk)
    (h : fs.fopen path = some f) :
    ∃ s, FileStreamOpener.openStream fs url = .ok (some (f.broken, s)) := by
  rw [pathOf_unique hp (cstr_path url)] at h
  have : ∃ s, FileInputStream.new f.bytes 1048576 f.seekable f.reported = .ok s := by
    by_cases h0 : (if ¬ f.seekable then -1 else
        if f.reported = 0 ∧ f.bytes.length ≥ 1 then -1 else f.reported) = (0 : Int)
    · unfold FileInputStream.new
      dsimp only
      rw [if_pos h0]
      exact ⟨_, rfl⟩
    · have hR : FileInputStream.Rest (some ⟨f.bytes, 0⟩) f.bytes (f.bytes.length + 2) := by
        refine ⟨by simp, by simp, by simp, by simp⟩
      obtain ⟨s, e, _⟩ := new_healthy hR 1048576 f.seekable f.reported h0
      exact ⟨s, e⟩
  obtain ⟨s, e⟩ := this
  have st := (new_status e).1
  exact ⟨s, by simp [FileStreamOpener.openStream, FileStreamOpener.newFile, h, e, st]⟩

theorem filename_last (url : List UInt8) : LastComponent url
    (match FileStreamOpener.rfindSlash url with
      | none => url
      | some p => url.drop (p + 1)) := by
  unfold FileStreamOpener.rfindSlash
  cases hf : url.reverse.findIdx? (· == 47) with
  | none =>
    rw [List.findIdx?_eq_none_iff] at hf
    refine ⟨?_, Or.inl rfl⟩
    intro z
    have := hf 47 (by simpa using z)
    simp at this
  | some i =>
    rw [List.findIdx?_eq_some_iff_getElem] at hf
    obtain ⟨hi, h1, h2⟩ := hf
    rw [List.length_reverse] at hi
    simp only [List.getElem_reverse] at h1
    have h47 : url[url.length - 1 - i] = 47 := by simpa using h1
    simp only
    refine ⟨?_, Or.inr ⟨url.take (url.length - 1 - i), ?_⟩⟩
    · intro z
      obtain ⟨j, hj, ej⟩ := List.getElem_of_mem z
      rw [List.length_drop] at hj
      rw [List.getElem_drop] at ej
      have := h2 (url.length - 1 - (url.length - 1 - i + 1 + j)) (by omega)
      rw [List.getElem_reverse] at this
      have e : url.length - 1 - (url.length - 1 - (url.length - 1 - i + 1 + j)) =
          url.length - 1 - i + 1 + j := by omega
      simp only [e, ej] at this
      simp at this
    · rw [← h47, List.getElem_cons_drop, List.take_append_drop]

/-- **C120**: `stat` fails exactly if the system does. -/
theorem C120_stat_fails (fs : FileSystem) (url path : List UInt8) (hp : PathOf url path) (e : EntryInfo) :
    FileStreamOpener.stat fs url e = none ↔ fs.stat path = none := by
  rw [pathOf_unique hp (cstr_path url)]
  unfold FileStreamOpener.stat
  cases fs.stat (FileStreamOpener.cstr url) <;> simp

/-- **C120**: otherwise it tells the size, the time, the last component of the url, and whether this is a
file (type bits 8 of the mode), a directory (4) or something else. -/
theorem C120_stat (fs : FileSystem) (url path : List UInt8) (hp : PathOf url path) (e e' : EntryInfo)
    (s : Stat) (h : fs.stat path = some s) (he : FileStreamOpener.stat fs url e = some e') :
    e'.size = s.size ∧ e'.mtime = s.mtime ∧ LastComponent url e'.filename ∧
      (e'.type = .file ↔ s.mode / 4096 % 16 = 8) ∧ (e'.type = .dir ↔ s.mode / 4096 % 16 = 4) := by
  rw [pathOf_unique hp (cstr_path url)] at h
  unfold FileStreamOpener.stat at he
  rw [h] at he
  cases he
  have key : s.mode &&& 0xF000 = (s.mode / 4096 % 16) * 4096 := by
    have h1 : s.mode &&& 0xF000 = ((s.mode >>> 12) &&& 0xF) <<< 12 := by
      apply Nat.eq_of_testBit_eq
      intro i
      simp only [Nat.testBit_and, Nat.testBit_shiftLeft, Nat.testBit_shiftRight]
      by_cases hi : 12 ≤ i
      · rw [show 12 + (i - 12) = i by omega]
        have : Nat.testBit 0xF000 i = Nat.testBit 0xF (i - 12) := by
          rw [show (0xF000 : Nat) = 0xF <<< 12 by rfl, Nat.testBit_shiftLeft]
          simp [hi]
        rw [this]; simp [hi]
      · have : Nat.testBit 0xF000 i = false := by
          rw [show (0xF000 : Nat) = 0xF <<< 12 by rfl, Nat.testBit_shiftLeft]
          simp [hi]
        rw [this]; simp [hi]
    rw [h1, Nat.shiftLeft_eq, Nat.shiftRight_eq_div_pow]
    rw [show (0xF : Nat) = 2 ^ 4 - 1 by rfl, Nat.and_two_pow_sub_one_eq_mod]
  refine ⟨rfl, rfl, filename_last url, ?_, ?_⟩
  · simp only [key]
    constructor
    · intro z; split at z
      · omega
      · split at z <;> cases z
    · intro z; rw [if_pos (by omega)]
  · simp only [key]
    constructor
    · intro z; split at z
      · cases z
      · split at z
        · omega
        · cases z
    · intro z; rw [if_neg (by omega), if_pos (by omega)]

/-- **C120**: an url with a slash at its end has an empty file name. -/
theorem C120_trailing_slash (fs : FileSystem) (dir path : List UInt8) (hp : PathOf (dir ++ [47]) path)
    (e e' : EntryInfo) (he : FileStreamOpener.stat fs (dir ++ [47]) e = some e') : e'.filename = [] := by
  cases h : fs.stat path with
  | none => rw [(C120_stat_fails fs _ path hp e).2 h] at he; cases he
  | some s =>
    obtain ⟨_, _, ⟨h1, h2⟩, _⟩ := C120_stat fs _ path hp e e' s h he
    have hl : ∀ (l : List UInt8), (dir ++ [47]) = l → (47 : UInt8) ∉ e'.filename →
        (∃ d, l = d ++ 47 :: e'.filename) → e'.filename = [] := by
      intro l hl n ⟨d, hd⟩
      rw [← hl] at hd
      rcases List.eq_nil_or_concat e'.filename with z | ⟨f, a, z⟩
      · exact z
      · rw [z, List.concat_eq_append] at hd n
        have : dir ++ [47] = (d ++ 47 :: f) ++ [a] := by rw [hd]; simp
        have := (List.append_inj' this rfl).2
        simp only [List.cons.injEq, and_true] at this
        exact absurd (by simp [this]) n
    rcases h2 with h2 | h2
    · exact absurd (by rw [← h2]; simp) h1
    · exact hl _ rfl h1 h2

/-- A file system for the examples: `a/b` is a file with the bytes 1, 2; `a` is a directory. -/
def exFs : FileSystem where
  fopen p := if p = [97, 47, 98] then some ⟨[1, 2], false, true, 2⟩ else
    if p = [97] then some ⟨[], true, true, 4096⟩ else none
  stat p := if p = [97, 47, 98] then some ⟨0x81A4, 2, 7⟩ else
    if p = [97] then some ⟨0x41ED, 4096, 8⟩ else none

example : FileStreamOpener.stat exFs [97, 47, 98] {} = some ⟨[98], 2, 7, .file⟩ := by decide
example : FileStreamOpener.stat exFs [97, 0, 47, 98] {} = some ⟨[98], 4096, 8, .dir⟩ := by decide
example : PathOf [97, 0, 47, 98] [97] := ⟨by decide, Or.inr ⟨[47, 98], rfl⟩⟩
example : (do match ← FileStreamOpener.openStream exFs [97, 47, 98] with
              | some (b, s) => do
                let r ← (BufferedStream.ops (producerIO b)).read s 2 0
                .ok r.2
              | none => .ok (7, []) : Res _) = .ok (2, [1, 2]) := by decide

/-! ### I/O errors -/

/-- **C121**: a file whose readable bytes `t` are followed by an I/O error is, up to the first reported
error, a stream over `t` followed by anything: only bytes of the file are delivered, and the end of the
stream is never reported.  (Except where not a single byte can be read and the system reports the size 0, see
`C121_hidden`.) -/
theorem C121_broken (t junk : List α) (buffersize : Int) (seekable : Bool) (reported : Int)
    (h : ¬ (seekable = true ∧ reported = 0 ∧ t = [])) :
    ∃ s, FileInputStream.new t buffersize seekable reported = .ok s ∧
      IsStream (BufferedStream.ops (producerIO true)) (t ++ junk) .always True s := by
  have hR : RestIO junk (some ⟨t, 0⟩) (t ++ junk) (t.length + 2) := by
    refine ⟨by simp, by simp, by simp, by simp⟩
  have h0 : (if ¬ seekable then -1 else if reported = 0 ∧ t.length ≥ 1 then -1 else reported) ≠ (0 : Int) := by
    intro z
    apply h
    split at z
    · omega
    · rename_i hs
      split at z
      · omega
      · rename_i hr
        refine ⟨by simpa using hs, z, ?_⟩
        apply List.eq_nil_of_length_eq_zero
        omega
  obtain ⟨s, e, hh⟩ := new_healthy hR buffersize seekable reported h0
  have p := (new_status e).2.1
  refine ⟨s, e, ?_⟩
  have C := BufferedStream.contract (producesIO junk) (t ++ junk)
    (if ¬ seekable then -1 else if reported = 0 ∧ t.length ≥ 1 then -1 else reported)
  have hf : ∀ sz, BufferedStream.fails True (t ++ junk) sz = .always := by
    intro sz; simp [BufferedStream.fails, Failure.always]
  rw [hf] at C
  refine C.isStream (fun _ => BufferedStream.softReset _ _ _ _) ?_
  simp only [BufferedStream.ops, p]
  exact hh

/-- **C121**: such an error is reported: after any calls that reported no error, a read that asks for more
bytes than can be read fails, with `Error` and a result below `-1`. -/
theorem C121_reported (t : List α) [Inhabited α] (buffersize : Int) (seekable : Bool) (reported : Int)
    (h : ¬ (seekable = true ∧ reported = 0 ∧ t = [])) :
    ∃ s, FileInputStream.new t buffersize seekable reported = .ok s ∧
      ∀ (s' : BufferedStream (Option (CFile α)) α) (lo hi mn mx : Int),
        Reaches (BufferedStream.ops (producerIO true)) s s' lo hi →
        1 ≤ mn → (mx = 0 ∨ mn ≤ mx) → s'.pos + mn > t.length →
        ∃ s2 n d, (BufferedStream.ops (producerIO true)).read s' mn mx = .ok (s2, n, d) ∧ n < -1 ∧
          s2.status = .error := by
  obtain ⟨s, e, i0⟩ := C121_broken t [] buffersize seekable reported h
  obtain ⟨s1, e1, i1⟩ := C121_broken t [default] buffersize seekable reported h
  rw [e] at e1; cases e1
  refine ⟨s, e, ?_⟩
  intro s' lo hi mn mx hr h1 h2 h3
  have C0 := Contract.of_behaves (BufferedStream.ops (producerIO true)) (t ++ ([] : List α)) .always True
  have C1 := Contract.of_behaves (BufferedStream.ops (producerIO true)) (t ++ [default]) .always True
  have r0 := C0.reaches i0 hr
  have r1 := C1.reaches i1 hr
  obtain ⟨s2, n, d, e2, k0, _⟩ := C0.read r0 h1 h2
  obtain ⟨s3, n', d', e3, k1, _⟩ := C1.read r1 h1 h2
  rw [e2] at e3; cases e3
  refine ⟨s2, n, d, e2, ?_⟩
  simp only [BufferedStream.ops] at k0 k1
  cases k0 with
  | failed a b c => exact ⟨b, c⟩
  | data pos items inside adv limit enough st =>
    cases k1 with
    | failed a b c => exact ⟨b, c⟩
    | data pos' items' inside' adv' limit' enough' st' =>
      simp only [List.length_append, List.length_nil, List.length_singleton] at *
      omega
    | ended none nodata atEnd stay st => omega
  | ended none nodata atEnd stay st =>
    cases k1 with
    | failed a b c => exact ⟨b, c⟩
    | data pos' items' inside' adv' limit' enough' st' => omega
    | ended none' nodata' atEnd' stay' st' =>
      simp only [List.length_append, List.length_nil, List.length_singleton] at *
      omega

/-- **C121**: the exception: if nothing can be read and the system reports the size 0 (a directory of `/proc`,
say), the stream is an empty stream; the error is not reported. -/
theorem C121_hidden (buffersize : Int) :
    ∃ s, FileInputStream.new ([] : List α) buffersize true 0 = .ok s ∧
      IsStream (BufferedStream.ops (producerIO true)) [] .never True s := by
  refine ⟨BufferedStream.new none 0, rfl, ?_⟩
  have P : Produces (producerIO (α := α) true) False (fun f rest m => f = none ∧ rest = [] ∧ m = 0) := by
    constructor
    · rintro f rest m ⟨rfl, rfl, rfl⟩; simp [producerIO]
    · rintro f rest m ⟨rfl, rfl, rfl⟩ space hs
      exact ⟨none, ⟨-1, [], false⟩, rfl, Or.inr (Or.inl ⟨rfl, by simp, rfl, rfl⟩)⟩
  have C := BufferedStream.contract P ([] : List α) 0
  have hf : BufferedStream.fails False ([] : List α) 0 = .never := by
    simp [BufferedStream.fails, Failure.never]
  rw [hf] at C
  exact C.isStream (fun _ => BufferedStream.softReset _ _ _ _)
    (BufferedStream.healthy_new (m := 0) ⟨rfl, rfl, rfl⟩ 0)

theorem changed (c : List α) (buffersize reported : Int) (h : 0 < reported) :
    ∃ s, FileInputStream.new c buffersize true reported = .ok s ∧
      s.pos = 0 ∧ BufferedStream.Healthy FileInputStream.Rest c reported s 0 0 := by
  have hsz : (if ¬ true then -1 else if reported = 0 ∧ c.length ≥ 1 then -1 else reported) = reported := by
    simp; omega
  have hR : FileInputStream.Rest (some ⟨c, 0⟩) c (c.length + 2) := by
    refine ⟨by simp, by simp, by simp, by simp⟩
  have hne : (if ¬ true then -1 else if reported = 0 ∧ c.length ≥ 1 then -1 else reported) ≠ (0 : Int) := by
    rw [hsz]; omega
  obtain ⟨s, e, hh⟩ := new_healthy hR buffersize true reported hne
  rw [hsz] at hh
  exact ⟨s, e, (new_status e).2.1, hh⟩

/-- **C121**: a file that became shorter than its reported size is read to its end, without an error; the
size stays at the wrong value, also when the end has been reported. -/
theorem C121_shrunk (c : List α) (buffersize reported : Int) (h : (c.length : Int) < reported) :
    ∃ s, FileInputStream.new c buffersize true reported = .ok s ∧
      ∀ (s' : BufferedStream (Option (CFile α)) α) (lo hi mn mx : Int),
        Reaches (BufferedStream.ops FileInputStream.producer) s s' lo hi →
        1 ≤ mn → (mx = 0 ∨ mn ≤ mx) →
        ∃ s2 n d, (BufferedStream.ops FileInputStream.producer).read s' mn mx = .ok (s2, n, d) ∧
          ReadOk c .never s'.pos mn mx n d s2.pos s2.status ∧ s2.size = reported := by
  obtain ⟨s, e, p, hh⟩ := changed c buffersize reported (by omega)
  refine ⟨s, e, ?_⟩
  intro s' lo hi mn mx hr h1 h2
  have C := BufferedStream.contract FileInputStream.produces c reported
  have hh' : BufferedStream.Healthy FileInputStream.Rest c reported s
      ((BufferedStream.ops FileInputStream.producer).position s)
      ((BufferedStream.ops FileInputStream.producer).position s) := by
    simp only [BufferedStream.ops, p]; exact hh
  have hs' := C.reaches hh' hr
  have hsz : s'.size = reported := by
    rcases hs'.2.1 with z | ⟨z, _⟩
    · exact z
    · omega
  obtain ⟨s2, n, d, e2, _, g⟩ := BufferedStream.read_full FileInputStream.produces hs'.1 (mx := mx) h1
  refine ⟨s2, n, d, e2, ?_⟩
  rcases g with ⟨g1, g2, g3, g4, g5, g6, g7, g8, g9, g10, g11, g12⟩ | ⟨g1, g2, g3, g4, g5, g6, g7, _⟩ |
      ⟨g1, g2, g3, g4 | g4⟩
  · exact ⟨.data g1 g2 g3 g4 (fun z => g5 (by omega)) g6 g7.st, by omega⟩
  · exact ⟨.ended (Or.inl g1) g2 g3 g4 g5, by omega⟩
  · exact g4.elim
  · omega

/-- **C121**: a file that became longer than its reported size: a read that goes beyond the reported size
fails. -/
theorem C121_grown (c : List α) (buffersize reported : Int) (h0 : 0 < reported)
    (h : reported < c.length) :
    ∃ s, FileInputStream.new c buffersize true reported = .ok s ∧
      ∀ (s' : BufferedStream (Option (CFile α)) α) (lo hi mn mx : Int),
        Reaches (BufferedStream.ops FileInputStream.producer) s s' lo hi →
        1 ≤ mn → (mx = 0 ∨ mn ≤ mx) → s'.pos ≤ reported → reported < s'.pos + mn →
        ∃ s2 n d, (BufferedStream.ops FileInputStream.producer).read s' mn mx = .ok (s2, n, d) ∧
          n < -1 ∧ s2.status = .error := by
  obtain ⟨s, e, p, hh⟩ := changed c buffersize reported (by omega)
  refine ⟨s, e, ?_⟩
  intro s' lo hi mn mx hr h1 h2 h3 h4
  have C := BufferedStream.contract FileInputStream.produces c reported
  have hh' : BufferedStream.Healthy FileInputStream.Rest c reported s
      ((BufferedStream.ops FileInputStream.producer).position s)
      ((BufferedStream.ops FileInputStream.producer).position s) := by
    simp only [BufferedStream.ops, p]; exact hh
  have hs' := C.reaches hh' hr
  have hsz : s'.size = reported := by
    rcases hs'.2.1 with z | ⟨z, _⟩
    · exact z
    · omega
  obtain ⟨s2, n, d, e2, _, g⟩ := BufferedStream.read_full FileInputStream.produces hs'.1 (mx := mx) h1
  refine ⟨s2, n, d, e2, ?_⟩
  rcases g with ⟨g1, g2, g3, g4, g5, g6, g7, g8, g9, g10, g11, g12⟩ | ⟨g1, g2, g3, g4, g5, g6, g7, _⟩ |
      ⟨g1, g2, _⟩
  · have := g9 (by omega); omega
  · omega
  · exact ⟨by omega, g2⟩

/-- Non-vacuity of C121: a file of three readable bytes, read in pieces; the second read fails. -/
example : (do let s ← FileInputStream.new [1, 2, 3] 2 true 10
              let r ← (BufferedStream.ops (producerIO true)).read s 2 2
              let r' ← (BufferedStream.ops (producerIO true)).read r.1 2 2
              .ok (r.2, r'.2.1, r'.1.status) : Res _) = .ok ((2, [1, 2]), -2, .error) := by decide
/-- A shrunk file ends with `Eof` at 3 and the size 10. -/
example : (do let s ← FileInputStream.new [1, 2, 3] 2 true 10
              let r ← (BufferedStream.ops producer).read s 5 0
              .ok (r.2, r.1.status, r.1.size) : Res _) = .ok ((3, [1, 2, 3]), .eof, 10) := by decide
/-- A grown file. -/
example : (do let s ← FileInputStream.new [1, 2, 3] 2 true 2
              let r ← (BufferedStream.ops producer).read s 2 2
              let r' ← (BufferedStream.ops producer).read r.1 1 1
              .ok (r.2, r'.2.1, r'.1.status) : Res _) = .ok ((2, [1, 2]), -2, .error) := by decide

/-! ### `SkippingFileInputStream` -/

/-- **C122**: with an I/O error behind the readable bytes `t`, `SkippingFileInputStream` reports the error in
its status, but the result of `read` is the number of the bytes before it, not a number below `-1`: for a
directory it is `0`. -/
theorem C122_error_code (t : List α) (seekable : Bool) (reported : Int)
    (hr : seekable = false ∨ reported = 0 ∨ (t.length : Int) ≤ reported)
    (mn mx : Int) (h1 : 1 ≤ mn) (h3 : (t.length : Int) < mn) :
    ∃ s', (SkippingFile.opsIO true).read (SkippingFile.new t seekable reported) mn mx =
        .ok (s', t.length, t) ∧ s'.status = .error := by
  have hsz : ∃ sz : Int, sz = (if ¬ seekable then -1 else
    if reported = 0 ∧ t.length ≥ 1 then -1 else reported) := ⟨_, rfl⟩
  obtain ⟨sz, hsz⟩ := hsz
  have hs : sz = -1 ∨ (t.length : Int) ≤ sz := by
    split at hsz
    · omega
    · rename_i hse
      split at hsz
      · omega
      · rcases hr with hr | hr | hr
        · exact absurd (by simp [hr]) hse
        · omega
        · omega
  simp only [SkippingFile.opsIO, SkippingFile.readIO, SkippingFile.new, ← hsz]
  have hx : mn ≤ (if mx ≤ 0 then max 1024 (max 0 mn) else max mn mx) := by split <;> omega
  generalize (if mx ≤ 0 then max 1024 (max (0 : Int) mn) else max mn mx) = x at *
  have hN : ∃ n : Int, n = (if x > 0 ∧ mx ≤ 0 then
        if sz ≠ -1 ∧ max x (2 * 0) > sz - 0 then sz - 0 + 1
        else max x (2 * 0) else x) := ⟨_, rfl⟩
  obtain ⟨n, hn⟩ := hN
  rw [← hn]
  have hn1 : (t.length : Int) < n := by
    split at hn
    · split at hn <;> omega
    · omega
  rw [if_pos (show x > 0 by omega), if_neg (by omega)]
  have hl := CFile.fread_length (f := ⟨t, 0⟩) (n := n) (by simp) (by simp) (by omega)
  have hd : (CFile.fread ⟨t, 0⟩ n).2 = t := by
    simp only [CFile.fread, slice]
    rw [Int.toNat_zero, List.drop_zero, List.take_of_length_le (by omega)]
  simp only [hd] at hl ⊢
  refine ⟨_, rfl, ?_⟩
  simp only
  rw [if_pos (by omega), if_pos trivial]

/-- **C122**: and `reset` forgets the error: after a failed `read` of a directory the status is `Ok` again. -/
theorem C122_error_forgotten (reported : Int) (h : 0 < reported) (mn mx : Int) (h1 : 1 ≤ mn)
    (h2 : mx = 0 ∨ mn ≤ mx) :
    ∃ s' s'', (SkippingFile.opsIO true).read (SkippingFile.new ([] : List α) true reported) mn mx =
        .ok (s', 0, []) ∧ s'.status = .error ∧
      (SkippingFile.opsIO true).reset s' 0 = .ok (s'', 0) ∧ s''.status = .ok := by
  have hnew : SkippingFile.new ([] : List α) true reported = ⟨some ⟨[], 0⟩, 0, 0, reported, .ok⟩ := by
    simp [SkippingFile.new]
  rw [hnew]
  simp only [SkippingFile.opsIO, SkippingFile.readIO]
  have hx : 1 ≤ (if mx ≤ 0 then max 1024 (max 0 mn) else max mn mx) := by split <;> omega
  generalize (if mx ≤ 0 then max 1024 (max (0 : Int) mn) else max mn mx) = x at *
  have hN : ∃ n : Int, n = (if x > 0 ∧ mx ≤ 0 then
        if reported ≠ -1 ∧ max x (2 * 0) > reported - 0 then reported - 0 + 1
        else max x (2 * 0) else x) := ⟨_, rfl⟩
  obtain ⟨n, hn⟩ := hN
  rw [← hn]
  have hn1 : 0 < n := by
    split at hn
    · split at hn <;> omega
    · omega
  rw [if_pos (show x > 0 by omega), if_neg (by omega)]
  have hd : (CFile.fread ⟨([] : List α), 0⟩ n) = (⟨[], 0⟩, []) := by
    simp [CFile.fread, slice]
  simp only [hd]
  have hne : ((0 : Nat) : Int) ≠ n := by omega
  have hr : ¬ (reported ≥ 0 ∧ (0 : Int) > reported) := by omega
  have hr' : ¬ (0 : Int) = reported := by omega
  refine ⟨⟨some ⟨[], 0⟩, n, 0, reported, .error⟩, ⟨some ⟨[], 0⟩, n, 0, reported, .ok⟩, ?_, rfl, ?_, rfl⟩
  · simp only [List.length_nil]; rw [if_neg (by simp), if_pos hne, if_pos trivial]; rfl
  · simp [SkippingFile.reset, CFile.fseek, hr, hr']

/-- **C122**: a file that grows after it was opened: once a read has gone two bytes beyond the size found at
the beginning, a read that asks for more at once and sets no limit computes a negative buffer size, and
`fread` gets a null pointer. -/
theorem C122_grown_fault (c : List α) (reported k : Int) (h0 : 0 < reported) (h1 : reported + 1 < k)
    (h2 : k ≤ c.length) :
    ∃ s', SkippingFile.ops.read (SkippingFile.new c true reported) k k = .ok (s', k, slice c 0 k) ∧
      SkippingFile.ops.read s' (k + 1) 0 = .fault .outOfBounds := by
  have hnew : SkippingFile.new c true reported = ⟨some ⟨c, 0⟩, 0, 0, reported, .ok⟩ := by
    simp [SkippingFile.new]; omega
  have hl := CFile.fread_length (f := ⟨c, 0⟩) (n := k) (by simp) (by simp) (by omega)
  simp only at hl
  have hl' : ((CFile.fread ⟨c, 0⟩ k).2.length : Int) = k := by omega
  refine ⟨⟨some (CFile.fread ⟨c, 0⟩ k).1, k, k, reported, .ok⟩, ?_, ?_⟩
  · rw [hnew]
    simp only [SkippingFile.ops, SkippingFile.read]
    rw [if_neg (show ¬ k ≤ 0 by omega), show max k k = k by omega,
      if_neg (show ¬ (k > 0 ∧ k ≤ 0) by omega), if_pos (show k > 0 by omega),
      if_neg (show ¬ (k < 0 ∨ k > k) by omega)]
    simp only [hl']
    have ho : (CFile.fread ⟨c, 0⟩ k).1.off = k := by
      simp only [CFile.fread] at hl' ⊢; omega
    rw [ho]
    simp [CFile.fread]
  · simp only [SkippingFile.ops, SkippingFile.read]
    rw [if_pos (show (0 : Int) ≤ 0 by omega)]
    rw [if_pos (show max 1024 (max k (k + 1)) > k ∧ (0 : Int) ≤ 0 by omega),
      if_pos (show reported ≠ -1 ∧ max (max 1024 (max k (k + 1))) (2 * k) > reported - k by omega),
      if_pos (show reported - k + 1 < 0 ∨ _ by omega)]

example : (do let r ← SkippingFile.ops.read (SkippingFile.new [1, 2, 3, 4] true 1) 3 3
              let r' ← SkippingFile.ops.read r.1 4 0
              .ok r'.2 : Res (Int × List Nat)) = .fault .outOfBounds := by decide

end Strigi.Props
