import Verif.Proofs.OleEntries
import Verif.Proofs.OleSafe
import Verif.Props.BufferedStream

/-!
# Properties of `OleInputStream`: C48 and C49 (arbitrary files), C94 (well-formed files), C95 (skipped streams), C96
(the last block), C97 (errors), C98 (the destructor), C99 (overflow), C100 (inputs of unknown size)
-/

namespace Strigi.Props

open Ole OleFile

section
variable {σ : Type} {P : StreamOps σ UInt8} {soft : Prop} {f : List UInt8} {L : Layout}

/-- **C94**: a well-formed file presents its streams, in the order of the directory, with their names, sizes and
contents, whatever is done with the entry streams — except for those whose start number is larger than the number of
the last block of the file (see C95).  The first record of the directory is that of the root.  No block may be used
twice.  (The limits on the number of blocks are those of the code; for the last hypothesis see C96.) -/
theorem C94_ole (W : WellFormed f L) {big small : List Nat} {es : List (Nat × ArchiveEntry)}
    (hL : Lists f L (records f L.dir).tail big small es)
    (hnd : (L.dir ++ (L.minifat ++ (L.mini ++ big))).Nodup) (hnds : small.Nodup)
    (h1 : L.minifat.length ≤ 1000) (h2 : L.mini.length ≤ 16000)
    (hx : ∀ b ∈ L.xbat, blockAt b + 512 < f.length)
    {input : σ} (hi : IsStream P f Failure.never soft input) (hp : P.position input = 0) (hsz : KnownSize P f soft input) :
    ∃ p, Ole.new P input = .ok p ∧
      Presents Ole.ops Failure.never True .eof p ((es.filter fun x => x.1 + 2 ≤ f.length / 512).map (·.2)) := by
  have hnd2 : (L.minifat ++ L.mini).Nodup := by
    have h := (nodup_three (a := L.dir) (b := L.minifat ++ L.mini) (c := big) (by rwa [List.append_assoc])).2.1
    exact h
  obtain ⟨d, e1, hO⟩ := new_spec W h1 h2 hnd2 hx hi hp hsz
  exact ⟨_, e1, presents_opened W hO hL hnd hnds⟩

/-- Streams of at least 4096 bytes are never skipped. -/
theorem big_shown {rs : List (List UInt8)} {big small : List Nat} {es : List (Nat × ArchiveEntry)}
    (hL : Lists f L rs big small es) : ∀ x ∈ es, 4096 ≤ x.2.info.size → x.1 + 2 ≤ f.length / 512 := by
  induction hL with
  | nil => intro x hx; simp at hx
  | other _ _ ih => exact ih
  | big _ _ _ _ hin _ _ ih =>
    intro x hx hs
    rcases List.mem_cons.1 hx with rfl | hx
    · have := inside_max (hin _ List.mem_cons_self)
      simp only
      omega
    · exact ih x hx hs
  | small _ hsm _ _ _ _ _ ih =>
    intro x hx hs
    rcases List.mem_cons.1 hx with rfl | hx
    · simp only at hs; omega
    · exact ih x hx hs

/-- **C94**, if all streams start early enough: exactly the streams of the file are presented. -/
theorem C94_ole_all (W : WellFormed f L) {big small : List Nat} {es : List (Nat × ArchiveEntry)}
    (hL : Lists f L (records f L.dir).tail big small es)
    (hnd : (L.dir ++ (L.minifat ++ (L.mini ++ big))).Nodup) (hnds : small.Nodup)
    (h1 : L.minifat.length ≤ 1000) (h2 : L.mini.length ≤ 16000)
    (hx : ∀ b ∈ L.xbat, blockAt b + 512 < f.length)
    (hstart : ∀ x ∈ es, x.2.info.size < 4096 → x.1 + 2 ≤ f.length / 512)
    {input : σ} (hi : IsStream P f Failure.never soft input) (hp : P.position input = 0) (hsz : KnownSize P f soft input) :
    ∃ p, Ole.new P input = .ok p ∧ Presents Ole.ops Failure.never True .eof p (es.map (·.2)) := by
  obtain ⟨p, e, h⟩ := C94_ole W hL hnd hnds h1 h2 hx hi hp hsz
  refine ⟨p, e, ?_⟩
  have : (es.filter fun x => x.1 + 2 ≤ f.length / 512) = es := by
    rw [List.filter_eq_self]
    intro x hx
    simp only [decide_eq_true_eq]
    by_cases hs : x.2.info.size < 4096
    · exact hstart x hx hs
    · exact big_shown hL x hx (by omega)
  rwa [this] at h

/-- **C48**: whatever the file contains, the constructor and every call of `nextEntry()` and of the entry streams
end, and at most four entries per block of the file are presented, however cyclic its chains are. -/
theorem C48_terminates (hlen : f.length < 2 ^ 31) {input : σ} (hi : IsStream P f Failure.never soft input)
    (hp : P.position input = 0) (hsz : KnownSize P f soft input) :
    Ole.new P input ≠ .diverge ∧ ∀ p₀, Ole.new P input = .ok p₀ → ∀ n p, Reach Ole.ops p₀ n p →
      n ≤ 4 * (f.length / 512) + 3 ∧ Ole.nextEntry p ≠ .diverge ∧ ∀ e, Ole.ops.entry p = some e →
        (∀ mn mx, 1 ≤ mn → Ole.ops.stream.read e mn mx ≠ .diverge) ∧ (∀ k, 0 ≤ k → Ole.ops.stream.skip e k ≠ .diverge) := by
  have h := new_calm hlen hi hp hsz
  refine ⟨h.sound.2.2, ?_⟩
  intro p₀ e0 n p hr
  rcases h.of_ok e0 with rfl | h0
  · obtain ⟨rfl, h2, h3⟩ := reach_broken hr
    refine ⟨by omega, ?_, ?_⟩
    · unfold Ole.nextEntry
      rw [if_pos h3]
      simp
    · intro e he
      have he : (if p.open_ then some p.es else none) = some e := he
      rw [h2] at he
      simp at he
  · obtain ⟨h1, h2⟩ := reach_ok h0 hr
    have hA := allSound h1
    refine ⟨?_, hA.1.2.2, fun e he => ⟨fun mn mx hm => ((hA.2 e he).1 mn mx hm).2.2, fun k hk => ((hA.2 e he).2.1 k hk).2.2⟩⟩
    unfold most at h2
    omega

/-- **C49**: whatever the file contains, no call touches memory outside of the file image, the buffers and the
tables, and no assertion fails.  The input must know its size (see C100).  (What remains possible is an overflow, see
C99.) -/
theorem C49_memory_safe (hlen : f.length < 2 ^ 31) {input : σ} (hi : IsStream P f Failure.never soft input)
    (hp : P.position input = 0) (hsz : KnownSize P f soft input) :
    Sound (Ole.new P input) ∧ ∀ p₀, Ole.new P input = .ok p₀ → ∀ n p, Reach Ole.ops p₀ n p → AllSound Ole.ops p := by
  have h := new_calm hlen hi hp hsz
  refine ⟨h.sound, ?_⟩
  intro p₀ e0 n p hr
  rcases h.of_ok e0 with rfl | h0
  · obtain ⟨_, h2, h3⟩ := reach_broken hr
    have : Ole.nextEntry p = .ok { p with status := .eof, open_ := false } := by
      unfold Ole.nextEntry
      rw [if_pos h3]
    refine ⟨⟨?_, ?_, ?_⟩, ?_⟩
    · show Ole.nextEntry p ≠ _
      rw [this]; simp
    · show Ole.nextEntry p ≠ _
      rw [this]; simp
    · show Ole.nextEntry p ≠ _
      rw [this]; simp
    · intro e he
      have he : (if p.open_ then some p.es else none) = some e := he
      rw [h2] at he
      simp at he
  · exact allSound (reach_ok h0 hr).1

/-- **C96** (refuted claim: every well-formed file can be read): if the last block of the file belongs to the
extension of the block allocation table, the file is rejected. -/
theorem C96_last_block_rejected (W : WellFormed f L) {b : Nat} (hb : b ∈ L.xbat) (hx : blockAt b + 512 = f.length)
    {input : σ} (hi : IsStream P f Failure.never soft input) (hp : P.position input = 0) (hsz : KnownSize P f soft input) :
    ∃ p, Ole.new P input = .ok p ∧ p.status = .error ∧ ∃ p', Ole.nextEntry p = .ok p' ∧ Ole.ops.entry p' = none :=
  ⟨broken, new_last W hb hx hi hp hsz, rfl, { broken with status := .eof, open_ := false }, rfl, rfl⟩

/-- **C97** (refuted claim: the status tells a broken file from the end of a good one): after the constructor has
failed, the first `nextEntry()` replaces the status `Error` by `Eof`. -/
theorem C97_error_lost (input : σ) {p : State} (h : Ole.new P input = .ok p) (hp : p.status = .error) :
    ∃ p', Ole.nextEntry p = .ok p' ∧ p'.status = .eof ∧ Ole.ops.entry p' = none := by
  have : p = broken := by
    unfold Ole.new at h
    obtain ⟨r, _, h⟩ := BufferedStream.bind_eq_ok h
    split at h
    · cases h; rfl
    · obtain ⟨q, _, h⟩ := BufferedStream.bind_eq_ok h
      obtain ⟨_, _, h⟩ := BufferedStream.bind_eq_ok h
      obtain ⟨_, _, h⟩ := BufferedStream.bind_eq_ok h
      obtain ⟨_, _, h⟩ := BufferedStream.bind_eq_ok h
      obtain ⟨_, _, h⟩ := BufferedStream.bind_eq_ok h
      obtain ⟨_, _, h⟩ := BufferedStream.bind_eq_ok h
      obtain ⟨_, _, h⟩ := BufferedStream.bind_eq_ok h
      split at h
      · cases h; rfl
      · unfold Ole.readRest at h
        obtain ⟨b, _, h⟩ := BufferedStream.bind_eq_ok h
        cases b with
        | none => cases h; rfl
        | some b =>
          obtain ⟨m, _, h⟩ := BufferedStream.bind_eq_ok h
          obtain ⟨r, _, h⟩ := BufferedStream.bind_eq_ok h
          cases r with
          | none => cases h; rfl
          | some r =>
            obtain ⟨d, _, h⟩ := BufferedStream.bind_eq_ok h
            cases d with
            | none => cases h; rfl
            | some d => cases h; cases hp
  subst this
  exact ⟨{ broken with status := .eof, open_ := false }, rfl, rfl, rfl⟩

/-- **C98** (refuted claim: a provider can be destroyed at any time): destroying the provider while an entry is
current deletes the entry stream twice.  This happens for every well-formed file with a stream. -/
theorem C98_double_delete (W : WellFormed f L) {big small : List Nat} {es : List (Nat × ArchiveEntry)}
    (hL : Lists f L (records f L.dir).tail big small es)
    (hnd : (L.dir ++ (L.minifat ++ (L.mini ++ big))).Nodup) (hnds : small.Nodup)
    (h1 : L.minifat.length ≤ 1000) (h2 : L.mini.length ≤ 16000)
    (hx : ∀ b ∈ L.xbat, blockAt b + 512 < f.length) (hsome : ∃ x ∈ es, x.1 + 2 ≤ f.length / 512)
    {input : σ} (hi : IsStream P f Failure.never soft input) (hp : P.position input = 0) (hsz : KnownSize P f soft input) :
    ∃ p p', Ole.new P input = .ok p ∧ Ole.destroy p = .ok () ∧ Ole.nextEntry p = .ok p' ∧
      Ole.destroy p' = .fault .undefined := by
  have hnd2 : (L.minifat ++ L.mini).Nodup :=
    (nodup_three (a := L.dir) (b := L.minifat ++ L.mini) (c := big) (by rwa [List.append_assoc])).2.1
  obtain ⟨d, e, hO⟩ := new_spec W h1 h2 hnd2 hx hi hp hsz
  have h := presents_opened W hO hL hnd hnds
  obtain ⟨x, hx1, hx2⟩ := hsome
  have hne : shown f es ≠ [] := by
    have : x.2 ∈ shown f es := by
      unfold shown
      exact List.mem_map_of_mem (List.mem_filter.2 ⟨hx1, by simpa using hx2⟩)
    exact List.ne_nil_of_mem this
  cases hsh : shown f es with
  | nil => exact absurd hsh hne
  | cons a l =>
    rw [hsh] at h
    obtain ⟨p', s, g1, g2, _⟩ := h
    refine ⟨_, p', e, rfl, g1, ?_⟩
    have g2 : (if p'.open_ then some p'.es else none) = some s := g2
    unfold Ole.destroy
    split at g2
    · rename_i ho
      rw [if_pos ho]
    · cases g2

/-- **C99** (refuted claim: a file cannot cause undefined behaviour): a number of at least 2²⁴ blocks of the
extension of the table in the header makes a signed multiplication overflow, before anything else is read. -/
theorem C99_overflow (h512 : 512 ≤ f.length) (hmagic : f.take 8 = [0xd0, 0xcf, 0x11, 0xe0, 0xa1, 0xb1, 0x1a, 0xe1])
    (hbat : 0 ≤ word f 0x2c) (hx : 2 ^ 24 ≤ word f 0x48)
    {input : σ} (hi : IsStream P f Failure.never soft input) (hp : P.position input = 0) :
    Ole.new P input = .fault .undefined := by
  have hb0 : ∀ l, Behaves P f Failure.never soft input 0 0 l := by
    intro l; have := hi l; rwa [hp] at this
  have u0 : Uses P f soft input input 0 0 := by have := Uses.start (ops := P) (c := f) (soft := soft) (s₀ := input); rwa [hp] at this
  obtain ⟨a1, a2, ah, r1, q1, p1, b1, u1⟩ := peek hb0 hp u0 (k := 512) (by omega) (by omega)
  rw [show ((512 : Nat) : Int) = 512 from rfl] at r1
  have hlt : (f.take 512).length = 512 := by rw [List.length_take]; omega
  have hload : ∀ o : Nat, o + 4 ≤ 512 → load (f.take 512) o = .ok (word f o) := by
    intro o ho
    rw [load_word (by omega), word_take ho]
  unfold Ole.new
  rw [r1, Res.bind_ok]
  simp only
  rw [if_neg (by simp), q1, Res.bind_ok, show (0x2c : Int) = ((0x2c : Nat) : Int) from rfl, hload _ (by omega), Res.bind_ok,
    show (0x30 : Int) = ((0x30 : Nat) : Int) from rfl, hload _ (by omega), Res.bind_ok,
    show (0x3c : Int) = ((0x3c : Nat) : Int) from rfl, hload _ (by omega), Res.bind_ok,
    show (0x44 : Int) = ((0x44 : Nat) : Int) from rfl, hload _ (by omega), Res.bind_ok,
    show (0x48 : Int) = ((0x48 : Nat) : Int) from rfl, hload _ (by omega), Res.bind_ok]
  unfold badHeader checkHeader memEq
  have hmg : ((f.take 512).take [(0xd0 : UInt8), 0xcf, 0x11, 0xe0, 0xa1, 0xb1, 0x1a, 0xe1].length ==
      [0xd0, 0xcf, 0x11, 0xe0, 0xa1, 0xb1, 0x1a, 0xe1]) = true := by
    rw [List.take_take, show min [(0xd0 : UInt8), 0xcf, 0x11, 0xe0, 0xa1, 0xb1, 0x1a, 0xe1].length 512 = 8 from rfl, hmagic]
    rfl
  rw [if_pos (by omega), if_pos (by rw [hlt]; simp), Res.bind_ok, hmg, if_neg (by simp; omega)]
  have : ck (128 * word f 0x48) = .fault .undefined := by
    unfold ck
    rw [if_neg (by omega)]
  rw [this]
  rfl

end

/-! ## Inputs of unknown size -/

theorem read_short {φ α : Type} {P : Producer φ α} {R : φ → List α → Nat → Prop} (hP : Produces P False R) {c : List α}
    {s : BufferedStream φ α} (h : BufferedStream.Inv R c s) (hs : s.status = .ok) (hsz : s.size = -1) {mn : Int}
    (h1 : 1 ≤ mn) (hlong : (c.length : Int) - s.pos < mn) (hpos : s.pos < c.length) :
    ∃ s', BufferedStream.read P s mn mn = .ok (s', (c.length : Int) - s.pos, c.drop s.pos.toNat) ∧ s'.size = c.length ∧
      BufferedStream.Inv R c s' ∧ s'.pos - s'.buf.offset ≤ s.pos := by
  obtain ⟨s', n, d, e, hw, hr⟩ := BufferedStream.read_full hP h (mn := mn) (mx := mn) h1
  have hp0 := h.win.base
  have hp1 := h.win.wf.off
  rcases hr with ⟨g1, g2, g3, g4, g5, g6, g7, g8, g9, g10, g11, g12⟩ | ⟨g1, g2, g3, g4⟩ | ⟨_, _, _, g⟩
  · have hn : n = (c.length : Int) - s.pos := by rcases g6 with z | z <;> omega
    subst hn
    have hd : d = c.drop s.pos.toNat := by
      rw [g2]
      unfold slice
      rw [List.take_of_length_le (by rw [List.length_drop]; omega)]
    subst hd
    refine ⟨s', e, ?_, g7, g8⟩
    -- the end has been noticed
    have hst : s'.status = .eof := by
      unfold BufferedStream.read at e
      rw [if_neg (by rw [hs]; decide), if_neg (by rw [hs]; decide), if_neg (by omega)] at e
      obtain ⟨s1, e1, p1, z1, o1, a1, sz1, wf1, hs0, hs1⟩ := BufferedStream.ensure_spec hP h hs mn mn
      simp only at e
      rw [e1, Res.bind_ok] at e
      rcases hs1 with ⟨i1, st1, en1⟩ | ⟨hmf, st1⟩
      · have htop := i1.win.top
        have hav := i1.win.wf.av
        have hfin : s1.finished = true := en1.resolve_left (by omega)
        have hrest := i1.rest
        rw [hfin, if_pos rfl] at hrest
        obtain ⟨b, n, eb, hn, hn0, ho, ha, hm, hwin⟩ := i1.win.read mn
        rw [if_neg i1.st, eb, Res.bind_ok] at e
        simp only at e
        rw [if_neg (by omega)] at e
        have hb : b.avail = 0 := by
          rw [ha, hn]
          split <;> omega
        rw [if_pos ⟨st1, hb, hfin⟩] at e
        simp only [Res.ok.injEq, Prod.mk.injEq] at e
        rw [← e.1]
      · exact hmf.elim
    have := g11 hst
    rcases g10 with z | z <;> omega
  · omega
  · rcases g with z | z
    · exact z.elim
    · omega

/-- The bytes of a 32-bit number. -/
def le4 (n : Nat) : List UInt8 :=
  [UInt8.ofNat n, UInt8.ofNat (n / 256), UInt8.ofNat (n / 65536), UInt8.ofNat (n / 16777216)]

/-- A header with a BAT of one block, number 0. -/
def oleHeader (pt sBat : Nat) : List UInt8 :=
  [0xd0, 0xcf, 0x11, 0xe0, 0xa1, 0xb1, 0x1a, 0xe1] ++ List.replicate 36 0 ++ le4 1 ++ le4 pt ++ List.replicate 8 0 ++ le4 sBat ++
    List.replicate 4 0 ++ le4 0xfffffffe ++ le4 0 ++ le4 0 ++ List.replicate 432 0xff

/-- A table block. -/
def oleTable (l : List Nat) : List UInt8 := l.flatMap le4 ++ List.replicate (512 - 4 * l.length) 0xff

/-- A record of the directory. -/
def oleRecord (name : List UInt8) (type : UInt8) (start size : Nat) : List UInt8 :=
  name.flatMap (fun c => [c, 0]) ++ List.replicate (64 - 2 * name.length) 0 ++ [UInt8.ofNat (2 * name.length + 2), 0, type] ++
    List.replicate 49 0 ++ le4 start ++ le4 size ++ le4 0

/-- A file that ends in the first record of its directory (block 1). -/
def truncatedOle : List UInt8 := oleHeader 1 0xfffffffe ++ oleTable [0xfffffffd, 0xfffffffe] ++ (oleRecord [82] 5 0xfffffffe 0).take 121

theorem reset_size {φ α : Type} {s s' : BufferedStream φ α} {q r : Int} (h : BufferedStream.reset s q = .ok (s', r)) : s'.size = s.size := by
  unfold BufferedStream.reset at h
  obtain ⟨_, _, h⟩ := BufferedStream.bind_eq_ok h
  split at h
  · cases h; rfl
  · simp only at h
    split at h
    · cases h; rfl
    · cases h; rfl

/-- **C100** (refuted claim: C49 holds for every input): if the input finds out its size only when it meets the end,
as all buffered streams (decompression, decoding, …) do, then a file that ends in its directory makes `nextEntry()`
read behind the end of the file image. -/
theorem C100_unknown_size {φ : Type} {P : Producer φ UInt8} {R : φ → List UInt8 → Nat → Prop} (hP : Produces P False R) {x : φ} {m : Nat}
    (hR : R x truncatedOle m) : ∃ p, Ole.new (BufferedStream.ops P) (BufferedStream.new x) = .ok p ∧ p.status = .ok ∧
      Ole.nextEntry p = .fault .outOfBounds := by
  have hlen : truncatedOle.length = 1145 := by decide +kernel
  have hI := BufferedStream.Inv.new hR (-1)
  have hz : BufferedStream.SizeOk truncatedOle (-1) (BufferedStream.new x : BufferedStream φ UInt8) := Or.inl rfl
  -- the header
  obtain ⟨s1, n, d, e1, _, hr⟩ := BufferedStream.read_full hP hI (mn := 512) (mx := 512) (by omega)
  have hp0 : (BufferedStream.new x : BufferedStream φ UInt8).pos = 0 := rfl
  have hs0 : (BufferedStream.new x : BufferedStream φ UInt8).size = -1 := rfl
  rw [hp0, hs0] at hr
  rcases hr with ⟨g1, g2, g3, g4, g5, g6, g7, g8, g9, g10, g11, g12⟩ | ⟨g1, g2, g3, g4⟩ | ⟨_, _, _, g⟩
  · have hn : n = 512 := by have := g5 (by omega); rcases g6 with z | z <;> omega
    subst hn
    have hsz1 : s1.size = -1 := by
      rcases g10 with z | ⟨_, _, z⟩
      · exact z
      · have := g7.eof_pos z; omega
    obtain ⟨s2, r, e2, q1, q2, q3, _, _, q5, q6, q7⟩ := BufferedStream.reset_spec g7 (sz0 := -1) (Or.inl hsz1) (q := 0) (by omega)
    have htop := g7.win.wf.av
    rw [if_pos (by omega)] at q7
    obtain ⟨rfl, q8⟩ := q7
    have hsz2 : s2.size = -1 := by rw [reset_size e2, hsz1]
    obtain ⟨s3, e3, q9, q10, q11⟩ := read_short hP q3 q8 hsz2 (mn := 10000000) (by omega) (by omega) (by omega)
    obtain ⟨s4, r4, e4, _⟩ := BufferedStream.reset_spec q10 (sz0 := -1) (Or.inr ⟨rfl, q9⟩) (q := 0) (by omega)
    have hsz4 := reset_size e4
    rw [q1, Int.toNat_zero, List.drop_zero, Int.sub_zero] at e3
    have g2' : d = truncatedOle.take 512 := by rw [g2]; rfl
    have hnew : Ole.new (BufferedStream.ops P) (BufferedStream.new x) =
        (readIndex truncatedOle 1145 1 0 1 (-2) (-2) [0] >>= fun d => .ok (opened d)) := by
      unfold Ole.new
      show (BufferedStream.read P (BufferedStream.new x) 512 512 >>= _) = _
      rw [e1, Res.bind_ok]
      simp only
      rw [if_neg (by simp)]
      show (BufferedStream.reset s1 0 >>= _) = _
      rw [e2, Res.bind_ok, g2']
      simp only
      rw [show load (truncatedOle.take 512) 0x2c = .ok 1 by decide +kernel, Res.bind_ok,
        show load (truncatedOle.take 512) 0x30 = .ok 1 by decide +kernel, Res.bind_ok,
        show load (truncatedOle.take 512) 0x3c = .ok (-2) by decide +kernel, Res.bind_ok,
        show load (truncatedOle.take 512) 0x44 = .ok (-2) by decide +kernel, Res.bind_ok,
        show load (truncatedOle.take 512) 0x48 = .ok 0 by decide +kernel, Res.bind_ok,
        show badHeader (truncatedOle.take 512) 1 0 = .ok false by decide +kernel, Res.bind_ok]
      simp only [Bool.false_eq_true, if_false]
      unfold Ole.readRest
      rw [show headerBat ((truncatedOle.take 512).drop 76) 512 (min (109 : Int) 1).toNat 0 [] 0 = .ok (some ([0], 0)) by decide +kernel, Res.bind_ok]
      simp only
      rw [show ck (128 * (1 - 1)) = .ok 0 from rfl, Res.bind_ok]
      have hf : readFile (BufferedStream.ops P) s2 1 = .ok (some (truncatedOle, 1145)) := by
        unfold readFile
        rw [show ck (1 + 2) = .ok 3 from rfl, Res.bind_ok, show ck (3 * 512) = .ok 1536 from rfl, Res.bind_ok]
        have hsz2' : (BufferedStream.ops P).size s2 = -1 := hsz2
        rw [hsz2', if_neg (by omega), if_neg (by omega)]
        simp only
        show (BufferedStream.read P s2 10000000 10000000 >>= _) = _
        rw [e3, Res.bind_ok]
        show (BufferedStream.reset s3 0 >>= _) = _
        rw [e4, Res.bind_ok]
        have hsz4' : (BufferedStream.ops P).size s4 = 1145 := by
          show s4.size = 1145
          omega
        simp only
        rw [hsz4', if_neg (by omega), hlen]
        rfl
      rw [show (if (0 : Int) > (if (1 : Int) > 0 then 1 else 0) then (0 : Int) else if (1 : Int) > 0 then 1 else 0) = 1 from rfl, hf, Res.bind_ok]
    obtain ⟨dd, hdd⟩ : ∃ dd, readIndex truncatedOle 1145 1 0 1 (-2) (-2) [0] = .ok (some dd) ∧
        entryLoop (4 * dd.size.toNat + 8) dd {} = .fault .outOfBounds ∧ ¬ dd.tableBlock < 0 := by
      have h : (match readIndex truncatedOle 1145 1 0 1 (-2) (-2) [0] with
          | .ok (some dd) => decide (entryLoop (4 * dd.size.toNat + 8) dd {} = .fault .outOfBounds ∧ ¬ dd.tableBlock < 0)
          | _ => false) = true := by decide +kernel
      generalize readIndex truncatedOle 1145 1 0 1 (-2) (-2) [0] = z at h
      match z, h with
      | .ok (some dd), h => exact ⟨dd, rfl, by simpa using h⟩
    refine ⟨opened (some dd), by rw [hnew, hdd.1]; rfl, rfl, ?_⟩
    unfold Ole.nextEntry
    rw [if_neg (show ¬ (opened (some dd)).es.prod.doc.tableBlock < 0 from hdd.2.2)]
    show (entryLoop (4 * dd.size.toNat + 8) dd {} >>= _) = _
    rw [hdd.2.1]
    rfl
  · omega
  · rcases g with z | z
    · exact z.elim
    · omega

/-- Non-vacuity of C100: a stream that delivers the file in two parts. -/
example : ∃ p, Ole.new (BufferedStream.ops chunkProducer) (BufferedStream.new [truncatedOle.take 700, truncatedOle.drop 700]) = .ok p ∧
    p.status = .ok ∧ Ole.nextEntry p = .fault .outOfBounds :=
  C100_unknown_size chunkProducer_produces (m := 1147) ⟨by simp, by simp; decide +kernel⟩

end Strigi.Props
