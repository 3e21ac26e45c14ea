import Verif.Proofs.Robust
import Verif.Proofs.FileStreams

/-!
# The basic streams are robust
-/

namespace Strigi

theorem narrow32_le {k : Int} (h : 0 ≤ k) : narrow32 k ≤ k := by
  unfold narrow32
  by_cases hk : k < 2 ^ 31
  · have := narrow32_of_range (x := k) (by omega) hk
    unfold narrow32 at this; omega
  · have := Int.bmod_lt (x := k) (m := 2 ^ 32) (by decide)
    omega

theorem narrow32_pos {k : Int} (h : 0 ≤ k) : narrow32 k = k ∨ 2 ^ 31 ≤ k := by
  by_cases hk : k < 2 ^ 31
  · exact Or.inl (narrow32_of_range (by omega) hk)
  · right; omega

/-! ### In-memory streams -/

theorem StringStream.robust (c : List UInt8) (hc : c.length < 2 ^ 31) (lo : Int) :
    Robust StringStream.ops c lo (fun s => s.data = c ∧ 0 ≤ s.pos ∧ s.pos ≤ c.length ∧ s.status ≠ .error) where
  range h _ := ⟨h.2.1, h.2.2.1⟩
  read := by
    rintro s ⟨hd, h0, h1, hs⟩ mn mx _ hmn
    subst hd
    simp only [StringStream.ops, StringStream.read]
    by_cases hl : (s.data.length : Int) - s.pos = 0
    · rw [if_pos hl]
      refine ⟨_, _, _, rfl, ⟨rfl, h0, h1, by simp⟩, fun z => absurd z hs, fun _ _ => ⟨by omega, fun _ => by simp⟩, fun z => by omega,
        fun _ => Or.inr rfl⟩
    · rw [if_neg hl]
      have hx : ∃ n : Int, n = (if mx > (s.data.length : Int) - s.pos ∨ mx < 1 then (s.data.length : Int) - s.pos else mx) := ⟨_, rfl⟩
      obtain ⟨n, hn⟩ := hx
      rw [← hn]
      have hn1 : 0 < n ∧ n ≤ s.data.length - s.pos ∧ (1 ≤ mx → n ≤ mx) ∧
          (n = mx ∨ n = s.data.length - s.pos) ∧ (mx < 1 → n = s.data.length - s.pos) := by
        split at hn <;> omega
      refine ⟨_, _, _, rfl, ⟨rfl, by simp only; omega, by simp only; omega, ?_⟩, fun z => absurd z hs,
        fun z1 z2 => ⟨by omega, fun z => by simp only; rw [if_pos (by omega)]; simp⟩, fun z => ⟨?_, rfl, rfl, ?_⟩, fun z => by omega⟩
      · simp only; split
        · simp
        · exact hs
      · simp only; split
        · simp
        · exact hs
      · intro z1 z2; simp only; omega
  short := by
    rintro s s' mn mx n d ⟨hd, h0, h1, hs⟩ h2 _ hx e hn
    subst hd
    simp only [StringStream.ops, StringStream.read] at e ⊢
    split at e
    · cases e; exact ⟨by simp, Or.inr (by simp only; omega)⟩
    · cases e
      simp only
      have hz : s.pos + (if mx > (s.data.length : Int) - s.pos ∨ mx < 1 then (s.data.length : Int) - s.pos else mx) =
          s.data.length := by split at hn <;> split <;> omega
      rw [if_pos hz]
      exact ⟨by simp, Or.inr hz⟩
  skip := by
    rintro s ⟨hd, h0, h1, hs⟩ k hk
    subst hd
    simp only [StringStream.ops, StringStream.skip]
    by_cases k0 : k = 0
    · rw [if_pos k0]
      exact ⟨_, _, rfl, ⟨rfl, h0, h1, hs⟩, fun z => absurd z hs, fun _ => ⟨hk, by omega, fun _ z => by omega⟩, fun z _ => z⟩
    rw [if_neg k0]
    have e1 := narrow32_le hk
    have e2 := narrow32_pos hk
    generalize narrow32 k = x at *
    simp only [StringStream.read]
    by_cases hl : (s.data.length : Int) - s.pos = 0
    · rw [if_pos hl]
      exact ⟨_, _, rfl, ⟨rfl, h0, h1, by simp⟩, fun z => absurd z hs,
        fun _ => ⟨by dsimp only; omega, by dsimp only; omega, fun _ _ => by omega⟩, fun _ _ => by simp⟩
    · rw [if_neg hl]
      have hx : ∃ n : Int, n = (if x > (s.data.length : Int) - s.pos ∨ x < 1 then (s.data.length : Int) - s.pos else x) := ⟨_, rfl⟩
      obtain ⟨n, hn⟩ := hx
      rw [← hn]
      have hn1 : 0 < n ∧ n ≤ s.data.length - s.pos ∧ n ≤ k := by
        split at hn <;> omega
      refine ⟨_, _, rfl, ⟨rfl, by simp only; omega, by simp only; omega, ?_⟩, fun z => absurd z hs,
        fun _ => ⟨by simp only; omega, by simp only; omega, fun z => by simp only at z; omega⟩, fun _ _ => by dsimp only; split <;> simp [hs]⟩
      simp only; split
      · simp
      · exact hs
  reset := by
    rintro s ⟨hd, h0, h1, hs⟩ q hq
    subst hd
    simp only [StringStream.ops, StringStream.reset]
    rw [if_neg (by omega)]
    split
    · exact ⟨_, _, rfl, ⟨rfl, by simp only; omega, by simp only; omega, by simp⟩, fun z => absurd z hs,
        fun _ => ⟨by simp, rfl, Or.inl rfl⟩⟩
    · exact ⟨_, _, rfl, ⟨rfl, by simp only; omega, by simp only; omega, by simp⟩, fun z => absurd z hs,
        fun _ => ⟨by simp, rfl, by omega⟩⟩

/-! ### Mapped files: the arguments of `read` must not be negative -/

theorem MMapStream.short_any {c : List UInt8} {s s' : MMapStream UInt8} {mn mx n : Int} {d : List UInt8} (h : MMapStream.Inv c s) (h1 : 1 ≤ mn)
    (e : MMapStream.ops.read s mn mx = .ok (s', n, d)) (hn : n < mn) :
    MMapStream.ops.status s' ≠ .ok ∧ (MMapStream.ops.status s' = .error ∨ MMapStream.ops.position s' = c.length) := by
  obtain ⟨hd, k0, k1, k2, k3⟩ := h
  subst hd
  simp only [MMapStream.ops, MMapStream.read] at e ⊢
  rw [if_neg k2] at e
  split at e
  · rename_i he
    cases e; rw [he]; exact ⟨by simp, Or.inr (k3 he)⟩
  · obtain ⟨k, hk⟩ : ∃ n : Int, n = (if max mn mx ≥ (s.mem.length : Int) - s.pos then (s.mem.length : Int) - s.pos else max mn mx) := ⟨_, rfl⟩
    rw [← hk] at e
    unfold MMapStream.at_ at e
    by_cases hr : 0 ≤ s.pos ∧ s.pos + k ≤ s.mem.length
    · rw [if_pos hr, Res.bind_ok] at e
      cases e
      simp only
      split
      · rename_i z
        rw [if_pos z] at hk
        exact ⟨by simp, Or.inr (by omega)⟩
      · rename_i z
        rw [if_neg z] at hk
        omega
    · rw [if_neg hr] at e
      cases e

theorem MMapStream.robust (c : List UInt8) : Robust MMapStream.ops c 0 (MMapStream.Inv c) where
  range h _ := ⟨h.lo, h.hi⟩
  read := by
    intro s h mn mx h0 _
    obtain ⟨hd, k0, k1, k2, k3⟩ := h
    subst hd
    simp only [MMapStream.ops, MMapStream.read]
    rw [if_neg k2]
    by_cases he : s.status = .eof
    · rw [if_pos he]
      exact ⟨_, _, _, rfl, ⟨rfl, k0, k1, k2, k3⟩, fun z => absurd z k2, fun _ _ => ⟨by omega, fun _ => by simp [he]⟩, fun z => by omega, fun _ => Or.inr rfl⟩
    · rw [if_neg he]
      have hx : ∃ n : Int, n = (if max mn mx ≥ (s.mem.length : Int) - s.pos then (s.mem.length : Int) - s.pos else max mn mx) := ⟨_, rfl⟩
      obtain ⟨n, hn⟩ := hx
      rw [← hn]
      have hst : ∃ st : Status, st = (if max mn mx ≥ (s.mem.length : Int) - s.pos then .eof else s.status) := ⟨_, rfl⟩
      obtain ⟨st, hst⟩ := hst
      rw [← hst]
      have hst1 : st ≠ .error ∧ (st = .eof → n = s.mem.length - s.pos) ∧ (n < mn → st ≠ .ok) := by
        split at hst
        · rw [if_pos (by assumption)] at hn; subst hst; exact ⟨by simp, fun _ => hn, fun _ => by simp⟩
        · subst hst; exact ⟨k2, fun z => absurd z he, fun z => by rw [if_neg (by assumption)] at hn; omega⟩
      have hn1 : 0 ≤ n ∧ n ≤ s.mem.length - s.pos ∧ (mn ≤ mx → 0 ≤ mx → n ≤ mx) ∧ (n < mn → n = s.mem.length - s.pos) := by
        split at hn <;> omega
      unfold MMapStream.at_
      rw [if_pos (by omega), Res.bind_ok]
      refine ⟨_, _, _, rfl, ⟨rfl, by simp only; omega, by simp only; omega, hst1.1, ?_⟩, fun z => absurd z k2, fun _ _ => ⟨by omega, hst1.2.2⟩,
        fun _ => ⟨hst1.1, rfl, rfl, ?_⟩, fun z => by omega⟩
      · intro z; have := hst1.2.1 z; simp only; omega
      · intro _ z; have := hn1.2.2.2 z; simp only; omega
  short h h1 _ _ e hn := MMapStream.short_any h h1 e hn
  skip := by
    intro s h k hk
    obtain ⟨i, g⟩ := MMapStream.skip_spec h hk
    refine ⟨(s.skip k).1, (s.skip k).2, rfl, i, fun z => absurd z h.st, fun _ => ?_, fun _ _ => i.st⟩
    have h1 := h.lo; have h2 := h.hi
    simp only [MMapStream.ops]
    generalize (s.skip k).2 = r at *
    cases g with
    | skipped a b _ => omega
    | failed a _ => exact absurd a (by simp [Failure.never])
  reset := by
    intro s h q hq
    obtain ⟨i, g1, g2⟩ := MMapStream.reset_spec h (q := q)
    refine ⟨(s.reset q).1, (s.reset q).2, rfl, i, fun z => absurd z h.st, fun _ => ⟨i.st, g1, ?_⟩⟩
    rw [if_neg (by omega)] at g2
    split at g2 <;> omega

/-! ### Files read with `fread` and `fseeko` -/

theorem SkippingFile.short_any {c : List UInt8} {s s' : SkippingFile UInt8} {mn mx n : Int} {d : List UInt8} (h : SkippingFile.Inv c s) (h1 : 1 ≤ mn)
    (e : SkippingFile.ops.read s mn mx = .ok (s', n, d)) (hn : n < mn) :
    SkippingFile.ops.status s' ≠ .ok ∧ (SkippingFile.ops.status s' = .error ∨ SkippingFile.ops.position s' = c.length) := by
  obtain ⟨hf, hb, k0, k1, hs, k2, k3⟩ := h
  simp only [SkippingFile.ops] at e ⊢
  unfold SkippingFile.read at e
  rw [hf] at e
  dsimp only at e
  have hx : (mx ≤ 0 → 1024 ≤ (if mx ≤ 0 then max 1024 (max s.buffersize mn) else max mn mx)) ∧
      mn ≤ (if mx ≤ 0 then max 1024 (max s.buffersize mn) else max mn mx) := by
    split <;> omega
  generalize (if mx ≤ 0 then max 1024 (max s.buffersize mn) else max mn mx) = x at *
  obtain ⟨k, hk⟩ : ∃ n : Int, n = (if x > s.buffersize ∧ mx ≤ 0 then
        if s.size ≠ -1 ∧ max x (2 * s.buffersize) > s.size - s.pos then s.size - s.pos + 1
        else max x (2 * s.buffersize) else x) := ⟨_, rfl⟩
  rw [← hk] at e
  have hk1 : 0 ≤ k ∧ (mn ≤ k ∨ k > s.size - s.pos) := by
    split at hk
    · split at hk <;> omega
    · omega
  generalize (if x > s.buffersize then k else s.buffersize) = b at e
  by_cases hz : k < 0 ∨ k > b
  · rw [if_pos hz] at e
    cases e
  · rw [if_neg hz] at e
    have hl := CFile.fread_length (f := ⟨c, s.pos⟩) (n := k) k0 k1 (by omega)
    cases e
    have ho : (CFile.fread ⟨c, s.pos⟩ k).1 = ⟨c, s.pos + ((CFile.fread ⟨c, s.pos⟩ k).2.length : Int)⟩ := rfl
    simp only [ho] at hn hl ⊢
    rw [if_pos (by omega)]
    exact ⟨by simp, Or.inr (by omega)⟩

theorem SkippingFile.robust (c : List UInt8) (lo : Int) : Robust SkippingFile.ops c lo (SkippingFile.Inv c) where
  range h _ := ⟨h.lo, h.hi⟩
  read := by
    intro s h mn mx _ _
    obtain ⟨hf, hb, k0, k1, hs, k2, k3⟩ := h
    simp only [SkippingFile.ops]
    unfold SkippingFile.read
    rw [hf]
    dsimp only
    have hx : (mx ≤ 0 → 1024 ≤ (if mx ≤ 0 then max 1024 (max s.buffersize mn) else max mn mx)) ∧
        mn ≤ (if mx ≤ 0 then max 1024 (max s.buffersize mn) else max mn mx) ∧
        (1 ≤ mx → mn ≤ mx → (if mx ≤ 0 then max 1024 (max s.buffersize mn) else max mn mx) = mx) ∧
        1 ≤ (if mx ≤ 0 then max 1024 (max s.buffersize mn) else max mn mx) := by
      split <;> omega
    generalize (if mx ≤ 0 then max 1024 (max s.buffersize mn) else max mn mx) = x at *
    have hN : ∃ n : Int, n = (if x > s.buffersize ∧ mx ≤ 0 then
          if s.size ≠ -1 ∧ max x (2 * s.buffersize) > s.size - s.pos then s.size - s.pos + 1
          else max x (2 * s.buffersize) else x) := ⟨_, rfl⟩
    obtain ⟨n, hn⟩ := hN
    rw [← hn]
    have hB : ∃ b : Int, b = (if x > s.buffersize then n else s.buffersize) := ⟨_, rfl⟩
    obtain ⟨b, hb2⟩ := hB
    rw [← hb2]
    have bnd : 1 ≤ n ∧ n ≤ b ∧ (1 ≤ mx → mn ≤ mx → n ≤ mx) ∧ (mn ≤ n ∨ n > s.size - s.pos) := by
      by_cases g : x > s.buffersize
      · rw [if_pos g] at hb2
        subst hb2
        by_cases g2 : mx ≤ 0
        · rw [if_pos ⟨g, g2⟩] at hn
          split at hn <;> omega
        · rw [if_neg (by omega)] at hn
          omega
      · rw [if_neg g] at hb2
        rw [if_neg (by omega)] at hn
        omega
    rw [if_neg (by omega)]
    have hl := CFile.fread_length (f := ⟨c, s.pos⟩) (n := n) k0 k1 (by omega)
    have hdat := CFile.fread_data (f := ⟨c, s.pos⟩) (n := n) k0 k1 (by omega)
    have ho : (CFile.fread ⟨c, s.pos⟩ n).1 = ⟨c, s.pos + ((CFile.fread ⟨c, s.pos⟩ n).2.length : Int)⟩ := rfl
    simp only at hl hdat
    have hst : (if ((CFile.fread ⟨c, s.pos⟩ n).2.length : Int) ≠ n then Status.eof else s.status) ≠ .error := by
      split
      · simp
      · exact k2
    refine ⟨_, _, _, rfl, ⟨?_, ?_, ?_, ?_, ?_, hst, ?_⟩, fun z => absurd z k2,
      fun _ _ => ⟨by omega, fun _ => by simp only; rw [if_pos (by omega)]; simp⟩,
      fun _ => ⟨hst, ?_, ?_, ?_⟩, fun _ => by omega⟩
    · simp only [ho]
    · simp only; omega
    · simp only [ho]; omega
    · simp only [ho]; omega
    · simp only; rw [if_neg (by omega)]; exact hs
    · simp only [ho]; split
      · intro _; omega
      · intro z; have := k3 z; omega
    · rw [hl, hdat]
    · simp only [ho]
    · intro _ _; simp only [ho]; omega
  short h h1 _ _ e hn := SkippingFile.short_any h h1 e hn
  skip := by
    intro s h k hk
    obtain ⟨i, g⟩ := SkippingFile.skip_spec h hk
    refine ⟨(s.skip k).1, (s.skip k).2, rfl, i, fun z => absurd z h.st, fun _ => ?_, fun _ _ => i.st⟩
    have h1 := h.lo; have h2 := h.hi
    simp only [SkippingFile.ops]
    generalize (s.skip k).2 = r at *
    cases g with
    | skipped a b _ => omega
    | failed a _ => exact absurd a (by simp [Failure.never])
  reset := by
    intro s h q hq
    obtain ⟨i, g1, g2, _⟩ := SkippingFile.reset_spec h (q := q) hq
    refine ⟨(s.reset q).1, (s.reset q).2, rfl, i, fun z => absurd z h.st, fun _ => ⟨i.st, g1, ?_⟩⟩
    omega

/-! ### Buffered streams -/

namespace BufferedStream

variable {φ : Type}

/-- `read` with arguments that ask for nothing in particular. -/
theorem read_zero {P : Producer φ UInt8} {R : φ → List UInt8 → Nat → Prop}
    {c : List UInt8} {sz0 : Int} {s : BufferedStream φ UInt8} (h : Inv R c s) (hz : SizeOk c sz0 s)
    (hsz : sz0 = -1 ∨ sz0 = c.length) {mn mx : Int} (h1 : mn ≤ 0) :
    ∃ s' n d, read P s mn mx = .ok (s', n, d) ∧ Inv R c s' ∧ SizeOk c sz0 s' ∧
      ((0 ≤ n ∧ d = slice c s.pos n ∧ s'.pos = s.pos + n) ∨ (n < 0 ∧ s'.pos = s.pos)) := by
  unfold BufferedStream.read
  rw [if_neg h.st]
  by_cases he : s.status = .eof
  · rw [if_pos he]
    exact ⟨_, _, _, rfl, h, hz, Or.inr ⟨by omega, rfl⟩⟩
  rw [if_neg he]
  have hok : s.status = .ok := by
    have := h.st; cases hs : s.status <;> simp_all
  simp only
  generalize (if mn > mx then 0 else mx) = mx' at *
  have hav := h.win.wf.av
  have hen : ensure P s mn mx' = .ok s := by
    unfold ensure
    rw [if_neg (by omega)]
  rw [hen, Res.bind_ok, if_neg h.st]
  obtain ⟨b, n, eb, hn, hn0, ho, ha, hm, hwin⟩ := h.win.read mx'
  rw [eb]
  simp only [Res.bind_ok]
  have hle : n ≤ s.buf.avail := by rw [hn]; split <;> omega
  have htop := h.win.top
  unfold SizeOk at hz
  rw [if_neg (by omega)]
  have hinv : Inv R c { s with buf := b, pos := s.pos + n } := by
    refine ⟨hwin, ?_, h.st, ?_⟩
    · have := h.rest
      simp only
      have e5 : s.pos + n + b.avail = s.pos + s.buf.avail := by omega
      rw [e5]; exact this
    · simp only; rw [hok]; intro z; cases z
  by_cases hc : s.status = .ok ∧ b.avail = 0 ∧ s.finished = true
  · rw [if_pos hc]
    have hend : s.pos + n = c.length := by
      have := hinv.rest
      simp only [hc.2.2, if_true] at this
      omega
    have hinv2 : Inv R c (BufferedStream.mk s.prod b s.finished (s.pos + n)
        (if s.size = -1 then s.pos + n else s.size) .eof) := by
      refine ⟨hwin, ?_, by simp, fun _ => hc.2⟩
      have := hinv.rest
      exact this
    have hz2 : SizeOk c sz0 (BufferedStream.mk s.prod b s.finished (s.pos + n)
        (if s.size = -1 then s.pos + n else s.size) .eof) := by
      unfold SizeOk; simp only; split <;> omega
    by_cases n0 : n = 0
    · rw [if_pos n0]
      exact ⟨_, _, _, rfl, hinv2, hz2, Or.inr ⟨by omega, by simp only; omega⟩⟩
    · rw [if_neg n0]
      exact ⟨_, _, _, rfl, hinv2, hz2, Or.inl ⟨hn0, rfl, rfl⟩⟩
  · rw [if_neg hc]
    exact ⟨_, _, _, rfl, hinv, hz, Or.inl ⟨hn0, rfl, rfl⟩⟩

theorem short_any {P : Producer φ UInt8} {R : φ → List UInt8 → Nat → Prop} (hP : Produces P False R)
    (c : List UInt8) (sz0 : Int) (hsz : sz0 = -1 ∨ sz0 = c.length) {s s' : BufferedStream φ UInt8} {mn mx n : Int} {d : List UInt8}
    (h : Inv R c s ∧ SizeOk c sz0 s) (h1 : 1 ≤ mn) (e : (ops P).read s mn mx = .ok (s', n, d)) (hn : n < mn) :
    (ops P).status s' ≠ .ok ∧ ((ops P).status s' = .error ∨ (ops P).position s' = c.length) := by
  obtain ⟨h, hz⟩ := h
  simp only [ops] at e ⊢
  obtain ⟨t, k, d', e', _, g⟩ := read_full hP h (mx := mx) h1
  rw [e] at e'; cases e'
  unfold SizeOk at hz
  rcases g with ⟨g1, g2, g3, g4, g5, g6, g7, g8, _, g9, _, g10, g11⟩ | ⟨g1, g2, g3, g4, g5, g6, g7, _⟩ |
      ⟨g1, g2, _, g3⟩
  · rw [g11.resolve_left (by omega)]; exact ⟨by simp, Or.inr (by omega)⟩
  · rw [g5]; exact ⟨by simp, Or.inr (by omega)⟩
  · rcases g3 with g3 | g3
    · exact g3.elim
    · omega

theorem robust {P : Producer φ UInt8} {R : φ → List UInt8 → Nat → Prop} (hP : Produces P False R)
    (c : List UInt8) (sz0 : Int) (hsz : sz0 = -1 ∨ sz0 = c.length) (lo : Int) :
    Robust (ops P) c lo (fun s => Inv R c s ∧ SizeOk c sz0 s) where
  range h _ := by
    have := h.1.win.base; have := h.1.win.top; have := h.1.win.wf.av; have := h.1.win.wf.off
    simp only [ops]; omega
  read := by
    rintro s ⟨h, hz⟩ mn mx _ _
    simp only [ops]
    by_cases h1 : 1 ≤ mn
    · obtain ⟨s', n, d, e, _, g⟩ := read_full hP h (mx := mx) h1
      refine ⟨s', n, d, e, ?_⟩
      unfold SizeOk at hz
      rcases g with ⟨g1, g2, g3, g4, g5, g6, g7, g8, _, g9, _, g10, g11⟩ | ⟨g1, g2, g3, g4, g5, g6, g7, _⟩ |
        ⟨g1, g2, _, g3⟩
      · refine ⟨⟨g7, ?_⟩, fun z => absurd z h.st,
          fun _ z1 => ⟨g5 z1, fun z2 => by rw [g11.resolve_left (by omega)]; simp⟩, fun _ => ⟨g7.st, g2, g4, fun _ z => by omega⟩, fun z => by omega⟩
        unfold SizeOk; rcases g9 with g9 | ⟨g9, g12, _⟩ <;> omega
      · refine ⟨⟨g6, ?_⟩, fun z => absurd z h.st, fun _ _ => ⟨by omega, fun _ => by rw [g5]; simp⟩,
          fun _ => by omega, fun z => Or.inr g4⟩
        unfold SizeOk; omega
      · exfalso
        rcases g3 with g3 | g3
        · exact g3
        · omega
    · obtain ⟨s', n, d, e, i, z, g⟩ := read_zero (P := P) h hz hsz (mn := mn) (mx := mx) (by omega)
      refine ⟨s', n, d, e, ⟨i, z⟩, fun z => absurd z h.st, fun z => absurd z h1, ?_, ?_⟩
      · intro n0
        rcases g with ⟨_, g2, g3⟩ | ⟨g1, g2⟩
        · exact ⟨i.st, g2, g3, fun _ _ => by omega⟩
        · omega
      · intro n0
        rcases g with ⟨_, g2, g3⟩ | ⟨g1, g2⟩
        · omega
        · exact Or.inr g2
  short h h1 _ _ e hn := short_any hP c sz0 hsz h h1 e hn
  skip := by
    rintro s ⟨h, hz⟩ k hk
    obtain ⟨s', r, e, g⟩ := skip_spec hP h hz hk
    refine ⟨s', r, e, ?_⟩
    have h1 := h.win.top; have h2 := h.win.wf.av
    rcases g with ⟨g1, g2, g3, g4, g5⟩ | ⟨g1, _⟩
    · refine ⟨⟨g2, g3⟩, fun z => absurd z h.st, fun _ => ?_, fun _ _ => g2.st⟩
      simp only [ops]; omega
    · exfalso
      simp only [fails, false_or] at g1
      omega
  reset := by
    rintro s ⟨h, hz⟩ q hq
    obtain ⟨s', r, e, g1, g2, g3, g4, _, _, _, g5⟩ := reset_spec h hz hq
    refine ⟨s', r, e, ⟨g3, g4⟩, fun z => absurd z h.st, fun _ => ⟨g2, g1, ?_⟩⟩
    simp only [ops]
    split at g5
    · exact Or.inl g5.1
    · exact Or.inr (Or.inl g5.1)

end BufferedStream

end Strigi
