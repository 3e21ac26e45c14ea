import Verif.Contract
import Verif.Model.FileStreams
import Verif.Proofs.BufferedStream

namespace Strigi

variable {α : Type}

namespace MMapStream

structure Inv (c : List α) (s : MMapStream α) : Prop where
  mem : s.mem = c
  lo : 0 ≤ s.pos
  hi : s.pos ≤ c.length
  st : s.status ≠ .error
  eof : s.status = .eof → s.pos = c.length

theorem Inv.new (c : List α) : Inv c (new c) := by
  constructor <;> simp [MMapStream.new]

theorem read_spec {c : List α} {s : MMapStream α} (h : Inv c s) {mn mx : Int} (h1 : 1 ≤ mn)
    (h2 : mx = 0 ∨ mn ≤ mx) :
    ∃ s' n d, s.read mn mx = .ok (s', n, d) ∧ Inv c s' ∧ s.pos ≤ s'.pos ∧
      ReadOk c .never s.pos mn mx n d s'.pos s'.status := by
  obtain ⟨hd, k0, k1, k2, k3⟩ := h
  subst hd
  unfold MMapStream.read
  rw [if_neg k2]
  by_cases he : s.status = .eof
  · rw [if_pos he]
    exact ⟨s, -1, [], rfl, ⟨rfl, k0, k1, k2, k3⟩, Int.le_refl _,
      .ended (Or.inl rfl) rfl (k3 he) rfl he⟩
  · rw [if_neg he]
    dsimp only
    by_cases hn : max mn mx ≥ (s.mem.length : Int) - s.pos
    · simp only [if_pos hn, at_]
      rw [if_pos (by omega)]
      refine ⟨_, _, _, rfl, ⟨rfl, ?_, ?_, ?_, ?_⟩, ?_, ?_⟩
      · simp only; omega
      · simp only; omega
      · simp
      · intro _; simp only; omega
      · simp only; omega
      · by_cases hz : (s.mem.length : Int) - s.pos = 0
        · refine .ended (Or.inr hz) ?_ (by omega) (by simp only; omega) rfl
          rw [hz, slice_zero]
        · refine .data (by omega) rfl (by omega) rfl (by omega) (by omega) (by simp)
    · simp only [if_neg hn, at_]
      rw [if_pos (by omega)]
      refine ⟨_, _, _, rfl, ⟨rfl, ?_, ?_, k2, ?_⟩, ?_, ?_⟩
      · simp only; omega
      · simp only; omega
      · intro z; exact absurd z he
      · simp only; omega
      · exact .data (by omega) rfl (by omega) rfl (by omega) (by omega) k2

theorem skip_spec {c : List α} {s : MMapStream α} (h : Inv c s) {k : Int} (h1 : 0 ≤ k) :
    Inv c (s.skip k).1 ∧
      SkipOk c .never s.pos k (s.skip k).2 (s.skip k).1.pos (s.skip k).1.status := by
  obtain ⟨hd, k0, k1, k2, k3⟩ := h
  subst hd
  unfold MMapStream.skip
  dsimp only
  by_cases hn : k ≥ (s.mem.length : Int) - s.pos
  · rw [if_pos hn]
    refine ⟨⟨rfl, ?_, ?_, ?_, ?_⟩, .skipped ?_ (Or.inl ?_) ?_⟩ <;> simp <;> omega
  · rw [if_neg hn]
    refine ⟨⟨rfl, ?_, ?_, k2, ?_⟩, .skipped ?_ (Or.inl ?_) k2⟩
    · simp only; omega
    · simp only; omega
    · intro z; have := k3 z; omega
    · simp only; omega
    · simp only; omega

theorem reset_spec {c : List α} {s : MMapStream α} (h : Inv c s) {q : Int} :
    Inv c (s.reset q).1 ∧ (s.reset q).1.pos = (s.reset q).2 ∧
      (s.reset q).2 = (if q < 0 then 0 else if q > c.length then (c.length : Int) else q) := by
  obtain ⟨hd, k0, k1, k2, k3⟩ := h
  subst hd
  unfold MMapStream.reset
  rw [if_neg k2]
  split
  · refine ⟨⟨rfl, ?_, ?_, ?_, ?_⟩, rfl, ?_⟩ <;> simp
    split
    · omega
    · omega
  · split
    · refine ⟨⟨rfl, ?_, ?_, ?_, ?_⟩, rfl, ?_⟩ <;> simp
    · refine ⟨⟨rfl, ?_, ?_, ?_, ?_⟩, rfl, ?_⟩ <;> simp <;> omega

def Healthy (c : List α) (s : MMapStream α) (lo hi : Int) : Prop :=
  Inv c s ∧ 0 ≤ lo ∧ lo ≤ s.pos ∧ s.pos ≤ hi ∧ hi ≤ c.length

theorem reset_in {c : List α} {s : MMapStream α} (h : Inv c s) {q : Int} (h1 : 0 ≤ q)
    (h2 : q ≤ c.length) : Inv c (s.reset q).1 ∧ (s.reset q).1.pos = q ∧ (s.reset q).2 = q := by
  obtain ⟨a, b, d⟩ := reset_spec h (q := q)
  rw [if_neg (by omega), if_neg (by omega)] at d
  exact ⟨a, by omega, d⟩

theorem contract (c : List α) : Contract (ops (α := α)) c .never (Healthy c) where
  range h := h.2
  status h := ⟨h.1.st, h.1.eof⟩
  narrow h h1 h2 h3 h4 := ⟨h.1, by have := h.2; simp only [ops] at *; omega⟩
  size h := by right; left; simp only [ops]; rw [h.1.mem]
  read := by
    intro s lo hi h mn mx h1 h2
    obtain ⟨s', n, d, e, i, k, r⟩ := read_spec h.1 h1 h2
    exact ⟨s', n, d, e, r, fun _ => ⟨i, h.1.lo, k, Int.le_refl _, i.hi⟩⟩
  skip := by
    intro s lo hi h k h1 h2
    obtain ⟨i, r⟩ := skip_spec h.1 h1
    exact ⟨(s.skip k).1, (s.skip k).2, rfl, r, fun _ => ⟨i, i.lo, Int.le_refl _, Int.le_refl _, i.hi⟩⟩
  reset := by
    intro s lo hi h q h1 h2
    obtain ⟨i, p, r⟩ := reset_in h.1 (q := q) (by have := h.2; omega) (by have := h.2; omega)
    have := h.2
    refine ⟨(s.reset q).1, ?_, p, i.st, fun _ => ⟨i, ?_⟩, ⟨i, ?_⟩⟩
    · simp only [ops]; congr 1; exact Prod.ext rfl r
    · rw [p]; omega
    · rw [p]; omega

theorem softReset (c : List α) : SoftReset (ops (α := α)) c (Healthy c) := by
  constructor
  intro s lo hi h q h1 h2
  obtain ⟨i, p, r⟩ := reset_in h.1 h1 h2
  refine ⟨(s.reset q).1, q, ?_, p, Or.inl rfl, i.st, ⟨i, ?_⟩⟩
  · simp only [ops]; congr 1; exact Prod.ext rfl r
  · rw [p]; omega

end MMapStream

namespace CFile

theorem fread_length {f : CFile α} {n : Int} (h0 : 0 ≤ f.off) (h1 : f.off ≤ f.content.length)
    (hn : 0 ≤ n) : ((f.fread n).2.length : Int) = min n (f.content.length - f.off) := by
  simp only [fread, slice, List.length_take, List.length_drop]; omega

theorem fread_data {f : CFile α} {n : Int} (h0 : 0 ≤ f.off) (h1 : f.off ≤ f.content.length)
    (hn : 0 ≤ n) :
    (f.fread n).2 = slice f.content f.off (min n (f.content.length - f.off)) := by
  simp only [fread, slice]
  rw [List.take_eq_take_iff, List.length_drop]
  omega

end CFile

namespace SkippingFile

structure Inv (c : List α) (s : SkippingFile α) : Prop where
  file : s.file = some ⟨c, s.pos⟩
  buf : 0 ≤ s.buffersize
  lo : 0 ≤ s.pos
  hi : s.pos ≤ c.length
  size : s.size = c.length
  st : s.status ≠ .error
  eof : s.status = .eof → s.pos = c.length

theorem Inv.new (c : List α) : Inv c (new c) := by
  refine ⟨?_, ?_, ?_, ?_, ?_, ?_, ?_⟩ <;> simp [SkippingFile.new]

theorem read_spec {c : List α} {s : SkippingFile α} (h : Inv c s) {mn mx : Int} (h1 : 1 ≤ mn)
    (h2 : mx = 0 ∨ mn ≤ mx) :
    ∃ s' n d, s.read mn mx = .ok (s', n, d) ∧ Inv c s' ∧ s.pos ≤ s'.pos ∧ -1 < n ∧
      ReadOk c .never s.pos mn mx n d s'.pos s'.status := by
  obtain ⟨hf, hb, k0, k1, hs, k2, k3⟩ := h
  unfold SkippingFile.read
  rw [hf]
  dsimp only
  have hx : (mx = 0 → 1024 ≤ (if mx ≤ 0 then max 1024 (max s.buffersize mn) else max mn mx)) ∧
      mn ≤ (if mx ≤ 0 then max 1024 (max s.buffersize mn) else max mn mx) ∧
      (mx ≠ 0 → (if mx ≤ 0 then max 1024 (max s.buffersize mn) else max mn mx) ≤ mx) := by
    split <;> omega
  generalize (if mx ≤ 0 then max 1024 (max s.buffersize mn) else max mn mx) = x at *
  have hN : ∃ n : Int, n = (if x > s.buffersize ∧ mx ≤ 0 then
        if s.size ≠ -1 ∧ max x (2 * s.buffersize) > s.size - s.pos then s.size - s.pos + 1
        else max x (2 * s.buffersize) else x) := ⟨_, rfl⟩
  obtain ⟨n, hn⟩ := hN
  rw [← hn]
  have hB : ∃ b : Int, b = (if x > s.buffersize then n else s.buffersize) := ⟨_, rfl⟩
  obtain ⟨b, hb2⟩ := hB
  rw [← hb2]
  have bnd : 1 ≤ n ∧ n ≤ b ∧ (mx ≠ 0 → n ≤ mx) ∧ (mn ≤ n ∨ n > s.size - s.pos) := by
    by_cases g : x > s.buffersize
    · rw [if_pos g] at hb2
      subst hb2
      by_cases g2 : mx ≤ 0
      · rw [if_pos ⟨g, g2⟩] at hn
        split at hn <;> omega
      · rw [if_neg (by omega)] at hn
        omega
    · rw [if_neg g] at hb2
      rw [if_neg (by omega)] at hn
      omega
  rw [if_neg (by omega)]
  have hl := CFile.fread_length (f := ⟨c, s.pos⟩) (n := n) k0 k1 (by omega)
  have hdat := CFile.fread_data (f := ⟨c, s.pos⟩) (n := n) k0 k1 (by omega)
  have ho : (CFile.fread ⟨c, s.pos⟩ n).1 = ⟨c, s.pos + ((CFile.fread ⟨c, s.pos⟩ n).2.length : Int)⟩ := rfl
  simp only at hl hdat
  refine ⟨_, _, _, rfl, ⟨?_, ?_, ?_, ?_, ?_, ?_, ?_⟩, ?_, ?_, ?_⟩
  · simp only [ho]
  · simp only; omega
  · simp only [ho]; omega
  · simp only [ho]; omega
  · simp only; rw [if_neg (by omega)]; exact hs
  · simp only; split
    · simp
    · exact k2
  · simp only [ho]; split
    · intro _; omega
    · intro z; have := k3 z; omega
  · simp only [ho]; omega
  · omega
  · by_cases hz : min n ((c.length : Int) - s.pos) = 0
    · refine .ended (Or.inr (by omega)) ?_ (by omega) (by simp only [ho]; omega) ?_
      · rw [hdat, hz, slice_zero]
      · simp only; rw [if_pos (by omega)]
    · refine .data (by omega) ?_ (by omega) (by simp only [ho]) (by omega) (by omega) ?_
      · rw [hl, hdat]
      · simp only; split
        · simp
        · exact k2

theorem reset_spec {c : List α} {s : SkippingFile α} (h : Inv c s) {q : Int} (h0 : 0 ≤ q) :
    Inv c (s.reset q).1 ∧ (s.reset q).1.pos = (s.reset q).2 ∧ (s.reset q).2 = min q c.length ∧
      ((s.reset q).1.status = .eof ↔ (s.reset q).1.pos = c.length) := by
  obtain ⟨hf, hb, k0, k1, hs, k2, k3⟩ := h
  unfold SkippingFile.reset
  rw [hf]
  dsimp only
  have hq : ∃ p : Int, p = (if s.size ≥ 0 ∧ q > s.size then s.size else q) := ⟨_, rfl⟩
  obtain ⟨p, hp⟩ := hq
  rw [← hp]
  have hp2 : p = min q c.length := by split at hp <;> omega
  have he : CFile.fseek ⟨c, s.pos⟩ p = (⟨c, p⟩, false) := by
    rw [CFile.fseek, if_neg (by omega)]
  rw [he]
  simp only [Bool.false_eq_true, if_false]
  refine ⟨⟨rfl, hb, ?_, ?_, hs, ?_, ?_⟩, trivial, ?_, ?_⟩
  · simp only; omega
  · simp only; omega
  · simp only; split <;> simp
  · simp only; split
    · intro _; omega
    · simp
  · omega
  · split
    · simp; omega
    · simp; omega

theorem skip_spec {c : List α} {s : SkippingFile α} (h : Inv c s) {k : Int} (h1 : 0 ≤ k) :
    Inv c (s.skip k).1 ∧
      SkipOk c .never s.pos k (s.skip k).2 (s.skip k).1.pos (s.skip k).1.status := by
  obtain ⟨i, p, r, _⟩ := reset_spec h (q := s.pos + k) (by have := h.lo; omega)
  have := h.lo; have := h.hi
  unfold SkippingFile.skip
  dsimp only
  rw [if_neg (by omega)]
  refine ⟨i, .skipped ?_ (Or.inl rfl) i.st⟩
  simp only; omega

def Healthy (c : List α) (s : SkippingFile α) (lo hi : Int) : Prop :=
  Inv c s ∧ 0 ≤ lo ∧ lo ≤ s.pos ∧ s.pos ≤ hi ∧ hi ≤ c.length

theorem contract (c : List α) : Contract (ops (α := α)) c .never (Healthy c) where
  range h := h.2
  status h := ⟨h.1.st, h.1.eof⟩
  narrow h h1 h2 h3 h4 := ⟨h.1, by have := h.2; simp only [ops] at *; omega⟩
  size h := by right; left; exact h.1.size
  read := by
    intro s lo hi h mn mx h1 h2
    obtain ⟨s', n, d, e, i, k, _, r⟩ := read_spec h.1 h1 h2
    exact ⟨s', n, d, e, r, fun _ => ⟨i, h.1.lo, k, Int.le_refl _, i.hi⟩⟩
  skip := by
    intro s lo hi h k h1 h2
    obtain ⟨i, r⟩ := skip_spec h.1 h1
    exact ⟨(s.skip k).1, (s.skip k).2, rfl, r, fun _ => ⟨i, i.lo, Int.le_refl _, Int.le_refl _, i.hi⟩⟩
  reset := by
    intro s lo hi h q h1 h2
    obtain ⟨i, p, r, _⟩ := reset_spec h.1 (q := q) (by have := h.2; omega)
    have := h.2
    have r' : (s.reset q).2 = q := by omega
    have p' : (s.reset q).1.pos = q := by omega
    refine ⟨(s.reset q).1, ?_, p', i.st, fun _ => ⟨i, ?_⟩, ⟨i, ?_⟩⟩
    · simp only [ops]; congr 1; exact Prod.ext rfl r'
    · omega
    · omega

theorem softReset (c : List α) : SoftReset (ops (α := α)) c (Healthy c) := by
  constructor
  intro s lo hi h q h1 h2
  obtain ⟨i, p, r, _⟩ := reset_spec h.1 (q := q) h1
  have r' : (s.reset q).2 = q := by omega
  refine ⟨(s.reset q).1, q, ?_, by simp only [ops]; omega, Or.inl rfl, i.st, ⟨i, ?_⟩⟩
  · simp only [ops]; congr 1; exact Prod.ext rfl r'
  · omega

end SkippingFile

namespace FileInputStream

/-- What is left in the file. -/
def Rest (f : Option (CFile α)) (rest : List α) (m : Nat) : Prop :=
  match f with
  | none => rest = [] ∧ m = 0
  | some f => 0 ≤ f.off ∧ f.off ≤ f.content.length ∧ rest = f.content.drop f.off.toNat ∧
      m = f.content.length - f.off.toNat + 2

theorem produces : Produces (producer (α := α)) False Rest where
  fuel := by
    intro f rest m h
    cases f with
    | none => simp only [Rest] at h; simp only [producer]; omega
    | some f => simp only [Rest] at h; simp only [producer]; omega
  step := by
    intro f rest m h space hs
    cases f with
    | none =>
      simp only [Rest] at h
      exact ⟨none, ⟨-1, [], false⟩, rfl, Or.inr (Or.inl ⟨rfl, by simp, rfl, h.1⟩)⟩
    | some f =>
      obtain ⟨h0, h1, h2, h3⟩ := h
      have hl := CFile.fread_length (f := f) (n := space) h0 h1 (by omega)
      have hd : (f.fread space).2 = rest.take space.toNat := by rw [h2]; rfl
      refine ⟨_, _, rfl, Or.inl ⟨rfl, rfl, by simp only; omega, ?_⟩⟩
      by_cases hf : ((f.fread space).2.length : Int) < space
      · simp only [if_pos hf]
        refine ⟨[], 0, ?_, by omega, rfl, rfl⟩
        rw [List.append_nil, hd, List.take_of_length_le]
        rw [h2, List.length_drop]; omega
      · simp only [if_neg hf]
        refine ⟨rest.drop space.toNat, f.content.length - (f.off + space).toNat + 2, ?_, by omega, ?_⟩
        · rw [hd, List.take_append_drop]
        · have e : (f.fread space).1 = ⟨f.content, f.off + ((f.fread space).2.length : Int)⟩ := rfl
          have e2 : ((f.fread space).2.length : Int) = space := by omega
          rw [e, e2]
          refine ⟨by simp only; omega, by simp only; omega, ?_, by simp only⟩
          rw [h2, List.drop_drop]
          congr 1; simp only; omega

end FileInputStream

namespace BufferedStream
variable {φ : Type}

/-- Growing the buffer before the first read changes nothing that matters. -/
theorem setMinBufSize_healthy {R : φ → List α → Nat → Prop} {c : List α} {f : φ} {m : Nat} (h : R f c m)
    (sz0 n : Int) : ∃ s, setMinBufSize (BufferedStream.new f sz0) n = .ok s ∧ s.pos = 0 ∧
      Healthy R c sz0 s 0 0 := by
  have hn := healthy_new h sz0
  obtain ⟨hI, hS, _⟩ := hn
  obtain ⟨b, sp, e, k⟩ := hI.win.makeSpace n
  refine ⟨⟨f, b, false, 0, sz0, .ok⟩, ?_, rfl, ?_⟩
  · unfold setMinBufSize; rw [e]; rfl
  · obtain ⟨_, k2, _, k4, k5, _⟩ := k
    have a0 : b.avail = 0 := k4
    have o0 : b.offset ≤ 0 := k5
    have o1 := k2.wf.off
    refine ⟨⟨k2, ?_, hI.st, by simp⟩, hS, ?_, ?_, ?_, ?_⟩
    · have := hI.rest
      simpa [BufferedStream.new, StreamBuffer.empty, a0] using this
    all_goals simp only; omega

end BufferedStream
end Strigi
