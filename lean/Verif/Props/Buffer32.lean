import Verif.Proofs.Buffer32
import Verif.Props.BufferedStream

/-!
# Memory of a buffered stream, and its 32-bit numbers: C142
-/

namespace Strigi.Props

open BufferedStream (Fits)
open StreamBuffer (Wf i32_ok)

variable {φ α : Type}

/-- A history of calls on a buffered stream, every one of which returned, with minimum at most `M` in every `read`: `skip` and
`reset` may have any argument. -/
inductive Uses (P : Producer φ α) (M : Int) (s : BufferedStream φ α) : BufferedStream φ α → Prop
  | nil : Uses P M s s
  | read {t u : BufferedStream φ α} {mn mx n : Int} {d : List α} : Uses P M s t → mn ≤ M →
      BufferedStream.read P t mn mx = .ok (u, n, d) → Uses P M s u
  | skip {t u : BufferedStream φ α} {k n : Int} : Uses P M s t → BufferedStream.skip P t k = .ok (u, n) → Uses P M s u
  | reset {t u : BufferedStream φ α} {q n : Int} : Uses P M s t → BufferedStream.reset t q = .ok (u, n) → Uses P M s u

/-- **C142**: the memory of a buffered stream depends on the largest minimum that was asked for, and on nothing else: not on the
length of the stream, on how much of it was read or skipped, or on the maxima.  It never shrinks, stays as it is as long as no
minimum exceeds it, and never reaches both more than it was and twice the largest minimum.  This holds for every subclass, also for
a wrong one. -/
theorem C142_bound (P : Producer φ α) {M : Int} (hM : 1 ≤ M) {s t : BufferedStream φ α} (h : Uses P M s t) :
    s.buf.size ≤ t.buf.size ∧ (M ≤ s.buf.size → t.buf.size = s.buf.size) ∧ (t.buf.size = s.buf.size ∨ t.buf.size < 2 * M) := by
  change BufferedStream.Grown M s.buf t.buf
  induction h with
  | nil => exact .refl _ _
  | read _ hm e ih => exact ih.trans ((BufferedStream.grown_read e).mono hm)
  | skip _ e ih => exact ih.trans ((BufferedStream.grown_skip e).mono hM)
  | reset _ e ih =>
    have := BufferedStream.grown_reset e
    exact ih.trans ⟨by omega, fun _ => this, Or.inl this⟩

/-- **C142**: for a new stream, less than twice the largest minimum. -/
theorem C142_new (P : Producer φ α) {M : Int} (hM : 1 ≤ M) {f : φ} {sz : Int} {t : BufferedStream φ α}
    (h : Uses P M (BufferedStream.new f sz) t) : t.buf.size < 2 * M := by
  obtain ⟨_, _, h⟩ := C142_bound P hM h
  have : (BufferedStream.new (α := α) f sz).buf.size = 0 := rfl
  omega

/-- **C142**: as long as the minima do not exceed 2^30 and `fillBuffer` does not claim more than the space, no 32-bit number of the
buffer overflows: every call does what it does on unbounded numbers. -/
theorem C142_32 {P : Producer φ α} (hf : Fits P) {f : φ} {sz : Int} {t : BufferedStream φ α}
    (h : Uses P (2 ^ 30) (BufferedStream.new f sz) t) :
    (∀ mn mx : Int, -(2 ^ 31) ≤ mn → mn ≤ 2 ^ 30 → BufferedStream.read32 P t mn mx = BufferedStream.read P t mn mx) ∧
    ∀ k : Int, BufferedStream.skip32 P t k = BufferedStream.skip P t k := by
  have hs : t.buf.size < 2 ^ 31 := by have := C142_new P (by omega) h; omega
  have hw : Wf t.buf := by
    have go : ∀ {u}, Uses P (2 ^ 30) (BufferedStream.new f sz) u → Wf u.buf := by
      intro u hu
      induction hu with
      | nil => exact ⟨Int.le_refl _, Int.le_refl _, Int.le_refl _⟩
      | read _ _ e ih => exact BufferedStream.wf_read hf ih e
      | skip h0 e ih =>
        exact (BufferedStream.skip32_eq hf ih (by have := C142_new P (by omega) h0; omega)).2 e
      | reset _ e ih => exact BufferedStream.wf_reset ih e
    exact go h
  exact ⟨fun mn mx h0 h1 => BufferedStream.read32_eq hf h0 h1 hw hs, fun k => (BufferedStream.skip32_eq hf hw hs).1⟩

/-- A subclass that fills whatever space there is, for ever. -/
def endlessProducer : Producer Unit Nat where
  fill _ k := .ok ((), ⟨k, List.replicate k.toNat 7, false⟩)
  fuel _ := 1

/-- A full buffer of `K` items cannot be doubled. -/
theorem full_overflows {P : Producer φ α} {s : BufferedStream φ α} {K mx : Int} (h0 : s.status = .ok) (h1 : s.finished = false)
    (h2 : s.buf.offset = 0) (h3 : s.buf.avail = K) (h4 : s.buf.size = K) (hK : 2 ^ 30 ≤ K) (hK2 : K < 2 ^ 31 - 1) :
    BufferedStream.read32 P s (K + 1) mx = .fault .undefined := by
  unfold BufferedStream.read32
  rw [if_neg (by rw [h0]; simp), if_neg (by rw [h0]; simp)]
  dsimp only
  unfold BufferedStream.ensure32
  rw [h1, if_pos ⟨rfl, by omega⟩]
  unfold BufferedStream.writeToBuffer32
  rw [h3, i32_ok (by omega) (by omega), Res.bind_ok]
  unfold BufferedStream.writeLoop32
  rw [if_pos ⟨by omega, by omega⟩]
  unfold StreamBuffer.makeSpace32
  rw [h2, h3, h4, i32_ok (by omega) (by omega), Res.bind_ok,
    Res.assert_of (by simp), Res.assert_of (by simp; omega), Res.assert_of (by simp)]
  simp only [Res.bind_ok]
  rw [if_neg (by omega), if_pos (show K ≠ 0 by omega), if_neg (show ¬ (0 : Int) ≠ 0 by simp)]
  rw [h4]
  rw [if_neg (by omega), i32_ok (by omega) (by omega), Res.bind_ok, if_pos (show K > K + 1 - K - (K - 0 - K) by omega),
    i32_ok (by omega) (by omega), Res.bind_ok]
  unfold StreamBuffer.i32
  rw [if_neg (show ¬ (-(2 ^ 31) ≤ 2 * K ∧ 2 * K < 2 ^ 31) by omega)]
  rfl

/-- **C142** (the bound of `C142_32` is sharp): reading `K ≥ 2^30` items, going back to the start and asking for one more, as a
reader does that needs more context, doubles the buffer beyond 2^31 — undefined behaviour, although both minima fit an `int32_t`. -/
theorem C142_overflow {K : Int} (hK : 2 ^ 30 ≤ K) (hK2 : K < 2 ^ 31 - 1) :
    ∃ s1 s2 d, BufferedStream.read32 endlessProducer (BufferedStream.new ()) K K = .ok (s1, K, d) ∧
      BufferedStream.reset s1 0 = .ok (s2, 0) ∧ ∀ mx, BufferedStream.read32 endlessProducer s2 (K + 1) mx = .fault .undefined := by
  have e1 : (StreamBuffer.empty : StreamBuffer Nat).makeSpace32 K = .ok (⟨List.replicate K.toNat none, 0, 0⟩, K) := by
    unfold StreamBuffer.makeSpace32
    have a1 : (StreamBuffer.empty : StreamBuffer Nat).size = 0 := rfl
    have a2 : (StreamBuffer.empty : StreamBuffer Nat).offset = 0 := rfl
    have a3 : (StreamBuffer.empty : StreamBuffer Nat).avail = 0 := rfl
    rw [a1, a2, a3, i32_ok (by omega) (by omega), Res.bind_ok,
      Res.assert_of (by simp), Res.assert_of (by simp)]
    simp only [Res.bind_ok]
    rw [if_neg (by omega), if_neg (show ¬ (0 : Int) ≠ 0 by simp)]
    rw [if_neg (by omega), i32_ok (by omega) (by omega), Res.bind_ok]
    have a4 : (⟨(StreamBuffer.empty : StreamBuffer Nat).mem, 0, 0⟩ : StreamBuffer Nat).size = 0 := rfl
    rw [a4, if_neg (by omega), i32_ok (by omega) (by omega), Res.bind_ok, i32_ok (by omega) (by omega), Res.bind_ok]
    unfold StreamBuffer.setSize
    rw [Res.assert_of (by simp; omega), Res.assert_of (by simp), Res.assert_of (by simp; omega)]
    simp [StreamBuffer.empty]
  generalize hm : List.replicate K.toNat (none : Option Nat) = m at e1
  have hl : (m.length : Int) = K := by rw [← hm, List.length_replicate]; omega
  let d := List.replicate K.toNat 7
  have hd : (d.length : Int) = K := by show ((List.replicate K.toNat 7).length : Int) = K; rw [List.length_replicate]; omega
  let b : StreamBuffer Nat := ⟨d.map some, K, 0⟩
  let s1 : BufferedStream Unit Nat := ⟨(), b, false, K, -1, .ok⟩
  let s2 : BufferedStream Unit Nat := ⟨(), ⟨d.map some, 0, K⟩, false, 0, -1, .ok⟩
  have hs2 : s2.buf.size = K := by show ((d.map some).length : Int) = K; rw [List.length_map]; exact hd
  refine ⟨s1, s2, d, ?_, ?_, fun mx => full_overflows rfl rfl rfl rfl hs2 hK hK2⟩
  · unfold BufferedStream.read32 BufferedStream.new
    dsimp only
    rw [if_neg (by simp), if_neg (by simp), if_neg (by omega)]
    unfold BufferedStream.ensure32
    rw [if_pos ⟨rfl, show K > 0 by omega⟩]
    unfold BufferedStream.writeToBuffer32
    have a3 : (StreamBuffer.empty : StreamBuffer Nat).avail = 0 := rfl
    dsimp only
    rw [a3, i32_ok (by omega) (by omega), Res.bind_ok]
    have e2 : (endlessProducer.fuel () + 1) = 1 + 1 := rfl
    rw [e2]
    unfold BufferedStream.writeLoop32
    rw [if_pos ⟨by omega, by omega⟩, Int.sub_zero]
    dsimp only
    rw [e1, Res.bind_ok]
    dsimp only
    have e3 : endlessProducer.fill () K = .ok ((), ⟨K, d, false⟩) := rfl
    have e4 : (if K ≥ K ∧ K > K then K else K) = K := by split <;> rfl
    have e5 : (⟨m, 0, 0⟩ : StreamBuffer Nat).store (0 + 0) d = .ok ⟨d.map some, 0, 0⟩ := by
      unfold StreamBuffer.store
      rw [if_pos (show (0 : Int) ≤ 0 + 0 ∧ 0 + 0 + (d.length : Int) ≤ (⟨m, 0, 0⟩ : StreamBuffer Nat).size by
        show (0 : Int) ≤ 0 + 0 ∧ 0 + 0 + (d.length : Int) ≤ (m.length : Int); omega)]
      have : m.drop d.length = [] := List.drop_eq_nil_of_le (by omega)
      simp [this]
    rw [e4, e3, Res.bind_ok]
    dsimp only
    rw [e5, Res.bind_ok]
    dsimp only
    rw [Res.assert_of (by simp), Res.bind_ok, if_pos (by omega), i32_ok (by omega) (by omega), Res.bind_ok,
      i32_ok (by omega) (by omega), Res.bind_ok]
    unfold BufferedStream.writeLoop32
    rw [if_neg (by omega), Res.bind_ok]
    dsimp only
    rw [if_neg (by omega), Res.bind_ok]
    dsimp only
    rw [if_neg (by simp)]
    have e6 : (⟨d.map some, 0, 0 + K⟩ : StreamBuffer Nat).read K = .ok (b, K, d) := by
      unfold StreamBuffer.read
      have a4 : (⟨d.map some, 0, 0 + K⟩ : StreamBuffer Nat).size = K := by
        show ((d.map some).length : Int) = K; rw [List.length_map]; exact hd
      rw [a4]
      dsimp only
      rw [Res.assert_of (decide_eq_true (by omega)), Res.assert_of (decide_eq_true (by omega)), Res.assert_of (by simp)]
      simp only [Res.bind_ok]
      rw [Res.assert_of (by simp), Res.bind_ok, if_neg (show ¬ (K ≤ 0 ∨ K > 0 + K) by omega)]
      have a5 : slice (d.map some) 0 K = d.map some := by
        unfold slice
        simp only [Int.toNat_zero, List.drop_zero]
        exact List.take_of_length_le (by rw [List.length_map]; omega)
      rw [a5, StreamBuffer.initialised_map, Res.bind_ok]
      have a6 : (0 : Int) + K - K = 0 := by omega
      rw [a6, Int.zero_add]
    rw [e6, Res.bind_ok]
    dsimp only
    rw [if_neg (by omega), if_neg (by simp), Int.zero_add]
    rfl
  · show (do Res.assert (decide ((0 : Int) ≤ 0)); _ : Res _) = _
    simp only [Int.le_refl, decide_true, Res.assert, s1, b]
    have a1 : (K : Int) - 0 = K := by omega
    have a2 : K - K = 0 := by omega
    simp [a1, a2, s2, show -K ≤ (0 : Int) by omega]

/-- The hypotheses of C142 are met: reads, a skip and a reset on a file of 9 items, with a largest minimum of 3; and the buffer has
grown. -/
example : Fits endlessProducer := fun e => by cases e; exact Int.le_refl _
example : (do
    let (s, _, _) ← BufferedStream.read32 endlessProducer (BufferedStream.new ()) 2 0
    let (s, _) ← BufferedStream.reset s 0
    let (s, n, d) ← BufferedStream.read32 endlessProducer s 3 0
    let (s, k) ← BufferedStream.skip32 endlessProducer s 9
    .ok (n, d, k, s.buf.size) : Res (Int × List Nat × Int × Int)) = .ok (4, [7, 7, 7, 7], 9, 4) := by decide +kernel

end Strigi.Props
