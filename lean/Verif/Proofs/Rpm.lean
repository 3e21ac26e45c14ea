import Verif.Model.Rpm
import Verif.RpmSpec
import Verif.Proofs.Archive
import Verif.Proofs.Zip
import Verif.Proofs.Ole
import Verif.Props.Magic
import Verif.Props.Lzma
import Verif.Props.Cpio

/-!
# Proofs about `RpmInputStream`
-/

namespace Strigi.Rpm

open RpmSpec Props

variable {σ ζg ζb ζl : Type} {P : StreamOps σ UInt8} {C : Codecs ζg ζb ζl} {N : Nat}

theorem embeds_gz : Embeds (GZip.ops P C.gz N) (payloadOps P C N) Payload.gz :=
  ⟨fun _ _ _ => rfl, fun _ _ => rfl, fun _ _ => rfl, fun _ => rfl, fun _ => rfl, fun _ => rfl⟩

theorem embeds_bz : Embeds (BZ2.ops P C.bz N) (payloadOps P C N) Payload.bz :=
  ⟨fun _ _ _ => rfl, fun _ _ => rfl, fun _ _ => rfl, fun _ => rfl, fun _ => rfl, fun _ => rfl⟩

theorem embeds_lz : Embeds (LzmaStream.ops P C.lz N) (payloadOps P C N) Payload.lz :=
  ⟨fun _ _ _ => rfl, fun _ _ => rfl, fun _ _ => rfl, fun _ => rfl, fun _ => rfl, fun _ => rfl⟩

/-- Four bytes, most significant first. -/
theorem be32 {l : List UInt8} (h : 4 ≤ l.length) :
    TextUtils.readBigEndianInt32 l = .ok (Text.signed 32 (Text.beValue (l.take 4))) := by
  rcases l with _ | ⟨a, _ | ⟨b, _ | ⟨c, _ | ⟨d, l⟩⟩⟩⟩ <;> simp only [List.length_cons, List.length_nil] at h <;> try omega
  exact (C31_32 a b c d l).2.2.2

theorem be32_short {l : List UInt8} (h : l.length < 4) : TextUtils.readBigEndianInt32 l = .fault .outOfBounds := by
  rcases l with _ | ⟨a, _ | ⟨b, _ | ⟨c, _ | ⟨d, l⟩⟩⟩⟩ <;> simp only [List.length_cons, List.length_nil] at h <;> try omega
  all_goals rfl

theorem signed_small {v : Nat} (h : v < 2 ^ 31) : Text.signed 32 v = v := by
  unfold Text.signed; rw [if_pos (by simpa using h)]

theorem signed_range (v : Nat) (h : v < 2 ^ 32) : -(2 ^ 31) ≤ Text.signed 32 v ∧ Text.signed 32 v < 2 ^ 31 := by
  unfold Text.signed
  simp only [show (32 - 1 : Nat) = 31 from rfl]
  split <;> omega

theorem leValue_lt (l : List UInt8) : Text.leValue l < 256 ^ l.length := by
  induction l with
  | nil => simp [Text.leValue]
  | cons b l ih =>
    simp only [Text.leValue, List.length_cons, Nat.pow_succ]
    have := b.toNat_lt
    omega

theorem beValue_lt {l : List UInt8} (h : l.length = 4) : Text.beValue l < 2 ^ 32 := by
  have := leValue_lt l.reverse
  rw [List.length_reverse, h] at this
  exact this

/-- The numbers in the first sixteen bytes of a block. -/
theorem blockSizes_spec {b : List UInt8} (h : b.length = 16) {n s : Int}
    (hn : n = Text.signed 32 (Text.beValue ((b.drop 8).take 4))) (hs : s = Text.signed 32 (Text.beValue (b.drop 12))) :
    blockSizes b = (do let m ← Ole.ck (n * 16); let size ← Ole.ck (m + s); .ok (n, s, size)) := by
  unfold blockSizes
  rw [be32 (by rw [List.length_drop]; omega), be32 (by rw [List.length_drop]; omega)]
  simp only [Res.bind_ok]
  rw [← hn, show (b.drop 12).take 4 = b.drop 12 from List.take_of_length_le (by rw [List.length_drop]; omega), ← hs]

theorem intro_length {b : Block} (h : b.WellFormed) : b.intro.length = 16 := by
  unfold Block.intro
  simp only [List.length_append, h.reserved, h.count.1, h.size.1, List.length_cons, List.length_nil]

theorem flatten_length {l : List (List UInt8)} (h : ∀ e ∈ l, e.length = 16) : l.flatten.length = 16 * l.length := by
  induction l with
  | nil => rfl
  | cons e l ih =>
    rw [List.flatten_cons, List.length_append, h e (by simp), ih (fun x hx => h x (by simp [hx])), List.length_cons]
    omega

theorem body_length {b : Block} (h : b.WellFormed) : b.body.length = 16 * b.index.length + b.store.length := by
  unfold Block.body
  rw [List.length_append, flatten_length h.index]

theorem blockSizes_block {b : Block} (h : b.WellFormed) :
    blockSizes b.intro = .ok (b.index.length, b.store.length, b.body.length) := by
  have hs := h.small
  rw [blockSizes_spec (intro_length h) (n := b.index.length) (s := b.store.length)]
  · rw [Ole.ck_ok (by omega) (by omega), Res.bind_ok, Ole.ck_ok (by omega) (by omega), Res.bind_ok, body_length h]
    congr 3
    omega
  · rw [← signed_small (v := b.index.length) (by omega), ← h.count.2]
    congr 2
    unfold Block.intro
    rw [List.drop_append_of_le_length (by simp [h.reserved, h.count.1]), List.drop_append_of_le_length (by simp [h.reserved]),
      List.drop_of_length_le (by simp [h.reserved]), List.nil_append, show (4 : Nat) = b.countField.length from h.count.1.symm,
      List.take_left]
  · rw [← signed_small (v := b.store.length) (by omega), ← h.size.2]
    congr 2
    unfold Block.intro
    rw [show (12 : Nat) = ([0x8e, 0xad, 0xe8, 0x01] ++ b.reserved ++ b.countField).length by simp [h.reserved, h.count.1],
      List.drop_left]

theorem isHead_block {b : Block} (h : b.WellFormed) : isHead 16 b.intro = .ok true := by
  unfold isHead
  rw [if_neg (by omega)]
  obtain ⟨r, e, hr⟩ := memEq_spec (l := b.intro) (m := headmagic) (by rw [intro_length h]; decide)
  rw [e, hr.mpr]
  unfold Block.intro headmagic
  rw [List.append_assoc, List.append_assoc]
  exact List.prefix_append _ _

theorem pad8_spec {n p : Nat} (h : p < 8) (h2 : (n + p) % 8 = 0) (hs : n + 8 ≤ 2 ^ 31) : pad8 n = .ok ((n + p : Nat) : Int) := by
  unfold pad8
  rw [show (n : Int).tmod 8 = ((n % 8 : Nat) : Int) from rfl]
  by_cases hz : n % 8 = 0
  · rw [if_neg (by omega)]
    congr 1; omega
  · rw [if_pos (by omega), Ole.ck_ok (by omega) (by omega)]
    congr 1; omega

/-- The loop over the index of a block. -/
theorem checkIndex_block (rest : List UInt8) (hsize : Int) : ∀ (l pre : List (List UInt8)) (nindex : Int),
    (∀ e ∈ pre, e.length = 16) → (∀ e ∈ l, e.length = 16 ∧ (offset e : Int) < hsize) → hsize < 2 ^ 31 →
    nindex = pre.length + l.length →
    checkIndex ((pre ++ l).flatten ++ rest) nindex hsize l.length pre.length = .ok true := by
  intro l
  induction l with
  | nil => intro pre n _ _ _ _; rfl
  | cons e l ih =>
    intro pre nindex hpre hl hh hn
    have hel := (hl e (by simp)).1
    have ho := (hl e (by simp)).2
    have hpl := flatten_length hpre
    have hll := flatten_length (fun x hx => (hl x (List.mem_cons_of_mem _ hx)).1)
    have hd : ∀ k, ((pre ++ e :: l).flatten ++ rest).drop (pre.length * 16 + k) = (e ++ (l.flatten ++ rest)).drop k := by
      intro k
      rw [List.flatten_append, List.flatten_cons, List.append_assoc, List.append_assoc, ← List.drop_drop,
        show pre.length * 16 = pre.flatten.length by omega, List.drop_left]
    rw [List.length_cons, checkIndex]
    have hd0 := hd 0
    rw [Nat.add_zero] at hd0
    rw [hd0, hd 4, hd 8]
    rw [be32 (by simp only [List.length_drop, List.length_append, hel]; omega), be32 (by simp only [List.length_drop, List.length_append, hel]; omega), be32 (by simp only [List.length_drop, List.length_append, hel]; omega)]
    simp only [Res.bind_ok]
    have hoff : (((e ++ (l.flatten ++ rest)).drop 8).take 4) = (e.drop 8).take 4 := by
      rw [List.drop_append_of_le_length (by omega), List.take_append_of_le_length (by rw [List.length_drop]; omega)]
    rw [hoff, show Text.beValue ((e.drop 8).take 4) = offset e from rfl, signed_small (by omega),
      if_neg (by omega), hd 12, be32 (by simp only [List.length_drop, List.length_append, hel]; omega)]
    simp only [Res.bind_ok]
    have key := ih (pre ++ [e]) nindex (by
      intro x hx
      rcases List.mem_append.mp hx with h | h
      · exact hpre x h
      · rw [List.mem_singleton.mp h]; exact hel) (fun x hx => hl x (List.mem_cons_of_mem _ hx)) hh
      (by rw [hn]; simp; omega)
    rw [List.append_assoc, List.singleton_append, List.length_append, List.length_singleton] at key
    by_cases hi : (pre.length : Int) < nindex - 1
    · rw [if_pos hi, hd 24]
      have : 0 < l.length := by rw [List.length_cons] at hn; omega
      rw [be32 (by simp only [List.length_drop, List.length_append, hel]; omega)]
      simp only [Res.bind_ok]
      exact key
    · rw [if_neg hi]; exact key

theorem signed_nonneg {v : Nat} (hv : v < 2 ^ 32) (h : 0 ≤ Text.signed 32 v) : Text.signed 32 v = v ∧ v < 2 ^ 31 := by
  unfold Text.signed at *
  simp only [show (32 - 1 : Nat) = 31 from rfl] at *
  split at h
  · rename_i h2
    rw [if_pos h2]; exact ⟨rfl, h2⟩
  · omega

/-- If the loop over the index succeeds, the offsets are right. -/
theorem checkIndex_offsets (rest : List UInt8) (hsize : Int) : ∀ (l pre : List (List UInt8)) (nindex : Int),
    (∀ e ∈ pre, e.length = 16) → (∀ e ∈ l, e.length = 16) → nindex = pre.length + l.length →
    checkIndex ((pre ++ l).flatten ++ rest) nindex hsize l.length pre.length = .ok true → ∀ e ∈ l, (offset e : Int) < hsize := by
  intro l
  induction l with
  | nil => intro pre n _ _ _ _ e he; simp at he
  | cons e l ih =>
    intro pre nindex hpre hl hn
    have hel := hl e (by simp)
    have hpl := flatten_length hpre
    have hll := flatten_length (fun x hx => hl x (List.mem_cons_of_mem _ hx))
    have hd : ∀ k, ((pre ++ e :: l).flatten ++ rest).drop (pre.length * 16 + k) = (e ++ (l.flatten ++ rest)).drop k := by
      intro k
      rw [List.flatten_append, List.flatten_cons, List.append_assoc, List.append_assoc, ← List.drop_drop,
        show pre.length * 16 = pre.flatten.length by omega, List.drop_left]
    rw [List.length_cons, checkIndex]
    have hd0 := hd 0
    rw [Nat.add_zero] at hd0
    rw [hd0, hd 4, hd 8]
    rw [be32 (by simp only [List.length_drop, List.length_append, hel]; omega), be32 (by simp only [List.length_drop, List.length_append, hel]; omega), be32 (by simp only [List.length_drop, List.length_append, hel]; omega)]
    simp only [Res.bind_ok]
    have hoff : (((e ++ (l.flatten ++ rest)).drop 8).take 4) = (e.drop 8).take 4 := by
      rw [List.drop_append_of_le_length (by omega), List.take_append_of_le_length (by rw [List.length_drop]; omega)]
    rw [hoff, show Text.beValue ((e.drop 8).take 4) = offset e from rfl]
    have hv : offset e < 2 ^ 32 := beValue_lt (by rw [List.length_take, List.length_drop]; omega)
    split
    · intro h; cases h
    · rename_i ho
      have hs := signed_nonneg hv (by omega)
      rw [hs.1] at ho
      rw [hd 12, be32 (by simp only [List.length_drop, List.length_append, hel]; omega)]
      simp only [Res.bind_ok]
      have key := ih (pre ++ [e]) nindex (by
        intro x hx
        rcases List.mem_append.mp hx with h | h
        · exact hpre x h
        · rw [List.mem_singleton.mp h]; exact hel) (fun x hx => hl x (List.mem_cons_of_mem _ hx))
        (by rw [hn]; simp; omega)
      rw [List.append_assoc, List.singleton_append, List.length_append, List.length_singleton] at key
      have fin : checkIndex ((pre ++ e :: l).flatten ++ rest) nindex hsize l.length (pre.length + 1) = .ok true →
          ∀ x ∈ e :: l, (offset x : Int) < hsize := by
        intro h x hx
        rcases List.mem_cons.mp hx with rfl | hx
        · omega
        · exact key h x hx
      by_cases hi : (pre.length : Int) < nindex - 1
      · rw [if_pos hi, hd 24]
        have : 0 < l.length := by rw [List.length_cons] at hn; omega
        rw [be32 (by simp only [List.length_drop, List.length_append, hel]; omega)]
        simp only [Res.bind_ok]
        exact fin
      · rw [if_neg hi]; exact fin

/-- Pieces of sixteen bytes. -/
def chunks : Nat → List UInt8 → List (List UInt8)
  | 0, _ => []
  | n + 1, l => l.take 16 :: chunks n (l.drop 16)

theorem chunks_spec : ∀ (n : Nat) (l : List UInt8), 16 * n ≤ l.length →
    (chunks n l).length = n ∧ (∀ e ∈ chunks n l, e.length = 16) ∧ (chunks n l).flatten = l.take (16 * n) := by
  intro n
  induction n with
  | zero => intro l _; simp [chunks]
  | succ n ih =>
    intro l h
    obtain ⟨h1, h2, h3⟩ := ih (l.drop 16) (by rw [List.length_drop]; omega)
    refine ⟨by simp [chunks, h1], ?_, ?_⟩
    · intro e he
      rcases List.mem_cons.mp he with rfl | he
      · rw [List.length_take]; omega
      · exact h2 e he
    · rw [chunks, List.flatten_cons, h3, show 16 * (n + 1) = 16 + 16 * n by omega, List.take_add]

end Strigi.Rpm
