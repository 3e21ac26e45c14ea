import Verif.Model.Magic
import Verif.Proofs.TextUtils
import Verif.Props.Decompress
import Verif.Props.TextUtils
import Verif.Model.Tar
import Verif.TarSpec

/-!
# Property C59: the header checks
-/

namespace Strigi.Props

theorem memEq_spec {l m : List UInt8} (h : m.length ≤ l.length) :
    ∃ b, memEq l m = .ok b ∧ (b = true ↔ m <+: l) := by
  unfold memEq
  rw [if_pos h]
  refine ⟨_, rfl, ?_⟩
  rw [beq_iff_eq]
  constructor
  · intro z; rw [← z]; exact List.take_prefix _ _
  · intro z; exact (List.prefix_iff_eq_take.mp z).symm

/-- **C59**: on data of which `datasize` bytes can be read, every check gives an answer without reading more,
and the answer is `true` exactly if enough data is given and it starts with the magic of the format. -/
theorem C59_zip (data : List UInt8) : ∃ b, Zip.checkHeader data data.length = .ok b ∧
    (b = true ↔ 8 < data.length ∧ [0x50, 0x4b, 0x03, 0x04] <+: data) := by
  unfold Zip.checkHeader
  by_cases h : (data.length : Int) < 4
  · rw [if_pos h]
    refine ⟨false, rfl, by simp; omega⟩
  · rw [if_neg h]
    obtain ⟨b, e, hb⟩ := memEq_spec (l := data) (m := [0x50, 0x4b, 0x03, 0x04]) (by simp; omega)
    rw [e]
    refine ⟨_, rfl, ?_⟩
    simp only [Bool.and_eq_true, decide_eq_true_eq, hb]
    constructor
    · rintro ⟨x, y⟩; exact ⟨by omega, x⟩
    · rintro ⟨x, y⟩; exact ⟨y, by omega⟩

/-- A check that needs `n` bytes for a magic of `n` bytes. -/
theorem magic_check {data m : List UInt8} {n : Int} (hn : (m.length : Int) = n) :
    ∃ b, (if (data.length : Int) < n then Res.ok false else memEq data m) = .ok b ∧ (b = true ↔ m <+: data) := by
  by_cases h : (data.length : Int) < n
  · rw [if_pos h]
    refine ⟨false, rfl, ?_⟩
    simp only [Bool.false_eq_true, false_iff]
    intro z
    have := z.length_le
    omega
  · rw [if_neg h]
    exact memEq_spec (by omega)

theorem C59_ar (data : List UInt8) : ∃ b, Ar.checkHeader data data.length = .ok b ∧
    (b = true ↔ [0x21, 0x3c, 0x61, 0x72, 0x63, 0x68, 0x3e, 0x0a] <+: data) := magic_check rfl

theorem C59_cpio (data : List UInt8) : ∃ b, Cpio.checkHeader data data.length = .ok b ∧
    (b = true ↔ [48, 55, 48, 55, 48, 49] <+: data) := magic_check rfl

theorem C59_rpm (data : List UInt8) : ∃ b, Rpm.checkHeader data data.length = .ok b ∧
    (b = true ↔ [0xed, 0xab, 0xee, 0xdb, 0x03, 0x00] <+: data) := magic_check rfl

theorem C59_ole (data : List UInt8) : ∃ b, Ole.checkHeader data data.length = .ok b ∧
    (b = true ↔ 8 < data.length ∧ [0xd0, 0xcf, 0x11, 0xe0, 0xa1, 0xb1, 0x1a, 0xe1] <+: data) := by
  unfold Ole.checkHeader
  by_cases h : (data.length : Int) > 8
  · rw [if_pos h]
    obtain ⟨b, e, hb⟩ := memEq_spec (l := data) (m := [0xd0, 0xcf, 0x11, 0xe0, 0xa1, 0xb1, 0x1a, 0xe1])
      (by simp; omega)
    refine ⟨b, e, hb.trans ?_⟩
    constructor
    · intro x; exact ⟨by omega, x⟩
    · rintro ⟨_, x⟩; exact x
  · rw [if_neg h]
    refine ⟨false, rfl, ?_⟩
    simp only [Bool.false_eq_true, false_iff]
    rintro ⟨x, _⟩
    omega

theorem C59_gzip (data : List UInt8) : ∃ b, GZip.checkHeader data data.length = .ok b ∧
    (b = true ↔ 2 < data.length ∧ [0x1f, 0x8b] <+: data) := by
  unfold GZip.checkHeader
  by_cases h : (data.length : Int) > 2
  · rw [if_pos h]
    rcases data with _ | ⟨a, _ | ⟨b, l⟩⟩ <;> simp only [List.length_cons, List.length_nil] at h <;> try omega
    have e0 : aget (a :: b :: l) 0 = .ok a := rfl
    have e1 : aget (a :: b :: l) 1 = .ok b := rfl
    rw [e0, e1]
    simp only [Res.bind_ok, List.length_cons, List.cons_prefix_cons, List.nil_prefix, and_true]
    by_cases ha : a = 0x1f
    · rw [if_neg (by simp [ha])]
      refine ⟨_, rfl, ?_⟩
      simp only [beq_iff_eq]
      constructor
      · intro x; exact ⟨by omega, ha.symm, x.symm⟩
      · rintro ⟨_, _, x⟩; exact x.symm
    · rw [if_pos ha]
      refine ⟨false, rfl, ?_⟩
      simp only [Bool.false_eq_true, false_iff]
      rintro ⟨_, x, _⟩
      exact ha x.symm
  · rw [if_neg h]
    refine ⟨false, rfl, ?_⟩
    simp only [Bool.false_eq_true, false_iff]
    rintro ⟨x, _⟩
    omega

theorem C59_bz2 (data : List UInt8) : ∃ b, BZ2.checkHeader data data.length = .ok b ∧
    (b = true ↔ BZ2Magic data) := by
  by_cases h : data.length < 10
  · unfold BZ2.checkHeader
    rw [if_pos (by omega)]
    refine ⟨false, rfl, ?_⟩
    simp only [Bool.false_eq_true, false_iff]
    rintro ⟨b, d, _, x⟩
    have := x.length_le
    simp at this
    omega
  · have h10 : BZ2.checkHeader data data.length = BZ2.checkHeader data 10 := by
      unfold BZ2.checkHeader
      rw [if_neg (by omega), if_neg (by omega)]
    rw [h10]
    exact bz2_checkHeader (by omega)

/-- The header of an lzma file, as `LZMAInputStream` recognises it: the byte `5d`, the size of the dictionary
(4 bytes, the first of them 0), the size of the data (8 bytes), where the dictionary has at most 32M (less
than 4K count as 4K) and the size is unknown (-1), or larger than the dictionary but below 1T. -/
def LzmaMagic (data : List UInt8) : Prop :=
  ∃ dic size rest, data = 0x5d :: 0 :: (dic ++ size ++ rest) ∧ dic.length = 3 ∧ size.length = 8 ∧
    Text.leValue (0 :: dic) ≤ 2 ^ 25 ∧
    (Text.signed 64 (Text.leValue size) = -1 ∨
      (max 4096 (Text.leValue (0 :: dic)) < Text.signed 64 (Text.leValue size) ∧
        Text.signed 64 (Text.leValue size) < 2 ^ 40))

theorem C59_lzma (data : List UInt8) : ∃ b, Lzma.checkHeader data data.length = .ok b ∧
    (b = true ↔ LzmaMagic data) := by
  unfold Lzma.checkHeader
  by_cases h : (data.length : Int) < 5 + 8
  · rw [if_pos h]
    refine ⟨false, rfl, ?_⟩
    simp only [Bool.false_eq_true, false_iff]
    rintro ⟨dic, size, rest, rfl, h1, h2, _⟩
    simp only [List.length_cons, List.length_append] at h
    omega
  · rw [if_neg h]
    rcases data with _ | ⟨d0, _ | ⟨d1, _ | ⟨d2, _ | ⟨d3, _ | ⟨d4, _ | ⟨d5, _ | ⟨d6, _ | ⟨d7, _ | ⟨d8, _ |
      ⟨d9, _ | ⟨d10, _ | ⟨d11, _ | ⟨d12, l⟩⟩⟩⟩⟩⟩⟩⟩⟩⟩⟩⟩⟩ <;>
      simp only [List.length_cons, List.length_nil] at h <;> try omega
    generalize hd : d0 :: d1 :: d2 :: d3 :: d4 :: d5 :: d6 :: d7 :: d8 :: d9 :: d10 :: d11 :: d12 :: l = data
    have e0 : aget data 0 = .ok d0 := by rw [← hd]; rfl
    have e1 : aget data 1 = .ok d1 := by rw [← hd]; rfl
    have e2 : aget data 2 = .ok d2 := by rw [← hd]; rfl
    have e3 : aget data 3 = .ok d3 := by rw [← hd]; rfl
    have e4 : aget data 4 = .ok d4 := by rw [← hd]; rfl
    have e5 : data.drop 5 = d5 :: d6 :: d7 :: d8 :: d9 :: d10 :: d11 :: d12 :: l := by rw [← hd]; rfl
    rw [e0, e1]
    simp only [Res.bind_ok]
    by_cases h0 : d0 ≠ 0x5d
    · rw [if_pos h0]
      refine ⟨false, rfl, ?_⟩
      simp only [Bool.false_eq_true, false_iff]
      rintro ⟨dic, size, rest, z, _⟩
      rw [← hd] at z
      injection z with z
      exact h0 z
    rw [if_neg h0]
    by_cases h1 : d1 ≠ 0
    · rw [if_pos h1]
      refine ⟨false, rfl, ?_⟩
      simp only [Bool.false_eq_true, false_iff]
      rintro ⟨dic, size, rest, z, _⟩
      rw [← hd] at z
      injection z with _ z
      injection z with z
      exact h1 z
    rw [if_neg h1]
    have h0 : d0 = 0x5d := by simpa using h0
    have h1 : d1 = 0 := by simpa using h1
    subst h0 h1
    have hdic : Lzma.dicSize data = .ok (some (max 4096 (Text.leValue [0, d2, d3, d4]))) := by
      unfold Lzma.dicSize
      rw [e0, e1, e2, e3, e4]
      simp only [Res.bind_ok]
      rw [if_neg (by decide)]
      have hb : ((0 : UInt8).toBitVec.setWidth 32 ||| (d2.toBitVec.setWidth 32 <<< 8) |||
          (d3.toBitVec.setWidth 32 <<< 16) ||| (d4.toBitVec.setWidth 32 <<< 24)) =
          (d4.toBitVec ++ d3.toBitVec ++ d2.toBitVec ++ (0 : UInt8).toBitVec : BitVec 32) := by
        ext i hi
        have : i < 8 ∨ (8 ≤ i ∧ i < 16) ∨ (16 ≤ i ∧ i < 24) ∨ 24 ≤ i := by omega
        rcases this with c | c | c | c <;>
        simp [BitVec.getElem_append, BitVec.getElem_setWidth, BitVec.getLsbD_append] <;> grind
      rw [hb, TextUtils.bytes4]
      congr 2
      split <;> omega
    rw [hdic, e5]
    rw [(C31_64 d5 d6 d7 d8 d9 d10 d11 d12 l).2.1]
    simp only [Res.bind_ok]
    refine ⟨_, rfl, ?_⟩
    rw [decide_eq_true_eq]
    constructor
    · rintro ⟨x, y⟩
      refine ⟨[d2, d3, d4], [d5, d6, d7, d8, d9, d10, d11, d12], l, by rw [← hd]; rfl, rfl, rfl, by omega, ?_⟩
      rcases y with y | ⟨y, z⟩
      · exact Or.inl y
      · exact Or.inr ⟨by omega, by omega⟩
    · rintro ⟨dic, size, rest, z, z1, z2, z3, z4⟩
      rw [← hd] at z
      rcases dic with _ | ⟨c2, _ | ⟨c3, _ | ⟨c4, _ | ⟨_, _⟩⟩⟩⟩ <;> simp at z1
      rcases size with _ | ⟨c5, _ | ⟨c6, _ | ⟨c7, _ | ⟨c8, _ | ⟨c9, _ | ⟨c10, _ | ⟨c11, _ | ⟨c12, _ | ⟨_, _⟩⟩⟩⟩⟩⟩⟩⟩⟩ <;>
        simp at z2
      simp only [List.cons_append, List.nil_append, List.cons.injEq, true_and] at z
      obtain ⟨rfl, rfl, rfl, rfl, rfl, rfl, rfl, rfl, rfl, rfl, rfl, rfl⟩ := z
      refine ⟨by omega, ?_⟩
      rcases z4 with y | ⟨y, z⟩
      · exact Or.inl y
      · exact Or.inr ⟨by omega, by omega⟩

example : LzmaMagic [0x5d, 0, 0, 0, 1, 0, 0, 0, 2, 0, 0, 0, 0, 9] :=
  ⟨[0, 0, 1], [0, 0, 0, 2, 0, 0, 0, 0], [9], rfl, rfl, rfl, by decide, by decide⟩

/-! ## tar -/

theorem dropWhile_any {l : List UInt8} : (l.dropWhile (· ≠ 0)).any (· ≠ 0) = false ↔
    ∀ i j, i < j → j < l.length → l[i]? = some 0 → l[j]? = some 0 := by
  induction l with
  | nil => simp
  | cons a l ih =>
    by_cases ha : a = 0
    · subst ha
      rw [List.dropWhile_cons_of_neg (by simp), List.any_eq_false]
      constructor
      · intro h i j hij hj _
        rw [List.getElem?_eq_getElem hj]
        have := h _ (List.getElem_mem hj)
        simpa using this
      · intro h x hx
        obtain ⟨k, hk, rfl⟩ := List.mem_iff_getElem.1 hx
        rcases k with _ | k
        · simp
        · have := h 0 (k + 1) (by omega) hk (by simp)
          rw [List.getElem?_eq_getElem hk] at this
          simpa using this
    · rw [List.dropWhile_cons_of_pos (by simpa using ha), ih]
      constructor
      · intro h i j hij hj hi
        rcases i with _ | i
        · simp at hi; exact absurd hi ha
        · rcases j with _ | j
          · omega
          · simp only [List.getElem?_cons_succ] at hi ⊢
            simp only [List.length_cons] at hj
            exact h i j (by omega) (by omega) hi
      · intro h i j hij hj hi
        have := h (i + 1) (j + 1) (by omega) (by simp; omega) (by simpa using hi)
        simpa using this

/-- **C59** for tar, which has no magic: the answer is `true` exactly if the data may be a header. -/
theorem C59_tar (data : List UInt8) : ∃ b, Tar.checkHeader data data.length = .ok b ∧
    (b = true ↔ TarSpec.Plausible data) := by
  unfold Tar.checkHeader
  by_cases h0 : (data.length : Int) < 257
  · rw [if_pos h0]
    exact ⟨false, rfl, by simp; intro h; have := h.length; omega⟩
  rw [if_neg h0]
  have hname : ((data.take 100).dropWhile (· ≠ 0)).any (· ≠ 0) = false ↔
      ∀ i j, i < j → j < 100 → data[i]? = some 0 → data[j]? = some 0 := by
    rw [dropWhile_any]
    have hl : (data.take 100).length = 100 := by rw [List.length_take]; omega
    rw [hl]
    constructor
    · intro h i j hij hj hi
      have := h i j hij hj (by rw [List.getElem?_take_of_lt (by omega)]; exact hi)
      rwa [List.getElem?_take_of_lt (by omega)] at this
    · intro h i j hij hj hi
      rw [List.getElem?_take_of_lt (by omega)] at hi ⊢
      exact h i j hij hj hi
  have hfields : (slice data 100 156).all (· = 0) = false ↔ ∃ i, 100 ≤ i ∧ i < 256 ∧ data[i]? ≠ some 0 := by
    unfold slice
    simp only [show (100 : Int).toNat = 100 from rfl, show (156 : Int).toNat = 156 from rfl]
    rw [List.all_eq_false]
    constructor
    · rintro ⟨x, hx, hne⟩
      obtain ⟨k, hk, rfl⟩ := List.mem_iff_getElem.1 hx
      have hk' : k < 156 := by rw [List.length_take] at hk; omega
      refine ⟨100 + k, by omega, by omega, ?_⟩
      rw [List.getElem_take, List.getElem_drop] at hne
      rw [List.getElem?_eq_getElem (by omega)]
      simpa using hne
    · rintro ⟨i, h1, h2, h3⟩
      have hk : i - 100 < ((data.drop 100).take 156).length := by
        rw [List.length_take, List.length_drop]; omega
      refine ⟨_, List.getElem_mem hk, ?_⟩
      rw [List.getElem_take, List.getElem_drop]
      rw [List.getElem?_eq_getElem (by omega)] at h3
      have e : data[100 + (i - 100)]'(by omega) = data[i]'(by omega) := by congr 1; omega
      rw [e]
      simpa using h3
  by_cases h1 : ((data.take 100).dropWhile (· ≠ 0)).any (· ≠ 0) = true
  · rw [if_pos h1]
    refine ⟨false, rfl, ?_⟩
    simp only [Bool.false_eq_true, false_iff]
    intro h
    have := hname.2 h.name
    rw [h1] at this; cases this
  rw [if_neg h1]
  have hn := hname.1 (by simpa using h1)
  by_cases h2 : (slice data 100 156).all (· = 0) = true
  · rw [if_pos h2]
    refine ⟨false, rfl, ?_⟩
    simp only [Bool.false_eq_true, false_iff]
    intro h
    have := hfields.2 h.fields
    rw [h2] at this; cases this
  rw [if_neg h2]
  have hf := hfields.1 (by simpa using h2)
  have hget : ∀ i : Nat, i ≤ 256 → ∃ a, data[i]? = some a ∧ aget data i = .ok a := by
    intro i hi
    refine ⟨data[i]'(by omega), List.getElem?_eq_getElem (by omega), ?_⟩
    unfold aget
    rw [if_pos (by omega)]
    simp only [Int.toNat_natCast]
    rw [List.getElem?_eq_getElem (by omega)]
  obtain ⟨a1, g1, e1⟩ := hget 107 (by omega)
  obtain ⟨a2, g2, e2⟩ := hget 115 (by omega)
  obtain ⟨a3, g3, e3⟩ := hget 123 (by omega)
  obtain ⟨a4, g4, e4⟩ := hget 135 (by omega)
  obtain ⟨a5, g5, e5⟩ := hget 147 (by omega)
  obtain ⟨a6, g6, e6⟩ := hget 256 (by omega)
  rw [show aget data 107 = _ from e1, Res.bind_ok]
  have key : TarSpec.Plausible data ↔ a1 = 0 ∧ a2 = 0 ∧ a3 = 0 ∧ (a4 = 0 ∨ a4 = 32) ∧ (a5 = 0 ∨ a5 = 32) ∧ a6 = 0 := by
    constructor
    · intro h
      have x1 := h.mode; have x2 := h.owner; have x3 := h.group; have x4 := h.size; have x5 := h.time; have x6 := h.link
      rw [g1] at x1; rw [g2] at x2; rw [g3] at x3; rw [g4] at x4; rw [g5] at x5; rw [g6] at x6
      simp only [Option.some.injEq] at x1 x2 x3 x4 x5 x6
      exact ⟨x1, x2, x3, x4, x5, x6⟩
    · rintro ⟨x1, x2, x3, x4, x5, x6⟩
      refine ⟨by omega, hn, hf, ?_, ?_, ?_, ?_, ?_, ?_⟩
      · rw [g1, x1]
      · rw [g2, x2]
      · rw [g3, x3]
      · rw [g4]; simpa using x4
      · rw [g5]; simpa using x5
      · rw [g6, x6]
  rw [key]
  by_cases c1 : a1 ≠ 0
  · rw [if_pos c1]; exact ⟨false, rfl, by simp; intro z; exact absurd z c1⟩
  rw [if_neg c1, show aget data 115 = _ from e2, Res.bind_ok]
  by_cases c2 : a2 ≠ 0
  · rw [if_pos c2]; exact ⟨false, rfl, by simp; intro _ z; exact absurd z c2⟩
  rw [if_neg c2, show aget data 123 = _ from e3, Res.bind_ok]
  by_cases c3 : a3 ≠ 0
  · rw [if_pos c3]; exact ⟨false, rfl, by simp; intro _ _ z; exact absurd z c3⟩
  rw [if_neg c3, show aget data 135 = _ from e4, Res.bind_ok]
  by_cases c4 : a4 ≠ 0 ∧ a4 ≠ 32
  · rw [if_pos c4]
    refine ⟨false, rfl, ?_⟩
    simp only [Bool.false_eq_true, false_iff]
    rintro ⟨_, _, _, z, _⟩
    rcases z with z | z
    · exact c4.1 z
    · exact c4.2 z
  rw [if_neg c4, show aget data 147 = _ from e5, Res.bind_ok]
  by_cases c5 : a5 ≠ 0 ∧ a5 ≠ 32
  · rw [if_pos c5]
    refine ⟨false, rfl, ?_⟩
    simp only [Bool.false_eq_true, false_iff]
    rintro ⟨_, _, _, _, z, _⟩
    rcases z with z | z
    · exact c5.1 z
    · exact c5.2 z
  rw [if_neg c5, show aget data 256 = _ from e6, Res.bind_ok]
  refine ⟨_, rfl, ?_⟩
  have d4 : a4 = 0 ∨ a4 = 32 := by
    by_cases z : a4 = 0
    · exact Or.inl z
    · exact Or.inr (Classical.not_not.1 (fun y => c4 ⟨z, y⟩))
  have d5 : a5 = 0 ∨ a5 = 32 := by
    by_cases z : a5 = 0
    · exact Or.inl z
    · exact Or.inr (Classical.not_not.1 (fun y => c5 ⟨z, y⟩))
  constructor
  · intro z
    exact ⟨Classical.not_not.1 c1, Classical.not_not.1 c2, Classical.not_not.1 c3, d4, d5, by simpa using z⟩
  · rintro ⟨_, _, _, _, _, z⟩
    simpa using z

/-- Data that is accepted, and data that is not: the field for the size runs on. -/
example : TarSpec.Plausible ([97] ++ List.replicate 99 0 ++ List.replicate 7 48 ++ List.replicate 150 0) ∧
    ¬ TarSpec.Plausible ([97] ++ List.replicate 99 0 ++ List.replicate 7 48 ++ List.replicate 28 0 ++ [48] ++ List.replicate 121 0) := by
  constructor
  · obtain ⟨b, e, h⟩ := C59_tar ([97] ++ List.replicate 99 0 ++ List.replicate 7 48 ++ List.replicate 150 0)
    rw [show Tar.checkHeader _ _ = .ok true by decide +kernel] at e
    cases e
    exact h.1 rfl
  · obtain ⟨b, e, h⟩ := C59_tar ([97] ++ List.replicate 99 0 ++ List.replicate 7 48 ++ List.replicate 28 0 ++ [48] ++ List.replicate 121 0)
    rw [show Tar.checkHeader _ _ = .ok false by decide +kernel] at e
    cases e
    exact fun z => by have := h.2 z; cases this

end Strigi.Props
