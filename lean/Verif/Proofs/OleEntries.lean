import Verif.Proofs.OleStream
import Verif.Proofs.Decompress
import Verif.Proofs.Archive
import Verif.Proofs.Base64

/-!
# The entries of OLE files
-/

namespace Strigi
namespace Ole

open OleFile

variable {f : List UInt8} {L : Layout} {tb ti : Int} {later laterS : List Nat} {k : Bool}

theorem produces (W : WellFormed f L) (tb ti : Int) (later laterS : List Nat) (k : Bool) :
    Produces producer False (fun e rest m => ∃ m', m = m' + 1 ∧ Rest f L tb ti later laterS k e rest m') where
  fuel := by
    rintro e rest m ⟨m', rfl, h⟩
    have := h.left
    have := h.count
    simp only [producer]
    omega
  step := by
    rintro e rest m ⟨m', rfl, h⟩ space hs
    by_cases hr : rest = []
    · subst hr
      exact ⟨e, _, fill_end h space, Or.inr (Or.inl ⟨rfl, by simp, rfl, rfl⟩)⟩
    · obtain ⟨e', data, rest', e1, h1, h2, h3, h4⟩ := fill_step W h hr hs
      refine ⟨e', _, e1, Or.inl ⟨rfl, rfl, h2, rest', rest'.length + 1, h3, ?_, rest'.length, rfl, h4⟩⟩
      have := h.count
      have := List.length_pos_iff.2 h1
      subst h3
      rw [List.length_append] at this
      omega

theorem tracked (W : WellFormed f L) (tb ti : Int) (later laterS : List Nat) (k : Bool) :
    BufferedStream.Tracked producer (fun e => ∃ rest m, Rest f L tb ti later laterS k e rest m)
      (fun e => DocInv f L tb ti later laterS e.doc) where
  next := by
    rintro e space e' r ⟨rest, m, h⟩ hs he _ hn
    have he : fill e space = .ok (e', r) := he
    by_cases hr : rest = []
    · subst hr
      rw [fill_end h] at he
      cases he
      simp at hn
    · obtain ⟨e1, data, rest', h1, _, _, _, h2⟩ := fill_step W h hr hs
      rw [h1] at he
      cases he
      exact ⟨_, _, h2⟩
  last := by
    rintro e space e' r ⟨rest, m, h⟩ hs he _ hn
    have he : fill e space = .ok (e', r) := he
    by_cases hr : rest = []
    · subst hr
      rw [fill_end h] at he
      cases he
      exact h.doc
    · obtain ⟨e1, data, rest', h1, _, _, _, h2⟩ := fill_step W h hr hs
      rw [h1] at he
      cases he
      exact h2.doc

/-- The entry stream of a chain, and what is left of it. -/
theorem entry_spec (W : WellFormed f L) {es : BufferedStream Entry UInt8} {d : Doc} {b : Nat} {l : List Nat}
    (hd : DocInv f L tb ti later laterS d) (hb : d.dataBlock = b) (hk : k = decide (d.streamSize < 4096))
    (hsz0 : 0 < d.streamSize) (hsz1 : d.streamSize < 2 ^ 31) (hc : Chain f (table L k) (b :: l))
    (hok : ∀ x ∈ b :: l, BlockOk f L k x) (hen : d.streamSize ≤ bsz k * (b :: l).length) (hnd : l.Nodup)
    (hu : ∀ x ∈ l, (x : Int) ∉ usedOf k d) (hl : ∀ x ∈ l, x ∉ if k then laterS else later) :
    let content := ((b :: l).flatMap (blk f L k)).take d.streamSize.toNat
    (content.length : Int) = d.streamSize ∧
    IsStream (BufferedStream.ops producer) content .never True (resetEntry es d) ∧
      ∀ x lo hi, Uses (BufferedStream.ops producer) content True (resetEntry es d) x lo hi →
        DocInv f L tb ti later laterS x.prod.doc := by
  intro content
  have hlen : ∀ l : List Nat, (∀ x ∈ l, BlockOk f L k x) → (l.flatMap (blk f L k)).length = bsz k * l.length := by
    intro l
    induction l with
    | nil => intro _; rfl
    | cons x l ih =>
      intro h
      rw [List.flatMap_cons, List.length_append, blk_length W (h x (by simp)), ih (fun y hy => h y (by simp [hy])),
        List.length_cons, Nat.mul_succ]
      omega
  have hcl : content.length = d.streamSize.toNat := by
    show (List.take _ _).length = _
    rw [List.length_take, hlen _ hok]
    omega
  have hR : Rest f L tb ti later laterS k (resetEntry es d).prod content content.length := by
    refine ⟨hd, ?_, hsz1, Int.le_refl _, rfl, Or.inr ⟨b, l, hc, hok, hb, ?_, Int.le_refl _, ?_, ?_, hnd, hu, hl⟩⟩
    · simp only [resetEntry]; omega
    · simp only [resetEntry, hk, bsz, decide_eq_true_eq]
      split <;> rfl
    · simp only [resetEntry, bsz]; split <;> omega
    · simp only [resetEntry, Int.toNat_zero, List.drop_zero]
      rw [← List.flatMap_cons]
      exact List.take_prefix _ _
  have hP := produces W tb ti later laterS k
  have hT := tracked W tb ti later laterS k
  have C := (BufferedStream.contract hP content d.streamSize).and
      (J := BufferedStream.Tracks (fun e => ∃ rest m, Rest f L tb ti later laterS k e rest m) (fun e => DocInv f L tb ti later laterS e.doc))
      (fun s mn mx s' n d hj e => BufferedStream.read_tracks hT hj e)
      (fun s n s' r hj e => BufferedStream.skipLoop_tracks hT _ hj e)
      (fun s q s' r hj e => BufferedStream.reset_tracks hj e)
  have S := (BufferedStream.softReset (fun e rest m => ∃ m', m = m' + 1 ∧ Rest f L tb ti later laterS k e rest m') producer content d.streamSize).and
      (J := BufferedStream.Tracks (fun e => ∃ rest m, Rest f L tb ti later laterS k e rest m) (fun e => DocInv f L tb ti later laterS e.doc))
      (fun s q s' r hj e => BufferedStream.reset_tracks hj e)
  have hF : BufferedStream.fails False content d.streamSize = .never := by
    simp only [BufferedStream.fails, Failure.never]
    congr 1 <;> simp <;> omega
  rw [hF] at C
  have h2 : BufferedStream.Tracks (fun e => ∃ rest m, Rest f L tb ti later laterS k e rest m) (fun e => DocInv f L tb ti later laterS e.doc)
      (resetEntry es d) := Or.inr (Or.inl ⟨rfl, _, _, hR⟩)
  have h3 : BufferedStream.Healthy (fun e rest m => ∃ m', m = m' + 1 ∧ Rest f L tb ti later laterS k e rest m') content d.streamSize
      (resetEntry es d) 0 0 := by
    refine ⟨⟨⟨⟨?_, ?_, ?_⟩, ?_, ?_, ?_⟩, ?_, ?_, ?_⟩, Or.inl rfl, ?_, ?_, ?_, ?_⟩
    all_goals simp [resetEntry, StreamBuffer.size, slice]
    exact ⟨_, hR⟩
  refine ⟨by omega, C.isStream (fun _ => S) ⟨h3, h2⟩, ?_⟩
  intro x lo hi hu
  have hb := C.uses (fun _ => S) ⟨h3, h2⟩ hu
  rcases hb.2 with z | ⟨_, _, _, z⟩ | ⟨_, z⟩
  · exact absurd z hb.1.1.st
  · exact z.doc
  · exact z

/-! ## Records -/

/-- Record `i` of block `b`. -/
def record (f : List UInt8) (b i : Nat) : List UInt8 := (f.drop (blockAt b + 128 * i)).take 128

theorem word_lt (f : List UInt8) (o : Nat) : word f o < 2 ^ 31 := by
  unfold word
  have : (f.drop o).take 4 = (f.drop o).take 4 := rfl
  have hl : Text.leValue ((f.drop o).take 4) < 2 ^ 32 := by
    have h : ((f.drop o).take 4).length ≤ 4 := by rw [List.length_take]; omega
    have gen : ∀ l : List UInt8, Text.leValue l < 256 ^ l.length := by
      intro l
      induction l with
      | nil => simp [Text.leValue]
      | cons a l ih =>
        simp only [Text.leValue, List.length_cons, Nat.pow_succ]
        have := a.toNat_lt
        omega
    have h1 := gen ((f.drop o).take 4)
    have h2 : 256 ^ ((f.drop o).take 4).length ≤ 256 ^ 4 := Nat.pow_le_pow_right (by omega) h
    omega
  generalize Text.leValue _ = v at *
  unfold Text.signed
  split <;> omega

theorem aget_record {b i : Nat} (hi : i < 4) (hin : blockAt b + 512 ≤ f.length) {p : Int} (hp : p = (blockAt b + 128 * i : Nat))
    {j : Nat} (hj : j < 128) : aget f (p + j) = .ok ((record f b i).getD j 0) := by
  subst hp
  rw [show ((blockAt b + 128 * i : Nat) : Int) + j = ((blockAt b + 128 * i + j : Nat) : Int) by omega, Base64.aget_nat (by omega)]
  unfold record
  rw [List.getD_eq_getElem?_getD, List.getElem?_take, if_pos hj, List.getElem?_drop, List.getElem?_eq_getElem (by omega)]
  rfl

theorem lows_take_succ (l : List UInt8) (n : Nat) (h : 2 * (n + 1) ≤ l.length) :
    lows (l.take (2 * (n + 1))) = l.getD 0 0 :: lows ((l.drop 2).take (2 * n)) ∧
    highs (l.take (2 * (n + 1))) = l.getD 1 0 :: highs ((l.drop 2).take (2 * n)) := by
  match l, h with
  | a :: b :: l, _ =>
    rw [show 2 * (n + 1) = 2 * n + 1 + 1 by omega, List.take_succ_cons, List.take_succ_cons]
    simp [lows, highs]
  | [a], h => simp at h; omega
  | [], h => simp at h

theorem nameLoop_spec {b i : Nat} (hi : i < 4) (hin : blockAt b + 512 ≤ f.length) {p : Int} (hp : p = (blockAt b + 128 * i : Nat))
    {d : Doc} (hd : d.data = f) : ∀ (n j : Nat) (name : List UInt8) (bad : Bool), 2 * (j + n) ≤ 128 →
    nameLoop d p n j name bad = .ok (name ++ lows (((record f b i).drop (2 * j)).take (2 * n)),
      bad || !(highs (((record f b i).drop (2 * j)).take (2 * n))).all (· == 0)) := by
  intro n
  have hrl : (record f b i).length = 128 := by
    unfold record
    rw [List.length_take, List.length_drop]; omega
  induction n with
  | zero => intro j name bad _; simp [nameLoop, lows, highs]
  | succ n ih =>
    intro j name bad hj
    rw [nameLoop, hd, show p + 2 * (j : Int) + 1 = p + (2 * j + 1 : Nat) by omega,
      show p + 2 * (j : Int) = p + (2 * j : Nat) by omega, aget_record hi hin hp (by omega), Res.bind_ok,
      aget_record hi hin hp (by omega), Res.bind_ok, show (j : Int) + 1 = (j + 1 : Nat) by omega, ih _ _ _ (by omega)]
    obtain ⟨h1, h2⟩ := lows_take_succ ((record f b i).drop (2 * j)) n (by rw [List.length_drop]; omega)
    rw [h1, h2, List.drop_drop, show 2 * j + 2 = 2 * (j + 1) by omega]
    simp only [List.getD_eq_getElem?_getD, List.getElem?_drop, Nat.add_zero, List.append_assoc, List.cons_append,
      List.nil_append, List.all_cons]
    congr 2
    generalize (highs _).all _ = x
    generalize (record f b i)[2 * j + 1]?.getD 0 = y
    cases x <;> cases bad <;> by_cases hy : y = 0 <;> simp [hy]

theorem nameSize_spec (r : List UInt8) : (nameSize (r.getD 0x40 0)).toNat = nameLength r ∧ nameLength r ≤ 31 := by
  unfold nameLength
  generalize r.getD 0x40 0 = c
  revert c
  apply forall_uint8
  decide +kernel

/-- What reading a record does. -/
theorem readEntryInfo_spec (W : WellFormed f L) {b i : Nat} (hi : i < 4) (hin : blockAt b + 512 ≤ f.length) {d : Doc}
    (hd : DocInv f L b i later laterS d) (info : EntryInfo) :
    readEntryInfo d info = if (record f b i).getD 0x42 0 ≠ 2 then .ok ({ d with dataBlock := -1 }, info)
      else .ok ({ d with dataBlock := if startOf (record f b i) > d.maxindex ∨ lengthOf (record f b i) ≤ 0 then -1 else startOf (record f b i),
                         streamSize := lengthOf (record f b i) },
        { info with filename := nameOf (record f b i), size := lengthOf (record f b i) }) := by
  have hlen := W.length
  have hub : blockAt b = 512 * (b + 1) := rfl
  have hda := hd.fixed.data
  unfold readEntryInfo
  rw [hd.table, hd.index, ck_ok (by omega) (by omega), Res.bind_ok, ck_ok (by omega) (by omega), Res.bind_ok]
  simp only
  obtain ⟨p, hp⟩ : ∃ p : Int, p = (blockAt b + 128 * i : Nat) := ⟨_, rfl⟩
  rw [show (1 + (b : Int)) * 512 + 128 * (i : Int) = p by omega, hda,
    show p + 0x42 = p + (66 : Nat) from rfl, aget_record hi hin hp (by omega), Res.bind_ok]
  by_cases ht : (record f b i).getD 66 0 ≠ 2
  · rw [if_pos ht, if_pos ht]
  · rw [if_neg ht, if_neg ht, show p + 0x40 = p + (64 : Nat) from rfl, aget_record hi hin hp (by omega), Res.bind_ok]
    obtain ⟨h1, h2⟩ := nameSize_spec (record f b i)
    have hw : ∀ j : Nat, j + 4 ≤ 128 → load f (p + j) = .ok (word (record f b i) j) := by
      intro j hj
      rw [hp, show ((blockAt b + 128 * i : Nat) : Int) + j = ((blockAt b + 128 * i + j : Nat) : Int) by omega,
        load_word (by omega)]
      unfold record
      rw [word_take hj, word_drop]
    rw [h1, show (0 : Int) = (0 : Nat) from rfl, nameLoop_spec hi hin hp hda _ _ _ _ (by omega), Res.bind_ok,
      show p + 0x74 = p + (0x74 : Nat) from rfl, hw _ (by omega), Res.bind_ok,
      show p + 0x78 = p + (0x78 : Nat) from rfl, hw _ (by omega), Res.bind_ok]
    have hnm : (if (false || !(highs (((record f b i).drop (2 * 0)).take (2 * nameLength (record f b i)))).all (· == 0)) = true then []
        else [] ++ lows (((record f b i).drop (2 * 0)).take (2 * nameLength (record f b i)))) = nameOf (record f b i) := by
      unfold nameOf
      simp only [Nat.mul_zero, List.drop_zero, Bool.false_or, List.nil_append]
      cases (highs ((record f b i).take (2 * nameLength (record f b i)))).all (· == 0) <;> simp
    simp only
    rw [hnm]
    rfl

/-! ## The directory -/

/-- The records after the record `i` of block `b`, if the blocks `l` follow. -/
def remaining (f : List UInt8) (b i : Nat) (l : List Nat) : List (List UInt8) :=
  ((records f [b]).drop (i + 1)) ++ records f l

theorem records_one (f : List UInt8) (b : Nat) : records f [b] = [record f b 0, record f b 1, record f b 2, record f b 3] := rfl

theorem remaining_next (f : List UInt8) {b i : Nat} (l : List Nat) (h : i < 3) :
    remaining f b i l = record f b (i + 1) :: remaining f b (i + 1) l := by
  unfold remaining
  rw [records_one]
  match i, h with
  | 0, _ => rfl
  | 1, _ => rfl
  | 2, _ => rfl

theorem remaining_block (f : List UInt8) {b c : Nat} (l : List Nat) :
    remaining f b 3 (c :: l) = record f c 0 :: remaining f c 0 l := rfl

theorem remaining_length (f : List UInt8) (b i : Nat) (l : List Nat) : (remaining f b i l).length ≤ 4 * l.length + 4 := by
  have : ∀ l : List Nat, (records f l).length = 4 * l.length := by
    intro l
    induction l with
    | nil => rfl
    | cons a l ih => unfold records at *; rw [List.flatMap_cons, List.length_append, ih]; simp; omega
  unfold remaining
  rw [List.length_append, List.length_drop, this, this]
  simp only [List.length_singleton]
  omega

/-- The place in the directory, and what is still to come. -/
structure Pos (f : List UInt8) (L : Layout) (b i : Nat) (l big small : List Nat) (es : List (Nat × ArchiveEntry)) : Prop where
  index : i < 4
  chain : Chain f L.bat (b :: l)
  inside : ∀ x ∈ b :: l, blockAt x + 512 ≤ f.length
  lists : Lists f L (remaining f b i l) big small es
  nodup : (l ++ big).Nodup
  nodupS : small.Nodup

/-- The next record. -/
theorem nextRecord_spec (W : WellFormed f L) {b i : Nat} {l big small : List Nat} {es : List (Nat × ArchiveEntry)}
    (hp : Pos f L b i l big small es) {d : Doc} (hd : DocInv f L b i (l ++ big) small d) :
    (remaining f b i l = [] ∧ ∃ d', nextRecord d = .ok (d', false) ∧ d'.tableBlock < 0) ∨
    ∃ b' i' l' d', nextRecord d = .ok (d', true) ∧ remaining f b i l = record f b' i' :: remaining f b' i' l' ∧
      i' < 4 ∧ Chain f L.bat (b' :: l') ∧ (∀ x ∈ b' :: l', blockAt x + 512 ≤ f.length) ∧ (l' ++ big).Nodup ∧
      DocInv f L b' i' (l' ++ big) small d' := by
  obtain ⟨hi, hc, hin, hL, hnd, hnds⟩ := hp
  have hl : 1024 ≤ f.length := by have := W.full; omega
  unfold nextRecord
  by_cases h3 : i = 3
  · subst h3
    rw [if_pos (by rw [hd.index]; rfl), hd.table]
    cases l with
    | nil =>
      obtain ⟨h1, h2⟩ := Chain.inv_last hc
      rw [nextBlock_last W.length hd.fixed.data hd.fixed.size hd.fixed.bat h1 (table_inside W false) h2
        (by rw [hd.fixed.maxindex]; omega) hd.nonneg, Res.bind_ok]
      exact Or.inl ⟨rfl, _, rfl, by simp⟩
    | cons c l =>
      obtain ⟨h1, h2, h3⟩ := Chain.inv hc
      rw [nextBlock_cons W.length hd.fixed.data hd.fixed.size hd.fixed.bat h1 (table_inside W false) h2
        (by rw [hd.fixed.maxindex]; exact inside_max (hin c (by simp))) (hd.free c (by simp)), Res.bind_ok]
      refine Or.inr ⟨c, 0, l, _, rfl, remaining_block f l, by omega, h3, fun x hx => hin x (by simp at hx; rcases hx with rfl | hx <;> simp [*]), ?_, ?_⟩
      · rw [List.cons_append, List.nodup_cons] at hnd
        exact hnd.2
      · rw [List.cons_append, List.nodup_cons] at hnd
        obtain ⟨⟨a1, a2, a3, a4, a5, a6, a7⟩, g2, g3, g4, g5, g6, g7⟩ := hd
        refine ⟨⟨a1, a2, a3, a4, a5, a6, a7⟩, rfl, ?_, ?_, g5, ?_, g7⟩
        · show (if (c : Int) < 0 then 4 else 0) = ((0 : Nat) : Int)
          rw [if_neg (by omega)]; rfl
        · intro x hx
          simp only [List.mem_cons] at hx
          rcases hx with rfl | hx
          · omega
          · exact g4 x hx
        · intro x hx hz
          simp only [List.mem_cons] at hz
          rcases hz with hz | hz
          · have : x = c := by omega
            subst this
            exact hnd.1 hx
          · exact g6 x (by simp only [List.cons_append, List.mem_cons]; exact Or.inr hx) hz
  · rw [if_neg (by rw [hd.index]; omega)]
    refine Or.inr ⟨b, i + 1, l, _, rfl, remaining_next f l (by omega), by omega, hc, hin, hnd, ?_⟩
    obtain ⟨⟨a1, a2, a3, a4, a5, a6, a7⟩, g2, g3, g4, g5, g6, g7⟩ := hd
    exact ⟨⟨a1, a2, a3, a4, a5, a6, a7⟩, g2, by simp only [g3]; omega, g4, g5, g6, g7⟩

/-- The entries that are not skipped. -/
def shown (f : List UInt8) (es : List (Nat × ArchiveEntry)) : List ArchiveEntry :=
  (es.filter fun x => x.1 + 2 ≤ f.length / 512).map (·.2)

theorem DocInv.mono {l l' s s' : List Nat} {d : Doc} (h : DocInv f L tb ti l s d) (h1 : ∀ x ∈ l', x ∈ l) (h2 : ∀ x ∈ s', x ∈ s) :
    DocInv f L tb ti l' s' d :=
  ⟨h.fixed, h.table, h.index, h.nonneg, h.nonnegS, fun x hx => h.free x (h1 x hx), fun x hx => h.freeS x (h2 x hx)⟩

theorem DocInv.size {l s : List Nat} {d : Doc} (h : DocInv f L tb ti l s d) (b z : Int) :
    DocInv f L tb ti l s { d with dataBlock := b, streamSize := z } := by
  obtain ⟨⟨a1, a2, a3, a4, a5, a6, a7⟩, h2, h3, h4, h5, h6, h7⟩ := h
  exact ⟨⟨a1, a2, a3, a4, a5, a6, a7⟩, h2, h3, h4, h5, h6, h7⟩

/-- An entry is current: its stream is `e`, and the following ones are `es`. -/
def Ready (f : List UInt8) (L : Layout) (d : Doc) (e : ArchiveEntry) (es : List (Nat × ArchiveEntry)) : Prop :=
  ∃ (k : Bool) (b i : Nat) (l big small : List Nat) (s : Nat) (c : List Nat), Pos f L b i l big small es ∧
    DocInv f L b i (l ++ big) small d ∧ d.dataBlock = s ∧ k = decide (d.streamSize < 4096) ∧ 0 < d.streamSize ∧
    d.streamSize < 2 ^ 31 ∧ Chain f (table L k) (s :: c) ∧ (∀ x ∈ s :: c, BlockOk f L k x) ∧
    d.streamSize ≤ bsz k * (s :: c).length ∧ c.Nodup ∧ (∀ x ∈ c, (x : Int) ∉ usedOf k d) ∧
    (∀ x ∈ c, x ∉ if k then small else l ++ big) ∧ e.content = ((s :: c).flatMap (blk f L k)).take d.streamSize.toNat ∧
    e.info.size = d.streamSize ∧ e.info.mtime = 0 ∧ e.info.type = .unknown

theorem nodup_three {a b c : List Nat} (h : (a ++ (b ++ c)).Nodup) : (a ++ c).Nodup ∧ b.Nodup ∧ ∀ x ∈ b, x ∉ a ++ c := by
  rw [List.nodup_append] at h
  obtain ⟨h1, h2, h3⟩ := h
  rw [List.nodup_append] at h2
  obtain ⟨h4, h5, h6⟩ := h2
  refine ⟨List.nodup_append.2 ⟨h1, h5, fun x hx y hy => h3 x hx y (by simp [hy])⟩, h4, ?_⟩
  intro x hx hz
  rw [List.mem_append] at hz
  rcases hz with hz | hz
  · exact h3 x hz x (by simp [hx]) rfl
  · exact h6 x hx x hz rfl

theorem entryLoop_spec (W : WellFormed f L) : ∀ (fuel : Nat) (b i : Nat) (l big small : List Nat) (es : List (Nat × ArchiveEntry))
    (d : Doc) (info : EntryInfo), Pos f L b i l big small es → DocInv f L b i (l ++ big) small d →
    (remaining f b i l).length < fuel → info.mtime = 0 → info.type = .unknown →
    (shown f es = [] ∧ ∃ d' info', entryLoop fuel d info = .ok (d', info', false) ∧ d'.tableBlock < 0) ∨
    ∃ e es' d', shown f es = e :: shown f es' ∧ entryLoop fuel d info = .ok (d', e.info, true) ∧ Ready f L d' e es' := by
  intro fuel
  induction fuel with
  | zero => intro b i l big small es d info _ _ h; omega
  | succ fuel ih =>
    intro b i l big small es d info hp hd hf hm ht
    rw [entryLoop]
    rcases nextRecord_spec W hp hd with ⟨h0, d', e1, h1⟩ | ⟨b', i', l', d', e1, hr, hi', hc', hin', hnd', hd'⟩
    · have hL := hp.lists
      rw [h0] at hL
      cases hL
      rw [e1, Res.bind_ok]
      exact Or.inl ⟨rfl, d', info, rfl, h1⟩
    · rw [e1, Res.bind_ok]
      simp only [if_true]
      have hL := hp.lists
      have hnds := hp.nodupS
      rw [hr] at hL hf
      rw [List.length_cons] at hf
      have hmax := hd'.fixed.maxindex
      rw [readEntryInfo_spec W hi' (hin' b' (by simp)) hd']
      generalize hrr : record f b' i' = r at hL
      cases hL with
      | other hns hL =>
        by_cases h2 : r.getD 0x42 0 ≠ 2
        · rw [if_pos h2, Res.bind_ok]
          simp only
          rw [if_pos (by omega)]
          exact ih b' i' l' big small es { d' with dataBlock := -1 } info ⟨hi', hc', hin', hL, hnd', hnds⟩ (hd'.block _) (by omega) hm ht
        · rw [if_neg h2, Res.bind_ok]
          simp only
          have h3 : ¬ (0 < lengthOf r ∧ 0 ≤ startOf r) := fun z => hns ⟨by simpa using h2, z.1, z.2⟩
          rw [if_pos (by split <;> omega)]
          exact ih b' i' l' big small es _ { info with filename := nameOf r, size := lengthOf r } ⟨hi', hc', hin', hL, hnd', hnds⟩ (hd'.size _ _) (by omega) hm ht
      | @big _ _ big small es s c hs hbig hst hch hok hen hL =>
        have hsin := inside_max (hok s (by simp))
        obtain ⟨h1, h2, h3⟩ := nodup_three hnd'
        rw [if_neg (by have := hs.1; simp only [this]; simp), Res.bind_ok]
        simp only
        rw [if_neg (by have := hs.2.1; omega), if_neg (by omega)]
        refine Or.inr ⟨⟨{ filename := nameOf r, size := lengthOf r }, ((s :: c).flatMap (block f)).take (lengthOf r).toNat⟩, es,
          { d' with dataBlock := startOf r, streamSize := lengthOf r }, ?_, by rw [← hm, ← ht], ?_⟩
        · unfold shown
          rw [List.filter_cons_of_pos (by simp only [decide_eq_true_eq]; omega)]
          rfl
        · rw [List.nodup_cons] at h2
          refine ⟨false, b', i', l', big, small, s, c, ⟨hi', hc', hin', hL, h1, hnds⟩,
            (hd'.mono (by simp only [List.mem_append]; rintro x (h | h) <;> simp [h]) (fun x hx => hx)).size _ _, hst, ?_, hs.2.1, word_lt _ _, hch, hok,
            hen, h2.2, ?_, ?_, rfl, rfl, rfl, rfl⟩
          · simp only
            rw [decide_eq_false (by omega)]
          · intro x hx
            exact hd'.free x (by simp [hx])
          · intro x hx
            exact h3 x (by simp [hx])
      | @small _ _ big small es s c hs hbig hst hch hok hen hL =>
        rw [if_neg (by have := hs.1; simp only [this]; simp), Res.bind_ok]
        simp only
        have hnds' := nodup_three (a := []) (b := s :: c) (c := small) hnds
        obtain ⟨h1, h2, h3⟩ := hnds'
        have hd2 := hd'.mono (l' := l' ++ big) (s' := small) (fun x hx => hx) (by intro x hx; simp [hx])
        by_cases hsk : startOf r > d'.maxindex
        · rw [if_pos (Or.inl hsk), if_pos (by omega)]
          have := ih b' i' l' big small es { d' with dataBlock := -1, streamSize := lengthOf r }
            { info with filename := nameOf r, size := lengthOf r } ⟨hi', hc', hin', hL, hnd', h1⟩ (hd2.size _ _) (by omega) hm ht
          have hsh : ∀ e, shown f ((s, e) :: es) = shown f es := by
            intro e
            unfold shown
            rw [List.filter_cons_of_neg (by simp only [decide_eq_true_eq]; omega)]
          rw [hsh]
          exact this
        · have hpos := hs.2.1
          rw [if_neg (by omega), if_neg (by omega)]
          refine Or.inr ⟨⟨{ filename := nameOf r, size := lengthOf r }, ((s :: c).flatMap (piece f L.mini)).take (lengthOf r).toNat⟩, es,
            { d' with dataBlock := startOf r, streamSize := lengthOf r }, ?_, by rw [← hm, ← ht], ?_⟩
          · unfold shown
            rw [List.filter_cons_of_pos (by simp only [decide_eq_true_eq]; omega)]
            rfl
          · rw [List.nodup_cons] at h2
            refine ⟨true, b', i', l', big, small, s, c, ⟨hi', hc', hin', hL, hnd', h1⟩,
              hd2.size _ _, hst, ?_, hs.2.1, word_lt _ _, hch, hok,
              hen, h2.2, ?_, ?_, rfl, rfl, rfl, rfl⟩
            · simp only
              rw [decide_eq_true (by omega)]
            · intro x hx
              exact hd'.freeS x (by simp [hx])
            · intro x hx
              exact fun z => h3 x (by simp [hx]) (by simpa using z)

/-- All entries. -/
theorem presents (W : WellFormed f L) : ∀ (n : Nat) (es : List (Nat × ArchiveEntry)) (b i : Nat) (l big small : List Nat) (s : State),
    (shown f es).length = n → Pos f L b i l big small es → DocInv f L b i (l ++ big) small s.es.prod.doc →
    s.status = .ok → s.info.mtime = 0 → s.info.type = .unknown →
    Presents ops Failure.never True .eof s (shown f es) := by
  intro n
  induction n with
  | zero =>
    intro es b i l big small s hn hp hd hs hm ht
    have hfuel : (remaining f b i l).length < 4 * s.es.prod.doc.size.toNat + 8 := by
      have h1 := remaining_length f b i l
      have h2 := nodup_bound (l := l) (n := f.length) (List.nodup_append.1 hp.nodup).1 (fun x hx => by
        have h : 512 * (x + 1) + 512 ≤ f.length := hp.inside x (by simp [hx])
        omega)
      rw [hd.fixed.size]
      omega
    rcases entryLoop_spec W _ b i l big small es _ s.info hp hd hfuel hm ht with ⟨h0, d', info', e1, h1⟩ | ⟨e, es', d', h0, _⟩
    · rw [h0]
      refine ⟨{ s with info := info', status := .eof, open_ := false, es := { s.es with prod := { s.es.prod with doc := d' } } },
        ?_, ?_, ?_, ?_⟩
      · show nextEntry s = _
        unfold nextEntry
        rw [if_neg (by rw [hd.table]; omega), e1, Res.bind_ok]
        rfl
      · rfl
      · rfl
      · show nextEntry _ = _
        unfold nextEntry
        rw [if_pos h1]
    · rw [h0] at hn
      simp at hn
  | succ n ih =>
    intro es b i l big small s hn hp hd hs hm ht
    have hfuel : (remaining f b i l).length < 4 * s.es.prod.doc.size.toNat + 8 := by
      have h1 := remaining_length f b i l
      have h2 := nodup_bound (l := l) (n := f.length) (List.nodup_append.1 hp.nodup).1 (fun x hx => by
        have h : 512 * (x + 1) + 512 ≤ f.length := hp.inside x (by simp [hx])
        omega)
      rw [hd.fixed.size]
      omega
    rcases entryLoop_spec W _ b i l big small es _ s.info hp hd hfuel hm ht with ⟨h0, _⟩ | ⟨e, es', d', h0, e1, h1⟩
    · rw [h0] at hn
      simp at hn
    · rw [h0] at hn ⊢
      obtain ⟨k, b', i', l', big', small', t, c, hp', hd', a1, a2, a3, a4, a5, a6, a7, a8, a9, a10, a11, a12, a13, a14⟩ := h1
      obtain ⟨g1, g2, g3⟩ := entry_spec W (es := s.es) hd' a1 a2 a3 a4 a5 a6 a7 a8 a9 a10
      rw [← a11] at g1 g2 g3
      refine ⟨{ s with info := e.info, open_ := true, es := resetEntry s.es d' }, resetEntry s.es d', ?_, rfl, rfl, hs, rfl, a12.symm, g2, ?_⟩
      · show nextEntry s = _
        unfold nextEntry
        rw [if_neg (by rw [hd.table]; omega), e1, Res.bind_ok]
        rfl
      · intro es2 lo hi hu
        exact ih es' b' i' l' big' small' _ (by simpa using hn) hp' (g3 es2 lo hi hu) hs a13 a14

/-- The provider after the constructor. -/
theorem presents_opened (W : WellFormed f L) {d : Doc} (hd : Opened f L d) {big small : List Nat} {es : List (Nat × ArchiveEntry)}
    (hL : Lists f L (records f L.dir).tail big small es) (hnd : (L.dir ++ (L.minifat ++ (L.mini ++ big))).Nodup)
    (hnds : small.Nodup) : Presents ops Failure.never True .eof (opened (some d)) (shown f es) := by
  have hdir : L.dir ≠ [] := by
    intro z
    have := W.dirChain
    rw [z] at this
    cases this
  obtain ⟨b, l, hbl⟩ : ∃ b l, L.dir = b :: l := by
    cases h : L.dir with
    | nil => exact absurd h hdir
    | cons b l => exact ⟨b, l, rfl⟩
  have htab := hd.table
  have hW := W.dirChain
  have hin : ∀ x ∈ L.dir, blockAt x + 512 ≤ f.length := fun x hx => W.inside x (Or.inr (Or.inr (Or.inl hx)))
  rw [hbl] at hL hnd htab hW hin
  have hused : ∀ x ∈ d.used, ∃ n : Nat, x = n ∧ n ∈ L.minifat ++ L.mini := by
    intro x hx
    rw [hd.used] at hx
    simp only [ints, List.mem_append, List.mem_reverse, List.mem_map] at hx
    rcases hx with ⟨n, hn, rfl⟩ | ⟨n, hn, rfl⟩
    · exact ⟨n, rfl, by simp [List.mem_of_mem_tail hn]⟩
    · exact ⟨n, rfl, by simp [List.mem_of_mem_tail hn]⟩
  have hnd2 : ((b :: l) ++ ((L.minifat ++ L.mini) ++ big)).Nodup := by rwa [List.append_assoc]
  obtain ⟨n1, n2, n3⟩ := nodup_three hnd2
  rw [List.cons_append, List.nodup_cons] at n1
  refine presents W _ es b 0 l big small _ rfl ⟨by omega, hW, hin, hL, n1.2, hnds⟩ ?_ rfl rfl rfl
  refine ⟨hd.fixed, htab, hd.index, ?_, ?_, ?_, ?_⟩
  · intro x hx
    obtain ⟨n, rfl, _⟩ := hused x hx
    omega
  · show ∀ x ∈ d.usedS, _
    rw [hd.usedS]; simp
  · intro x hx hz
    obtain ⟨n, hn, hm⟩ := hused _ hz
    have : x = n := by omega
    subst this
    exact n3 x hm (by simp only [List.cons_append, List.mem_cons]; exact Or.inr hx)
  · intro x _
    show _ ∉ d.usedS
    rw [hd.usedS]; simp

end Ole
end Strigi
