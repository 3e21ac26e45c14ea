import Verif.Proofs.Ole
import Verif.Proofs.BufferedSafe
import Verif.Proofs.Decompress
import Verif.SafetySpec

/-!
# OLE files with arbitrary contents
-/

namespace Strigi

theorem Res.Calm.sound {α : Type} {Q : α → Prop} {r : Res α} (h : r.Calm Q) : Sound r := by
  rcases h with ⟨a, rfl, _⟩ | rfl
  · exact ⟨by simp, by simp, by simp⟩
  · exact ⟨by simp, by simp, by simp⟩

theorem Res.Calm.of_ok {α : Type} {Q : α → Prop} {r : Res α} {a : α} (h : r.Calm Q) (e : r = .ok a) : Q a := by
  rcases h with ⟨b, h1, h2⟩ | h1
  · rw [e] at h1; cases h1; exact h2
  · rw [e] at h1; cases h1

namespace Ole

open OleFile (word)

theorem ck_calm (x : Int) : (ck x).Calm fun y => y = x ∧ -(2 ^ 31) ≤ x ∧ x < 2 ^ 31 := by
  unfold ck
  split
  · rename_i h; exact .ok ⟨rfl, h⟩
  · exact Or.inr rfl

theorem load_calm {data : List UInt8} {o : Int} (h0 : 0 ≤ o) (h : o + 4 ≤ data.length) :
    (load data o).Calm fun v => v < 2 ^ 31 := by
  rw [load_word' h0 h]
  refine .ok ?_
  have hl : ∀ l : List UInt8, Text.leValue l < 256 ^ l.length := by
    intro l
    induction l with
    | nil => simp [Text.leValue]
    | cons a l ih =>
      simp only [Text.leValue, List.length_cons, Nat.pow_succ]
      have := a.toNat_lt
      omega
  have h1 := hl ((data.drop o.toNat).take 4)
  have h2 : 256 ^ ((data.drop o.toNat).take 4).length ≤ 256 ^ 4 := Nat.pow_le_pow_right (by omega) (by rw [List.length_take]; omega)
  unfold word Text.signed
  generalize Text.leValue _ = v at *
  split <;> omega

theorem aget_calm {α : Type} {l : List α} {i : Int} (h0 : 0 ≤ i) (h : i < l.length) : (aget l i).Calm fun _ => True := by
  unfold aget
  rw [if_pos h0, List.getElem?_eq_getElem (by omega)]
  exact .ok trivial

theorem readInt32_calm {data : List UInt8} {size o : Int} (h : o + 4 ≤ size → o + 4 ≤ data.length) :
    (readInt32 data size o).Calm fun _ => True := by
  unfold readInt32
  split
  · exact .ok trivial
  · refine (ck_calm _).bind ?_
    rintro e ⟨rfl, _⟩
    split
    · exact .ok trivial
    · exact (load_calm (by omega) (h (by omega))).bind fun _ _ => .ok trivial

/-- What is always true of the document. -/
structure DocOk (d : Doc) : Prop where
  size : d.size = d.data.length
  maxindex : (d.maxindex + 2) * 512 ≤ d.size ∨ d.maxindex < 0
  maxlt : d.maxindex ≤ d.size
  nodup : d.used.Nodup
  used : ∀ x ∈ d.used, 0 ≤ x ∧ x ≤ d.maxindex
  table : d.tableBlock < 0 ∨ (d.tableBlock + 2) * 512 ≤ d.size
  index : d.tableBlock < 0 ∨ (0 ≤ d.tableIndex ∧ d.tableIndex < 4)

/-- The records of the directory that may still come. -/
def left (d : Doc) : Int :=
  4 * (max (d.maxindex + 1) 0 - d.used.length) + if d.tableBlock < 0 then 0 else 3 - d.tableIndex

theorem DocOk.used_le {d : Doc} (h : DocOk d) : (d.used.length : Int) ≤ max (d.maxindex + 1) 0 := by
  have := nodup_bound (l := d.used.map Int.toNat) (n := (max (d.maxindex + 1) 0).toNat) ?_ ?_
  · rw [List.length_map] at this; omega
  · unfold List.Nodup
    rw [List.pairwise_map]
    refine h.nodup.imp_of_mem ?_
    intro a b ha hb hab z
    have := h.used a ha
    have := h.used b hb
    exact hab (by omega)
  · intro x hx
    rw [List.mem_map] at hx
    obtain ⟨a, ha, rfl⟩ := hx
    have := h.used a ha
    omega

theorem DocOk.left0 {d : Doc} (h : DocOk d) : 0 ≤ left d := by
  have := h.used_le
  have := h.index
  unfold left
  split <;> omega

theorem slot_calm {T : List Int} {i : Int} (h0 : 0 ≤ i.tdiv 128) (h1 : i.tdiv 128 < T.length) :
    (slot T i).Calm fun _ => True := by
  unfold slot
  refine (aget_calm h0 h1).bind fun b _ => (ck_calm _).bind fun b _ => (ck_calm _).bind fun o _ => (ck_calm _).mono fun _ _ => trivial

theorem nextBlock_calm {d : Doc} (hd : d.size = d.data.length) (i : Int) : (nextBlock d i).Calm fun x =>
    (x.2 < 0 ∧ x.1 = d) ∨ (0 ≤ x.2 ∧ x.2 ≤ d.maxindex ∧ x.2 ∉ d.used ∧ x.1 = { d with used := x.2 :: d.used }) := by
  unfold nextBlock
  split
  · exact .ok (Or.inl ⟨by simp only; omega, rfl⟩)
  · refine (slot_calm (by omega) (by omega)).bind fun o _ => ?_
    split
    · exact .ok (Or.inl ⟨by simp only; omega, rfl⟩)
    · refine (load_calm (by omega) (by omega)).bind fun v _ => ?_
      split
      · exact .ok (Or.inl ⟨by simp only; omega, rfl⟩)
      · rename_i hn
        split
        · exact .ok (Or.inr ⟨by simp only; omega, by simp only; omega, fun z => hn (Or.inr (Or.inr (Or.inr z))), rfl⟩)
        · exact .ok (Or.inl ⟨by simp only; omega, rfl⟩)

theorem nextSmallBlock_calm {d : Doc} (hd : d.size = d.data.length) (i : Int) : (nextSmallBlock d i).Calm fun x =>
    ∃ u, x.1 = { d with usedS := u } := by
  unfold nextSmallBlock
  split
  · exact .ok ⟨d.usedS, rfl⟩
  · refine (slot_calm (by omega) (by omega)).bind fun o _ => ?_
    split
    · exact .ok ⟨d.usedS, rfl⟩
    · refine (load_calm (by omega) (by omega)).bind fun v _ => ?_
      split
      · exact .ok ⟨d.usedS, rfl⟩
      · split
        · exact .ok ⟨_, rfl⟩
        · exact .ok ⟨d.usedS, rfl⟩

/-- A block was visited. -/
theorem DocOk.visit {d : Doc} (h : DocOk d) {x : Int} (h0 : 0 ≤ x) (h1 : x ≤ d.maxindex) (h2 : x ∉ d.used) :
    DocOk { d with used := x :: d.used } := by
  obtain ⟨a1, a2, a3, a4, a5, a6, a7⟩ := h
  refine ⟨a1, a2, a3, List.nodup_cons.2 ⟨h2, a4⟩, ?_, a6, a7⟩
  intro y hy
  simp only [List.mem_cons] at hy
  rcases hy with rfl | hy
  · exact ⟨h0, h1⟩
  · exact a5 y hy

theorem DocOk.small {d : Doc} (h : DocOk d) (u : List Int) : DocOk { d with usedS := u } := by
  obtain ⟨a1, a2, a3, a4, a5, a6, a7⟩ := h
  exact ⟨a1, a2, a3, a4, a5, a6, a7⟩

theorem DocOk.data {d : Doc} (h : DocOk d) (b s : Int) : DocOk { d with dataBlock := b, streamSize := s } := by
  obtain ⟨a1, a2, a3, a4, a5, a6, a7⟩ := h
  exact ⟨a1, a2, a3, a4, a5, a6, a7⟩

/-! ## Reading -/

/-- The entry stream when `fillBuffer` is called. -/
structure EntryOk (N : Int) (e : Entry) (m : Nat) : Prop where
  doc : DocOk e.doc
  left : left e.doc ≤ N
  block : e.done = e.msize ∨ (0 ≤ e.doc.dataBlock ∧ (e.blocksize = 64 ∨ e.doc.dataBlock ≤ e.doc.maxindex))
  done0 : 0 ≤ e.done
  done1 : e.done ≤ e.msize
  msize : e.msize < 2 ^ 31
  off0 : 0 ≤ e.offset
  off1 : e.offset < e.blocksize
  bsz : e.blocksize = 64 ∨ e.blocksize = 512
  count : m = (e.msize - e.done).toNat

theorem smallBlock_calm (d : Doc) : (smallBlock d).Calm fun p => ∀ i, p = some i → i + 64 ≤ d.size := by
  unfold smallBlock
  split
  · exact .ok (by simp)
  · refine (aget_calm (by omega) (by omega)).bind fun b _ => (ck_calm _).bind fun b _ => (ck_calm _).bind fun b _ => (ck_calm _).bind fun i _ => ?_
    split
    · exact .ok (by simp)
    · refine .ok ?_
      intro j hj
      cases hj
      omega

theorem blockStart_calm {N : Int} {e : Entry} {m : Nat} (h : EntryOk N e m) (hne : e.done ≠ e.msize) :
    (blockStart e).Calm fun p => ∀ i, p = some i → i + e.blocksize ≤ e.doc.size := by
  unfold blockStart
  split
  · rename_i h64
    rw [h64]
    exact smallBlock_calm e.doc
  · rename_i h64
    refine (ck_calm _).bind ?_
    rintro _ ⟨rfl, _⟩
    refine (ck_calm _).bind ?_
    rintro _ ⟨rfl, _⟩
    refine .ok ?_
    intro i hi
    cases hi
    have h1 := h.bsz.resolve_left h64
    have h2 := h.block.resolve_left hne
    have h3 := h2.2.resolve_left h64
    have h4 := h.doc.maxindex
    omega

theorem amount_range {N : Int} {e : Entry} {m : Nat} (h : EntryOk N e m) (hne : e.done ≠ e.msize) {space : Int} (hs : 0 < space) :
    1 ≤ amount e space ∧ amount e space ≤ space ∧ amount e space ≤ e.blocksize - e.offset ∧ amount e space ≤ e.msize - e.done := by
  have h1 := h.done0; have h2 := h.done1; have h3 := h.msize; have h4 := h.off1
  unfold amount
  simp only
  rw [narrow32_of_range (by omega) (by omega)]
  split <;> split <;> omega

theorem follow_calm {e : Entry} (hd : DocOk e.doc) : (follow e).Calm fun x =>
    DocOk x.1 ∧ left x.1 ≤ left e.doc ∧ x.1.maxindex = e.doc.maxindex ∧ (0 ≤ x.2 → e.blocksize = 64 ∨ x.2 ≤ e.doc.maxindex) := by
  unfold follow
  split
  · rename_i h64
    refine (nextSmallBlock_calm hd.size _).mono ?_
    rintro ⟨d, x⟩ ⟨u, h⟩
    simp only at h
    subst h
    exact ⟨hd.small u, Int.le_refl _, rfl, fun _ => Or.inl h64⟩
  · refine (nextBlock_calm hd.size _).mono ?_
    rintro ⟨d, x⟩ (⟨h1, h2⟩ | ⟨h1, h2, h3, h4⟩)
    · simp only at h1 h2
      subst h2
      exact ⟨hd, Int.le_refl _, rfl, fun z => by simp only at z; omega⟩
    · simp only at h1 h2 h3 h4
      subst h4
      refine ⟨hd.visit h1 h2 h3, ?_, rfl, fun _ => Or.inr h2⟩
      unfold left
      simp only [List.length_cons]
      omega

theorem fill_calm {N : Int} {e : Entry} {m : Nat} (h : EntryOk N e m) {space : Int} (hs : 0 < space) :
    (fill e space).Calm fun x => (DocOk x.1.doc ∧ left x.1.doc ≤ N) ∧ (x.2.data.length : Int) ≤ space ∧
      (x.2.n < 0 ∨ (x.2.error = false ∧ x.2.n = x.2.data.length ∧ ∃ m', m' < m ∧ EntryOk N x.1 m')) := by
  unfold fill
  split
  · exact .ok ⟨⟨h.doc, h.left⟩, by simp only [List.length_nil]; omega, Or.inl (by simp only; omega)⟩
  · rename_i hne
    refine (blockStart_calm h hne).bind ?_
    intro p hp
    cases p with
    | none => exact .ok ⟨⟨h.doc, h.left⟩, by simp only [List.length_nil]; omega, Or.inl (by simp only; omega)⟩
    | some p =>
      have hp := hp p rfl
      obtain ⟨a1, a2, a3, a4⟩ := amount_range h hne hs
      obtain ⟨n, hn⟩ : ∃ n, amount e space = n := ⟨_, rfl⟩
      rw [hn] at a1 a2 a3 a4
      simp only [hn]
      have o0 := h.off0; have hsz := h.doc.size
      split
      · exact .ok ⟨⟨h.doc, h.left⟩, by simp only [List.length_nil]; omega, Or.inl (by simp only; omega)⟩
      · rename_i hneg
        have hcopy : copy e.doc.data (p + e.offset) n = .ok (slice e.doc.data (p + e.offset) n) := by
          unfold copy
          rw [if_pos ⟨by omega, by omega, by omega⟩]
        have hl := slice_length (c := e.doc.data) (p := p + e.offset) (n := n) (by omega) (by omega) (by omega)
        rw [hcopy, Res.bind_ok]
        unfold advance
        simp only
        have h1 := h.done0; have h2 := h.done1; have h3 := h.msize; have h4 := h.off1; have hc := h.count; have hb := h.bsz
        split
        · refine (follow_calm (e := { e with done := e.done + n, offset := e.offset + n }) h.doc).bind ?_
          rintro ⟨d, x⟩ ⟨g1, g2, g3, g4⟩
          simp only at g1 g2 g3 g4
          simp only
          have hleft := h.left
          have hl2 : left { d with dataBlock := x } ≤ N := by
            have : left { d with dataBlock := x } = left d := rfl
            omega
          split
          · exact .ok ⟨⟨g1.data x d.streamSize, hl2⟩, by simp only; omega, Or.inl (by simp only; omega)⟩
          · rename_i hx
            refine .ok ⟨⟨g1.data x d.streamSize, hl2⟩, by simp only; omega, Or.inr ⟨rfl, hl.symm, (e.msize - (e.done + n)).toNat, by omega, ?_⟩⟩
            refine ⟨g1.data x d.streamSize, hl2, ?_, ?_, ?_, h3, ?_, ?_, hb, rfl⟩
            · simp only
              by_cases h0 : 0 ≤ x
              · refine Or.inr ⟨h0, ?_⟩
                have := g4 h0
                rw [g3]
                exact this
              · exact Or.inl (by omega)
            · simp only; omega
            · simp only; omega
            · exact Int.le_refl _
            · simp only; omega
        · rename_i hnf
          refine .ok ⟨⟨h.doc, h.left⟩, by simp only; omega, Or.inr ⟨rfl, hl.symm, (e.msize - (e.done + n)).toNat, by omega, ?_⟩⟩
          refine ⟨h.doc, h.left, ?_, ?_, ?_, h3, ?_, ?_, hb, rfl⟩
          · exact Or.inr (h.block.resolve_left hne)
          · simp only; omega
          · simp only; omega
          · simp only; omega
          · simp only; omega

theorem guarded (N : Int) : BufferedStream.Guarded producer (fun e => DocOk e.doc ∧ left e.doc ≤ N) (EntryOk N) where
  weak h := ⟨h.doc, h.left⟩
  fuel h := by have := h.count; simp only [producer]; omega
  step h := fill_calm h

/-! ## The directory -/

theorem nameLoop_calm {d : Doc} {p : Int} (h0 : 0 ≤ p) : ∀ (n : Nat) (i : Int) (name : List UInt8) (bad : Bool), 0 ≤ i →
    p + 2 * (i + n) ≤ d.data.length → (nameLoop d p n i name bad).Calm fun _ => True := by
  intro n
  induction n with
  | zero => intro i name bad _ _; exact .ok trivial
  | succ n ih =>
    intro i name bad hi hb
    rw [nameLoop]
    refine (aget_calm (by omega) (by omega)).bind fun h _ => (aget_calm (by omega) (by omega)).bind fun c _ => ?_
    exact ih _ _ _ (by omega) (by omega)

theorem nameSize_le (c : UInt8) : (nameSize c).toNat ≤ 31 := by
  unfold nameSize
  simp only
  generalize c.toBitVec.toInt = n
  obtain ⟨k, hk, k0, k1⟩ : ∃ k : Int, (if (if n < 2 then 2 else n) > 64 then 64 else if n < 2 then 2 else n) = k ∧ 0 ≤ k ∧ k ≤ 64 := by
    refine ⟨_, rfl, ?_, ?_⟩ <;> split <;> split <;> omega
  have : k.tdiv 2 = k / 2 := Int.tdiv_eq_ediv_of_nonneg k0
  simp only [hk]
  omega

theorem readEntryInfo_calm {d : Doc} (h : DocOk d) (ht : 0 ≤ d.tableBlock) (info : EntryInfo) :
    (readEntryInfo d info).Calm fun x => DocOk x.1 ∧ left x.1 = left d ∧ x.1.tableBlock = d.tableBlock ∧ x.1.size = d.size ∧
      (x.1.dataBlock < 0 ∨ (x.1.dataBlock ≤ x.1.maxindex ∧ 0 < x.1.streamSize ∧ x.1.streamSize < 2 ^ 31)) := by
  have h1 := h.table.resolve_left (by omega)
  have h2 := h.index.resolve_left (by omega)
  have hs := h.size
  unfold readEntryInfo
  refine (ck_calm _).bind ?_
  rintro _ ⟨rfl, _⟩
  refine (ck_calm _).bind ?_
  rintro _ ⟨rfl, _⟩
  simp only
  obtain ⟨p, hp, p0, p1⟩ : ∃ p, (1 + d.tableBlock) * 512 + 128 * d.tableIndex = p ∧ 0 ≤ p ∧ p + 128 ≤ d.data.length :=
    ⟨_, rfl, by omega, by omega⟩
  rw [hp]
  refine (aget_calm (by omega) (by omega)).bind fun t _ => ?_
  split
  · exact .ok ⟨h.data (-1) d.streamSize, rfl, rfl, rfl, Or.inl (by simp only; omega)⟩
  · refine (aget_calm (by omega) (by omega)).bind fun c _ => ?_
    have hc := nameSize_le c
    refine (nameLoop_calm p0 _ 0 _ _ (by omega) (by omega)).bind fun r _ => ?_
    refine (load_calm (by omega) (by omega)).bind fun b hb => (load_calm (by omega) (by omega)).bind fun s hs => ?_
    refine .ok ⟨h.data _ _, rfl, rfl, rfl, ?_⟩
    simp only
    split
    · exact Or.inl (by omega)
    · by_cases hb0 : b < 0
      · exact Or.inl hb0
      · exact Or.inr ⟨by omega, by omega, hs⟩

theorem nextRecord_calm {d : Doc} (h : DocOk d) (ht : 0 ≤ d.tableBlock) : (nextRecord d).Calm fun x =>
    DocOk x.1 ∧ x.1.size = d.size ∧ ((x.2 = true ∧ 0 ≤ x.1.tableBlock ∧ left x.1 < left d) ∨ (x.2 = false ∧ x.1.tableBlock < 0 ∧ left x.1 ≤ left d)) := by
  unfold nextRecord
  have h2 := h.index.resolve_left (by omega)
  split
  · rename_i h3
    refine (nextBlock_calm h.size _).bind ?_
    rintro ⟨d', x⟩ (⟨g1, g2⟩ | ⟨g1, g2, g3, g4⟩)
    · simp only at g1 g2
      subst g2
      refine .ok ⟨?_, rfl, Or.inr ⟨by simp only; exact decide_eq_false (by omega), g1, ?_⟩⟩
      · obtain ⟨a1, a2, a3, a4, a5, a6, a7⟩ := h
        exact ⟨a1, a2, a3, a4, a5, Or.inl g1, Or.inl g1⟩
      · unfold left
        simp only
        split <;> split <;> omega
    · simp only at g1 g2 g3 g4
      subst g4
      have hv := h.visit g1 g2 g3
      have hmx := h.maxindex
      refine .ok ⟨?_, rfl, Or.inl ⟨by simp only; exact decide_eq_true g1, g1, ?_⟩⟩
      · obtain ⟨a1, a2, a3, a4, a5, a6, a7⟩ := hv
        simp only at *
        rw [if_neg (by omega)]
        exact ⟨a1, a2, a3, a4, a5, Or.inr (by simp only; omega), Or.inr ⟨by simp, by simp⟩⟩
      · unfold left
        simp only [List.length_cons]
        rw [if_neg (by omega), if_neg (by omega), if_neg (by omega)]
        omega
  · rename_i h3
    refine .ok ⟨?_, rfl, Or.inl ⟨rfl, ht, ?_⟩⟩
    · obtain ⟨a1, a2, a3, a4, a5, a6, a7⟩ := h
      exact ⟨a1, a2, a3, a4, a5, a6, Or.inr (by simp only; omega)⟩
    · unfold left
      simp only
      rw [if_neg (by omega), if_neg (by omega)]
      omega

theorem entryLoop_calm : ∀ (fuel : Nat) (d : Doc) (info : EntryInfo), DocOk d → 0 ≤ d.tableBlock → left d < fuel →
    (entryLoop fuel d info).Calm fun x => DocOk x.1 ∧ x.1.size = d.size ∧
      ((x.2.2 = true ∧ left x.1 < left d ∧ 0 ≤ x.1.dataBlock ∧ x.1.dataBlock ≤ x.1.maxindex ∧ 0 < x.1.streamSize ∧ x.1.streamSize < 2 ^ 31) ∨
        (x.2.2 = false ∧ x.1.tableBlock < 0 ∧ left x.1 ≤ left d)) := by
  intro fuel
  induction fuel with
  | zero => intro d info h ht hf; have := h.left0; omega
  | succ fuel ih =>
    intro d info h ht hf
    rw [entryLoop]
    refine (nextRecord_calm h ht).bind ?_
    rintro ⟨d', x⟩ ⟨g1, g2, g3⟩
    simp only at g1 g2 g3
    rcases g3 with ⟨rfl, g3, g4⟩ | ⟨rfl, g3, g4⟩
    · simp only [if_true]
      refine (readEntryInfo_calm g1 g3 info).bind ?_
      rintro ⟨d'', info'⟩ ⟨k1, k2, k3, k4, k5⟩
      simp only at k1 k2 k3 k4 k5
      simp only
      split
      · refine (ih d'' info' k1 (by omega) (by omega)).mono ?_
        rintro ⟨a, b, c⟩ ⟨l1, l2, l3⟩
        simp only at l1 l2 l3
        refine ⟨l1, by simp only; omega, ?_⟩
        rcases l3 with ⟨l3, l4, l5⟩ | ⟨l3, l4, l5⟩
        · exact Or.inl ⟨l3, by simp only; omega, l5⟩
        · exact Or.inr ⟨l3, l4, by simp only; omega⟩
      · exact .ok ⟨k1, by simp only; omega, Or.inl ⟨rfl, by simp only; omega, by simp only; omega, by simp only; omega, by simp only; omega, by simp only; omega⟩⟩
    · simp only [Bool.false_eq_true, if_false]
      exact .ok ⟨g1, g2, Or.inr ⟨rfl, g3, g4⟩⟩

/-- The state of the provider; `N` bounds the number of entries to come. -/
structure StateOk (N : Int) (s : State) : Prop where
  doc : DocOk s.es.prod.doc
  left : left s.es.prod.doc ≤ N
  wf : StreamBuffer.WF s.es.buf
  some : 0 < s.es.buf.size
  stream : s.open_ = true → BufferedStream.Safe (fun e => DocOk e.doc ∧ Ole.left e.doc ≤ N) (EntryOk N) s.es

theorem nextEntry_calm {N : Int} {s : State} (h : StateOk N s) : (nextEntry s).Calm fun s' =>
    (s'.open_ = false ∧ StateOk N s') ∨ (s'.open_ = true ∧ 0 < N ∧ StateOk (N - 1) s') := by
  unfold nextEntry
  have hN := h.left
  have hoff := h.wf.off; have hav := h.wf.av; have hfit := h.wf.fits; have hsz := h.some
  split
  · exact .ok (Or.inl ⟨rfl, h.doc, h.left, h.wf, h.some, fun z => by cases z⟩)
  · rename_i ht
    have hfuel : left s.es.prod.doc < (4 * s.es.prod.doc.size.toNat + 8 : Nat) := by
      have := h.doc.maxlt
      have := h.doc.index
      have := h.doc.size
      unfold left
      split <;> omega
    have hl0 := h.doc.left0
    refine (entryLoop_calm _ _ s.info h.doc (by omega) hfuel).bind ?_
    rintro ⟨d, info, x⟩ ⟨g1, g2, g3⟩
    simp only at g1 g2 g3
    have hd0 := g1.left0
    rcases g3 with ⟨rfl, g3, g4, g5, g6, g7⟩ | ⟨rfl, g3, g4⟩
    · simp only [if_true]
      have hwf : StreamBuffer.WF (resetEntry s.es d).buf := by
        refine ⟨Int.le_refl _, Int.le_refl _, ?_⟩
        show (0 : Int) + 0 ≤ s.es.buf.size
        omega
      refine .ok (Or.inr ⟨rfl, by omega, g1, by simp only [resetEntry]; omega, hwf, h.some, fun _ => ?_⟩)
      refine ⟨hwf, h.some, ⟨g1, by simp only [resetEntry]; omega⟩, fun _ _ => ⟨d.streamSize.toNat, ?_⟩⟩
      refine ⟨g1, by simp only [resetEntry]; omega, Or.inr ⟨g4, Or.inr g5⟩, Int.le_refl _, ?_, g7, Int.le_refl _, ?_, ?_, ?_⟩
      · simp only [resetEntry]; omega
      · simp only [resetEntry]; split <;> omega
      · simp only [resetEntry]; split <;> simp
      · simp only [resetEntry]; omega
    · simp only [Bool.false_eq_true, if_false]
      exact .ok (Or.inl ⟨rfl, g1, by simp only; omega, h.wf, h.some, fun z => by cases z⟩)

theorem setEntry_ok {N : Int} {s : State} {e : BufferedStream Entry UInt8}
    (he : BufferedStream.Safe (fun e => DocOk e.doc ∧ Ole.left e.doc ≤ N) (EntryOk N) e) : StateOk N (ops.setEntry s e) :=
  ⟨he.weak.1, he.weak.2, he.wf, he.some, fun _ => he⟩

theorem entry_ok {N : Int} {s : State} (h : StateOk N s) {e : BufferedStream Entry UInt8} (he : ops.entry s = some e) :
    BufferedStream.Safe (fun e => DocOk e.doc ∧ Ole.left e.doc ≤ N) (EntryOk N) e := by
  have he : (if s.open_ then some s.es else none) = some e := he
  split at he
  · rename_i ho
    cases he
    exact h.stream ho
  · cases he

theorem reach_ok {N : Int} {p₀ p : State} {n : Nat} (h0 : StateOk N p₀) (h : Reach ops p₀ n p) :
    StateOk (N - n) p ∧ (n : Int) ≤ max N 0 := by
  induction h with
  | start => exact ⟨by simpa using h0, by omega⟩
  | @next n p p' e _ h1 h2 ih =>
    have := (nextEntry_calm ih.1).of_ok h1
    rcases this with ⟨g1, _⟩ | ⟨g1, g2, g3⟩
    · have h2 : (if p'.open_ then some p'.es else none) = some e := h2
      rw [g1] at h2
      simp at h2
    · refine ⟨?_, by omega⟩
      rw [show N - ((n + 1 : Nat) : Int) = N - n - 1 by omega]
      exact g3
  | @last n p p' _ h1 h2 ih =>
    have := (nextEntry_calm ih.1).of_ok h1
    rcases this with ⟨_, g1⟩ | ⟨g1, g2, g3⟩
    · exact ⟨g1, ih.2⟩
    · have h2 : (if p'.open_ then some p'.es else none) = none := h2
      rw [g1] at h2
      simp at h2
  | read _ h1 h2 h3 ih =>
    exact ⟨setEntry_ok ((BufferedStream.read_safe (guarded _) (entry_ok ih.1 h1) h2 _).of_ok h3).1, ih.2⟩
  | skip _ h1 h2 h3 ih =>
    exact ⟨setEntry_ok ((BufferedStream.skip_safe (guarded _) (entry_ok ih.1 h1) h2).of_ok h3), ih.2⟩
  | reset _ h1 h2 h3 ih =>
    exact ⟨setEntry_ok ((BufferedStream.reset_safe (entry_ok ih.1 h1) h2).of_ok h3), ih.2⟩

theorem allSound {N : Int} {p : State} (h : StateOk N p) : AllSound ops p :=
  ⟨(nextEntry_calm h).sound, fun _ he => ⟨fun _ mx h1 => (BufferedStream.read_safe (guarded _) (entry_ok h he) h1 mx).sound,
    fun _ h1 => (BufferedStream.skip_safe (guarded _) (entry_ok h he) h1).sound,
    fun _ h1 => (BufferedStream.reset_safe (entry_ok h he) h1).sound⟩⟩

/-! ## The constructor -/

theorem collect_calm : ∀ (n : Nat) (d : Doc) (b : Int) (l : List Int), DocOk d →
    (collect n d b l).Calm fun x => DocOk x.1 ∧ x.1.data = d.data ∧ x.1.size = d.size ∧ x.1.maxindex = d.maxindex := by
  intro n
  induction n with
  | zero => intro d b l h; exact .ok ⟨h, rfl, rfl, rfl⟩
  | succ n ih =>
    intro d b l h
    rw [collect]
    split
    · refine (nextBlock_calm h.size b).bind ?_
      rintro ⟨d', x⟩ (⟨g1, g2⟩ | ⟨g1, g2, g3, g4⟩)
      · simp only at g1 g2
        subst g2
        exact ih _ _ _ h
      · simp only at g1 g2 g3 g4
        subst g4
        exact ih _ _ _ (h.visit g1 g2 g3)
    · exact .ok ⟨h, rfl, rfl, rfl⟩

theorem readTables_calm {d : Doc} (h : DocOk d) {pt : Int} (hpt : pt < 0 ∨ (pt + 2) * 512 ≤ d.size) (sb : Int) :
    (readTables d pt sb).Calm fun x => ∀ d', x = some d' → DocOk d' ∧ d'.size = d.size ∧ d'.maxindex = d.maxindex := by
  unfold readTables
  refine (collect_calm 1000 d sb [] h).bind ?_
  rintro ⟨d1, b1, l1⟩ ⟨g1, g2, g3, g4⟩
  simp only at g1 g2 g3 g4
  simp only
  refine (ck_calm _).bind fun _ _ => (ck_calm _).bind fun _ _ => (ck_calm _).bind fun p _ => ?_
  have h1 : DocOk { d1 with sbat := l1 } := by
    obtain ⟨a1, a2, a3, a4, a5, a6, a7⟩ := g1
    exact ⟨a1, a2, a3, a4, a5, a6, a7⟩
  refine (readInt32_calm (by intro z; rw [h1.size] at z; exact z)).bind ?_
  intro v _
  cases v with
  | none => exact .ok (by simp)
  | some b =>
    refine (collect_calm 16000 _ b [] h1).bind ?_
    rintro ⟨d2, b2, l2⟩ ⟨k1, k2, k3, k4⟩
    simp only at k1 k2 k3 k4
    refine .ok ?_
    intro d' hd'
    cases hd'
    obtain ⟨a1, a2, a3, a4, a5, a6, a7⟩ := k1
    refine ⟨⟨a1, a2, a3, a4, a5, ?_, ?_⟩, ?_, ?_⟩
    · simp only; omega
    · simp only; right; omega
    · simp only; omega
    · simp only; omega

theorem xbatInner_calm {data : List UInt8} {nBat off : Int} : ∀ (n : Nat) (i : Int) (bat : List Int),
    (xbatInner data data.length nBat off n i bat).Calm fun _ => True := by
  intro n
  induction n with
  | zero => intro i bat; exact .ok trivial
  | succ n ih =>
    intro i bat
    rw [xbatInner]
    split
    · refine (ck_calm _).bind fun o _ => (readInt32_calm (fun z => z)).bind ?_
      intro v _
      cases v with
      | none => exact .ok trivial
      | some v => exact ih _ _
    · exact .ok trivial

theorem xbatLoop_calm {data : List UInt8} {nBat : Int} : ∀ (n : Nat) (off : Int) (bat : List Int),
    (xbatLoop data data.length nBat n off bat).Calm fun _ => True := by
  intro n
  induction n with
  | zero => intro i bat; exact .ok trivial
  | succ n ih =>
    intro off bat
    rw [xbatLoop]
    refine (xbatInner_calm 127 0 bat).bind ?_
    intro r _
    cases r with
    | none => exact .ok trivial
    | some bat =>
      refine (ck_calm _).bind fun o _ => (readInt32_calm (fun z => z)).bind ?_
      intro v _
      cases v with
      | none => exact .ok trivial
      | some x => exact (ck_calm _).bind fun x _ => (ck_calm _).bind fun x _ => ih _ _

theorem readIndex_calm {f : List UInt8} {nBat nXBat pt sb xb : Int} {bat : List Int} (hpt : pt < 0 ∨ (pt + 2) * 512 ≤ f.length) :
    (readIndex f f.length nBat nXBat pt sb xb bat).Calm fun x => ∀ d, x = some d → DocOk d ∧ d.size = f.length ∧
      d.maxindex = (f.length : Int) / 512 - 2 := by
  unfold readIndex
  refine (ck_calm _).bind fun _ _ => (ck_calm _).bind fun _ _ => (xbatLoop_calm _ _ _).bind ?_
  intro r _
  cases r with
  | none => exact .ok (by simp)
  | some bat =>
    simp only
    have hdiv : (f.length : Int).tdiv 512 = (f.length : Int) / 512 := Int.tdiv_eq_ediv_of_nonneg (by omega)
    refine (readTables_calm (d := { data := f, size := f.length, bat := bat, maxindex := (f.length : Int).tdiv 512 - 2 }) ?_ hpt sb).mono ?_
    · rw [hdiv]
      exact ⟨rfl, by simp only; omega, by simp only; omega, by simp, by simp, Or.inl (by simp only; omega), Or.inl (by simp only; omega)⟩
    · intro x hx d hd
      obtain ⟨a, b, c⟩ := hx d hd
      exact ⟨a, b, by rw [c, hdiv]⟩

theorem headerBat_calm {mem : List UInt8} (hm : mem.length = 436) : ∀ (n : Nat) (i : Int) (bat : List Int) (mx : Int), 0 ≤ i →
    i + n ≤ 109 → (headerBat mem 512 n i bat mx).Calm fun _ => True := by
  intro n
  induction n with
  | zero => intro i bat mx _ _; exact .ok trivial
  | succ n ih =>
    intro i bat mx hi hn
    rw [headerBat]
    refine (readInt32_calm (by intro _; omega)).bind ?_
    intro r _
    cases r with
    | none => exact .ok trivial
    | some p => exact ih _ _ _ (by omega) (by omega)

section
variable {σ : Type} {P : StreamOps σ UInt8} {soft : Prop} {f : List UInt8}

/-- The most entries a file of this size can have. -/
def most (f : List UInt8) : Int := 4 * max ((f.length : Int) / 512 - 1) 0 + 3

theorem reach_broken {n : Nat} {p : State} (h : Reach ops broken n p) :
    n = 0 ∧ p.open_ = false ∧ p.es.prod.doc.tableBlock < 0 := by
  have hn : ∀ {p p' : State}, p.es.prod.doc.tableBlock < 0 → ops.nextEntry p = .ok p' →
      p'.open_ = false ∧ p'.es.prod.doc.tableBlock < 0 := by
    intro p p' h1 h2
    have h2 : nextEntry p = .ok p' := h2
    unfold nextEntry at h2
    rw [if_pos h1] at h2
    cases h2
    exact ⟨rfl, h1⟩
  have he : ∀ {p : State} {e}, p.open_ = false → ops.entry p = some e → False := by
    intro p e h1 h2
    have h2 : (if p.open_ then some p.es else none) = some e := h2
    rw [h1] at h2
    simp at h2
  induction h with
  | start => exact ⟨rfl, rfl, by show (-1 : Int) < 0; omega⟩
  | next _ h1 h2 ih => exact (he (hn ih.2.2 h1).1 h2).elim
  | last _ h1 h2 ih => exact ⟨ih.1, hn ih.2.2 h1⟩
  | read _ h1 _ _ ih => exact (he ih.2.1 h1).elim
  | skip _ h1 _ _ ih => exact (he ih.2.1 h1).elim
  | reset _ h1 _ _ ih => exact (he ih.2.1 h1).elim

theorem opened_ok {d : Doc} (h : DocOk d) {N : Int} (hl : left d ≤ N) : StateOk N (opened (some d)) := by
  have h512 : (newEntry d).buf.size = 512 := by
    show (((List.replicate 512 (none : Option UInt8)).length : Nat) : Int) = 512
    rw [List.length_replicate]
    rfl
  refine ⟨h, hl, ⟨Int.le_refl _, Int.le_refl _, ?_⟩, ?_, fun z => by cases z⟩
  · show (0 : Int) + 0 ≤ (newEntry d).buf.size
    rw [h512]; omega
  · show 0 < (newEntry d).buf.size
    rw [h512]; omega

theorem readFile_calm (hlen : f.length < 2 ^ 31) {s0 s : σ} {hi : Int} (hb : ∀ l, Behaves P f Failure.never soft s 0 hi l) (hp : P.position s = 0)
    (hu : Uses P f soft s0 s 0 hi) (hsz : KnownSize P f soft s0) (h512 : 512 ≤ f.length) (mx : Int) :
    (readFile P s mx).Calm fun x => ∀ (data : List UInt8) (size : Int), x = some (data, size) → data = f ∧ size = f.length ∧ (mx + 2) * 512 ≤ f.length := by
  obtain ⟨c1, c2, ch, r2, q2, p2, b2, u2⟩ := peek hb hp hu (k := f.length) (by omega) (Nat.le_refl _)
  rw [List.take_length] at r2
  unfold readFile
  refine (ck_calm _).bind ?_
  rintro _ ⟨rfl, _⟩
  refine (ck_calm _).bind ?_
  rintro _ ⟨rfl, _⟩
  rw [hsz _ _ _ hu]
  split
  · exact .ok (by simp)
  · rw [if_pos (by omega), narrow32_of_range (by omega) (by omega)]
    simp only
    rw [r2, Res.bind_ok, q2, Res.bind_ok]
    simp only
    rw [hsz _ _ _ u2, if_neg (by omega)]
    refine .ok ?_
    intro data size h
    cases h
    exact ⟨rfl, rfl, by omega⟩

/-- The constructor, for any input of known size. -/
theorem new_calm (hlen : f.length < 2 ^ 31) {input : σ} (hi : IsStream P f Failure.never soft input) (hp : P.position input = 0)
    (hsz : KnownSize P f soft input) : (new P input).Calm fun s => s = broken ∨ StateOk (most f) s := by
  have hb0 : ∀ l, Behaves P f Failure.never soft input 0 0 l := by
    intro l; have := hi l; rwa [hp] at this
  have u0 : Uses P f soft input input 0 0 := by have := Uses.start (ops := P) (c := f) (soft := soft) (s₀ := input); rwa [hp] at this
  by_cases h512 : 512 ≤ f.length
  · obtain ⟨a1, a2, ah, r1, q1, p1, b1, u1⟩ := peek hb0 hp u0 (k := 512) (by omega) (by omega)
    rw [show ((512 : Nat) : Int) = 512 from rfl] at r1
    have hlt : (f.take 512).length = 512 := by rw [List.length_take]; omega
    unfold new
    rw [r1, Res.bind_ok]
    simp only
    rw [if_neg (by simp), q1, Res.bind_ok]
    refine (load_calm (by omega) (by omega)).bind fun nBat _ => (load_calm (by omega) (by omega)).bind fun pt _ =>
      (load_calm (by omega) (by omega)).bind fun sb _ => (load_calm (by omega) (by omega)).bind fun xb _ =>
      (load_calm (by omega) (by omega)).bind fun nX _ => ?_
    have hbad : (badHeader (f.take 512) nBat nX).Calm fun _ => True := by
      unfold badHeader checkHeader memEq
      rw [if_pos (by omega), if_pos (by rw [hlt]; simp), Res.bind_ok]
      split
      · exact .ok trivial
      · exact (ck_calm _).bind fun _ _ => (ck_calm _).bind fun _ _ => .ok trivial
    refine hbad.bind fun b _ => ?_
    split
    · exact .ok (Or.inl rfl)
    · unfold readRest
      refine (headerBat_calm (by rw [List.length_drop, hlt]) _ _ _ _ (Int.le_refl _) (by omega)).bind ?_
      intro r _
      cases r with
      | none => exact .ok (Or.inl rfl)
      | some r =>
        obtain ⟨bat, mx⟩ := r
        simp only
        refine (ck_calm _).bind ?_
        rintro m ⟨rfl, _⟩
        obtain ⟨M, hM, hM1⟩ : ∃ M, (if 128 * (nBat - 1) > (if pt > mx then pt else mx) then 128 * (nBat - 1) else if pt > mx then pt else mx) = M ∧ pt ≤ M := by
          refine ⟨_, rfl, ?_⟩
          split <;> split <;> omega
        rw [hM]
        refine (readFile_calm hlen b1 p1 u1 hsz h512 M).bind ?_
        intro r hr
        cases r with
        | none => exact .ok (Or.inl rfl)
        | some r =>
          obtain ⟨data, size⟩ := r
          obtain ⟨rfl, rfl, g⟩ := hr data size rfl
          simp only
          refine (readIndex_calm (by omega)).bind ?_
          intro d hd
          cases d with
          | none => exact .ok (Or.inl rfl)
          | some d =>
            obtain ⟨k1, k2, k3⟩ := hd d rfl
            refine .ok (Or.inr (opened_ok k1 ?_))
            have := k1.index
            unfold left most
            rw [k3]
            split <;> omega
  · -- the header is too short
    have C := Contract.of_behaves P f Failure.never soft
    obtain ⟨s1, n, d, e, r, hh⟩ := C.read hb0 (min := 512) (max := 512) (by omega) (Or.inr (Int.le_refl _))
    have hn : n ≠ 512 := by
      cases r with
      | data pos items inside adv limit enough st => omega
      | ended none nodata atEnd stay st => omega
      | failed a _ _ => exact absurd a id
    unfold new
    rw [e, Res.bind_ok]
    simp only
    rw [if_pos hn]
    exact .ok (Or.inl rfl)

end

end Ole
end Strigi
