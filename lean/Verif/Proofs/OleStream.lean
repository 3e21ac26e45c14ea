import Verif.Proofs.Ole

/-!
# The entry streams of OLE files
-/

namespace Strigi
namespace Ole

open OleFile

variable {f : List UInt8} {L : Layout}

/-! ## Small blocks -/

theorem nextSmallBlock_table {T : List Nat} {d : Doc} {b : Nat} (hlen : f.length < 2 ^ 31)
    (hd : d.data = f) (hs : d.size = f.length) (hbat : d.sbat = ints T) (hb : b / 128 < T.length)
    (hin : ∀ t ∈ T, blockAt t + 512 ≤ f.length) :
    nextSmallBlock d b = if lookup f T b < -2 ∨ lookup f T b = -1 ∨ lookup f T b > d.maxsindex ∨ lookup f T b ∈ d.usedS
      then .ok (d, -4) else if lookup f T b ≥ 0 then .ok ({ d with usedS := lookup f T b :: d.usedS }, lookup f T b)
      else .ok (d, lookup f T b) := by
  have hm : blockAt (T.getD (b / 128) 0) + 512 ≤ f.length := by
    apply hin
    rw [List.getD_eq_getElem?_getD, List.getElem?_eq_getElem hb]
    exact List.getElem_mem hb
  have : b % 128 < 128 := Nat.mod_lt _ (by omega)
  unfold nextSmallBlock
  rw [tdiv_128, if_neg (by rw [hbat, ints_length]; omega), hbat, slot_spec hlen hb hm]
  simp only [Res.bind_ok]
  rw [if_neg (by rw [hs]; omega), hd, load_word (by omega)]
  simp only [Res.bind_ok]
  rfl

/-! ## Both kinds of chains -/

/-- The size of a block; `k` is true for the ministream. -/
def bsz (k : Bool) : Nat := if k then 64 else 512

/-- The place of a block. -/
def place (L : Layout) (k : Bool) (b : Nat) : Nat :=
  if k then blockAt (L.mini.getD (b / 8) 0) + 64 * (b % 8) else blockAt b

/-- The table. -/
def table (L : Layout) (k : Bool) : List Nat := if k then L.minifat else L.bat

/-- The block is in the file. -/
def BlockOk (f : List UInt8) (L : Layout) (k : Bool) (b : Nat) : Prop :=
  if k then b / 8 < L.mini.length else blockAt b + 512 ≤ f.length

/-- The contents. -/
def blk (f : List UInt8) (L : Layout) (k : Bool) (b : Nat) : List UInt8 := (f.drop (place L k b)).take (bsz k)

/-- The blocks that were visited. -/
def usedOf (k : Bool) (d : Doc) : List Int := if k then d.usedS else d.used

/-- A block is visited. -/
def mark (k : Bool) (d : Doc) (c : Int) : Doc :=
  if k then { d with usedS := c :: d.usedS } else { d with used := c :: d.used }

theorem place_inside (W : WellFormed f L) {k : Bool} {b : Nat} (h : BlockOk f L k b) :
    place L k b + bsz k ≤ f.length := by
  unfold BlockOk at h
  unfold place bsz
  cases k with
  | false => simpa using h
  | true =>
    simp only [if_true] at h ⊢
    have := W.inside (L.mini.getD (b / 8) 0) (Or.inr (Or.inr (Or.inr (Or.inr (by
      rw [List.getD_eq_getElem?_getD, List.getElem?_eq_getElem h]
      exact List.getElem_mem h)))))
    have : b % 8 < 8 := Nat.mod_lt _ (by omega)
    omega

theorem blk_length (W : WellFormed f L) {k : Bool} {b : Nat} (h : BlockOk f L k b) : (blk f L k b).length = bsz k := by
  have := place_inside W h
  unfold blk
  rw [List.length_take, List.length_drop]
  omega

theorem blockStart_spec (W : WellFormed f L) {k : Bool} {b : Nat} (h : BlockOk f L k b) {e : Entry}
    (hF : Fixed f L e.doc) (hb : e.doc.dataBlock = b) (hk : e.blocksize = bsz k) :
    blockStart e = .ok (some (place L k b)) := by
  have hp := place_inside W h
  have hlen := W.length
  unfold blockStart
  cases k with
  | false =>
    rw [if_neg (by rw [hk]; simp [bsz]), hb]
    unfold place at hp ⊢
    simp only [Bool.false_eq_true, if_false] at hp ⊢
    have hub : blockAt b = 512 * (b + 1) := rfl
    generalize blockAt b = u at *
    rw [ck_ok (by omega) (by omega), Res.bind_ok, ck_ok (by omega) (by omega), Res.bind_ok,
      show (1 + (b : Int)) * 512 = (u : Int) by omega]
  | true =>
    rw [if_pos (by rw [hk]; rfl)]
    unfold smallBlock
    have h8 : (b : Int).tdiv 8 = ((b / 8 : Nat) : Int) := by
      rw [Int.tdiv_eq_ediv_of_nonneg (by omega)]; omega
    have hm8 : (b : Int).tmod 8 = ((b % 8 : Nat) : Int) := by
      rw [Int.tmod_eq_emod_of_nonneg (by omega)]; omega
    have hlt : b / 8 < L.mini.length := h
    rw [hb, h8, hm8, hF.sbatb, if_neg (by rw [ints_length]; omega), aget_ints hlt, Res.bind_ok]
    unfold place at hp ⊢
    simp only [if_true] at hp ⊢
    have : b % 8 < 8 := Nat.mod_lt _ (by omega)
    have hs := hF.size
    have h64 : bsz true = 64 := rfl
    generalize L.mini.getD (b / 8) 0 = t at *
    have hub : blockAt t = 512 * (t + 1) := rfl
    generalize blockAt t = u at *
    generalize b % 8 = m at *
    rw [ck_ok (by omega) (by omega), Res.bind_ok, ck_ok (by omega) (by omega), Res.bind_ok,
      ck_ok (by omega) (by omega), Res.bind_ok, if_neg (by omega),
      show 512 * (1 + (t : Int)) + (m : Int) * 64 = ((u + 64 * m : Nat) : Int) by omega]

theorem table_inside (W : WellFormed f L) (k : Bool) : ∀ t ∈ table L k, blockAt t + 512 ≤ f.length := by
  intro t ht
  cases k with
  | false => exact W.inside t (Or.inr (Or.inl ht))
  | true => exact W.inside t (Or.inr (Or.inr (Or.inr (Or.inl ht))))

theorem follow_cons (W : WellFormed f L) {k : Bool} {b c : Nat} {l : List Nat} (hc : Chain f (table L k) (b :: c :: l))
    (hok : BlockOk f L k c) {e : Entry} (hF : Fixed f L e.doc) (hb : e.doc.dataBlock = b) (hk : e.blocksize = bsz k)
    (hu : (c : Int) ∉ usedOf k e.doc) : follow e = .ok (mark k e.doc c, c) := by
  obtain ⟨h1, h2, _⟩ := Chain.inv hc
  unfold follow
  cases k with
  | false =>
    rw [if_neg (by rw [hk]; simp [bsz]), hb]
    have h1 : b / 128 < L.bat.length := h1
    rw [nextBlock_cons W.length hF.data hF.size hF.bat h1 (table_inside W false) h2
      (by rw [hF.maxindex]; exact inside_max hok) hu]
    rfl
  | true =>
    rw [if_pos (by rw [hk]; rfl), hb]
    have h1 : b / 128 < L.minifat.length := h1
    have h2 : lookup f L.minifat b = c := h2
    have hok : c / 8 < L.mini.length := hok
    have hu : (c : Int) ∉ e.doc.usedS := hu
    have hms := hF.maxsindex
    rw [nextSmallBlock_table W.length hF.data hF.size hF.sbat h1 (table_inside W true), h2]
    rw [if_neg (by
      rintro (h | h | h | h)
      · omega
      · omega
      · omega
      · exact hu h), if_pos (by omega)]
    rfl

theorem follow_last (W : WellFormed f L) {k : Bool} {b : Nat} (hc : Chain f (table L k) [b])
    {e : Entry} (hF : Fixed f L e.doc) (hb : e.doc.dataBlock = b) (hk : e.blocksize = bsz k)
    (hu : ∀ x ∈ usedOf k e.doc, (0 : Int) ≤ x) : follow e = .ok (e.doc, -2) := by
  obtain ⟨h1, h2⟩ := Chain.inv_last hc
  have hl : 1024 ≤ f.length := by have := W.full; omega
  unfold follow
  cases k with
  | false =>
    rw [if_neg (by rw [hk]; simp [bsz]), hb]
    exact nextBlock_last W.length hF.data hF.size hF.bat h1 (table_inside W false) h2
      (by rw [hF.maxindex]; omega) hu
  | true =>
    rw [if_pos (by rw [hk]; rfl), hb]
    have h1 : b / 128 < L.minifat.length := h1
    have h2 : lookup f L.minifat b = -2 := h2
    have hu : ∀ x ∈ e.doc.usedS, (0 : Int) ≤ x := hu
    rw [nextSmallBlock_table W.length hF.data hF.size hF.sbat h1 (table_inside W true), h2, hF.maxsindex]
    rw [if_neg (by
      rintro (h | h | h | h)
      · omega
      · omega
      · omega
      · have := hu _ h; omega), if_neg (by omega)]

/-- What stays true while an entry is read: the directory is at its place, and the blocks that are needed later have
not been visited. -/
structure DocInv (f : List UInt8) (L : Layout) (tb ti : Int) (later laterS : List Nat) (d : Doc) : Prop where
  fixed : Fixed f L d
  table : d.tableBlock = tb
  index : d.tableIndex = ti
  nonneg : ∀ x ∈ d.used, (0 : Int) ≤ x
  nonnegS : ∀ x ∈ d.usedS, (0 : Int) ≤ x
  free : ∀ x ∈ later, (x : Int) ∉ d.used
  freeS : ∀ x ∈ laterS, (x : Int) ∉ d.usedS

theorem DocInv.mark {tb ti : Int} {later laterS : List Nat} {d : Doc} (h : DocInv f L tb ti later laterS d) {k : Bool}
    {c : Nat} (hc : c ∉ if k then laterS else later) (b : Int) :
    DocInv f L tb ti later laterS { mark k d c with dataBlock := b } := by
  obtain ⟨⟨a1, a2, a3, a4, a5, a6, a7⟩, h2, h3, h4, h5, h6, h7⟩ := h
  cases k with
  | false =>
    simp only [Bool.false_eq_true, if_false] at hc
    refine ⟨⟨a1, a2, a3, a4, a5, a6, a7⟩, h2, h3, ?_, h5, ?_, h7⟩
    · intro x hx
      simp only [Ole.mark, Bool.false_eq_true, if_false, List.mem_cons] at hx
      rcases hx with rfl | hx
      · omega
      · exact h4 x hx
    · intro x hx hz
      simp only [Ole.mark, Bool.false_eq_true, if_false, List.mem_cons] at hz
      rcases hz with hz | hz
      · have : x = c := by omega
        subst this
        exact hc hx
      · exact h6 x hx hz
  | true =>
    simp only [if_true] at hc
    refine ⟨⟨a1, a2, a3, a4, a5, a6, a7⟩, h2, h3, h4, ?_, h6, ?_⟩
    · intro x hx
      simp only [Ole.mark, if_true, List.mem_cons] at hx
      rcases hx with rfl | hx
      · omega
      · exact h5 x hx
    · intro x hx hz
      simp only [Ole.mark, if_true, List.mem_cons] at hz
      rcases hz with hz | hz
      · have : x = c := by omega
        subst this
        exact hc hx
      · exact h7 x hx hz

theorem DocInv.block {tb ti : Int} {later laterS : List Nat} {d : Doc} (h : DocInv f L tb ti later laterS d) (b : Int) :
    DocInv f L tb ti later laterS { d with dataBlock := b } := by
  obtain ⟨⟨a1, a2, a3, a4, a5, a6, a7⟩, h2, h3, h4, h5, h6, h7⟩ := h
  exact ⟨⟨a1, a2, a3, a4, a5, a6, a7⟩, h2, h3, h4, h5, h6, h7⟩

/-- What the entry stream has still to deliver. -/
structure Rest (f : List UInt8) (L : Layout) (tb ti : Int) (later laterS : List Nat) (k : Bool) (e : Entry)
    (rest : List UInt8) (m : Nat) : Prop where
  doc : DocInv f L tb ti later laterS e.doc
  left : e.msize - e.done = rest.length
  small : e.msize < 2 ^ 31
  done0 : 0 ≤ e.done
  count : m = rest.length
  chain : rest = [] ∨ ∃ b l, Chain f (table L k) (b :: l) ∧ (∀ x ∈ b :: l, BlockOk f L k x) ∧ e.doc.dataBlock = (b : Nat) ∧
    e.blocksize = bsz k ∧ 0 ≤ e.offset ∧ e.offset < bsz k ∧
    rest <+: (blk f L k b).drop e.offset.toNat ++ l.flatMap (blk f L k) ∧ l.Nodup ∧
    (∀ x ∈ l, (x : Int) ∉ usedOf k e.doc) ∧ ∀ x ∈ l, x ∉ if k then laterS else later

theorem fill_end {tb ti : Int} {later laterS : List Nat} {k : Bool} {e : Entry} {m : Nat}
    (h : Rest f L tb ti later laterS k e [] m) (space : Int) : fill e space = .ok (e, ⟨-1, [], false⟩) := by
  unfold fill
  have := h.left
  simp only [List.length_nil] at this
  rw [if_pos (by omega)]

theorem prefix_of_take {α : Type} {a b : List α} {n : Nat} (h : a <+: b) (hn : n ≤ a.length) : a.take n = b.take n := by
  obtain ⟨c, rfl⟩ := h
  rw [List.take_append_of_le_length hn]

theorem slice_blk (W : WellFormed f L) {k : Bool} {b : Nat} (hok : BlockOk f L k b) {o n : Nat} (hn : o + n ≤ bsz k) :
    slice f ((place L k b : Int) + o) n = ((blk f L k b).drop o).take n := by
  unfold slice blk
  rw [show ((place L k b : Int) + o).toNat = place L k b + o by omega, Int.toNat_natCast, List.drop_take, List.drop_drop,
    List.take_take, Nat.min_eq_left (by omega)]

theorem fill_step (W : WellFormed f L) {tb ti : Int} {later laterS : List Nat} {k : Bool} {e : Entry} {rest : List UInt8}
    {m : Nat} (h : Rest f L tb ti later laterS k e rest m) (hne : rest ≠ []) {space : Int} (hs : 0 < space) :
    ∃ e' data rest', fill e space = .ok (e', ⟨data.length, data, false⟩) ∧ data ≠ [] ∧ (data.length : Int) ≤ space ∧
      rest = data ++ rest' ∧ Rest f L tb ti later laterS k e' rest' rest'.length := by
  obtain ⟨hdoc, hleft, hsmall, hdone, hcount, hchain⟩ := h
  obtain ⟨b, l, hc, hok, hb, hbs, ho0, ho1, hpre, hnd, hnu, hnl⟩ := hchain.resolve_left hne
  have hlen0 : 0 < rest.length := List.length_pos_iff.2 hne
  have hlen := W.length
  have hbok := hok b (by simp)
  have hin := place_inside W hbok
  have hbl := blk_length W hbok
  -- the amount
  obtain ⟨n, hn, hn0, hns, hnb, hnr⟩ : ∃ n : Nat, amount e space = (n : Int) ∧ 0 < n ∧ (n : Int) ≤ space ∧
      e.offset + n ≤ bsz k ∧ n ≤ rest.length := by
    unfold amount
    rw [hbs, hleft]
    simp only
    split
    · rw [narrow32_of_range (by omega) (by omega)]
      split
      · exact ⟨rest.length, rfl, by omega, by omega, by omega, Nat.le_refl _⟩
      · exact ⟨space.toNat, by omega, by omega, by omega, by omega, by omega⟩
    · split
      · exact ⟨(bsz k - e.offset).toNat, by omega, by omega, by omega, by omega, by omega⟩
      · exact ⟨space.toNat, by omega, by omega, by omega, by omega, by omega⟩
  obtain ⟨o, ho⟩ : ∃ o : Nat, e.offset = (o : Int) := ⟨e.offset.toNat, by omega⟩
  rw [ho] at hpre ho1 hnb
  rw [Int.toNat_natCast] at hpre
  have hdata : rest.take n = ((blk f L k b).drop o).take n := by
    rw [prefix_of_take hpre hnr, List.take_append_of_le_length]
    rw [List.length_drop, hbl]; omega
  have hrest : rest = rest.take n ++ rest.drop n := (List.take_append_drop n rest).symm
  have htl : (rest.take n).length = n := by rw [List.length_take]; omega
  have hcopy : copy e.doc.data ((place L k b : Int) + e.offset) n = .ok (rest.take n) := by
    unfold copy
    rw [hdoc.fixed.data, if_pos ⟨by omega, by omega, by omega⟩, ho, slice_blk W hbok (by omega), hdata]
  unfold fill
  rw [if_neg (by omega), blockStart_spec W hbok hdoc.fixed hb hbs, Res.bind_ok]
  simp only
  rw [hn, if_neg (by rw [hdoc.fixed.size]; omega), hcopy, Res.bind_ok]
  unfold advance
  simp only
  by_cases hfull : o + n = bsz k
  · -- the block is complete
    rw [hbs, ho, if_pos (by omega)]
    have hdrop : rest.drop n <+: l.flatMap (blk f L k) := by
      obtain ⟨z, hz⟩ := hpre
      have h1 : ((blk f L k b).drop o).length = n := by rw [List.length_drop, hbl]; omega
      have h2 : (rest ++ z).drop n = l.flatMap (blk f L k) := by rw [hz, List.drop_left' h1]
      rw [List.drop_append_of_le_length hnr] at h2
      exact ⟨z, h2⟩
    cases l with
    | nil =>
      have hnil : rest.drop n = [] := by
        have := hdrop
        simp only [List.flatMap_nil, List.prefix_nil] at this
        exact this
      have hrl : rest.length = n := by
        have := congrArg List.length hnil
        rw [List.length_drop] at this
        simp at this
        omega
      have hfw := follow_last W hc (e := { e with done := e.done + n, offset := (o : Int) + n }) hdoc.fixed hb hbs
        (by cases k; exact hdoc.nonneg; exact hdoc.nonnegS)
      simp only [ho, hbs] at hfw ⊢
      rw [hfw, Res.bind_ok]
      simp only
      rw [if_neg (by omega)]
      refine ⟨_, rest.take n, [], by rw [htl], by intro z; rw [z] at htl; simp at htl; omega, by omega, ?_, ?_⟩
      · rw [List.append_nil, List.take_of_length_le (by omega)]
      · exact ⟨hdoc.block _, by simp only [List.length_nil]; omega, hsmall, by simp only; omega, rfl, Or.inl rfl⟩
    | cons c l =>
      rw [List.nodup_cons] at hnd
      have hfw := follow_cons W hc (e := { e with done := e.done + n, offset := (o : Int) + n }) (hok c (by simp)) hdoc.fixed hb hbs
        (hnu c (by simp))
      simp only [ho, hbs] at hfw ⊢
      rw [hfw, Res.bind_ok]
      simp only
      rw [if_neg (by omega)]
      refine ⟨_, rest.take n, rest.drop n, by rw [htl], by intro z; rw [z] at htl; simp at htl; omega, by omega, hrest, ?_⟩
      refine ⟨hdoc.mark (hnl c (by simp)) _, by simp only [List.length_drop]; omega, hsmall, by simp only; omega, rfl, Or.inr ?_⟩
      obtain ⟨_, _, hc'⟩ := Chain.inv hc
      refine ⟨c, l, hc', fun x hx => hok x (by simp at hx; rcases hx with rfl | hx <;> simp [*]), rfl, rfl, by simp, ?_, ?_, hnd.2, ?_, fun x hx => hnl x (by simp [hx])⟩
      · simp only; have : 0 < bsz k := by unfold bsz; split <;> omega
        omega
      · simp only [Int.toNat_zero, List.drop_zero]
        rwa [List.flatMap_cons] at hdrop
      · intro x hx hz
        have hxc : ¬ (x : Int) = c := fun z => hnd.1 (by have : x = c := by omega
                                                         rw [← this]; exact hx)
        have hx' := hnu x (by simp [hx])
        cases k with
        | false => simp only [usedOf, mark, Bool.false_eq_true, if_false, List.mem_cons] at hz hx'; exact hz.elim hxc hx'
        | true => simp only [usedOf, mark, if_true, List.mem_cons] at hz hx'; exact hz.elim hxc hx'
  · rw [hbs, ho, if_neg (by omega)]
    refine ⟨_, rest.take n, rest.drop n, by rw [htl], by intro z; rw [z] at htl; simp at htl; omega, by omega, hrest, ?_⟩
    refine ⟨hdoc, by simp only [List.length_drop]; omega, hsmall, by simp only; omega, rfl, Or.inr ?_⟩
    refine ⟨b, l, hc, hok, hb, rfl, by simp only; omega, by simp only; omega, ?_, hnd, hnu, hnl⟩
    simp only
    rw [show ((o : Int) + n).toNat = o + n by omega]
    obtain ⟨z, hz⟩ := hpre
    refine ⟨z, ?_⟩
    have h2 : (rest ++ z).drop n = ((blk f L k b).drop o ++ l.flatMap (blk f L k)).drop n := by rw [hz]
    rw [List.drop_append_of_le_length hnr, List.drop_append_of_le_length (by rw [List.length_drop, hbl]; omega),
      List.drop_drop] at h2
    exact h2

end Ole
end Strigi
