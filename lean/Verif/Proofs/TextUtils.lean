import Verif.Model.TextUtils
import Verif.TextSpec
import Verif.Proofs.Base64
import Mathlib.Tactic.IntervalCases

namespace Strigi.TextUtils

open Text

/-! ## Byte order -/

theorem swap32_spec (b0 b1 b2 b3 : BitVec 8) : swap32 (b3 ++ b2 ++ b1 ++ b0) = b0 ++ b1 ++ b2 ++ b3 := by
  unfold swap32
  apply BitVec.eq_of_getLsbD_eq
  intro i hi
  have hi : i < 32 := hi
  interval_cases i <;>
  simp only [BitVec.getLsbD_or, BitVec.getLsbD_and, BitVec.getLsbD_ushiftRight, BitVec.getLsbD_shiftLeft,
    BitVec.getLsbD_append, BitVec.getLsbD_ofNat] <;>
  simp [-BitVec.getLsbD_eq_getElem, Nat.testBit]

theorem swap64_spec (b0 b1 b2 b3 b4 b5 b6 b7 : BitVec 8) :
    swap64 (b7 ++ b6 ++ b5 ++ b4 ++ b3 ++ b2 ++ b1 ++ b0) = b0 ++ b1 ++ b2 ++ b3 ++ b4 ++ b5 ++ b6 ++ b7 := by
  unfold swap64
  apply BitVec.eq_of_getLsbD_eq
  intro i hi
  have hi : i < 64 := hi
  interval_cases i <;>
  simp only [BitVec.getLsbD_or, BitVec.getLsbD_and, BitVec.getLsbD_ushiftRight, BitVec.getLsbD_shiftLeft,
    BitVec.getLsbD_append, BitVec.getLsbD_ofNat] <;>
  simp [-BitVec.getLsbD_eq_getElem, Nat.testBit]

theorem swap16_signed (b0 b1 : BitVec 8) : (swap16 ((b1 ++ b0).signExtend 32)).setWidth 16 = b0 ++ b1 := by
  unfold swap16
  apply BitVec.eq_of_getLsbD_eq
  intro i hi
  have hi : i < 16 := hi
  interval_cases i <;>
  simp only [BitVec.getLsbD_or, BitVec.getLsbD_and, BitVec.getLsbD_shiftLeft,
    BitVec.getLsbD_append, BitVec.getLsbD_ofNat, BitVec.getLsbD_setWidth, BitVec.getLsbD_sshiftRight,
    BitVec.getLsbD_signExtend] <;>
  simp [-BitVec.getLsbD_eq_getElem, Nat.testBit]

theorem swap16_unsigned (b0 b1 : BitVec 8) : (swap16 ((b1 ++ b0).setWidth 32)).setWidth 16 = b0 ++ b1 := by
  unfold swap16
  apply BitVec.eq_of_getLsbD_eq
  intro i hi
  have hi : i < 16 := hi
  interval_cases i <;>
  simp only [BitVec.getLsbD_or, BitVec.getLsbD_and, BitVec.getLsbD_shiftLeft,
    BitVec.getLsbD_append, BitVec.getLsbD_ofNat, BitVec.getLsbD_setWidth, BitVec.getLsbD_sshiftRight] <;>
  simp [-BitVec.getLsbD_eq_getElem, Nat.testBit]

theorem toNat_append' {n m : Nat} (x : BitVec n) (y : BitVec m) :
    (x ++ y).toNat = x.toNat * 2 ^ m + y.toNat := by
  rw [BitVec.toNat_append, ← Nat.shiftLeft_add_eq_or_of_lt y.isLt, Nat.shiftLeft_eq]

theorem toInt_signed {w : Nat} (hw : 0 < w) (x : BitVec w) : x.toInt = signed w x.toNat := by
  obtain ⟨k, rfl⟩ : ∃ k, w = k + 1 := ⟨w - 1, by omega⟩
  rw [BitVec.toInt_eq_toNat_cond]
  unfold signed
  simp only [Nat.add_sub_cancel]
  have : 2 ^ (k + 1) = 2 * 2 ^ k := by rw [Nat.pow_succ, Nat.mul_comm]
  split <;> split <;> first | rfl | (push_cast; rfl) | (exfalso; omega)

/-- Two, four and eight bytes. -/
theorem bytes2 (b0 b1 : UInt8) : (b1.toBitVec ++ b0.toBitVec).toNat = leValue [b0, b1] := by
  simp only [toNat_append', leValue, UInt8.toNat_toBitVec]; omega

theorem bytes4 (b0 b1 b2 b3 : UInt8) :
    (b3.toBitVec ++ b2.toBitVec ++ b1.toBitVec ++ b0.toBitVec).toNat = leValue [b0, b1, b2, b3] := by
  simp only [toNat_append', leValue, UInt8.toNat_toBitVec]; omega

theorem bytes8 (b0 b1 b2 b3 b4 b5 b6 b7 : UInt8) :
    (b7.toBitVec ++ b6.toBitVec ++ b5.toBitVec ++ b4.toBitVec ++ b3.toBitVec ++ b2.toBitVec ++ b1.toBitVec ++
      b0.toBitVec).toNat = leValue [b0, b1, b2, b3, b4, b5, b6, b7] := by
  simp only [toNat_append', leValue, UInt8.toNat_toBitVec]; omega

/-! ## UTF-8 -/

theorem cont_iff : ∀ c : UInt8, (0xC0 &&& c = 0x80) ↔ Cont c := by
  apply forall_uint8; unfold Cont; decide +kernel

theorem lead2_iff : ∀ c : UInt8, (c ≥ 0xC2 ∧ c ≤ 0xDF) ↔ Announces c 1 := by
  apply forall_uint8; unfold Announces; decide +kernel

theorem lead3_iff : ∀ c : UInt8, (0xF0 &&& c = 0xE0) ↔ Announces c 2 := by
  apply forall_uint8; unfold Announces; decide +kernel

theorem lead4_iff : ∀ c : UInt8, (c ≥ 0xF0 ∧ c ≤ 0xF4) ↔ Announces c 3 := by
  apply forall_uint8; unfold Announces; decide +kernel

theorem masks : ∀ c : UInt8, (Cont c → (c &&& 0x3F).toNat = c.toNat - 0x80) ∧
    (Announces c 1 → (c &&& 0x1F).toNat = c.toNat - 0xC0) ∧
    (Announces c 2 → (c &&& 0x0F).toNat = c.toNat - 0xE0) ∧
    (Announces c 3 → (c &&& 0x07).toNat = c.toNat - 0xF0) := by
  apply forall_uint8; unfold Announces Cont; decide +kernel

/-- One-byte characters. -/
def Plain (b : UInt8) : Prop := b = 0x9 ∨ b = 0xA ∨ b = 0xD ∨ (0x20 ≤ b.toNat ∧ b.toNat ≤ 0x7F)

theorem announces_unique {c : UInt8} {k j : Nat} (h : Announces c k) (g : Announces c j) : k = j := by
  unfold Announces at h g; omega

theorem announces_le {c : UInt8} {k : Nat} (h : Announces c k) : 1 ≤ k ∧ k ≤ 3 := by
  unfold Announces at h; omega

theorem plain_iff : ∀ c : UInt8, ¬ Announces c 1 → ¬ Announces c 2 → ¬ Announces c 3 →
    (¬ (c > 0x7F ∨ (c < 0x20 ∧ ¬ (c = 0x9 ∨ c = 0xA ∨ c = 0xD))) ↔ Plain c) := by
  apply forall_uint8; unfold Announces Plain; decide +kernel

theorem plain_not_announces : ∀ c : UInt8, Plain c → ¬ Announces c 1 ∧ ¬ Announces c 2 ∧ ¬ Announces c 3 := by
  apply forall_uint8; unfold Announces Plain; decide +kernel

/-- The initial part of the value contributed by the lead byte. -/
def leadValue (c : UInt8) (k : Nat) : Nat :=
  if k = 1 then c.toNat - 0xC0 else if k = 2 then c.toNat - 0xE0 else c.toNat - 0xF0

theorem step_plain {c : UInt8} (h : Plain c) (v : Nat) : utf8Step 0 v c = some (0, v) := by
  obtain ⟨h1, h2, h3⟩ := plain_not_announces c h
  have h4 := (plain_iff c h1 h2 h3).2 h
  unfold utf8Step
  rw [if_neg (by simp), if_neg (by rw [lead2_iff]; exact h1), if_neg (by rw [lead3_iff]; exact h2),
    if_neg (by rw [lead4_iff]; exact h3), if_neg h4]

theorem step_lead {c : UInt8} {k : Nat} (h : Announces c k) (v : Nat) :
    utf8Step 0 v c = some (k, leadValue c k) := by
  have hk := announces_le h
  obtain ⟨_, m1, m2, m3⟩ := masks c
  unfold utf8Step leadValue
  rw [if_neg (by simp)]
  by_cases k1 : k = 1
  · subst k1
    rw [if_pos (by rw [lead2_iff]; exact h), m1 h]; simp
  · rw [if_neg (by rw [lead2_iff]; intro z; exact k1 (announces_unique h z))]
    by_cases k2 : k = 2
    · subst k2
      rw [if_pos (by rw [lead3_iff]; exact h), m2 h]; simp
    · have k3 : k = 3 := by omega
      subst k3
      rw [if_neg (by rw [lead3_iff]; intro z; exact k2 (announces_unique h z)),
        if_pos (by rw [lead4_iff]; exact h), m3 h]; simp

theorem step_zero_none {c : UInt8} (h1 : ¬ Plain c) (h2 : ∀ k, ¬ Announces c k) (v : Nat) :
    utf8Step 0 v c = none := by
  have h4 := mt (plain_iff c (h2 1) (h2 2) (h2 3)).1 h1
  unfold utf8Step
  rw [if_neg (by simp), if_neg (by rw [lead2_iff]; exact h2 1), if_neg (by rw [lead3_iff]; exact h2 2),
    if_neg (by rw [lead4_iff]; exact h2 3), if_pos (Classical.not_not.1 h4)]

theorem step_not_cont {c : UInt8} {nb : Nat} (hn : nb ≠ 0) (h : ¬ Cont c) (v : Nat) : utf8Step nb v c = none := by
  unfold utf8Step
  rw [if_pos hn, if_pos (by rw [Ne, cont_iff]; exact h)]

theorem step_cont {c : UInt8} {nb : Nat} (hn : 1 < nb) (h : Cont c) (v : Nat) :
    utf8Step nb v c = some (nb - 1, v * 64 + (c.toNat - 0x80)) := by
  unfold utf8Step
  rw [if_pos (by omega), if_neg (by rw [Ne, cont_iff]; simpa using h)]
  simp only
  rw [if_neg (by omega), (masks c).1 h]

open Classical in
theorem step_last {c : UInt8} (h : Cont c) (v : Nat) :
    utf8Step 1 v c = if ValueOk (v * 64 + (c.toNat - 0x80)) then some (0, v * 64 + (c.toNat - 0x80)) else none := by
  unfold utf8Step
  rw [if_pos (by omega), if_neg (by rw [Ne, cont_iff]; simpa using h)]
  simp only
  rw [(masks c).1 h]
  generalize v * 64 + (c.toNat - 0x80) = x
  by_cases hv : ValueOk x
  · rw [if_pos hv]; unfold ValueOk at hv; rw [if_neg (by omega)]
  · rw [if_neg hv]; unfold ValueOk at hv; rw [if_pos ⟨trivial, by omega⟩]

/-- Running over some bytes. -/
def utf8Run : Nat → Nat → List UInt8 → Option (Nat × Nat)
  | nb, v, [] => some (nb, v)
  | nb, v, c :: l => match utf8Step nb v c with
    | none => none
    | some (nb, v) => utf8Run nb v l

theorem utf8Run_append (a b : List UInt8) : ∀ nb v, utf8Run nb v (a ++ b) =
    match utf8Run nb v a with
    | none => none
    | some (nb, v) => utf8Run nb v b := by
  induction a with
  | nil => intro nb v; rfl
  | cons c a ih =>
    intro nb v
    simp only [List.cons_append, utf8Run]
    cases utf8Step nb v c with
    | none => rfl
    | some x => exact ih _ _

theorem checkUtf8Loop_run (l : List UInt8) : ∀ nb v, checkUtf8Loop nb v l =
    match utf8Run nb v l with
    | none => false
    | some (nb, _) => nb == 0 := by
  induction l with
  | nil => intro nb v; rfl
  | cons c l ih =>
    intro nb v
    simp only [checkUtf8Loop, utf8Run]
    cases utf8Step nb v c with
    | none => rfl
    | some x => exact ih _ _

/-- A character is consumed as a whole. -/
theorem run_unit {u : List UInt8} (h : Unit u) (v : Nat) : ∃ v', utf8Run 0 v u = some (0, v') := by
  cases h with
  | one b hb => exact ⟨v, by simp [utf8Run, step_plain hb]⟩
  | two a b ha hb =>
    refine ⟨(a.toNat - 0xC0) * 64 + (b.toNat - 0x80), ?_⟩
    simp only [utf8Run, step_lead ha, step_last hb]
    rw [if_pos]
    · rfl
    · unfold Announces at ha; unfold Cont at hb; unfold ValueOk leadValue; simp only [if_true]; omega
  | three a b c ha hb hc hv =>
    refine ⟨(a.toNat - 0xE0) * 4096 + (b.toNat - 0x80) * 64 + (c.toNat - 0x80), ?_⟩
    have e : ((a.toNat - 0xE0) * 64 + (b.toNat - 0x80)) * 64 + (c.toNat - 0x80) =
        (a.toNat - 0xE0) * 4096 + (b.toNat - 0x80) * 64 + (c.toNat - 0x80) := by omega
    simp only [utf8Run, step_lead ha, step_cont (by omega : 1 < 2) hb, step_last hc, leadValue]
    simp only [show ¬ (2 : Nat) = 1 by omega, if_false, if_true, e, Nat.reduceSub, step_last hc, hv]
  | four a b c d ha hb hc hd hv =>
    refine ⟨(a.toNat - 0xF0) * 262144 + (b.toNat - 0x80) * 4096 + (c.toNat - 0x80) * 64 + (d.toNat - 0x80), ?_⟩
    have e : (((a.toNat - 0xF0) * 64 + (b.toNat - 0x80)) * 64 + (c.toNat - 0x80)) * 64 + (d.toNat - 0x80) =
        (a.toNat - 0xF0) * 262144 + (b.toNat - 0x80) * 4096 + (c.toNat - 0x80) * 64 + (d.toNat - 0x80) := by omega
    simp only [utf8Run, step_lead ha, step_cont (by omega : 1 < 3) hb, leadValue]
    simp only [show ¬ (3 : Nat) = 1 by omega, show ¬ (3 : Nat) = 2 by omega, if_false, Nat.reduceSub,
      step_cont (by omega : 1 < 2) hc, step_last hd, e, hv, if_true]

theorem run_units {t : List UInt8} (h : Units t) (v : Nat) : ∃ v', utf8Run 0 v t = some (0, v') := by
  obtain ⟨us, rfl, hu⟩ := h
  induction us generalizing v with
  | nil => exact ⟨v, rfl⟩
  | cons u us ih =>
    obtain ⟨v1, e1⟩ := run_unit (hu u (by simp)) v
    obtain ⟨v2, e2⟩ := ih v1 (fun x hx => hu x (by simp [hx]))
    exact ⟨v2, by rw [List.flatten_cons, utf8Run_append, e1]; exact e2⟩

theorem Units.nil : Units [] := ⟨[], rfl, by simp⟩

theorem Units.snoc {t u : List UInt8} (h : Units t) (hu : Unit u) : Units (t ++ u) := by
  obtain ⟨us, rfl, h⟩ := h
  refine ⟨us ++ [u], by simp, ?_⟩
  intro x hx
  rcases List.mem_append.1 hx with z | z
  · exact h x z
  · simp at z; rw [z]; exact hu

/-- What is known of the bytes seen so far in a state of the automaton. -/
def Seen (done : List UInt8) (nb val : Nat) : Prop :=
  (nb = 0 ∧ Units done) ∨
    (∃ pre a conts, done = pre ++ a :: conts ∧ Units pre ∧ 1 ≤ nb ∧ Announces a (conts.length + nb) ∧
      (∀ b ∈ conts, Cont b) ∧
      val = conts.foldl (fun v b => v * 64 + (b.toNat - 0x80)) (leadValue a (conts.length + nb)))

open Classical in
theorem seen_step {done : List UInt8} {nb val : Nat} (h : Seen done nb val) {c : UInt8} {nb' val' : Nat}
    (e : utf8Step nb val c = some (nb', val')) : Seen (done ++ [c]) nb' val' := by
  rcases h with ⟨rfl, h⟩ | ⟨pre, a, conts, rfl, hpre, hnb, ha, hc, rfl⟩
  · by_cases hp : Plain c
    · rw [step_plain hp] at e
      cases e
      exact Or.inl ⟨rfl, Units.snoc h (.one c hp)⟩
    · by_cases ha : ∃ k, Announces c k
      · obtain ⟨k, ha⟩ := ha
        rw [step_lead ha] at e
        cases e
        have := announces_le ha
        exact Or.inr ⟨done, c, [], rfl, h, this.1, by simpa using ha, by simp, by simp⟩
      · rw [step_zero_none hp (fun k z => ha ⟨k, z⟩)] at e
        cases e
  · by_cases hcc : Cont c
    · have hc' : ∀ b ∈ conts ++ [c], Cont b := by
        intro b hb
        rcases List.mem_append.1 hb with z | z
        · exact hc b z
        · simp at z; rw [z]; exact hcc
      by_cases h1 : nb = 1
      · subst h1
        rw [step_last hcc] at e
        split at e
        · rename_i hv
          cases e
          left
          refine ⟨rfl, ?_⟩
          rw [List.append_assoc]
          apply Units.snoc hpre
          have hle := announces_le ha
          rcases conts with _ | ⟨b1, _ | ⟨b2, _ | ⟨b3, rest⟩⟩⟩
          · exact .two a c ha hcc
          · refine .three a b1 c ha (hc b1 (by simp)) hcc ?_
            have : (leadValue a 2 * 64 + (b1.toNat - 0x80)) * 64 + (c.toNat - 0x80) =
              (a.toNat - 0xE0) * 4096 + (b1.toNat - 0x80) * 64 + (c.toNat - 0x80) := by
              simp only [leadValue]; simp only [show ¬ (2 : Nat) = 1 by omega, if_false, if_true]; omega
            rw [← this]; exact hv
          · refine .four a b1 b2 c ha (hc b1 (by simp)) (hc b2 (by simp)) hcc ?_
            have : ((leadValue a 3 * 64 + (b1.toNat - 0x80)) * 64 + (b2.toNat - 0x80)) * 64 + (c.toNat - 0x80) =
              (a.toNat - 0xF0) * 262144 + (b1.toNat - 0x80) * 4096 + (b2.toNat - 0x80) * 64 + (c.toNat - 0x80) := by
              simp only [leadValue]
              simp only [show ¬ (3 : Nat) = 1 by omega, show ¬ (3 : Nat) = 2 by omega, if_false]; omega
            rw [← this]; exact hv
          · simp at hle
        · cases e
      · rw [step_cont (by omega) hcc] at e
        cases e
        right
        refine ⟨pre, a, conts ++ [c], by simp, hpre, by omega, ?_, hc', ?_⟩
        · rw [show (conts ++ [c]).length + (nb - 1) = conts.length + nb by simp; omega]; exact ha
        · rw [show (conts ++ [c]).length + (nb - 1) = conts.length + nb by simp; omega, List.foldl_append]
          rfl
    · rw [step_not_cont (by omega) hcc] at e
      cases e

theorem seen_run {l : List UInt8} : ∀ {done : List UInt8} {nb val nb' val' : Nat}, Seen done nb val →
    utf8Run nb val l = some (nb', val') → Seen (done ++ l) nb' val' := by
  induction l with
  | nil => intro done nb val nb' val' h e; cases e; simpa using h
  | cons c l ih =>
    intro done nb val nb' val' h e
    simp only [utf8Run] at e
    cases hs : utf8Step nb val c with
    | none => rw [hs] at e; cases e
    | some x =>
      rw [hs] at e
      have := ih (seen_step h (by rw [hs])) e
      simpa using this

theorem seen_zero {done : List UInt8} {val : Nat} (h : Seen done 0 val) : Units done := by
  rcases h with h | ⟨_, _, _, _, _, h, _⟩
  · exact h.2
  · omega

theorem checkUtf8_iff (t : List UInt8) : checkUtf8 t = true ↔ Units t := by
  unfold checkUtf8
  rw [checkUtf8Loop_run]
  constructor
  · intro h
    cases hr : utf8Run 0 0 t with
    | none => rw [hr] at h; cases h
    | some x =>
      obtain ⟨nb, v⟩ := x
      rw [hr] at h
      have hz : nb = 0 := by simpa using h
      subst hz
      have := seen_run (done := []) (Or.inl ⟨rfl, Units.nil⟩) hr
      exact seen_zero (by simpa using this)
  · intro h
    obtain ⟨v, e⟩ := run_units h 0
    rw [e]; rfl

theorem checkUtf8_false_of_run {a : List UInt8} (h : utf8Run 0 0 a = none) (ext : List UInt8) :
    checkUtf8 (a ++ ext) = false := by
  unfold checkUtf8
  rw [checkUtf8Loop_run, utf8Run_append, h]

/-! ### The function that reports positions -/

theorem pos_spec (l : List UInt8) : ∀ (done : List UInt8) (cs nb val : Nat), Seen done nb val →
    utf8Run 0 0 done = some (nb, val) →
    (nb ≠ 0 → ∃ pre u, done = pre ++ u ∧ cs = pre.length ∧ Units pre ∧ Incomplete u nb) →
    match checkUtf8PosLoop done.length cs nb val l with
    | (none, k) => k = 0 ∧ checkUtf8 (done ++ l) = true
    | (some i, 0) => ∃ b rest, done ++ l = (done ++ l).take i ++ b :: rest ∧ i = ((done ++ l).take i).length ∧
        (∃ pre u, (done ++ l).take i = pre ++ u ∧ Units pre ∧ (u = [] ∨ ∃ m, Incomplete u m)) ∧
        (∀ ext, checkUtf8 ((done ++ l).take i ++ [b] ++ ext) = false)
    | (some i, k + 1) => ∃ pre u, done ++ l = pre ++ u ∧ i = pre.length ∧ Units pre ∧ Incomplete u (k + 1) := by
  induction l with
  | nil =>
    intro done cs nb val h hr hc
    unfold checkUtf8PosLoop
    by_cases hn : nb = 0
    · subst hn
      simp only [ne_eq, not_true, if_false, List.append_nil, true_and]
      rw [checkUtf8_iff]; exact seen_zero h
    · rw [if_pos hn]
      obtain ⟨pre, u, e1, e2, e3, e4⟩ := hc hn
      obtain ⟨k, rfl⟩ : ∃ k, nb = k + 1 := ⟨nb - 1, by omega⟩
      exact ⟨pre, u, by simpa using e1, e2, e3, e4⟩
  | cons c l ih =>
    intro done cs nb val h hr hc
    unfold checkUtf8PosLoop
    cases hs : utf8Step nb val c with
    | none =>
      simp only
      have ht : (done ++ c :: l).take done.length = done := by simp
      rw [ht]
      refine ⟨c, l, rfl, rfl, ?_, ?_⟩
      · by_cases hn : nb = 0
        · subst hn; exact ⟨done, [], by simp, seen_zero h, Or.inl rfl⟩
        · obtain ⟨pre, u, e1, _, e3, e4⟩ := hc hn
          exact ⟨pre, u, e1, e3, Or.inr ⟨_, e4⟩⟩
      · apply checkUtf8_false_of_run
        rw [utf8Run_append, hr]
        simp [utf8Run, hs]
    | some x =>
      obtain ⟨nb', val'⟩ := x
      simp only
      have h' := seen_step h hs
      have hr' : utf8Run 0 0 (done ++ [c]) = some (nb', val') := by
        rw [utf8Run_append, hr]; simp [utf8Run, hs]
      have := ih (done ++ [c]) (if nb = 0 ∧ nb' ≠ 0 then done.length else cs) nb' val' h' hr' (by
        intro hn'
        by_cases hn : nb = 0
        · rw [if_pos ⟨hn, hn'⟩]
          subst hn
          by_cases hp : Plain c
          · rw [step_plain hp] at hs; cases hs; exact absurd rfl hn'
          · by_cases ha : ∃ k, Announces c k
            · obtain ⟨k, ha⟩ := ha
              rw [step_lead ha] at hs
              cases hs
              exact ⟨done, [c], rfl, rfl, seen_zero h, (announces_le ha).1, c, [], rfl, by simpa using ha, by simp⟩
            · rw [step_zero_none hp (fun k z => ha ⟨k, z⟩)] at hs; cases hs
        · rw [if_neg (by simp [hn])]
          obtain ⟨pre, u, e1, e2, e3, h1, a, conts, e4, e5, e6⟩ := hc hn
          have hcc : Cont c := by
            apply Classical.byContradiction
            intro z
            rw [step_not_cont hn z] at hs; cases hs
          have : nb' = nb - 1 := by
            by_cases h1 : nb = 1
            · subst h1
              rw [step_last hcc] at hs
              split at hs
              · cases hs; rfl
              · cases hs
            · rw [step_cont (by omega) hcc] at hs; cases hs; rfl
          subst this
          refine ⟨pre, u ++ [c], by rw [e1]; simp, e2, e3, by omega, a, conts ++ [c], by rw [e4]; rfl, ?_, ?_⟩
          · rw [show (conts ++ [c]).length + (nb - 1) = conts.length + nb by simp; omega]; exact e5
          · intro b hb
            rcases List.mem_append.1 hb with z | z
            · exact e6 b z
            · simp at z; rw [z]; exact hcc)
      rw [List.length_append, List.length_singleton] at this
      simpa using this

/-! ### Line breaks -/

/-- What is meant by converting a line break. -/
def blank (c : UInt8) : UInt8 := if c = 10 ∨ c = 13 then 32 else c

theorem cont_not_break : ∀ c : UInt8, Cont c → blank c = c := by
  apply forall_uint8; unfold Cont blank; decide +kernel

theorem lead_not_break : ∀ c : UInt8, 128 ≤ c.toNat → blank c = c := by
  apply forall_uint8; unfold blank; decide +kernel

theorem announces_ge {c : UInt8} {k : Nat} (h : Announces c k) : 128 ≤ c.toNat := by
  unfold Announces at h; omega

theorem convertLoop_prefix (l : List UInt8) : ∀ nb, ∃ k, k ≤ l.length ∧
    convertLoop nb l = (l.take k).map blank ++ l.drop k := by
  induction l with
  | nil => intro nb; exact ⟨0, by simp, by simp [convertLoop]⟩
  | cons c l ih =>
    intro nb
    have lift : ∀ m, blank c = c → ∃ k, k ≤ (c :: l).length ∧
        c :: convertLoop m l = ((c :: l).take k).map blank ++ (c :: l).drop k := by
      intro m hb
      obtain ⟨k, hk, e⟩ := ih m
      exact ⟨k + 1, by simpa using hk, by simp [e, hb]⟩
    unfold convertLoop
    split
    · split
      · exact ⟨0, by simp, by simp⟩
      · rename_i h
        exact lift _ (cont_not_break c ((cont_iff c).1 (by simpa using h)))
    · split
      · rename_i h; exact lift _ (lead_not_break c (announces_ge ((lead2_iff c).1 h)))
      · split
        · rename_i h; exact lift _ (lead_not_break c (announces_ge ((lead3_iff c).1 h)))
        · split
          · rename_i h; exact lift _ (lead_not_break c (announces_ge ((lead4_iff c).1 h)))
          · split
            · rename_i h
              obtain ⟨k, hk, e⟩ := ih nb
              exact ⟨k + 1, by simpa using hk, by simp [e, blank, h]⟩
            · rename_i h
              exact lift _ (by simp [blank, h])

theorem convertLoop_all (l : List UInt8) : ∀ nb val x, utf8Run nb val l = some x →
    convertLoop nb l = l.map blank := by
  induction l with
  | nil => intro _ _ _ _; rfl
  | cons c l ih =>
    intro nb val x h
    simp only [utf8Run] at h
    cases hs : utf8Step nb val c with
    | none => rw [hs] at h; cases h
    | some y =>
      rw [hs] at h
      have e := ih y.1 y.2 x h
      rw [List.map_cons, ← e, convertLoop]
      by_cases hn : nb = 0
      · subst hn
        by_cases hp : Plain c
        · rw [step_plain hp] at hs
          cases hs
          obtain ⟨h1, h2, h3⟩ := plain_not_announces c hp
          rw [if_neg (by simp), if_neg (by rw [lead2_iff]; exact h1), if_neg (by rw [lead3_iff]; exact h2),
            if_neg (by rw [lead4_iff]; exact h3)]
          unfold blank
          split <;> rfl
        · by_cases ha : ∃ k, Announces c k
          · obtain ⟨k, ha⟩ := ha
            rw [step_lead ha] at hs
            cases hs
            rw [lead_not_break c (announces_ge ha), if_neg (by simp)]
            have hk := announces_le ha
            by_cases k1 : k = 1
            · subst k1; rw [if_pos (by rw [lead2_iff]; exact ha)]
            · rw [if_neg (by rw [lead2_iff]; intro z; exact k1 (announces_unique ha z))]
              by_cases k2 : k = 2
              · subst k2; rw [if_pos (by rw [lead3_iff]; exact ha)]
              · have k3 : k = 3 := by omega
                subst k3
                rw [if_neg (by rw [lead3_iff]; intro z; exact k2 (announces_unique ha z)),
                  if_pos (by rw [lead4_iff]; exact ha)]
          · rw [step_zero_none hp (fun k z => ha ⟨k, z⟩)] at hs; cases hs
      · have hcc : Cont c := by
          apply Classical.byContradiction
          intro z
          rw [step_not_cont hn z] at hs; cases hs
        have : y.1 = nb - 1 := by
          by_cases h1 : nb = 1
          · subst h1
            rw [step_last hcc] at hs
            split at hs
            · cases hs; rfl
            · cases hs
          · rw [step_cont (by omega) hcc] at hs; cases hs; rfl
        rw [if_pos hn, if_neg (by rw [Ne, cont_iff]; simpa using hcc), cont_not_break c hcc, this]

end Strigi.TextUtils
