import Verif.Model.Sniff
import Verif.Props.MailText
import Verif.Props.Magic
import Verif.Props.Sdf

/-!
# Properties C58 and C73: which provider is chosen
-/

namespace Strigi.Props

open Sniff

variable {σ : Type}

/-- What is to be chosen for a header `h`: mail before zip before SD file. -/
def Chosen (h : List UInt8) : Option Kind → Prop
  | some .mail => ∃ t, MailSpec.Mail (h ++ t)
  | some .zip => (¬ ∃ t, MailSpec.Mail (h ++ t)) ∧ 8 < h.length ∧ [0x50, 0x4b, 0x03, 0x04] <+: h
  | some .sdf => (¬ ∃ t, MailSpec.Mail (h ++ t)) ∧ (¬ (8 < h.length ∧ [0x50, 0x4b, 0x03, 0x04] <+: h)) ∧ SdfSpec.Mol h
  | none => (¬ ∃ t, MailSpec.Mail (h ++ t)) ∧ (¬ (8 < h.length ∧ [0x50, 0x4b, 0x03, 0x04] <+: h)) ∧ ¬ SdfSpec.Mol h

theorem decide_spec {h : List UInt8} (h4 : 4 ≤ h.length) : ∃ k, decide' h h.length = .ok k ∧ Chosen h k := by
  obtain ⟨m, em, hm⟩ := C44_checkHeader h
  obtain ⟨z, ez, hz⟩ := C59_zip h
  obtain ⟨s, es, hs⟩ := C50_checkHeader h
  unfold decide'
  rw [show aget h 0 = .ok h[0] from Base64.aget_nat (i := 0) (by omega),
    show aget h 1 = .ok h[1] from Base64.aget_nat (i := 1) (by omega),
    show aget h 2 = .ok h[2] from Base64.aget_nat (i := 2) (by omega),
    show aget h 3 = .ok h[3] from Base64.aget_nat (i := 3) (by omega)]
  simp only [Res.bind_ok, em]
  cases m with
  | true => exact ⟨_, rfl, hm.mp rfl⟩
  | false =>
    have hm' : ¬ ∃ t, MailSpec.Mail (h ++ t) := fun w => by simpa using hm.mpr w
    simp only [Bool.false_eq_true, if_false, ez, Res.bind_ok]
    cases z with
    | true => exact ⟨_, rfl, hm', hz.mp rfl⟩
    | false =>
      have hz' : ¬ (8 < h.length ∧ [0x50, 0x4b, 0x03, 0x04] <+: h) := fun w => by simpa using hz.mpr w
      simp only [Bool.false_eq_true, if_false, es, Res.bind_ok]
      cases s with
      | true => exact ⟨_, rfl, hm', hz', hs.mp rfl⟩
      | false => exact ⟨_, rfl, hm', hz', fun w => by simpa using hs.mpr w⟩

/-- The header: the start of what is left of the content, at least 1024 bytes if there are so many. -/
def HeaderOf (rest h : List UInt8) : Prop := h <+: rest ∧ (1024 ≤ h.length ∨ h = rest)

/-- What sniffing does with an input that does not fail. -/
theorem sniff_read {P : StreamOps σ UInt8} {c : List UInt8} {soft : Prop} {input : σ}
    (hP : IsStream P c Failure.never soft input) (hne : c.drop (P.position input).toNat ≠ []) :
    ∃ input' h, HeaderOf (c.drop (P.position input).toNat) h ∧ P.position input' = P.position input ∧
      IsStream P c Failure.never soft input' ∧
      subStreamProvider P input = (do let k ← decide' h h.length; .ok (input', k)) := by
  have C := Contract.of_behaves P c Failure.never soft
  have hA := At.of_isStream hP
  have hr := hA.range
  have hl := List.length_pos_iff.mpr hne
  obtain ⟨i, n, d, e, rk, hk⟩ := C.read hP (min := 1024) (max := 0) (by omega) (Or.inl rfl)
  cases rk with
  | data pos items inside adv limit enough st =>
    have hdl : (d.length : Int) = n := by rw [items]; exact slice_length hr.1 (by omega) (by omega)
    obtain ⟨i2, e2, hp2, _, _, hB⟩ := C.reset (hk st) (q := P.position input) (Int.le_refl _) (by omega)
    refine ⟨i2, d, ⟨?_, ?_⟩, hp2, ?_, ?_⟩
    · rw [items, slice]; exact List.take_prefix _ _
    · rcases enough with y | y
      · left; omega
      · right; rw [items, slice, List.take_of_length_le (by omega)]
    · intro l; rw [hp2]; exact hB l
    · rw [subStreamProvider, e]
      simp only [Res.bind_ok]
      rw [e2]
      simp only [Res.bind_ok]
      rw [if_neg (by omega), hdl]
  | ended none nodata atEnd stay st => exfalso; omega
  | failed a _ _ => exact absurd a id

/-- **C58**: if at least four bytes are left, the input is where it was before and works as before, and the choice
depends only on the header (the first 1024 or more bytes). -/
theorem C58_sniff {P : StreamOps σ UInt8} {c : List UInt8} {soft : Prop} {input : σ}
    (hP : IsStream P c Failure.never soft input) (h4 : P.position input + 4 ≤ c.length) :
    ∃ input' h k, subStreamProvider P input = .ok (input', k) ∧ P.position input' = P.position input ∧
      IsStream P c Failure.never soft input' ∧ HeaderOf (c.drop (P.position input).toNat) h ∧ Chosen h k := by
  have hr := (At.of_isStream hP).range
  obtain ⟨i, h, hh, hp, hI, e⟩ := sniff_read hP (by intro z; rw [z] at hr; simp at hr; omega)
  obtain ⟨k, ek, hk⟩ := decide_spec (h := h) (by
    rcases hh.2 with y | y
    · omega
    · rw [y]; omega)
  exact ⟨i, h, k, by rw [e, ek]; rfl, hp, hI, hh, hk⟩

/-- **C58**: at the end of the input nothing is chosen. -/
theorem C58_empty {P : StreamOps σ UInt8} {c : List UInt8} {soft : Prop} {input : σ}
    (hP : IsStream P c Failure.never soft input) (h0 : P.position input = c.length) :
    ∃ input', subStreamProvider P input = .ok (input', none) ∧ P.position input' = P.position input ∧
      IsStream P c Failure.never soft input' := by
  have C := Contract.of_behaves P c Failure.never soft
  obtain ⟨i, n, d, e, rk, hk⟩ := C.read hP (min := 1024) (max := 0) (by omega) (Or.inl rfl)
  cases rk with
  | data pos items inside adv limit enough st => exfalso; omega
  | ended none nodata atEnd stay st =>
    obtain ⟨i2, e2, hp2, _, _, hB⟩ := C.reset (hk (by rw [st]; decide)) (q := P.position input) (Int.le_refl _) (by omega)
    refine ⟨i2, ?_, hp2, ?_⟩
    · rw [subStreamProvider, e]
      simp only [Res.bind_ok]
      rw [e2]
      simp only [Res.bind_ok]
      rw [if_pos (by omega)]
    · intro l; rw [hp2]; exact hB l
  | failed a _ _ => exact absurd a id

/-- **C73**: if there are one to three bytes, memory behind the header is read. -/
theorem C73_short_input {P : StreamOps σ UInt8} {c : List UInt8} {soft : Prop} {input : σ}
    (hP : IsStream P c Failure.never soft input) (h1 : P.position input < c.length)
    (h2 : c.length < P.position input + 4) : subStreamProvider P input = .fault .outOfBounds := by
  have hr := (At.of_isStream hP).range
  obtain ⟨i, h, hh, hp, hI, e⟩ := sniff_read hP (by intro z; rw [z] at hr; simp at hr; omega)
  have hl : h.length = (c.drop (P.position input).toNat).length := by
    rcases hh.2 with y | y
    · have := hh.1.length_le; omega
    · rw [y]
  have hpos : 0 < h.length ∧ h.length < 4 := by omega
  rw [e]
  rcases h with _ | ⟨a, _ | ⟨b, _ | ⟨c', _ | ⟨d, t⟩⟩⟩⟩ <;> simp only [List.length_cons, List.length_nil] at hpos <;>
    first | omega | rfl

/-- A file of eleven bytes and one of two. -/
example : subStreamProvider StringStream.ops (StringStream.new [0x50, 0x4b, 3, 4, 0, 0, 0, 0, 0, 0, 0]) =
    .ok (StringStream.new [0x50, 0x4b, 3, 4, 0, 0, 0, 0, 0, 0, 0], some .zip) := by decide +kernel
example : subStreamProvider StringStream.ops (StringStream.new [0x50, 0x4b]) = .fault .outOfBounds :=
  C73_short_input (C01_isStream _) (by decide) (by decide)

end Strigi.Props
