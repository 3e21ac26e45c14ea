import Verif.Proofs.TextUtils

/-!
# Properties C28–C31 and C42: text, byte order, DOS time
-/

namespace Strigi.Props

open TextUtils Text

/-! ## C28 -/

/-- **C28**: `checkUtf8` accepts exactly the sequences of the byte patterns described by `Text.Unit`. -/
theorem C28_characterised (t : List UInt8) : checkUtf8 t = true ↔ Units t := checkUtf8_iff t

theorem unit_encodeChar {n : Nat} (h : XmlChar n) : Unit (encodeChar n) := by
  unfold XmlChar at h
  unfold encodeChar
  split
  · refine .one _ ?_
    have e : (UInt8.ofNat n).toNat = n := by simp; omega
    rcases h with rfl | rfl | rfl | h | h | h
    · exact Or.inl rfl
    · exact Or.inr (Or.inl rfl)
    · exact Or.inr (Or.inr (Or.inl rfl))
    all_goals exact Or.inr (Or.inr (Or.inr (by omega)))
  · split
    · have e1 : (UInt8.ofNat (0xC0 + n / 64)).toNat = 0xC0 + n / 64 := by simp; omega
      have e2 : (UInt8.ofNat (0x80 + n % 64)).toNat = 0x80 + n % 64 := by simp; omega
      exact .two _ _ (by unfold Announces; omega) (by unfold Cont; omega)
    · split
      · have e1 : (UInt8.ofNat (0xE0 + n / 4096)).toNat = 0xE0 + n / 4096 := by simp; omega
        have e2 : (UInt8.ofNat (0x80 + n / 64 % 64)).toNat = 0x80 + n / 64 % 64 := by simp; omega
        have e3 : (UInt8.ofNat (0x80 + n % 64)).toNat = 0x80 + n % 64 := by simp; omega
        refine .three _ _ _ (by unfold Announces; omega) (by unfold Cont; omega) (by unfold Cont; omega) ?_
        rw [e1, e2, e3]; unfold ValueOk; omega
      · have e1 : (UInt8.ofNat (0xF0 + n / 262144)).toNat = 0xF0 + n / 262144 := by simp; omega
        have e2 : (UInt8.ofNat (0x80 + n / 4096 % 64)).toNat = 0x80 + n / 4096 % 64 := by simp; omega
        have e3 : (UInt8.ofNat (0x80 + n / 64 % 64)).toNat = 0x80 + n / 64 % 64 := by simp; omega
        have e4 : (UInt8.ofNat (0x80 + n % 64)).toNat = 0x80 + n % 64 := by simp; omega
        refine .four _ _ _ _ (by unfold Announces; omega) (by unfold Cont; omega) (by unfold Cont; omega)
          (by unfold Cont; omega) ?_
        rw [e1, e2, e3, e4]; unfold ValueOk; omega

/-- **C28**: the UTF-8 encoding of every sequence of XML characters is accepted. -/
theorem C28_accepts_xml (cs : List Nat) (h : ∀ n ∈ cs, XmlChar n) : checkUtf8 (cs.flatMap encodeChar) = true := by
  rw [C28_characterised]
  refine ⟨cs.map encodeChar, rfl, ?_⟩
  intro u hu
  obtain ⟨n, hn, rfl⟩ := List.mem_map.1 hu
  exact unit_encodeChar (h n hn)

theorem ofNat_of_toNat {b : UInt8} {n : Nat} (h : b.toNat = n) : b = UInt8.ofNat n := by
  rw [← h, UInt8.ofNat_toNat]

/-- **C28**: what else is accepted: apart from encodings of XML characters, only overlong three- and four-byte
forms (lead byte `E0` and second byte below `A0`; `F0` and below `90`) and values above U+10FFFF (`F4` and at least
`90`). -/
theorem C28_what_else {u : List UInt8} (h : Unit u) :
    (∃ n, XmlChar n ∧ u = encodeChar n) ∨
      (∃ b c, u = [0xE0, b, c] ∧ b.toNat < 0xA0) ∨
      (∃ b c d, u = [0xF0, b, c, d] ∧ b.toNat < 0x90) ∨
      (∃ b c d, u = [0xF4, b, c, d] ∧ 0x90 ≤ b.toNat) := by
  cases h with
  | one b hb =>
    left
    rcases hb with rfl | rfl | rfl | hb
    · exact ⟨9, by unfold XmlChar; omega, rfl⟩
    · exact ⟨10, by unfold XmlChar; omega, rfl⟩
    · exact ⟨13, by unfold XmlChar; omega, rfl⟩
    · exact ⟨b.toNat, by unfold XmlChar; omega, by
        unfold encodeChar; rw [if_pos (by omega), UInt8.ofNat_toNat]⟩
  | two a b ha hb =>
    left
    unfold Announces at ha; unfold Cont at hb
    refine ⟨(a.toNat - 0xC0) * 64 + (b.toNat - 0x80), by unfold XmlChar; omega, ?_⟩
    unfold encodeChar
    rw [if_neg (by omega), if_pos (by omega), ← ofNat_of_toNat (b := a) (by omega),
      ← ofNat_of_toNat (b := b) (by omega)]
  | three a b c ha hb hc hv =>
    unfold Announces at ha; unfold Cont at hb hc; unfold ValueOk at hv
    by_cases ho : a.toNat = 0xE0 ∧ b.toNat < 0xA0
    · exact Or.inr (Or.inl ⟨b, c, by rw [ofNat_of_toNat ho.1]; rfl, ho.2⟩)
    · left
      refine ⟨(a.toNat - 0xE0) * 4096 + (b.toNat - 0x80) * 64 + (c.toNat - 0x80), by unfold XmlChar; omega, ?_⟩
      unfold encodeChar
      rw [if_neg (by omega), if_neg (by omega), if_pos (by omega), ← ofNat_of_toNat (b := a) (by omega),
        ← ofNat_of_toNat (b := b) (by omega), ← ofNat_of_toNat (b := c) (by omega)]
  | four a b c d ha hb hc hd hv =>
    unfold Announces at ha; unfold Cont at hb hc hd; unfold ValueOk at hv
    by_cases ho : a.toNat = 0xF0 ∧ b.toNat < 0x90
    · exact Or.inr (Or.inr (Or.inl ⟨b, c, d, by rw [ofNat_of_toNat ho.1]; rfl, ho.2⟩))
    · by_cases hm : a.toNat = 0xF4 ∧ 0x90 ≤ b.toNat
      · exact Or.inr (Or.inr (Or.inr ⟨b, c, d, by rw [ofNat_of_toNat hm.1]; rfl, hm.2⟩))
      · left
        refine ⟨(a.toNat - 0xF0) * 262144 + (b.toNat - 0x80) * 4096 + (c.toNat - 0x80) * 64 + (d.toNat - 0x80),
          by unfold XmlChar; omega, ?_⟩
        unfold encodeChar
        rw [if_neg (by omega), if_neg (by omega), if_neg (by omega), ← ofNat_of_toNat (b := a) (by omega),
          ← ofNat_of_toNat (b := b) (by omega), ← ofNat_of_toNat (b := c) (by omega),
          ← ofNat_of_toNat (b := d) (by omega)]

/-- **C28**: the invalid forms really are accepted: an overlong NUL in three and four bytes, and U+110000. -/
theorem C28_not_a_validator :
    checkUtf8 [0xE0, 0x80, 0x80] = true ∧ checkUtf8 [0xF0, 0x80, 0x80, 0x80] = true ∧
      checkUtf8 [0xF4, 0x90, 0x80, 0x80] = true := by decide

/-- Non-vacuity: a text with characters of all lengths. -/
example : (∀ n ∈ [0x41, 0xE9, 0x20AC, 0x1F600], XmlChar n) ∧
    [0x41, 0xE9, 0x20AC, 0x1F600].flatMap encodeChar =
      [0x41, 0xC3, 0xA9, 0xE2, 0x82, 0xAC, 0xF0, 0x9F, 0x98, 0x80] := by
  refine ⟨?_, by decide⟩
  intro n hn
  simp only [List.mem_cons, List.not_mem_nil, or_false] at hn
  unfold XmlChar; omega

/-! ## C29 -/

/-- **C29**: the function that reports a position returns null exactly if the other one returns true. -/
theorem C29_agrees (t : List UInt8) : (checkUtf8Pos t).1 = none ↔ checkUtf8 t = true := by
  have h := pos_spec t [] 0 0 0 (Or.inl ⟨rfl, TextUtils.Units.nil⟩) rfl (by simp)
  unfold checkUtf8Pos
  simp only [List.length_nil, List.nil_append] at h
  cases hr : checkUtf8PosLoop 0 0 0 0 t with
  | mk r k =>
    rw [hr] at h
    cases r with
    | none => simp only [true_iff]; exact h.2
    | some i =>
      simp only [reduceCtorEq, false_iff, Bool.not_eq_true]
      cases k with
      | zero =>
        obtain ⟨b, rest, e, _, _, h⟩ := h
        have := h rest
        rw [List.append_assoc, List.singleton_append, ← e] at this
        exact this
      | succ k =>
        obtain ⟨pre, u, e, _, hp, h1, a, conts, hu, ha, hc⟩ := h
        cases hcheck : checkUtf8 t with
        | false => rfl
        | true =>
          -- run the automaton over `pre` and the incomplete character
          exfalso
          have hrun : ∃ v, utf8Run 0 0 t = some (k + 1, v) := by
            obtain ⟨v, e1⟩ := run_units hp 0
            rw [e, utf8Run_append, e1, hu]
            simp only [utf8Run, step_lead ha]
            have : ∀ (conts : List UInt8) (v : Nat), (∀ b ∈ conts, Cont b) →
                ∃ v', utf8Run (conts.length + (k + 1)) v conts = some (k + 1, v') := by
              intro conts
              induction conts with
              | nil => intro v _; exact ⟨v, by simp [utf8Run]⟩
              | cons c conts ih =>
                intro v hc
                simp only [utf8Run, List.length_cons]
                rw [step_cont (by omega) (hc c (by simp))]
                simp only
                rw [show conts.length + 1 + (k + 1) - 1 = conts.length + (k + 1) by omega]
                exact ih _ fun b hb => hc b (by simp [hb])
            exact this conts _ hc
          obtain ⟨v, e1⟩ := hrun
          unfold checkUtf8 at hcheck
          rw [checkUtf8Loop_run, e1] at hcheck
          simp at hcheck

/-- **C29**: if it reports an error (`nb = 0`), the position is that of a byte of the text; before it there are only
complete characters and perhaps the beginning of one; and no text that begins with the bytes up to and including the
reported one is valid. -/
theorem C29_error {t : List UInt8} {i : Nat} (h : checkUtf8Pos t = (some i, 0)) :
    i < t.length ∧ (∃ pre u, t.take i = pre ++ u ∧ Units pre ∧ (u = [] ∨ ∃ m, Incomplete u m)) ∧
      ∀ ext, checkUtf8 (t.take (i + 1) ++ ext) = false := by
  have g := pos_spec t [] 0 0 0 (Or.inl ⟨rfl, TextUtils.Units.nil⟩) rfl (by simp)
  unfold checkUtf8Pos at h
  simp only [List.length_nil, List.nil_append, h] at g
  obtain ⟨b, rest, e, hi, g1, g2⟩ := g
  have hlen := congrArg List.length e
  rw [List.length_append, List.length_cons, ← hi] at hlen
  refine ⟨by omega, g1, ?_⟩
  have : t.take (i + 1) = t.take i ++ [b] := by
    rw [List.take_add_one]
    congr 1
    have : t[i]? = some b := by
      rw [e, List.getElem?_append_right (by omega), ← hi]
      simp
    rw [this]; rfl
  rw [this]; exact g2

/-- **C29**: if it reports a non-zero `nb`, the text consists of complete characters followed, at the reported
position, by the beginning of a character of which exactly `nb` bytes are missing. -/
theorem C29_incomplete {t : List UInt8} {i k : Nat} (h : checkUtf8Pos t = (some i, k)) (hk : k ≠ 0) :
    Units (t.take i) ∧ Incomplete (t.drop i) k := by
  have g := pos_spec t [] 0 0 0 (Or.inl ⟨rfl, TextUtils.Units.nil⟩) rfl (by simp)
  unfold checkUtf8Pos at h
  obtain ⟨m, rfl⟩ : ∃ m, k = m + 1 := ⟨k - 1, by omega⟩
  simp only [List.length_nil, List.nil_append, h] at g
  obtain ⟨pre, u, e, hi, g1, g2⟩ := g
  rw [e, hi]
  simpa using ⟨g1, g2⟩

/-- Non-vacuity: `a€` with the last byte missing; a bad byte after `a`. -/
example : checkUtf8Pos [0x61, 0xE2, 0x82] = (some 1, 1) ∧ checkUtf8Pos [0x61, 0xFF, 0x82] = (some 1, 0) ∧
    checkUtf8Pos [0x61, 0xE2, 0x61] = (some 2, 0) ∧ checkUtf8Pos [0x61, 0xE2, 0x82, 0xAC] = (none, 0) := by decide

/-! ## C30 -/

/-- **C30**: `convertNewLines` replaces line breaks (bytes 10 and 13) by spaces in some beginning of the text and
changes nothing else; in particular the length is the same. -/
theorem C30_only_line_breaks (t : List UInt8) :
    (convertNewLines t).length = t.length ∧
      ∃ k, k ≤ t.length ∧
        convertNewLines t = (t.take k).map (fun c => if c = 10 ∨ c = 13 then 32 else c) ++ t.drop k := by
  obtain ⟨k, hk, e⟩ := convertLoop_prefix t 0
  refine ⟨?_, k, hk, e⟩
  unfold convertNewLines
  rw [e]
  simp; omega

/-- **C30**: in a text that `checkUtf8` accepts, all of them are replaced. -/
theorem C30_valid_text {t : List UInt8} (h : checkUtf8 t = true) :
    convertNewLines t = t.map (fun c => if c = 10 ∨ c = 13 then 32 else c) := by
  rw [C28_characterised] at h
  obtain ⟨v, e⟩ := run_units h 0
  exact convertLoop_all t 0 0 _ e

/-- **C30**: in other texts some may remain. -/
theorem C30_witness_invalid : convertNewLines [0xE2, 10, 65, 10] = [0xE2, 10, 65, 10] := by decide

example : checkUtf8 [65, 13, 10, 0xC3, 0xA9, 10] = true ∧
    convertNewLines [65, 13, 10, 0xC3, 0xA9, 10] = [65, 32, 32, 0xC3, 0xA9, 32] := by decide

/-! ## C31 -/

/-- **C31**: 16 bits. -/
theorem C31_16 (b0 b1 : UInt8) (rest : List UInt8) :
    readLittleEndianUInt16 (b0 :: b1 :: rest) = .ok (leValue [b0, b1]) ∧
    readLittleEndianInt16 (b0 :: b1 :: rest) = .ok (signed 16 (leValue [b0, b1])) ∧
    readBigEndianUInt16 (b0 :: b1 :: rest) = .ok (beValue [b0, b1]) ∧
    readBigEndianInt16 (b0 :: b1 :: rest) = .ok (signed 16 (beValue [b0, b1])) := by
  refine ⟨?_, ?_, ?_, ?_⟩
  · simp only [readLittleEndianUInt16, load16, Res.bind_ok, bytes2]
  · simp only [readLittleEndianInt16, load16, Res.bind_ok]; rw [toInt_signed (by omega), bytes2]
  · simp only [readBigEndianUInt16, load16, Res.bind_ok]; rw [swap16_unsigned, bytes2]; rfl
  · simp only [readBigEndianInt16, load16, Res.bind_ok]; rw [swap16_signed, toInt_signed (by omega), bytes2]; rfl

/-- **C31**: 32 bits. -/
theorem C31_32 (b0 b1 b2 b3 : UInt8) (rest : List UInt8) :
    readLittleEndianUInt32 (b0 :: b1 :: b2 :: b3 :: rest) = .ok (leValue [b0, b1, b2, b3]) ∧
    readLittleEndianInt32 (b0 :: b1 :: b2 :: b3 :: rest) = .ok (signed 32 (leValue [b0, b1, b2, b3])) ∧
    readBigEndianUInt32 (b0 :: b1 :: b2 :: b3 :: rest) = .ok (beValue [b0, b1, b2, b3]) ∧
    readBigEndianInt32 (b0 :: b1 :: b2 :: b3 :: rest) = .ok (signed 32 (beValue [b0, b1, b2, b3])) := by
  refine ⟨?_, ?_, ?_, ?_⟩
  · simp only [readLittleEndianUInt32, load32, Res.bind_ok]; rw [bytes4]
  · simp only [readLittleEndianInt32, load32, Res.bind_ok]; rw [toInt_signed (by omega), bytes4]
  · simp only [readBigEndianUInt32, load32, Res.bind_ok]; rw [swap32_spec, bytes4]; rfl
  · simp only [readBigEndianInt32, load32, Res.bind_ok]; rw [swap32_spec, toInt_signed (by omega), bytes4]; rfl

/-- **C31**: 64 bits. -/
theorem C31_64 (b0 b1 b2 b3 b4 b5 b6 b7 : UInt8) (rest : List UInt8) :
    readLittleEndianUInt64 (b0 :: b1 :: b2 :: b3 :: b4 :: b5 :: b6 :: b7 :: rest) =
      .ok (leValue [b0, b1, b2, b3, b4, b5, b6, b7]) ∧
    readLittleEndianInt64 (b0 :: b1 :: b2 :: b3 :: b4 :: b5 :: b6 :: b7 :: rest) =
      .ok (signed 64 (leValue [b0, b1, b2, b3, b4, b5, b6, b7])) ∧
    readBigEndianUInt64 (b0 :: b1 :: b2 :: b3 :: b4 :: b5 :: b6 :: b7 :: rest) =
      .ok (beValue [b0, b1, b2, b3, b4, b5, b6, b7]) ∧
    readBigEndianInt64 (b0 :: b1 :: b2 :: b3 :: b4 :: b5 :: b6 :: b7 :: rest) =
      .ok (signed 64 (beValue [b0, b1, b2, b3, b4, b5, b6, b7])) := by
  refine ⟨?_, ?_, ?_, ?_⟩
  · simp only [readLittleEndianUInt64, load64, Res.bind_ok]; rw [bytes8]
  · simp only [readLittleEndianInt64, load64, Res.bind_ok]; rw [toInt_signed (by omega), bytes8]
  · simp only [readBigEndianUInt64, load64, Res.bind_ok]; rw [swap64_spec, bytes8]; rfl
  · simp only [readBigEndianInt64, load64, Res.bind_ok]; rw [swap64_spec, toInt_signed (by omega), bytes8]; rfl

/-- **C31**: the overloads for `unsigned char*` are the same functions, except the signed 64-bit ones, which return
the value of the first two bytes only. -/
theorem C31_unsigned_char_overloads (b0 b1 : UInt8) (rest c : List UInt8) :
    (UnsignedChar.readLittleEndianInt16 c = readLittleEndianInt16 c ∧
      UnsignedChar.readLittleEndianUInt16 c = readLittleEndianUInt16 c ∧
      UnsignedChar.readLittleEndianInt32 c = readLittleEndianInt32 c ∧
      UnsignedChar.readLittleEndianUInt32 c = readLittleEndianUInt32 c ∧
      UnsignedChar.readLittleEndianUInt64 c = readLittleEndianUInt64 c ∧
      UnsignedChar.readBigEndianInt16 c = readBigEndianInt16 c ∧
      UnsignedChar.readBigEndianUInt16 c = readBigEndianUInt16 c ∧
      UnsignedChar.readBigEndianInt32 c = readBigEndianInt32 c ∧
      UnsignedChar.readBigEndianUInt32 c = readBigEndianUInt32 c ∧
      UnsignedChar.readBigEndianUInt64 c = readBigEndianUInt64 c) ∧
    UnsignedChar.readLittleEndianInt64 (b0 :: b1 :: rest) = .ok (signed 16 (leValue [b0, b1])) ∧
    UnsignedChar.readBigEndianInt64 (b0 :: b1 :: rest) = .ok (signed 16 (beValue [b0, b1])) :=
  ⟨⟨rfl, rfl, rfl, rfl, rfl, rfl, rfl, rfl, rfl, rfl⟩, (C31_16 b0 b1 rest).2.1, (C31_16 b0 b1 rest).2.2.2⟩

/-- **C31**: so they do not decode 64-bit numbers: the big-endian 1 is read as 0. -/
theorem C31_witness_overload :
    UnsignedChar.readBigEndianInt64 [0, 0, 0, 0, 0, 0, 0, 1] = .ok 0 ∧
      readBigEndianInt64 [0, 0, 0, 0, 0, 0, 0, 1] = .ok 1 ∧
      signed 64 (beValue [0, 0, 0, 0, 0, 0, 0, 1]) = 1 := by decide +kernel

/-! ## C42 -/

/-- **C42**: `dos2unixtime` passes the encoded year (from 1900), month (from 0), day, minute and even second to
`mktime`; the hour only modulo 16. -/
theorem C42_dos_fields {t : DosTime} (h : t.Valid) :
    dosFields t.encode =
      ⟨(t.year : Int) - 1900, (t.month : Int) - 1, t.day, ((t.hour % 16 : Nat) : Int), t.min,
        ((t.sec / 2 * 2 : Nat) : Int)⟩ := by
  obtain ⟨h1, h2, h3, h4, h5, h6, h7, h8, h9⟩ := h
  unfold dosFields DosTime.encode
  simp only [Nat.shiftRight_eq_div_pow, Nat.shiftLeft_eq, show (0x0f : Nat) = 2 ^ 4 - 1 from rfl,
    show (0x1f : Nat) = 2 ^ 5 - 1 from rfl, show (0x3f : Nat) = 2 ^ 6 - 1 from rfl,
    Nat.and_two_pow_sub_one_eq_mod, Tm.mk.injEq]
  omega

/-- **C42**: hence before 16:00 the time is right, up to the last second. -/
theorem C42_before_16 {t : DosTime} (h : t.Valid) (hh : t.hour < 16) (hs : t.sec % 2 = 0) :
    dosFields t.encode =
      ⟨(t.year : Int) - 1900, (t.month : Int) - 1, t.day, t.hour, t.min, t.sec⟩ := by
  rw [C42_dos_fields h, Nat.mod_eq_of_lt hh, show t.sec / 2 * 2 = t.sec by omega]

/-- **C42**: from 16:00 on it is 16 hours early. -/
theorem C42_after_16 {t : DosTime} (h : t.Valid) (hh : 16 ≤ t.hour) :
    (dosFields t.encode).tm_hour = (t.hour : Int) - 16 := by
  rw [C42_dos_fields h]
  obtain ⟨_, _, _, _, _, _, h7, _, _⟩ := h
  simp only; omega

example : (⟨2008, 2, 29, 23, 59, 58⟩ : DosTime).Valid ∧
    dosFields (⟨2008, 2, 29, 23, 59, 58⟩ : DosTime).encode = ⟨108, 1, 29, 7, 59, 58⟩ := by
  refine ⟨by unfold DosTime.Valid; simp only; omega, by decide⟩

end Strigi.Props
