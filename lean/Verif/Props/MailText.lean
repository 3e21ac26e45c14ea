import Verif.Proofs.MailText

/-!
# Properties C43, C44, C70, C71, C72: mail headers
-/

namespace Strigi.Props

open MailSpec MailText

/-! ## C43: the "Q" encoding -/

/-- **C43**: decoding inverts encoding, whichever bytes are escaped. -/
theorem C43_decode_encode {b e : List UInt8} (h : QEncodes b e) : decodeQuotedPrintable e = b := by
  simpa [decodeQuotedPrintable] using qp_spec (QEncodes.decodes h) [] []

/-- **C43**: on arbitrary text exactly the valid escapes and the underscores are replaced. -/
theorem C43_any_text (e b : List UInt8) : decodeQuotedPrintable e = b ↔ QDecodes e b := by
  constructor
  · intro h
    obtain ⟨b', hb⟩ := qp_total e.length e (Nat.le_refl _)
    have : decodeQuotedPrintable e = b' := by simpa [decodeQuotedPrintable] using qp_spec hb [] []
    rw [h] at this
    rw [this]; exact hb
  · intro h
    simpa [decodeQuotedPrintable] using qp_spec h [] []

/-- `=46=6f_=` is `Fo =`, and `Fo =` can be encoded as `=46o_=3D`. -/
example : decodeQuotedPrintable [61, 52, 54, 61, 54, 102, 95, 61] = [70, 111, 32, 61] := by decide
example : QEncodes [70, 111, 32, 61] [61, 52, 54, 111, 95, 61, 51, 68] :=
  .escaped (i := 4) (j := 6) rfl rfl rfl (.plain (by decide) (by decide) (.space
    (.escaped (i := 3) (j := 13) rfl rfl rfl .nil)))

/-! ## C44: the header check -/

/-- **C44**: exactly the beginnings of mails are accepted, and nothing but the given data is read. -/
theorem C44_checkHeader (d : List UInt8) :
    ∃ b, MailText.checkHeader d d.length = .ok b ∧ (b = true ↔ ∃ t, Mail (d ++ t)) := by
  refine ⟨accepts .inName d, ?_, ?_⟩
  · have := parseLoop_spec d [] .inName (2 * d.length + 1) (by omega)
    simpa [MailText.checkHeader] using this
  · rw [accepts_iff]
    simp only [mail_iff]

/-- **C44**: the check is closed under taking prefixes. -/
theorem C44_prefix_closed {d e : List UInt8} (h : d <+: e) (he : MailText.checkHeader e e.length = .ok true) :
    MailText.checkHeader d d.length = .ok true := by
  obtain ⟨t, rfl⟩ := h
  obtain ⟨b, e1, h1⟩ := C44_checkHeader (d ++ t)
  rw [e1] at he; cases he
  obtain ⟨u, hu⟩ := h1.mp rfl
  obtain ⟨b, e2, h2⟩ := C44_checkHeader d
  rw [e2, h2.mpr ⟨t ++ u, by rw [← List.append_assoc]; exact hu⟩]

/-- **C44**: 8-bit data is rejected. -/
theorem C44_ascii {d : List UInt8} (h : MailText.checkHeader d d.length = .ok true) : Ascii d := by
  obtain ⟨b, e1, h1⟩ := C44_checkHeader d
  rw [e1] at h; cases h
  obtain ⟨t, f, fs, body, e, hf, hfs, hb⟩ := h1.mp rfl
  have hfield : ∀ g, MailSpec.Field g → Ascii g := by
    rintro g ⟨name, v, rfl, hn, hv⟩ b hbm
    simp only [List.mem_append, List.mem_cons, List.not_mem_nil, or_false] at hbm
    rcases hbm with z | rfl | z | rfl | rfl
    · have := hn b z; omega
    · decide
    · exact hv.1 b z
    · decide
    · decide
  intro b hbm
  have : b ∈ f ++ fs.flatten ++ 13 :: 10 :: body := by rw [← e]; exact List.mem_append_left _ hbm
  simp only [List.mem_append, List.mem_cons] at this
  rcases this with (z | z) | rfl | rfl | z
  · exact hfield f hf b z
  · obtain ⟨g, hg, hbg⟩ := List.mem_flatten.mp z
    exact hfield g (hfs g hg) b hbg
  · decide
  · decide
  · exact hb b z

/-- A mail with a folded line. -/
example : Mail ([65, 58, 13, 10, 32, 66, 13, 10] ++ [13, 10] ++ [67]) :=
  ⟨[65, 58, 13, 10, 32, 66, 13, 10], [], [67], rfl,
    ⟨[65], [13, 10, 32, 66], rfl, by unfold FieldName; decide, by unfold Ascii; decide, by
      intro a t h
      rcases a with _ | ⟨_, _ | ⟨_, _ | ⟨_, _ | ⟨_, _⟩⟩⟩⟩ <;> simp at h
      exact ⟨32, [66], h.symm, Or.inl rfl⟩⟩,
    by simp, by unfold Ascii; decide⟩

/-! ## C70, C71, C72: header values -/

/-- **C70**: a header value is understood as the specification says: encoded words are replaced by the text they
stand for, everything else (but see C71) is copied.  `b0` is the first byte behind the value (in
`MailInputStream` a line break). -/
theorem C70_header_value (conv : List UInt8 → List UInt8 → List UInt8) {raw out : List UInt8}
    (h : HeaderText conv raw out) {b0 : UInt8} (hb : b0 ≠ 61) (beyond : List UInt8) :
    decodedHeaderValue conv (raw ++ b0 :: beyond) raw.length = .ok out := by
  have := header_spec h hb [] [] [] (raw.length + 1) 0 0 raw.length (by omega) rfl rfl (by omega) (beyond := beyond)
  simpa [decodedHeaderValue] using this

/-- **C70**: the specification says something about every value, so there is always a result. -/
theorem C70_total (conv : List UInt8 → List UInt8 → List UInt8) (raw : List UInt8) {b0 : UInt8} (hb : b0 ≠ 61)
    (beyond : List UInt8) : ∃ out, HeaderText conv raw out ∧
      decodedHeaderValue conv (raw ++ b0 :: beyond) raw.length = .ok out := by
  obtain ⟨out, h⟩ := headerText_total (conv := conv) raw.length raw (Nat.le_refl _)
  exact ⟨out, h, C70_header_value conv h hb beyond⟩

/-- Text without `=` and CR. -/
def PlainText (l : List UInt8) : Prop := ∀ b ∈ l, b ≠ 61 ∧ b ≠ 13

theorem plain_headerText (conv : List UInt8 → List UInt8 → List UInt8) {rest out : List UInt8}
    (h : HeaderText conv rest out) : ∀ {l : List UInt8}, PlainText l → HeaderText conv (l ++ rest) (l ++ out) := by
  intro l
  induction l with
  | nil => intro _; exact h
  | cons c l ih =>
    intro hl
    have hc := hl c (by simp)
    refine .char ?_ ?_ (ih (fun b hb => hl b (by simp [hb])))
    · rintro ⟨_, cs, enc, data, t, e, _⟩
      simp only [encodedWord, List.cons_append, List.cons.injEq] at e
      exact hc.1 e.1
    · rintro ⟨w, x, t, e, _⟩
      injection e with e
      exact hc.2 e

theorem encode_noMark (b : List UInt8) : NoMark (B64.encode b) := by
  obtain ⟨_, body, k, e, _, hb⟩ := Base64.encode_wellFormed b
  rw [e]
  intro h
  rcases List.mem_append.1 h with h | h
  · exact absurd (hb 63 h) (by decide)
  · exact absurd (List.eq_of_mem_replicate h) (by decide)

/-- **C70**: text in UTF-8 and base64, with plain text around it. -/
theorem C70_base64_word (conv : List UInt8 → List UInt8 → List UInt8) {before behind b : List UInt8}
    (h1 : PlainText before) (h2 : PlainText behind) (hb : b ≠ []) {b0 : UInt8} (hb0 : b0 ≠ 61) (beyond : List UInt8) :
    decodedHeaderValue conv
        ((before ++ (encodedWord [117, 116, 102, 45, 56] [66] (B64.encode b) ++ behind)) ++ b0 :: beyond)
        (before ++ (encodedWord [117, 116, 102, 45, 56] [66] (B64.encode b) ++ behind)).length =
      .ok (before ++ (b ++ behind)) := by
  refine C70_header_value conv (plain_headerText conv (.word ?_ (by simp [NoMark]) (by simp [NoMark]) ?_ ?_ ?_) h1) hb0 beyond
  · rw [List.length_append, encodedWord_length]; simp; omega
  · exact encode_noMark b
  · refine .b (str := b) (Or.inl rfl) ?_ ?_ (fun _ => rfl) (fun z => absurd rfl z)
    · intro _; exact (Base64.decoded_encode b).symm
    · intro z; exact absurd (Base64.encode_wellFormed b) z
  · have := plain_headerText conv .nil h2
    simpa using this

/-- **C71**: of a folded header value the first character behind the white space is lost. -/
theorem C71_fold_loses_character (conv : List UInt8 → List UInt8 → List UInt8) {first second : List UInt8}
    {w x : UInt8} (hw : w = 9 ∨ w = 32) (h1 : PlainText first) (h2 : PlainText second) {b0 : UInt8} (hb : b0 ≠ 61)
    (beyond : List UInt8) :
    decodedHeaderValue conv ((first ++ (13 :: 10 :: w :: x :: second)) ++ b0 :: beyond)
        (first ++ (13 :: 10 :: w :: x :: second)).length = .ok (first ++ second) := by
  refine C70_header_value conv (plain_headerText conv (.fold hw ?_) h1) hb beyond
  have := plain_headerText conv .nil h2
  simpa using this

/-- `Hello,\r\n world` becomes `Hello,orld`. -/
example : decodedHeaderValue (fun _ b => b)
    [72, 101, 108, 108, 111, 44, 13, 10, 32, 119, 111, 114, 108, 100, 13, 10] 14 =
    .ok [72, 101, 108, 108, 111, 44, 111, 114, 108, 100] := by decide +kernel

/-- `x =?utf-8?Q?=46_o?=.` is `x F o.` -/
example : decodedHeaderValue (fun _ b => b)
    [120, 32, 61, 63, 117, 116, 102, 45, 56, 63, 81, 63, 61, 52, 54, 95, 111, 63, 61, 46, 13] 20 =
    .ok [120, 32, 70, 32, 111, 46] := by decide +kernel

/-- **C72**: if a value ends with the third question mark of an encoded word, the byte behind the value is looked
at; if there is no such byte, this is an access outside the memory. -/
theorem C72_reads_beyond (conv : List UInt8 → List UInt8 → List UInt8) {cs enc data : List UInt8} (h1 : NoMark cs)
    (h2 : NoMark enc) (h3 : NoMark data) (hl : 3 < cs.length + enc.length + data.length) :
    decodedHeaderValue conv (61 :: 63 :: (cs ++ 63 :: (enc ++ 63 :: (data ++ [63]))))
        (61 :: 63 :: (cs ++ 63 :: (enc ++ 63 :: (data ++ [63])))).length = .fault .outOfBounds := by
  generalize hm : (61 :: 63 :: (cs ++ 63 :: (enc ++ 63 :: (data ++ [63]))) : List UInt8) = m
  have hlen : m.length = cs.length + enc.length + data.length + 5 := by rw [← hm]; simp; omega
  have g1 : m = [61, 63] ++ (cs ++ 63 :: (enc ++ 63 :: (data ++ [63]))) := by simp [← hm]
  have g2 : m = 61 :: 63 :: (cs ++ [63]) ++ (enc ++ 63 :: (data ++ [63])) := by simp [← hm]
  have g3 : m = 61 :: 63 :: (cs ++ 63 :: (enc ++ [63])) ++ (data ++ 63 :: []) := by simp [← hm]
  have f1 := findMark_found (r := enc ++ 63 :: (data ++ [63])) cs [61, 63] ((m.length : Int) - (0 + 2)).toNat (0 + 2) h1 rfl
    (by omega)
  have f2 := findMark_found (r := data ++ [63]) enc (61 :: 63 :: (cs ++ [63]))
    ((m.length : Int) - (0 + 2 + cs.length + 1)).toNat (0 + 2 + cs.length + 1) h2 (by simp; omega) (by omega)
  have f3 := findMark_found (r := []) data (61 :: 63 :: (cs ++ 63 :: (enc ++ [63])))
    ((m.length : Int) - (0 + 2 + cs.length + 1 + enc.length + 1)).toNat (0 + 2 + cs.length + 1 + enc.length + 1) h3
    (by simp; omega) (by omega)
  rw [← g1] at f1
  rw [← g2] at f2
  rw [← g3] at f3
  have f0 : wordStart m m.length 0 61 = .ok true := by
    rw [wordStart, if_pos ⟨by omega, rfl⟩, g1]
    rfl
  have f4 : wordEnd m m.length (0 + 2 + cs.length + 1 + enc.length + 1 + data.length) = .fault .outOfBounds := by
    rw [wordEnd, if_neg (by omega), aget, if_pos (by omega), List.getElem?_eq_none (by omega)]
    rfl
  have f5 : aget m 0 = .ok 61 := by rw [g1]; rfl
  rw [decodedHeaderValue, headerLoop, if_pos (by omega), f5]
  simp only [Res.bind_ok]
  rw [f0]; simp only [Res.bind_ok, if_true]
  rw [f1]; simp only [Res.bind_ok]
  rw [f2]; simp only [Res.bind_ok]
  rw [f3]; simp only [Res.bind_ok]
  rw [f4]; rfl

/-- The value `=?utf-8?Q?a?`. -/
example : decodedHeaderValue (fun _ b => b) [61, 63, 117, 116, 102, 45, 56, 63, 81, 63, 97, 63] 12 =
    .fault .outOfBounds := by decide +kernel

end Strigi.Props
