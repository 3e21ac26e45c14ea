import Verif.Model.HeaderConv
import Verif.Props.MailText
import Verif.Proofs.Iconv

/-!
# Property C148: the converters of a mail
-/

namespace Strigi

namespace Charset

variable {τ α : Type} {cs : Charset τ α}

theorem iconv_of_denotes (L : cs.Lawful) {st last : τ} {l : List UInt8} {out : List α} (h : cs.Denotes st l out last) :
    ∀ (fuel space : Nat), l.length ≤ fuel → out.length ≤ space → cs.iconv fuel st l space = ([], out, last, .done) := by
  induction h with
  | nil => intro fuel space _ _; cases fuel <;> simp [iconv]
  | @cons st l k out st' rest last hl hn hd ih =>
    intro fuel space hf hs
    obtain ⟨b, l, rfl⟩ := List.exists_cons_of_ne_nil hl
    obtain ⟨h1, h2, -⟩ := L.char hl hn
    rw [List.length_append] at hs
    obtain ⟨f, rfl⟩ : ∃ f, fuel = f + 1 := ⟨fuel - 1, by simp only [List.length_cons] at hf; omega⟩
    rw [iconv, hn]
    · simp only
      rw [if_neg (by omega), ih f (space - out.length) (by rw [List.length_drop]; omega) (by omega)]
    · simp

theorem iconv_of_breaks (L : cs.Lawful) {st : τ} {l : List UInt8} {o : List α} (h : cs.Breaks st l o) :
    ∀ (fuel space : Nat), l.length ≤ fuel → ∃ left out st' code, cs.iconv fuel st l space = (left, out, st', code) ∧ code ≠ .done := by
  induction h with
  | @here st l hl hn =>
    intro fuel space hf
    obtain ⟨b, l, rfl⟩ := List.exists_cons_of_ne_nil hl
    obtain ⟨f, rfl⟩ : ∃ f, fuel = f + 1 := ⟨fuel - 1, by simp only [List.length_cons] at hf; omega⟩
    rw [iconv]
    · rcases hn with hn | hn
      · rw [hn]; exact ⟨_, _, _, _, rfl, by simp⟩
      · rw [hn]; exact ⟨_, _, _, _, rfl, by simp⟩
    · simp
  | @cons st l k out st' rest hl hn hd ih =>
    intro fuel space hf
    obtain ⟨b, l, rfl⟩ := List.exists_cons_of_ne_nil hl
    obtain ⟨h1, h2, -⟩ := L.char hl hn
    obtain ⟨f, rfl⟩ : ∃ f, fuel = f + 1 := ⟨fuel - 1, by simp only [List.length_cons] at hf; omega⟩
    rw [iconv, hn]
    · simp only
      split
      · exact ⟨_, _, _, _, rfl, by simp⟩
      · obtain ⟨a, b, c, d, e, h⟩ := ih f (space - out.length) (by rw [List.length_drop]; omega)
        rw [e]
        exact ⟨_, _, _, _, rfl, h⟩
    · simp

end Charset

namespace Props

open MailText

variable {τ : Type}

/-- The value that one call of the code for a new mail gives. -/
def freshly (avail : List UInt8 → Option (Charset τ UInt8)) (enc data : List UInt8) : List UInt8 :=
  (Decoder.new.decode avail enc data).2

theorem decode_empty (avail : List UInt8 → Option (Charset τ UInt8)) (d : Decoder τ) (enc : List UInt8) : (d.decode avail enc []).2 = [] := by
  unfold Decoder.decode
  split
  · rfl
  · simp

/-- The result in terms of the state of the converter. -/
theorem decode_state {avail : List UInt8 → Option (Charset τ UInt8)} {enc data out : List UInt8} {cs : Charset τ UInt8} (ha : avail enc = some cs)
    (L : cs.Lawful) (d : Decoder τ) {last : τ} (h : cs.Denotes ((d.iconvs enc).getD cs.init) data out last)
    (ho : out.length ≤ 4 * data.length) :
    d.decode avail enc data = (d.set enc last, out) := by
  unfold Decoder.decode
  rw [ha]
  simp only
  by_cases h0 : 4 * data.length > 0
  · rw [if_pos h0, Charset.iconv_of_denotes L h _ _ (by omega) ho]
  · rw [if_neg h0]
    have : data = [] := List.length_eq_zero_iff.1 (by omega)
    subst this
    cases h with
    | nil => rfl
    | cons h _ _ => exact absurd rfl h

/-- **C148**: the first word in some encoding is replaced by the text it stands for, if that is at most four times as long (what the
encoding holds back is missing, as in C147). -/
theorem C148_text {avail : List UInt8 → Option (Charset τ UInt8)} {enc data out : List UInt8} {cs : Charset τ UInt8} (ha : avail enc = some cs)
    (L : cs.Lawful) {last : τ} (h : cs.Denotes cs.init data out last) (ho : out.length ≤ 4 * data.length) :
    freshly avail enc data = out := by
  unfold freshly
  rw [decode_state ha L Decoder.new (last := last) h ho]

/-- **C148**: a word that is not a text in its encoding, and a word of an unknown encoding, are left as they are. -/
theorem C148_unchanged {avail : List UInt8 → Option (Charset τ UInt8)} {enc data : List UInt8}
    (h : avail enc = none ∨ ∃ cs o, avail enc = some cs ∧ cs.Lawful ∧ cs.Breaks cs.init data o) : freshly avail enc data = data := by
  unfold freshly Decoder.decode
  rcases h with h | ⟨cs, o, h, L, hb⟩
  · rw [h]
  · rw [h]
    simp only
    split
    · obtain ⟨a, b, c, code, e, hc⟩ := Charset.iconv_of_breaks L hb (2 * data.length + 2) (4 * data.length) (by omega)
      rw [show ((Decoder.new : Decoder τ).iconvs enc).getD cs.init = cs.init from rfl, e]
      cases code <;> first | exact absurd rfl hc | rfl
    · rfl

/-- **C148**: for encodings without a state, whatever was decoded before: the value of a header is the one of `decodedHeaderValue` with
the function `freshly` as the conversion. -/
theorem C148_stateless (avail : List UInt8 → Option (Charset Unit UInt8)) (d : Decoder Unit) (m : List UInt8) (len : Nat) :
    (decodedHeaderValueWith avail d m len >>= fun r => Res.ok r.2) = decodedHeaderValue (freshly avail) m len := by
  have hdec : ∀ (d : Decoder Unit) enc data, (d.decode avail enc data).2 = freshly avail enc data := by
    intro d enc data
    unfold freshly Decoder.decode
    cases avail enc with
    | none => rfl
    | some cs =>
      simp only
      split
      · rw [show (d.iconvs enc).getD cs.init = ((Decoder.new : Decoder Unit).iconvs enc).getD cs.init from rfl]
        generalize cs.iconv _ _ _ _ = r
        obtain ⟨_, _, _, c⟩ := r
        cases c <;> rfl
      · rfl
  have hword : ∀ (d : Decoder Unit) s q1 q2 e,
      (decodeWordWith avail d m s q1 q2 e >>= fun r => Res.ok r.2) = decodeWord (freshly avail) m s q1 q2 e := by
    intro d s q1 q2 e
    unfold decodeWordWith decodeWord
    cases aget m q1 with
    | fault f => rfl
    | diverge => rfl
    | ok c =>
      simp only [Res.bind_ok]
      split
      · split
        · simp only [Res.bind_ok]
          split
          · rfl
          · rw [← hdec d]
        · cases Base64.decode (slice m q2 (e - q2)) with
          | fault f => rfl
          | diverge => rfl
          | ok str =>
            simp only [Res.bind_ok]
            split
            · rfl
            · rw [← hdec d]
      · split
        · simp only [Res.bind_ok]
          split
          · rfl
          · rw [← hdec d]
        · rfl
  have hloop : ∀ (fuel : Nat) (d : Decoder Unit) (e s p : Int) (dec : List UInt8),
      (headerLoopWith avail m e fuel d s p dec >>= fun r => Res.ok r.2) = headerLoop (freshly avail) m e fuel s p dec := by
    intro fuel
    induction fuel with
    | zero => intros; rfl
    | succ fuel ih =>
      intro d e s p dec
      unfold headerLoopWith headerLoop
      split
      · cases aget m s with
        | fault f => rfl
        | diverge => rfl
        | ok c0 =>
          simp only [Res.bind_ok]
          cases wordStart m e s c0 with
          | fault f => rfl
          | diverge => rfl
          | ok w =>
            simp only [Res.bind_ok]
            cases w with
            | true =>
              simp only [if_true]
              cases findMark m (e - (s + 2)).toNat (s + 2) with
              | fault f => rfl
              | diverge => rfl
              | ok q1 =>
                simp only [Res.bind_ok]
                cases findMark m (e - (q1 + 1)).toNat (q1 + 1) with
                | fault f => rfl
                | diverge => rfl
                | ok q2 =>
                  simp only [Res.bind_ok]
                  cases findMark m (e - (q2 + 1)).toNat (q2 + 1) with
                  | fault f => rfl
                  | diverge => rfl
                  | ok stop =>
                    simp only [Res.bind_ok]
                    cases wordEnd m e stop with
                    | fault f => rfl
                    | diverge => rfl
                    | ok w =>
                      simp only [Res.bind_ok]
                      cases w with
                      | true =>
                        simp only [if_true]
                        rw [← hword d]
                        cases decodeWordWith avail d m (s + 2) (q1 + 1) (q2 + 1) stop with
                        | fault f => rfl
                        | diverge => rfl
                        | ok r => simp only [Res.bind_ok]; exact ih _ _ _ _ _
                      | false => exact ih _ _ _ _ _
            | false =>
              simp only [Bool.false_eq_true, if_false]
              cases foldStart m e s c0 with
              | fault f => rfl
              | diverge => rfl
              | ok w =>
                simp only [Res.bind_ok]
                cases w with
                | true => exact ih _ _ _ _ _
                | false => exact ih _ _ _ _ _
      · split <;> rfl
  exact hloop _ _ _ _ _ _

/-- Calls of `decode`, one after the other, with their results. -/
def decodeWords (avail : List UInt8 → Option (Charset τ UInt8)) : Decoder τ → List (List UInt8 × List UInt8) → List (List UInt8)
  | _, [] => []
  | d, (enc, data) :: l =>
    let r := d.decode avail enc data
    r.2 :: decodeWords avail r.1 l

/-- A word that ends in the initial state (as RFC 2047 demands it of an encoded word), and is a text of at most four times the length. -/
def ProperWord (avail : List UInt8 → Option (Charset τ UInt8)) (w : List UInt8 × List UInt8) (out : List UInt8) : Prop :=
  ∃ cs, avail w.1 = some cs ∧ cs.Lawful ∧ cs.Denotes cs.init w.2 out cs.init ∧ out.length ≤ 4 * w.2.length

/-- **C148**: for all encodings: if every word leads back to the initial state of its encoding, each is replaced by its text, whatever the
others are. -/
theorem C148_proper (avail : List UInt8 → Option (Charset τ UInt8)) (l : List ((List UInt8 × List UInt8) × List UInt8))
    (h : ∀ w ∈ l, ProperWord avail w.1 w.2) :
    decodeWords avail Decoder.new (l.map (·.1)) = l.map (·.2) := by
  have key : ∀ (l : List ((List UInt8 × List UInt8) × List UInt8)) (d : Decoder τ), (∀ w ∈ l, ProperWord avail w.1 w.2) →
      (∀ enc cs, avail enc = some cs → (d.iconvs enc).getD cs.init = cs.init) →
      decodeWords avail d (l.map (·.1)) = l.map (·.2) := by
    intro l
    induction l with
    | nil => intros; rfl
    | cons w l ih =>
      intro d hw hd
      obtain ⟨⟨enc, data⟩, out⟩ := w
      obtain ⟨cs, ha, L, hden, ho⟩ := hw _ List.mem_cons_self
      have e := decode_state ha L d (out := out) (data := data) (last := cs.init) (by rw [hd enc cs ha]; exact hden) ho
      simp only [List.map_cons, decodeWords]
      rw [e]
      simp only
      rw [ih _ (fun w hw' => hw w (List.mem_cons_of_mem _ hw'))]
      intro enc' cs' ha'
      simp only [Decoder.set]
      split
      · rename_i heq
        subst heq
        rw [ha] at ha'; cases ha'
        rfl
      · exact hd _ _ ha'
  exact key l Decoder.new h (fun _ _ _ => rfl)

/-- **C148**: otherwise a word is converted in the state in which the word before it (in the same encoding) has left the converter, even if
that word could not be converted. -/
theorem C148_carried {avail : List UInt8 → Option (Charset τ UInt8)} {enc : List UInt8} {cs : Charset τ UInt8} (ha : avail enc = some cs)
    (L : cs.Lawful) (d1 d2 : List UInt8) (h1 : d1 ≠ []) {left out1 : List UInt8} {st : τ} {code : IconvCode}
    (hi : cs.iconv (2 * d1.length + 2) cs.init d1 (4 * d1.length) = (left, out1, st, code))
    {out2 : List UInt8} {last : τ} (h2 : cs.Denotes st d2 out2 last) (ho : out2.length ≤ 4 * d2.length) :
    decodeWords avail Decoder.new [(enc, d1), (enc, d2)] = [if code = .done then out1 else d1, out2] := by
  have hl := List.length_pos_iff.2 h1
  have e : (Decoder.new : Decoder τ).decode avail enc d1 = (Decoder.new.set enc st, if code = .done then out1 else d1) := by
    unfold Decoder.decode
    rw [ha]
    simp only
    rw [if_pos (by omega), show ((Decoder.new : Decoder τ).iconvs enc).getD cs.init = cs.init from rfl, hi]
    cases code <;> rfl
  simp only [decodeWords]
  rw [e]
  simp only
  rw [decode_state ha L (Decoder.new.set enc st) (last := last) (out := out2) (data := d2) (by simp only [Decoder.set, if_true]; exact h2) ho]

/-! ## Instances -/

/-- A part of ISO-2022-JP: ASCII and JIS X 0201 Roman, which has a yen sign (C2 A5 in UTF-8) instead of the backslash (0x5C) and an overline
(E2 80 BE) instead of the tilde.  The state: is it Roman? -/
def jis : Charset Bool UInt8 where
  init := false
  flush _ := []
  next
    | _, [] => .incomplete
    | roman, b :: l =>
      if b = 27 then
        match l with
        | a :: c :: _ =>
          if a = 40 ∧ c = 66 then .char 3 [] false else if a = 40 ∧ c = 74 then .char 3 [] true else .invalid
        | _ => .incomplete
      else if b ≥ 128 then .invalid
      else .char 1 (if roman ∧ b = 0x5C then [0xC2, 0xA5] else if roman ∧ b = 0x7E then [0xE2, 0x80, 0xBE] else [b]) roman

theorem jis_lawful : jis.Lawful := by
  refine ⟨?_, ?_, ?_⟩
  · intro st l k out st' hl h
    match l with
    | [] => exact absurd rfl hl
    | [b] =>
      simp only [jis] at h
      split at h
      · cases h
      · split at h
        · cases h
        · rename_i h1 h2
          cases h
          exact ⟨by omega, by simp, fun m => by simp [jis, h1, h2]⟩
    | [b, a] =>
      simp only [jis] at h
      split at h
      · cases h
      · split at h
        · cases h
        · rename_i h1 h2
          cases h
          exact ⟨by omega, by simp, fun m => by simp [jis, h1, h2]⟩
    | b :: a :: c :: l =>
      simp only [jis] at h
      split at h
      · rename_i h0
        split at h
        · rename_i h1; cases h
          exact ⟨by omega, by simp, fun m => by simp [jis, h0, h1]⟩
        · split at h
          · rename_i h1 h2; cases h
            exact ⟨by omega, by simp, fun m => by simp [jis, h0, h2]⟩
          · cases h
      · split at h
        · cases h
        · rename_i h1 h2
          cases h
          exact ⟨by omega, by simp, fun m => by simp [jis, h1, h2]⟩
  · intro st l hl h m
    match l with
    | [] => exact absurd rfl hl
    | [b] =>
      simp only [jis] at h
      split at h
      · cases h
      · split at h
        · rename_i h1 h2; simp [jis, h1, h2]
        · cases h
    | [b, a] =>
      simp only [jis] at h
      split at h
      · cases h
      · split at h
        · rename_i h1 h2; simp [jis, h1, h2]
        · cases h
    | b :: a :: c :: l =>
      simp only [jis] at h ⊢
      simp only [List.cons_append] at h ⊢
      exact h
  · intro st l hl h
    match l with
    | [] => simp
    | [b] => simp
    | [b, a] => simp
    | b :: a :: c :: l =>
      simp only [jis] at h
      split at h
      · split at h
        · cases h
        · split at h <;> cases h
      · split at h <;> cases h

/-- Two words of a header, of which the first does not lead back to ASCII: the second one, a backslash, becomes a yen sign.  And a first
word that is broken (and so left as it is) does the same. -/
example (avail : List UInt8 → Option (Charset Bool UInt8)) (h : avail [74] = some jis) :
    freshly avail [74] [0x5C] = [0x5C] ∧
    decodeWords avail Decoder.new [([74], [27, 40, 74, 97]), ([74], [0x5C])] = [[97], [0xC2, 0xA5]] ∧
    decodeWords avail Decoder.new [([74], [27, 40, 74, 255]), ([74], [0x5C])] = [[27, 40, 74, 255], [0xC2, 0xA5]] := by
  have hd : jis.Denotes true [0x5C] [0xC2, 0xA5] true := .cons (k := 1) (out := [0xC2, 0xA5]) (st' := true) (rest := []) (by simp) (by decide +kernel) .nil
  refine ⟨C148_text h jis_lawful (last := false) (.cons (k := 1) (out := [0x5C]) (st' := false) (rest := []) (by simp) (by decide +kernel) .nil) (by simp), ?_, ?_⟩
  · exact C148_carried h jis_lawful _ _ (by simp) (left := []) (out1 := [97]) (st := true) (code := .done) (by decide +kernel) hd (by simp)
  · exact C148_carried h jis_lawful _ _ (by simp) (left := [255]) (out1 := []) (st := true) (code := .ilseq) (by decide +kernel) hd (by simp)

/-- The hypotheses of `C148_proper` are met by a word that leads back to ASCII. -/
example (avail : List UInt8 → Option (Charset Bool UInt8)) (h : avail [74] = some jis) :
    ProperWord avail ([74], [27, 40, 74, 0x5C, 27, 40, 66]) [0xC2, 0xA5] := by
  refine ⟨jis, h, jis_lawful, ?_, by simp⟩
  exact .cons (k := 3) (out := []) (st' := true) (by simp) (by decide +kernel) (.cons (k := 1) (out := [0xC2, 0xA5]) (st' := true) (by simp) (by decide +kernel)
    (.cons (k := 3) (out := []) (st' := false) (rest := []) (by simp) (by decide +kernel) .nil))

end Props
end Strigi
