import Verif.Proofs.MailBody
import Verif.Props.Base64
import Verif.Props.StringTerminated
import Verif.Proofs.Zip

namespace Strigi

namespace Base64

variable {τ : Type} {S : StreamOps τ UInt8} {d : List UInt8} {K : τ → Int → Int → Prop}

theorem moreData_keeps (C : Contract S d .never K) {s s' : State τ} {m e : Bool} (h : ∃ lo hi, K s.input lo hi)
    (hr : moreData S s = .ok (s', m, e)) : ∃ lo hi, K s'.input lo hi := by
  obtain ⟨lo, hi, h⟩ := h
  unfold moreData at hr
  split at hr
  · obtain ⟨p, n, d', e1, r, k⟩ := C.read h (min := 1) (max := 0) (by omega) (Or.inl rfl)
    rw [e1] at hr
    simp only [Res.bind_ok] at hr
    have hk : K p (S.position s.input) (S.position p) := by
      apply k
      cases r with
      | data _ _ _ _ _ _ st => exact st
      | ended _ _ _ _ st => rw [st]; decide
      | failed a _ _ => exact absurd a id
    split at hr
    · cases hr; exact ⟨_, _, hk⟩
    · split at hr
      · cases hr; exact ⟨_, _, hk⟩
      · cases hr; exact ⟨_, _, hk⟩
  · cases hr; exact ⟨lo, hi, h⟩

theorem loop_keeps (C : Contract S d .never K) (sp : Int) : ∀ (fuel : Nat) (s s' : State τ) (out out' : List UInt8) (e : Bool),
    (∃ lo hi, K s.input lo hi) → loop S sp fuel s out = .ok (s', out', e) → ∃ lo hi, K s'.input lo hi := by
  intro fuel
  induction fuel with
  | zero => intro s s' out out' e _ h; simp [loop] at h
  | succ fuel ih =>
    intro s s' out out' e hk h
    rw [loop] at h
    obtain ⟨⟨s1, m, er⟩, e1, h⟩ := BufferedStream.bind_eq_ok h
    have h1 := moreData_keeps C hk e1
    simp only at h
    split at h
    · cases h; exact h1
    · split at h
      · cases h
      · split at h
        · split at h
          · cases h; exact h1
          · split at h
            · cases h; exact h1
            · cases h; exact h1
        · split at h
          · exact ih _ _ _ _ _ (by exact h1) h
          · split at h
            · split at h
              · cases h; exact h1
              · split at h
                · cases h; exact h1
                · split at h
                  · cases h; exact h1
                  · exact ih _ _ _ _ _ (by exact h1) h
            · exact ih _ _ _ _ _ (by exact h1) h

theorem fill_keeps (C : Contract S d .never K) {fuel : Nat} {s s' : State τ} {sp : Int} {r : Fill UInt8}
    (hk : ∃ lo hi, K s.input lo hi) (h : fill S fuel s sp = .ok (s', r)) : ∃ lo hi, K s'.input lo hi := by
  unfold fill at h
  split at h
  · cases h; exact hk
  · split at h
    · split at h
      · cases h; exact hk
      · split at h
        · cases h; exact hk
        · cases h; exact hk
    · obtain ⟨⟨s1, o, er⟩, e1, h⟩ := BufferedStream.bind_eq_ok h
      cases h
      exact loop_keeps C sp _ _ _ _ _ _ hk e1

theorem tracked (C : Contract S d .never K) (N : Nat) :
    BufferedStream.Tracked (producer S N) (fun f => ∃ lo hi, K f.input lo hi) (fun f => ∃ lo hi, K f.input lo hi) :=
  ⟨fun hk _ h _ _ => fill_keeps C hk h, fun hk _ h _ _ => fill_keeps C hk h⟩

end Base64

namespace Mail

open StringTerminated (Cut Inv SearchOk)
open Kmp (Occ)
open Mime (Line LastLine Header PartHeader CutHeader delimiter closing Searchable IsEntry Body)

variable {σ : Type} {P : StreamOps σ UInt8} {c : List UInt8} {H : σ → Int → Int → Prop}
  {conv : List UInt8 → List UInt8 → List UInt8} {N : Nat}

theorem embeds_plain : Embeds (StringTerminated.ops P) (entryOps P N) Entry.plain :=
  ⟨fun _ _ _ => rfl, fun _ _ => rfl, fun _ _ => rfl, fun _ => rfl, fun _ => rfl, fun _ => rfl⟩

theorem embeds_base64 : Embeds (BufferedStream.ops (Base64.producer (StringTerminated.ops P) N)) (entryOps P N) Entry.base64 :=
  ⟨fun _ _ _ => rfl, fun _ _ => rfl, fun _ _ => rfl, fun _ => rfl, fun _ => rfl, fun _ => rfl⟩

theorem embeds_body : Embeds (SubInputStream.ops P) (entryOps P N) Entry.body :=
  ⟨fun _ _ _ => rfl, fun _ _ => rfl, fun _ _ => rfl, fun _ => rfl, fun _ => rfl, fun _ => rfl⟩

/-- The entry streams and what is left of them. -/
theorem entry_spec (C : Contract P c .never H) (hlen : (c.length : Int) < 2 ^ 31) {k : Kmp.Searcher} {q content : List UInt8} {o L : Int}
    (hK : SearchOk k q) (hC : Cut q c o L) (hc : slice c o L = content) (hN : content.length + 1 < N)
    {e : StringTerminated σ} (h : Inv P H k q c o L e 0 0) (hp : e.pos = 0) :
    (IsStream (entryOps P N) content .never False (Entry.plain e) ∧
      ∀ x lo hi, Uses (entryOps P N) content False (Entry.plain e) x lo hi →
        ∃ e' lo hi, substream x = some e' ∧ Inv P H k q c o L e' lo hi) ∧
    (IsStream (entryOps P N) (B64.decoded content) .never False (Entry.base64 (BufferedStream.new (Base64.State.new e))) ∧
      ∀ x lo hi, Uses (entryOps P N) (B64.decoded content) False (Entry.base64 (BufferedStream.new (Base64.State.new e))) x lo hi →
        ∃ e' lo hi, substream x = some e' ∧ Inv P H k q c o L e' lo hi) := by
  subst hc
  have C1 := StringTerminated.contract C id hK hC hlen
  have hp1 : (StringTerminated.ops P).position e = 0 := hp
  have h1 : Inv P H k q c o L e ((StringTerminated.ops P).position e) ((StringTerminated.ops P).position e) := by rw [hp1]; exact h
  refine ⟨⟨?_, ?_⟩, ?_, ?_⟩
  · exact embeds_plain.isStream (C1.isStream (fun z => z.elim) h1)
  · intro x lo hi hu
    obtain ⟨e', rfl, hu'⟩ := embeds_plain.uses hu
    exact ⟨e', lo, hi, rfl, C1.uses (fun z => z.elim) h1 hu'⟩
  all_goals
    have hR := Props.base64_rest (P := StringTerminated.ops P) (H := Inv P H k q c o L) h (N := N) hN
    rw [hp1, Int.toNat_zero, List.drop_zero] at hR
    have hP := Base64.produces C1 N
    have hT := Base64.tracked C1 N
    have C2 := (BufferedStream.contract hP (B64.decoded (slice c o L)) (-1)).and
      (J := BufferedStream.Tracks (fun f => ∃ lo hi, Inv P H k q c o L f.input lo hi) (fun f => ∃ lo hi, Inv P H k q c o L f.input lo hi))
      (fun s mn mx s' n d hj e => BufferedStream.read_tracks hT hj e)
      (fun s n s' r hj e => BufferedStream.skipLoop_tracks hT _ hj e)
      (fun s q s' r hj e => BufferedStream.reset_tracks hj e)
    have hF : BufferedStream.fails (Failure.never).onRead (B64.decoded (slice c o L)) (-1) = .never := by
      simp [BufferedStream.fails, Failure.never]
    rw [hF] at C2
    have h2 : BufferedStream.Tracks (fun f => ∃ lo hi, Inv P H k q c o L f.input lo hi) (fun f => ∃ lo hi, Inv P H k q c o L f.input lo hi)
        (BufferedStream.new (Base64.State.new e) : BufferedStream (Base64.State (StringTerminated σ)) UInt8) :=
      Or.inr (Or.inl ⟨rfl, 0, 0, h⟩)
    have h3 := BufferedStream.healthy_new hR (-1)
  · exact embeds_base64.isStream (C2.isStream (fun z => z.elim) ⟨h3, h2⟩)
  · intro x lo hi hu
    obtain ⟨b, rfl, hu'⟩ := embeds_base64.uses hu
    have hb := C2.uses (fun z => z.elim) ⟨h3, h2⟩ hu'
    rcases hb.2 with z | ⟨_, lo, hi, z⟩ | ⟨_, lo, hi, z⟩
    · exact absurd z hb.1.1.st
    · exact ⟨_, lo, hi, rfl, z⟩
    · exact ⟨_, lo, hi, rfl, z⟩

theorem drain_spec (C : Contract P c .never H) (hlen : (c.length : Int) < 2 ^ 31) {k : Kmp.Searcher} {q : List UInt8} {o L : Int}
    (hK : SearchOk k q) (hC : Cut q c o L) : ∀ (fuel : Nat) (e : StringTerminated σ) (lo hi : Int),
    Inv P H k q c o L e lo hi → L - e.pos + 1 < fuel →
    ∃ e' lo hi, drain P fuel e = .ok e' ∧ e'.status = .eof ∧ Inv P H k q c o L e' lo hi := by
  intro fuel
  induction fuel with
  | zero => intro e lo hi h hf; have := h.hi0; have := h.hi1; omega
  | succ fuel ih =>
    intro e lo hi h hf
    rw [drain]
    by_cases hs : e.status = .ok
    · rw [if_pos hs]
      obtain ⟨e1, n, d, e2, r, h1, _⟩ := StringTerminated.read_spec C id hK hC hlen h (mn := 1) (mx := 0) (by omega) (Or.inl rfl)
      rw [e2]
      simp only [Res.bind_ok]
      cases r with
      | data pos _ _ adv _ _ _ => exact ih e1 _ _ h1 (by omega)
      | ended _ _ atEnd stay st =>
        obtain ⟨fuel, rfl⟩ : ∃ f, fuel = f + 1 := ⟨fuel - 1, by have := h.hi0; have := h.hi1; omega⟩
        rw [drain, if_neg (by rw [st]; decide)]
        exact ⟨e1, _, _, rfl, st, h1⟩
      | failed a _ _ => exact absurd a id
    · rw [if_neg hs]
      refine ⟨e, lo, hi, rfl, ?_, h⟩
      have := h.st
      cases hst : e.status <;> simp_all

/-! ## The end of the input -/

theorem last_read (C : Contract P c .never H) (stale : Int) {s : State σ} {text : List UInt8} (hon : On P H c s text) (hl : LastLine text)
    {fuel : Nat} (hf : text.length + 1 < fuel) : ∃ s', readHeaderLine P stale fuel s = .ok s' ∧ Last P H c s s' text :=
  (readLine C stale hon hf).2 hl

theorem partHeader_last (C : Contract P c .never H) (stale : Int) {s : State σ} {text : List UInt8} (hon : On P H c s text) (hl : LastLine text)
    {fuel : Nat} (hf : text.length + 1 < fuel) (n : Nat) :
    ∃ s', partHeader P conv stale fuel (n + 1) s = .ok s' ∧ Last P H c s s' text := by
  obtain ⟨s1, e1, g⟩ := last_read C stale hon hl hf
  refine ⟨s1, ?_, g⟩
  rw [partHeader, e1]
  simp only [Res.bind_ok]
  rw [if_neg]
  obtain ⟨i, d, n, rfl⟩ := g.eq
  simp

theorem handle_last (C : Contract P c .never H) (stale : Int) {s : State σ} {text : List UInt8} (hon : On P H c s text) (hl : LastLine text)
    {fuel : Nat} (hf : text.length + 1 < fuel) (he : s.entry = none) :
    ∃ s', handleBodyLine P conv stale fuel s = .ok (s', false) ∧ s'.status = .eof ∧ s'.entry = none := by
  obtain ⟨n, hn⟩ : ∃ n, fuel = n + 1 := ⟨fuel - 1, by omega⟩
  obtain ⟨s1, e1, g1⟩ := partHeader_last (conv := conv) C stale (s := clearHeaders s) (on_congr hon rfl rfl) hl hf n
  rw [← hn] at e1
  obtain ⟨s2, e2, g2⟩ := last_read C stale g1.on hl hf
  have hb1 : s1.boundary = s.boundary := by obtain ⟨_, _, _, rfl⟩ := g1.eq; rfl
  have hst2 : s2.status = .eof := by obtain ⟨_, _, _, rfl⟩ := g2.eq; rfl
  have hen2 : s2.entry = none := by
    obtain ⟨_, _, _, rfl⟩ := g2.eq
    obtain ⟨_, _, _, rfl⟩ := g1.eq
    exact he
  refine ⟨s2, ?_, hst2, hen2⟩
  unfold handleBodyLine
  rw [e1]
  simp only [Res.bind_ok]
  rw [hb1, if_neg (by omega), e2]
  simp only [Res.bind_ok]
  rw [if_pos (by rw [hst2]; decide)]

theorem bodyLine_last (C : Contract P c .never H) (stale : Int) {s s1 : State σ} {text : List UInt8} (g : Last P H c s s1 text) (hl : LastLine text)
    {fuel : Nat} (hf : text.length + 1 < fuel) (he : s.entry = none) {b : List UInt8} {bs : List (List UInt8)} (hb : s.boundary = b :: bs)
    (h0 : 0 ∉ b) :
    ∃ s', bodyLine P conv stale fuel s1 = .ok (s', false) ∧ s'.status = .eof ∧ s'.entry = none := by
  have hst : s1.status = .eof := by obtain ⟨_, _, _, rfl⟩ := g.eq; rfl
  have hen : s1.entry = none := by obtain ⟨_, _, _, rfl⟩ := g.eq; exact he
  have hbd : s1.boundary = b :: bs := by obtain ⟨_, _, _, rfl⟩ := g.eq; exact hb
  unfold bodyLine
  rcases g.mem with ⟨_, hn⟩ | ⟨_, hm, hn⟩
  · have : isDashed s1 = .ok false := by unfold isDashed; rw [if_neg (by omega)]
    rw [this]
    simp only [Res.bind_ok]
    exact ⟨s1, rfl, hst, hen⟩
  · obtain ⟨qd, e1, h1⟩ := isDashed_spec s1 (l := text) (r := []) (by rw [hm]; simp) hn
    rw [e1]
    simp only [Res.bind_ok]
    cases qd with
    | false => exact ⟨s1, rfl, hst, hen⟩
    | true =>
      obtain ⟨t, ht, _⟩ := h1.mp rfl
      simp only [if_true, hbd]
      rw [isClose_spec s1 h0 ⟨t, ht⟩ (r := []) (by rw [hm]; simp) hn]
      simp only [Res.bind_ok]
      by_cases hc : text = closing b
      · rw [if_pos (by simpa using hc)]
        refine ⟨_, rfl, ?_, hen⟩
        simp only; split
        · rfl
        · exact hst
      · rw [if_neg (by simpa using hc), isOpen_spec s1 h0 ⟨t, ht⟩ (r := []) (by rw [hm]; simp) hn]
        simp only [Res.bind_ok]
        by_cases ho : text = delimiter b
        · rw [if_pos (by simpa using ho)]
          exact handle_last C stale g.on hl hf hen
        · rw [if_neg (by simpa using ho)]
          exact ⟨s1, rfl, hst, hen⟩

/-- Nothing more follows: the scan ends. -/
theorem scan_ended (C : Contract P c .never H) (stale : Int) {s : State σ} {text : List UInt8} (hon : On P H c s text) (hl : LastLine text)
    {fuel : Nat} (hf : text.length + 1 < fuel) (hst : s.status = .ok) (he : s.entry = none) {b : List UInt8} {bs : List (List UInt8)}
    (hb : s.boundary = b :: bs) (h0 : 0 ∉ b) (m : Nat) :
    ∃ s', scanBody P conv stale fuel (m + 2) s = .ok s' ∧ s'.status = .eof ∧ s'.entry = none := by
  obtain ⟨s1, e1, g⟩ := last_read C stale hon hl hf
  obtain ⟨s2, e2, h2, h3⟩ := bodyLine_last (conv := conv) C stale g hl hf he hb h0
  refine ⟨s2, ?_, h2, h3⟩
  rw [scanBody, if_pos hst, e1]
  simp only [Res.bind_ok]
  rw [e2]
  simp only [Res.bind_ok]
  rw [if_neg (by decide), scanBody, if_neg (by rw [h2]; decide)]

/-! ## Lines of the body -/

/-- The state after a line that is not a delimiter, or in front of what a delimiter leads to. -/
theorem body_line {s s1 : State σ} {l brk rest b : List UInt8} {bs : List (List UInt8)} (stale : Int) (fuel : Nat)
    (g : Got P H c s s1 l brk rest) (hb : s.boundary = b :: bs) (h0 : 0 ∉ b) (hne : b ≠ []) :
    (l ≠ delimiter b → l ≠ closing b → bodyLine P conv stale fuel s1 = .ok (s1, false)) ∧
    (l = delimiter b → bodyLine P conv stale fuel s1 = handleBodyLine P conv stale fuel s1) ∧
    (l = closing b → bodyLine P conv stale fuel s1 =
      .ok ({ s1 with boundary := bs, status := if bs = [] then .eof else s1.status }, false)) := by
  have hbd : s1.boundary = b :: bs := by obtain ⟨_, _, rfl⟩ := g.eq; exact hb
  have hn : s1.len = l.length := by obtain ⟨_, _, rfl⟩ := g.eq; rfl
  obtain ⟨t, hm, _⟩ := g.mem
  rw [List.append_assoc] at hm
  obtain ⟨qd, e1, h1⟩ := isDashed_spec s1 hm hn
  have hlen := List.length_pos_iff.mpr hne
  unfold bodyLine
  rw [e1]
  simp only [Res.bind_ok]
  refine ⟨fun ho hc => ?_, fun ho => ?_, fun hc => ?_⟩
  · cases qd with
    | false => rfl
    | true =>
      obtain ⟨t, ht, _⟩ := h1.mp rfl
      simp only [if_true, hbd]
      rw [isClose_spec s1 h0 ⟨t, ht⟩ hm hn]
      simp only [Res.bind_ok]
      rw [if_neg (by simpa using hc), isOpen_spec s1 h0 ⟨t, ht⟩ hm hn]
      simp only [Res.bind_ok]
      rw [if_neg (by simpa using ho)]
  · have hq : qd = true := h1.mpr ⟨b, ho, hne⟩
    subst hq
    simp only [if_true, hbd]
    rw [isClose_spec s1 h0 ⟨b, ho⟩ hm hn]
    simp only [Res.bind_ok]
    have hc : l ≠ closing b := by
      intro z
      have := congrArg List.length (ho.symm.trans z)
      simp [delimiter, closing] at this
    rw [if_neg (by simpa using hc), isOpen_spec s1 h0 ⟨b, ho⟩ hm hn]
    simp only [Res.bind_ok]
    rw [if_pos (by simpa using ho)]
  · have hq : qd = true := h1.mpr ⟨b ++ [45, 45], hc, by simp⟩
    subst hq
    simp only [if_true, hbd]
    rw [isClose_spec s1 h0 ⟨b ++ [45, 45], hc⟩ hm hn]
    simp only [Res.bind_ok]
    rw [if_pos (by simpa using hc)]

end Mail
end Strigi
