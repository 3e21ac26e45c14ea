import Verif.Proofs.MailLines

namespace Strigi.Mail

open Mime (Space Line LastLine)

variable {σ : Type} {P : StreamOps σ UInt8} {c : List UInt8} {H : σ → Int → Int → Prop}

/-- The input can be reset to the position of the next line; there the text is `text`. -/
def On (P : StreamOps σ UInt8) (H : σ → Int → Int → Prop) (c : List UInt8) (s : State σ) (text : List UInt8) : Prop :=
  (∃ i r, P.reset s.input s.nextLine = .ok (i, r) ∧ P.position i = s.nextLine ∧ H i s.nextLine s.nextLine) ∧
    c.drop s.nextLine.toNat = text

theorem On.range (C : Contract P c .never H) {s : State σ} {text : List UInt8} (h : On P H c s text) :
    0 ≤ s.nextLine ∧ s.nextLine + text.length = c.length := by
  obtain ⟨⟨i, r, _, h2, h3⟩, rfl⟩ := h
  have := C.range h3
  rw [List.length_drop]; omega

theorem On.of_window (C : Contract P c .never H) {s : State σ} {lo hi : Int} (h : H s.input lo hi) (h1 : lo ≤ s.nextLine)
    (h2 : s.nextLine ≤ hi) : On P H c s (c.drop s.nextLine.toNat) := by
  obtain ⟨i, e, p, _, _, k⟩ := C.reset h h1 h2
  exact ⟨⟨i, _, e, p, k⟩, rfl⟩

/-- The result of reading a line. -/
structure Got (P : StreamOps σ UInt8) (H : σ → Int → Int → Prop) (c : List UInt8) (s s' : State σ)
    (l brk rest : List UInt8) : Prop where
  eq : ∃ i d, s' = { s with input := i, line := d, len := l.length, nextLine := s.nextLine + (l.length + brk.length : Nat) }
  mem : ∃ t, s'.line = l ++ brk ++ t ∧ t ≠ []
  brk_eq : ∃ b u, brk = b :: u ∧ (b = 13 ∨ b = 10)
  on : On P H c s' rest
  /-- The input is at the start of the line. -/
  pos : P.position s'.input = s.nextLine
  win : ∃ lo hi, H s'.input lo hi ∧ lo ≤ s.nextLine ∧ s.nextLine ≤ hi

/-- The result at the end of the input. -/
structure Last (P : StreamOps σ UInt8) (H : σ → Int → Int → Prop) (c : List UInt8) (s s' : State σ) (text : List UInt8) : Prop where
  eq : ∃ i d n, s' = { s with input := i, line := d, len := n, status := .eof }
  mem : (text = [] ∧ (s'.len = -1 ∨ s'.len = 0)) ∨ (text ≠ [] ∧ s'.line = text ∧ s'.len = text.length)
  on : On P H c s' text

theorem slice_from {d : List UInt8} {k : Int} (h0 : 0 ≤ k) (h1 : k ≤ d.length) :
    d = d.take k.toNat ++ slice d k ((d.length : Int) - k) := by
  unfold slice
  rw [List.take_of_length_le (l := d.drop k.toNat) (by rw [List.length_drop]; omega), List.take_append_drop]

theorem lineLoop_spec (C : Contract P c .never H) (stale : Int) {text : List UInt8} (s : State σ) (hst : s.nextLine + text.length = c.length)
    (hn0 : 0 ≤ s.nextLine) (htext : c.drop s.nextLine.toNat = text) :
    ∀ (fuel : Nat) (s1 : State σ) (st : LineState) (k : Nat), (∃ i d, s1 = { s with input := i, line := d }) →
      (∃ hi, H s1.input s.nextLine hi) → P.position s1.input = s.nextLine →
      scanLine .ok 0 (text.take k) = (st, (k : Int), none) → k ≤ text.length → k < 2 ^ 20 → text.length - k + 1 < fuel →
      (∀ l rest, Line text l rest → ∃ s' brk, text = l ++ brk ++ rest ∧ lineLoop P stale fuel s1 st k = .ok s' ∧ Got P H c s s' l brk rest) ∧
      (LastLine text → ∃ s', lineLoop P stale fuel s1 st k = .ok s' ∧ Last P H c s s' text) := by
  intro fuel
  induction fuel with
  | zero => intro s1 st k _ _ _ _ _ _ h; omega
  | succ fuel ih =>
    intro s1 st k hs1 hH hpos hscan hk hk2 hf
    obtain ⟨hi, hH⟩ := hH
    obtain ⟨i0, d0, rfl⟩ := hs1
    simp only at hH hpos
    obtain ⟨i, n, d, e, r, w⟩ := C.read hH (min := (k : Int) + 1) (max := maxLineSize) (by omega) (Or.inr (by unfold maxLineSize; omega))
    rw [lineLoop]
    simp only [e, Res.bind_ok]
    rw [hpos] at r w
    -- a scan over a prefix that ends without a result determines the whole
    have scanned : ∀ m : Nat, scanLine .ok 0 (text.take m) = (st, (k : Int), none) → m = k → m ≤ text.length →
        scanLine .ok 0 text = scanLine st k (text.drop k) := by
      intro m h1 h2 h3
      subst h2
      rcases scan_append (text.drop m) (text.take m) .ok 0 with ⟨st', g1, g2⟩ | ⟨st', p, q, g1, _⟩
      · rw [g1] at h1
        simp only [Prod.mk.injEq] at h1
        obtain ⟨rfl, _⟩ := h1
        rw [List.take_append_drop] at g2
        rw [g2, List.length_take, Nat.min_eq_left h3]; simp
      · rw [g1] at h1; cases h1
    have hall := scanned k hscan rfl hk
    cases r with
    | failed allowed code st => exact absurd allowed id
    | ended none nodata atEnd stay st' =>
      have ht : text = [] := List.length_eq_zero_iff.mp (by omega)
      rw [if_pos (by omega)]
      refine ⟨fun l rest hl => ?_, fun _ => ⟨_, rfl, ⟨i, d, n, rfl⟩, Or.inl ⟨ht, by simpa using none⟩, ?_⟩⟩
      · obtain ⟨_, p, _, _, h3, _⟩ := scan_line hl
        rw [ht] at h3; simp at h3
      · rw [← htext]; exact On.of_window C (w (by rw [st']; decide)) (by simp) (by simp; omega)
    | data pos items inside adv limit enough st' =>
      have hd : d = text.take n.toNat := by rw [items]; unfold slice; rw [htext]
      have hdl : (d.length : Int) = n := by rw [hd, List.length_take]; omega
      have hlim := limit (by unfold maxLineSize; omega)
      by_cases hshort : n < (k : Int) + 1
      · rw [if_pos hshort]
        have hnt : n = text.length := by omega
        have hkt : k = text.length := by omega
        refine ⟨fun l rest hl => ?_, fun _ => ⟨_, rfl, ⟨i, d, n, rfl⟩, Or.inr ⟨?_, ?_, ?_⟩, ?_⟩⟩
        · obtain ⟨st2, p, h1, _⟩ := scan_line hl
          rw [hall, hkt] at h1
          simp [scanLine] at h1
        · intro z; rw [z] at hkt hnt; simp at hnt; omega
        · simp only; rw [hd, hnt]; simp
        · simp only; omega
        · conv_rhs => rw [← htext]
          exact On.of_window C (w st') (by simp) (by simp; omega)
      · rw [if_neg hshort]
        obtain ⟨i2, e2, p2, g2, k2, _⟩ := C.reset (w st') (q := s.nextLine) (by omega) (by omega)
        rw [e2]
        simp only [Res.bind_ok]
        rw [if_neg g2, if_neg (by unfold maxLineSize; omega)]
        have hH2 := k2 (by omega)
        -- the scan of the new bytes continues the scan
        have hsl : slice d k (n - k) = (text.take n.toNat).drop k := by
          unfold slice
          rw [hd, List.take_of_length_le]
          · simp
          · rw [List.length_drop, List.length_take]; omega
        have hdk : d = text.take k ++ slice d k (n - k) := by
          rw [hsl]
          conv_lhs => rw [hd, ← List.take_append_drop k (text.take n.toNat)]
          rw [List.take_take, Nat.min_eq_left (by omega)]
        have hcont : scanLine .ok 0 d = scanLine st k (slice d k (n - k)) := by
          conv_lhs => rw [hdk]
          rcases scan_append (slice d k (n - k)) (text.take k) .ok 0 with ⟨st', g1, g3⟩ | ⟨st', p, q, g1, _⟩
          · rw [g1] at hscan
            simp only [Prod.mk.injEq] at hscan
            obtain ⟨rfl, _⟩ := hscan
            rw [g3, List.length_take, Nat.min_eq_left hk]; simp
          · rw [g1] at hscan; cases hscan
        rw [← hcont]
        have htd : text = d ++ text.drop n.toNat := by rw [hd, List.take_append_drop]
        rcases scan_append (text.drop n.toNat) d .ok 0 with ⟨st2, g1, g3⟩ | ⟨st2, p, q, g1, g3, g4, g5⟩
        · -- not complete yet
          rw [g1]
          simp only
          rw [← htd] at g3
          by_cases hmax : n = 2 ^ 20
          · -- only a line that is too long could be meant
            refine ⟨fun l rest hl => ?_, fun hl => ?_⟩
            · obtain ⟨st3, p, h1, h2, h3, h4, _⟩ := scan_line hl
              rw [g3] at h1
              have : (n : Int) ≤ p := by
                rcases scan_append [] (text.drop n.toNat) st2 (0 + d.length) with ⟨_, z, _⟩ | ⟨_, _, _, z, z1, _⟩
                · rw [z] at h1; cases h1
                · rw [z] at h1; cases h1; omega
              omega
            · have := hl.1; omega
          · have hn : (0 : Int) + d.length = (n.toNat : Int) := by omega
            rw [hn]
            unfold maxLineSize at hlim
            have hrec := ih { s with input := i2, line := d } st2 n.toNat ⟨i2, d, rfl⟩ ⟨_, hH2⟩ p2
              (by rw [← hd, g1, hn]) (by omega) (by omega) (by omega)
            exact hrec
        · rw [g1]
          simp only
          rw [← htd] at g5
          refine ⟨fun l rest hl => ?_, fun hl => ?_⟩
          · obtain ⟨st3, p', h1, h2, h3, h4, h5, h6, h7, b, t, h8, h9⟩ := scan_line hl
            rw [g5] at h1
            cases h1
            obtain ⟨brk, hb, hbrk⟩ : ∃ brk, text = l ++ brk ++ rest ∧ ∃ b u, brk = b :: u ∧ (b = 13 ∨ b = 10) := by
              obtain ⟨brk, x, t, e, _, _, _, he, _⟩ := hl
              refine ⟨brk, e, ?_⟩
              rcases he with ⟨rfl, _⟩ | ⟨rfl, _⟩ | ⟨rfl, _⟩
              · exact ⟨13, [], rfl, Or.inl rfl⟩
              · exact ⟨10, [], rfl, Or.inr rfl⟩
              · exact ⟨13, [10], rfl, Or.inl rfl⟩
            have hpl : p' = l.length + brk.length := by
              have : (text.drop p').length = rest.length := by rw [h5]
              rw [List.length_drop, hb, List.length_append, List.length_append] at this
              rw [hb, List.length_append, List.length_append] at h3
              omega
            refine ⟨_, brk, hb, rfl, ⟨i2, d, by rw [hpl]⟩, ?_, hbrk, ?_, p2, ⟨_, _, hH2, Int.le_refl _, by omega⟩⟩
            · refine ⟨rest.take (n.toNat - p'), ?_, ?_⟩
              · simp only
                rw [hd, hb, List.take_append, List.length_append, ← hpl, List.take_of_length_le]
                rw [List.length_append]; omega
              · intro z
                have : (rest.take (n.toNat - p')).length = 0 := by rw [z]; rfl
                rw [List.length_take] at this
                have := List.length_pos_iff.mpr h6
                omega
            · have hrest : c.drop (s.nextLine + (p' : Int)).toNat = rest := by
                rw [show (s.nextLine + (p' : Int)).toNat = s.nextLine.toNat + p' by omega, ← List.drop_drop, htext, h5]
              rw [← hrest]
              exact On.of_window C (s := { s with input := i2, line := d, len := l.length, nextLine := s.nextLine + p' }) hH2
                (by simp only; omega) (by simp only; omega)
          · obtain ⟨st3, h1⟩ := scan_last hl
            rw [h1] at g5; cases g5

theorem readLine (C : Contract P c .never H) (stale : Int) {text : List UInt8} {s : State σ} (h : On P H c s text) {fuel : Nat}
    (hf : text.length + 1 < fuel) :
    (∀ l rest, Line text l rest → ∃ s' brk, text = l ++ brk ++ rest ∧ readHeaderLine P stale fuel s = .ok s' ∧ Got P H c s s' l brk rest) ∧
    (LastLine text → ∃ s', readHeaderLine P stale fuel s = .ok s' ∧ Last P H c s s' text) := by
  have hr := h.range C
  obtain ⟨⟨i, r, e, p, k⟩, h4⟩ := h
  unfold readHeaderLine
  simp only [e, Res.bind_ok]
  exact lineLoop_spec C stale s hr.2 hr.1 h4 fuel { s with input := i } .ok 0 ⟨i, s.line, rfl⟩ ⟨_, k⟩ p
    (by simp [scanLine]) (by omega) (by omega) (by omega)

end Strigi.Mail
