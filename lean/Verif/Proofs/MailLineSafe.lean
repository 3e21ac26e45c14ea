import Verif.Proofs.PartSafe
import Verif.Proofs.MailHeader

/-!
# Lines of a mail, on arbitrary bytes
-/

namespace Strigi.Mail

variable {σ : Type} {P : StreamOps σ UInt8} {c : List UInt8} {lo : Int} {H : σ → Prop} {W : σ → Int → Int → Prop}
  {conv : List UInt8 → List UInt8 → List UInt8}

/-- The input can go to the start of the next line, or it is at the end. -/
structure Start (P : StreamOps σ UInt8) (c : List UInt8) (H : σ → Prop) (W : σ → Int → Int → Prop) (s : State σ) : Prop where
  input : H s.input
  low : 0 ≤ s.nextLine
  high : s.nextLine ≤ c.length
  reach : P.position s.input = c.length ∨ P.position s.input = s.nextLine ∨ ∃ a b, W s.input a b ∧ a ≤ s.nextLine ∧ s.nextLine ≤ b

/-- What `readHeaderLine` makes of a state. -/
inductive After (P : StreamOps σ UInt8) (c : List UInt8) (H : σ → Prop) (W : σ → Int → Int → Prop) (stale : Int) (s : State σ) : State σ → Prop
  | line {i : σ} {l r : List UInt8} {x : UInt8} {p : Int} : H i → P.position i = s.nextLine → W i s.nextLine (s.nextLine + (l ++ x :: r).length) →
      x = 13 ∨ x = 10 → (l.length : Int) < p → p < (l ++ x :: r).length → (l ++ x :: r).length ≤ 2 ^ 20 → s.nextLine + (l ++ x :: r).length ≤ c.length →
      After P c H W stale s { s with input := i, line := l ++ x :: r, len := l.length, nextLine := s.nextLine + p }
  | last {i : σ} {d : List UInt8} {n : Int} : Start P c H W { s with input := i } → n ≤ d.length →
      After P c H W stale s { s with input := i, line := d, len := n, status := .eof }
  | long {i : σ} {d : List UInt8} : Start P c H W { s with input := i } → 2 ^ 20 < d.length →
      After P c H W stale s { s with input := i, line := d, status := .error, len := stale }

theorem lineLoop_total (E : Env P c lo H W) (stale : Int) : ∀ (fuel : Nat) (s : State σ) (st : LineState) (linepos : Int), H s.input →
    P.position s.input = s.nextLine → 0 ≤ linepos → linepos ≤ 2 ^ 20 → s.nextLine + linepos ≤ c.length →
    scanLine .ok 0 (slice c s.nextLine linepos) = (st, linepos, none) → c.length - s.nextLine - linepos + 1 < fuel →
    ∃ s', lineLoop P stale fuel s st linepos = .ok s' ∧ After P c H W stale s s' := by
  intro fuel
  induction fuel with
  | zero => intro s st linepos _ _ _ _ _ _ h; omega
  | succ fuel ih =>
    intro s st linepos h hp l0 l1 l2 hscan hf
    have hr := E.range h
    have hsm := E.small
    rw [lineLoop]
    obtain ⟨i, n, d, er, h', hshort, hlim, hdata, hneg, hw⟩ : ∃ s' n d, P.read s.input (linepos + 1) maxLineSize = .ok (s', n, d) ∧ H s' ∧
        (linepos < 2 ^ 20 → n < linepos + 1 → P.position s' = c.length) ∧
        (linepos + 1 ≤ maxLineSize → n ≤ maxLineSize) ∧ (0 ≤ n → d = slice c (P.position s.input) n ∧ (d.length : Int) = n ∧ P.position s' = P.position s.input + n) ∧
        (n < 0 → P.position s' = P.position s.input) ∧ W s' (P.position s.input) (P.position s') := by
      by_cases hl : linepos < 2 ^ 20
      · obtain ⟨s', n, d, e, h', g, g'⟩ := E.fetch h (mn := linepos + 1) (mx := maxLineSize) (by omega) (by omega) (Or.inl (by simp only [maxLineSize]; omega))
        exact ⟨s', n, d, e, h', fun _ => g, g'⟩
      · obtain ⟨s', n, d, e, h', g'⟩ := E.any h (mn := linepos + 1) (mx := maxLineSize) (by omega) (by omega)
        exact ⟨s', n, d, e, h', fun z => absurd z hl, g'⟩
    rw [er, Res.bind_ok]
    dsimp only
    have hr' := E.range h'
    have hmono : s.nextLine ≤ P.position i := by
      by_cases n0 : 0 ≤ n
      · have := (hdata n0).2.2; omega
      · have := hneg (by omega); omega
    rw [hp] at hw
    by_cases hn : n < linepos + 1
    · rw [if_pos hn]
      refine ⟨_, rfl, .last ⟨h', by simp only; omega, by simp only; omega, Or.inr (Or.inr ⟨_, _, hw, Int.le_refl _, hmono⟩)⟩ ?_⟩
      by_cases n0 : 0 ≤ n
      · have := (hdata n0).2.1; omega
      · omega
    rw [if_neg hn]
    obtain ⟨hd, hdl, hpos⟩ := hdata (by omega)
    rw [hp] at hpos hd
    obtain ⟨j, ej, hj, pj, wj⟩ := E.back h' hw (q := s.nextLine) (by omega) (by omega) (by omega)
    rw [ej, Res.bind_ok]
    dsimp only
    rw [if_neg (E.calm j hj)]
    by_cases hlong : linepos ≥ maxLineSize
    · rw [if_pos hlong]
      simp only [maxLineSize] at hlong
      exact ⟨_, rfl, .long ⟨hj, by simp only; omega, by simp only; omega, Or.inr (Or.inl (by simpa using pj))⟩ (by omega)⟩
    rw [if_neg hlong]
    simp only [maxLineSize] at hlong hlim
    have hn2 := hlim (by omega)
    -- the scan goes on where it stopped
    have hsplit : slice c s.nextLine linepos ++ slice d linepos (n - linepos) = d := by
      rw [hd, slice_slice (by omega) (by omega) (by omega) (by omega), slice_append (by omega) (by omega) (by omega)]
      congr 1; omega
    have hla : ((slice c s.nextLine linepos).length : Int) = linepos := slice_length (by omega) (by omega) (by omega)
    have hgo : scanLine st linepos (slice d linepos (n - linepos)) = scanLine .ok 0 d := by
      rcases scan_append (slice d linepos (n - linepos)) (slice c s.nextLine linepos) .ok 0 with ⟨st', e1, e2⟩ | ⟨st', p, k, e1, _⟩
      · rw [hscan] at e1
        simp only [Prod.mk.injEq] at e1
        rw [hsplit] at e2
        rw [e2, ← e1.1, hla]
        simp
      · rw [hscan] at e1; cases e1
    rw [hgo]
    rcases scan_append [] d .ok 0 with ⟨st', e1, _⟩ | ⟨st', p, k, e1, p1, p2, _⟩
    · rw [e1]
      dsimp only
      obtain ⟨s', e, A⟩ := ih { s with input := j, line := d } st' (0 + d.length) hj (by simpa using pj) (by omega) (by omega) (by simp only; omega)
        (by simp only
            rw [show (0 : Int) + d.length = n by omega, ← hd, e1]
            simp; omega) (by simp only; omega)
      refine ⟨s', e, ?_⟩
      cases A with
      | line a1 a2 a3 a4 a5 a6 a7 a8 => exact .line a1 a2 a3 a4 a5 a6 a7 a8
      | last a1 a2 => exact .last ⟨a1.input, a1.low, a1.high, a1.reach⟩ a2
      | long a1 a2 => exact .long ⟨a1.input, a1.low, a1.high, a1.reach⟩ a2
    · rw [e1]
      dsimp only
      obtain ⟨l, brk, x, t, f1, _, f3, f4, f5⟩ := scan_sound d.length d 0 st' p k (Nat.le_refl _) (by omega) e1
      obtain ⟨y, brk', hbrk, hy⟩ : ∃ y brk', brk = y :: brk' ∧ (y = 13 ∨ y = 10) := by
        rcases f5 with ⟨z, _⟩ | ⟨z, _⟩ | ⟨z, _⟩
        · exact ⟨13, [], z, Or.inl rfl⟩
        · exact ⟨10, [], z, Or.inr rfl⟩
        · exact ⟨13, [10], z, Or.inl rfl⟩
      have hshape : d = l ++ y :: (brk' ++ x :: t) := by rw [f1, hbrk]; simp
      have hpn : P.position i = s.nextLine + d.length := by omega
      rw [hpn] at wj
      have hpl : (l.length : Int) < p := by rw [f4, hbrk]; simp
      have hfit : s.nextLine + (d.length : Int) ≤ c.length := by omega
      have h20 : d.length ≤ 2 ^ 20 := by omega
      refine ⟨_, rfl, ?_⟩
      rw [show k = (l.length : Int) by omega]
      rw [hshape] at wj p2 h20 hfit ⊢
      exact .line hj pj wj hy hpl (by omega) h20 hfit

theorem readHeaderLine_total (E : Env P c lo H W) (stale : Int) {fuel : Nat} (hf : c.length + 1 < fuel) {s : State σ} (h : Start P c H W s) :
    ∃ s', readHeaderLine P stale fuel s = .ok s' ∧ After P c H W stale s s' := by
  have hl := h.low
  have hh := h.high
  have hr0 := E.range h.input
  unfold readHeaderLine
  obtain ⟨i, r, e, hi, hp, hr⟩ : ∃ i r, P.reset s.input s.nextLine = .ok (i, r) ∧ H i ∧ P.position i = r ∧ (r = s.nextLine ∨ r = c.length) := by
    rcases h.reach with z | z | ⟨a, b, w, w1, w2⟩
    · obtain ⟨i, r, e, hi, hp, hr⟩ := E.seek h.input hl
      exact ⟨i, r, e, hi, hp, by omega⟩
    · obtain ⟨i, r, e, hi, hp, hr⟩ := E.seek h.input hl
      exact ⟨i, r, e, hi, hp, by omega⟩
    · obtain ⟨i, e, hi, hp, _⟩ := E.back h.input w hl w1 w2
      exact ⟨i, _, e, hi, hp, Or.inl rfl⟩
  rw [e, Res.bind_ok]
  dsimp only
  have lift : ∀ s', After P c H W stale { s with input := i } s' → After P c H W stale s s' := by
    intro s' A
    cases A with
    | line a1 a2 a3 a4 a5 a6 a7 a8 => exact .line a1 a2 a3 a4 a5 a6 a7 a8
    | last a1 a2 => exact .last a1 a2
    | long a1 a2 => exact .long a1 a2
  by_cases hs : P.position i = s.nextLine
  · obtain ⟨s', e', A⟩ := lineLoop_total E stale fuel { s with input := i } .ok 0 hi (by simpa using hs) (by omega) (by omega) (by simp only; omega)
      (by simp [slice, scanLine]) (by simp only; omega)
    exact ⟨s', e', lift s' A⟩
  · -- the input stays at its end
    cases fuel with
    | zero => omega
    | succ fuel =>
    rw [lineLoop]
    obtain ⟨j, n, d, er, h', _, hdata, hneg, hw⟩ := E.any hi (mn := 0 + 1) (mx := maxLineSize) (by omega) (by omega)
    rw [er, Res.bind_ok]
    dsimp only
    have hr' := E.range h'
    have hn : n < 0 + 1 := by
      by_cases z : 1 ≤ n
      · have := (hdata (by omega)).2.2; omega
      · omega
    rw [if_pos hn]
    refine ⟨_, rfl, .last ⟨h', hl, hh, Or.inl ?_⟩ ?_⟩
    · by_cases n0 : 0 ≤ n
      · have := (hdata n0).2.2; simp only; omega
      · have := hneg (by omega); simp only; omega
    · by_cases n0 : 0 ≤ n
      · have := (hdata n0).2.1; omega
      · omega

end Strigi.Mail
