import Verif.Proofs.Kmp
import Verif.Proofs.BaseSkip
import Verif.Model.StringTerminated

namespace Strigi

open Kmp (Occ X)

theorem at'_slice {α : Type} {d : α} {c : List α} {p n k : Int} (hp : 0 ≤ p) (hn : k < n)
    (hk : 0 ≤ k) (h : p + n ≤ c.length) : at' d (slice c p n) k = at' d c (p + k) := by
  unfold at' slice
  have h1 : k.toNat < ((c.drop p.toNat).take n.toNat).length := by
    rw [List.length_take, List.length_drop]; omega
  have h2 : (p + k).toNat < c.length := by omega
  simp only [List.getD, List.getElem?_eq_getElem h1, List.getElem?_eq_getElem h2, Option.getD_some,
    List.getElem_take, List.getElem_drop]
  congr 1; omega

theorem occ_slice {q c : List UInt8} {p n k : Int} (hp : 0 ≤ p) (hn : 0 ≤ n) (h : p + n ≤ c.length) :
    Occ q (slice c p n) k ↔ 0 ≤ k ∧ k + q.length ≤ n ∧ Occ q c (p + k) := by
  have hl := slice_length (c := c) hp hn h
  unfold Occ
  rw [hl]
  constructor
  · rintro ⟨a, b, d⟩
    refine ⟨a, b, by omega, by omega, ?_⟩
    intro j h1 h2
    have := d j h1 h2
    unfold X at *
    rw [at'_slice hp (by omega) (by omega) h] at this
    rw [← this]; congr 1; omega
  · rintro ⟨a, b, c1, c2, d⟩
    refine ⟨a, b, ?_⟩
    intro j h1 h2
    have := d j h1 h2
    unfold X at *
    rw [at'_slice hp (by omega) (by omega) h, ← this]
    congr 1; omega

namespace StringTerminated

variable {σ : Type}

/-- The searcher finds the first occurrence of `q` in every haystack. -/
def SearchOk (s : Kmp.Searcher) (q : List UInt8) : Prop :=
  s.query = q ∧ q ≠ [] ∧ ∀ hay, ∃ r, Kmp.search s hay = .ok r ∧
    (∀ p, r = some p → Occ q hay p ∧ ∀ p', p' < p → ¬ Occ q hay p') ∧
    (r = none → ∀ p, ¬ Occ q hay p)

/-- The part of `c` from `o` to the first occurrence of `q` has length `L`. -/
structure Cut (q c : List UInt8) (o L : Int) : Prop where
  o0 : 0 ≤ o
  L0 : 0 ≤ L
  le : o + L ≤ c.length
  before : ∀ j : Int, 0 ≤ j → j < L → ¬ Occ q c (o + j)
  stop : Occ q c (o + L) ∨ (o + L = c.length ∧ ∀ j : Int, 0 ≤ j → ¬ Occ q c (o + j))

structure Inv (P : StreamOps σ UInt8) (H : σ → Int → Int → Prop) (k : Kmp.Searcher) (q c : List UInt8)
    (o L : Int) (s : StringTerminated σ) (lo hi : Int) : Prop where
  search : s.searcher = k
  off : s.offset = o
  lo0 : 0 ≤ lo
  lo1 : lo ≤ s.pos
  hi0 : s.pos ≤ hi
  hi1 : hi ≤ L
  st : s.status ≠ .error
  eof : s.status = .eof → s.pos = L
  win : ∃ h', H s.parent (o + lo) h' ∧ o + hi ≤ h'
  par : P.position s.parent = o + s.pos ∨
    (s.status = .eof ∧ Occ q c (o + L) ∧ P.position s.parent = o + L + q.length)
  far0 : 0 ≤ s.furthest
  far : s.furthest ≤ o + L ∧ (Occ q c (o + L) → s.furthest < o + L ∨ s.furthest = 0)
  size : s.size = -1 ∨ s.size = L
  done : s.status = .eof → Occ q c (o + L) → s.size = L

variable {P : StreamOps σ UInt8} {H : σ → Int → Int → Prop} {k : Kmp.Searcher} {q c : List UInt8}
  {F : Failure} {o L : Int}

theorem Inv.narrow {s : StringTerminated σ} {lo hi lo' hi' : Int} (C : Contract P c F H)
    (h : Inv P H k q c o L s lo hi) (h1 : lo ≤ lo') (h2 : lo' ≤ s.pos) (h3 : s.pos ≤ hi') (h4 : hi' ≤ hi) :
    Inv P H k q c o L s lo' hi' := by
  obtain ⟨a1, a2, a3, a4, a5, a6, a7, a8, ⟨h', a9, a10⟩, a11, a12, a13, a14, a15⟩ := h
  have hr := C.range a9
  refine ⟨a1, a2, by omega, h2, h3, by omega, a7, a8, ⟨h', ?_, by omega⟩, a11, a12, a13, a14, a15⟩
  apply C.narrow a9 (by omega) _ (by omega) (Int.le_refl _)
  rcases a11 with z | z <;> omega

/-- `read` on a healthy state.  The last part is the claim about the parent. -/
theorem read_spec (C : Contract P c F H) (hF : ¬ F.onRead) (hK : SearchOk k q) (hC : Cut q c o L)
    (hlen : (c.length : Int) < 2 ^ 31) {s : StringTerminated σ} {lo hi : Int}
    (h : Inv P H k q c o L s lo hi) {mn mx : Int} (h1 : 1 ≤ mn) (h2 : mx = 0 ∨ mn ≤ mx) :
    ∃ s' n d, read P s mn mx = .ok (s', n, d) ∧
      ReadOk (slice c o L) .never s.pos mn mx n d s'.pos s'.status ∧
      Inv P H k q c o L s' s.pos s'.pos ∧
      (s.status ≠ .eof → s'.status = .eof →
        (Occ q c (o + L) → P.position s'.parent = o + L + q.length ∧ s'.size = L) ∧
        (n ≠ -1 → s'.size = L)) := by
  have hN := h
  obtain ⟨a1, a2, a3, a4, a5, a6, a7, a8, ⟨h', a9, a10⟩, a11, a12, a13, a14, a15⟩ := h
  have hr := C.range a9
  have hc0 := hC.o0; have hcL := hC.L0; have hcl := hC.le
  have hlL : ((slice c o L).length : Int) = L := slice_length hc0 hcL hcl
  have hq : 0 < q.length := List.length_pos_iff.mpr hK.2.1
  unfold read
  by_cases he : s.status = .eof
  · rw [if_pos he]
    refine ⟨s, -1, [], rfl, .ended (Or.inl rfl) rfl (by rw [hlL]; exact a8 he) rfl he,
      hN.narrow C a4 (Int.le_refl _) (Int.le_refl _) a5, fun z => absurd he z⟩
  · rw [if_neg he, if_neg a7]
    have hp : P.position s.parent = o + s.pos := by
      rcases a11 with z | z
      · exact z
      · exact absurd z.1 he
    dsimp only
    rw [narrow32_of_range (by omega) (by omega), hp]
    -- handing out the items from the parent
    have items : ∀ n, 0 < n → s.pos + n ≤ L → slice c (o + s.pos) n = slice (slice c o L) s.pos n := by
      intro n n0 n1
      rw [slice_slice hc0 (by omega) (by omega) n1]
    by_cases hf : mn ≤ s.furthest - (o + s.pos)
    · rw [if_pos hf]
      unfold readAgain
      have hmx : ∃ m : Int, m = (if mx ≤ 0 ∨ mx > s.furthest - (o + s.pos) then
          s.furthest - (o + s.pos) else mx) := ⟨_, rfl⟩
      obtain ⟨m, hm⟩ := hmx
      dsimp only
      rw [← hm]
      have hm2 : mn ≤ m ∧ m ≤ s.furthest - (o + s.pos) ∧ (mx ≠ 0 → m ≤ mx) := by
        split at hm <;> omega
      obtain ⟨p', n, d, e, r, w⟩ := C.read a9 (min := mn) (max := m) h1 (Or.inr hm2.1)
      rw [e]
      rw [hp] at r w
      cases r with
      | data pos it inside adv limit enough st =>
        have hlim := limit (by omega)
        simp only [Res.bind_ok]
        rw [Res.assert_of (by simp; omega)]
        simp only [Res.bind_ok]
        rw [if_pos pos]
        have hst' : (if s.pos + n = s.size then Status.eof else s.status) ≠ .error := by
          split
          · simp
          · exact a7
        have heof : (if s.pos + n = s.size then Status.eof else s.status) = .eof → s.pos + n = L := by
          split
          · intro _; omega
          · intro z; exact absurd z he
        refine ⟨_, n, d, rfl, ?_, ?_, ?_⟩
        · refine .data pos (by rw [it]; exact items n pos (by omega)) (by rw [hlL]; omega) rfl
            (by omega) (by rw [hlL]; omega) hst'
        · refine ⟨a1, a2, by omega, by simp only; omega, Int.le_refl _, by simp only; omega, hst', heof,
            ⟨P.position p', w st, by simp only; omega⟩, Or.inl (by simp only; omega), a12, a13, a14,
            fun z _ => by
              have := heof z
              simp only at z ⊢
              split at z
              · omega
              · exact absurd z he⟩
        · intro _ z
          have z2 := heof z
          refine ⟨?_, ?_⟩
          · intro ho
            -- the terminator does not start at the furthest position
            exfalso
            have := a13.2 ho
            omega
          · intro _; simp only at z ⊢
            split at z
            · omega
            · exact absurd z he
      | ended none nodata atEnd stay st => omega
      | failed allowed => exact absurd allowed hF
    · rw [if_neg hf]
      rw [if_neg (show ¬ mn = 0 by omega)]
      rw [a1, hK.1]
      have htm : ∃ m : Int, m = (if mx > 0 ∧ mx < mn + q.length then mn + (q.length : Int) else mx) :=
        ⟨_, rfl⟩
      obtain ⟨m, hm⟩ := htm
      rw [← hm]
      have hm2 : (m = 0 ∨ mn + q.length ≤ m) ∧ (mx ≠ 0 → m ≠ 0 ∧ (m ≤ mx ∨ m = mn + q.length)) := by
        split at hm <;> omega
      obtain ⟨p', n, d, e, r, w⟩ := C.read a9 (min := mn + q.length) (max := m) (by omega) hm2.1
      rw [e]
      rw [hp] at r w
      simp only [Res.bind_ok]
      cases r with
      | data pos it inside adv limit enough st =>
        rw [if_neg (by omega), if_neg (by omega)]
        have hw := w st
        have hl : mx ≠ 0 → n ≤ mx ∨ n ≤ mn + q.length := by
          intro z; have := limit (hm2.2 z).1; have := (hm2.2 z).2; omega
        -- occurrences in the data
        have hocc : ∀ j : Int, Occ q d j ↔ 0 ≤ j ∧ j + q.length ≤ n ∧ Occ q c (o + s.pos + j) := by
          intro j; rw [it]; exact occ_slice (by omega) (by omega) inside
        have occL : Occ q c (o + L) → s.pos + n < L + q.length ∨ Occ q d (L - s.pos) := by
          intro ho
          by_cases z : s.pos + n < L + q.length
          · exact Or.inl z
          · right
            rw [hocc]
            refine ⟨by omega, by omega, ?_⟩
            rw [show o + s.pos + (L - s.pos) = o + L by omega]; exact ho
        obtain ⟨r, er, hs, hn⟩ := hK.2.2 d
        rw [er]
        simp only [Res.bind_ok]
        cases r with
        | some j =>
          obtain ⟨ho, hno⟩ := hs j rfl
          obtain ⟨j0, j1, j2⟩ := (hocc j).mp ho
          have hLj : L = s.pos + j := by
            rcases Int.lt_trichotomy L (s.pos + j) with z | z | z
            · exfalso
              rcases hC.stop with y | ⟨y1, y2⟩
              · rcases occL y with x | x
                · omega
                · exact hno _ (by omega) x
              · exact y2 (s.pos + j) (by omega) (by rw [show o + (s.pos + j) = o + s.pos + j by omega]; exact j2)
            · exact z
            · exfalso
              exact hC.before (s.pos + j) (by omega) z (by rw [show o + (s.pos + j) = o + s.pos + j by omega]; exact j2)
          have hoL : Occ q c (o + L) := by rw [hLj, show o + (s.pos + j) = o + s.pos + j by omega]; exact j2
          obtain ⟨p2, e2, g1, g2, g3, g4⟩ := C.reset hw (q := o + s.pos + j + q.length) (by omega) (by omega)
          simp only
          rw [e2]
          simp only [Res.bind_ok]
          have hpos : (finish s p2 s.furthest .eof j d).1.pos = L := by
            simp only [finish]; split <;> omega
          refine ⟨(finish s p2 s.furthest .eof j d).1, j, d.take j.toNat, rfl, ?_, ?_, ?_⟩
          · rw [hpos]
            by_cases hj : j = 0
            · refine .ended (Or.inr hj) (by simp [hj]) (by rw [hlL]; omega) (by omega) rfl
            · refine .data (by omega) ?_ (by rw [hlL]; omega) (by omega) (by omega) (by rw [hlL]; omega) (by simp [finish])
              rw [it, slice_take (by omega)]
              exact items j (by omega) (by omega)
          · have hI := g3 (by omega)
            refine ⟨by simpa [finish] using a1, by simpa [finish] using a2, by omega, by omega,
              Int.le_refl _, by omega, by simp [finish], fun _ => hpos, ?_, ?_, by simpa [finish] using a12,
              by simpa [finish] using a13, ?_, fun _ _ => by simp only [finish, if_true]; split <;> omega⟩
            · refine ⟨P.position p', by simpa [finish] using hI, by omega⟩
            · right
              refine ⟨rfl, hoL, ?_⟩
              simp only [finish]; omega
            · right; simp only [finish, if_true]; split <;> omega
          · intro _ _
            refine ⟨fun _ => ⟨?_, ?_⟩, fun _ => ?_⟩
            · simp only [finish]; omega
            · simp only [finish, if_true]; split <;> omega
            · simp only [finish, if_true]; split <;> omega
        | none =>
          have hno := hn rfl
          simp only
          have noL : Occ q c (o + L) → s.pos + n < L + q.length := by
            intro ho
            rcases occL ho with z | z
            · exact z
            · exact absurd z (hno _)
          by_cases hb : n ≥ mn + q.length
          · rw [if_pos hb]
            obtain ⟨p2, e2, g1, g2, g3, g4⟩ := C.reset hw (q := o + s.pos + (n - q.length)) (by omega) (by omega)
            rw [e2]
            simp only [Res.bind_ok]
            have hLn : s.pos + (n - q.length) ≤ L ∧ (Occ q c (o + L) → s.pos + (n - q.length) < L) := by
              rcases hC.stop with y | ⟨y1, y2⟩
              · have := noL y; omega
              · refine ⟨by omega, fun z => ?_⟩
                have := noL z; omega
            have hpos : (finish s p2 (o + s.pos + (n - q.length)) s.status (n - q.length) d).1.pos =
                s.pos + (n - q.length) := by
              simp only [finish]; rw [if_pos (by omega)]
            refine ⟨(finish s p2 (o + s.pos + (n - q.length)) s.status (n - q.length) d).1, n - q.length, _, rfl, ?_, ?_, ?_⟩
            · rw [hpos]
              refine .data (by omega) ?_ (by rw [hlL]; omega) rfl (by intro z; have := hl z; omega)
                (Or.inl (by omega)) a7
              rw [it, slice_take (by omega)]
              exact items _ (by omega) (by omega)
            · have hI := g3 (by omega)
              refine ⟨by simpa [finish] using a1, by simpa [finish] using a2, by omega, by omega,
                Int.le_refl _, by omega, a7, fun z => absurd z he, ?_, Or.inl ?_, ?_, ?_, ?_, fun z _ => absurd z he⟩
              · exact ⟨P.position p', by simpa [finish] using hI, by omega⟩
              · simp only [finish]; rw [if_pos (by omega)]; omega
              · simp only [finish]; omega
              · simp only [finish]
                exact ⟨by omega, fun z => Or.inl (by have := hLn.2 z; omega)⟩
              · simp only [finish]; rw [if_neg he]; exact a14
            · intro _ z; exact absurd z he
          · rw [if_neg hb]
            have hend : o + s.pos + n = c.length := by omega
            have hLe : L = s.pos + n := by
              rcases hC.stop with y | ⟨y1, y2⟩
              · have := noL y; have := y.2.1; omega
              · omega
            have hnoL : ¬ Occ q c (o + L) := by
              intro z; have := z.2.1; omega
            by_cases hx : mx ≠ 0 ∧ n > mx
            · rw [if_pos hx]
              obtain ⟨p2, e2, g1, g2, g3, g4⟩ := C.reset hw (q := o + s.pos + mx) (by omega) (by omega)
              rw [e2]
              simp only [Res.bind_ok]
              have hpos : (finish s p2 (o + s.pos + n) s.status mx d).1.pos = s.pos + mx := by
                simp only [finish]; rw [if_pos (by omega)]
              refine ⟨(finish s p2 (o + s.pos + n) s.status mx d).1, mx, _, rfl, ?_, ?_, ?_⟩
              · rw [hpos]
                refine .data (by omega) ?_ (by rw [hlL]; omega) rfl (by omega) (Or.inl (by omega)) a7
                rw [it, slice_take (by omega)]
                exact items _ (by omega) (by omega)
              · have hI := g3 (by omega)
                refine ⟨by simpa [finish] using a1, by simpa [finish] using a2, by omega, by omega,
                  Int.le_refl _, by omega, a7, fun z => absurd z he, ?_, Or.inl ?_, ?_, ?_, ?_, fun z _ => absurd z he⟩
                · exact ⟨P.position p', by simpa [finish] using hI, by omega⟩
                · simp only [finish]; rw [if_pos (by omega)]; omega
                · simp only [finish]; omega
                · simp only [finish]
                  exact ⟨by omega, fun z => absurd z hnoL⟩
                · simp only [finish]; rw [if_neg he]; exact a14
              · intro _ z; exact absurd z he
            · rw [if_neg hx]
              have hpos : (finish s p' s.furthest .eof n d).1.pos = s.pos + n := by
                simp only [finish]; rw [if_pos (by omega)]
              refine ⟨(finish s p' s.furthest .eof n d).1, n, _, rfl, ?_, ?_, ?_⟩
              · rw [hpos]
                refine .data (by omega) ?_ (by rw [hlL]; omega) rfl (by omega) (Or.inr (by rw [hlL]; omega))
                  (by simp [finish])
                rw [it, slice_take (Int.le_refl _)]
                exact items _ (by omega) (by omega)
              · refine ⟨by simpa [finish] using a1, by simpa [finish] using a2, by omega, by omega,
                  Int.le_refl _, by omega, by simp [finish], fun _ => by omega, ?_, Or.inl ?_,
                  by simpa [finish] using a12, by simpa [finish] using a13, ?_, fun _ z => absurd z hnoL⟩
                · exact ⟨P.position p', by simpa [finish] using hw, by omega⟩
                · simp only [finish]; rw [if_pos (by omega)]; omega
                · right; simp only [finish, if_true]; rw [if_pos (by omega)]; omega
              · intro _ _
                refine ⟨fun z => absurd z hnoL, fun _ => ?_⟩
                simp only [finish, if_true]; rw [if_pos (by omega)]; omega
      | ended none nodata atEnd stay st =>
        have hne : P.status p' ≠ .error := by rw [st]; simp
        have hw := w hne
        have hL : L = s.pos := by omega
        have hnoL : ¬ Occ q c (o + L) := by
          intro z; have := z.2.1; omega
        by_cases hn1 : n = -1
        · rw [if_pos hn1]
          refine ⟨_, n, d, rfl, ?_, ?_, ?_⟩
          · exact .ended none nodata (by rw [hlL]; omega) rfl rfl
          · refine ⟨rfl, a2, by omega, Int.le_refl _, Int.le_refl _, by simp only; omega, by simp,
              fun _ => by simp only; omega, ⟨P.position p', hw, by simp only; omega⟩,
              Or.inl (by simp only; omega), a12, a13, a14, fun _ z => absurd z hnoL⟩
          · intro _ _
            exact ⟨fun z => absurd z hnoL, fun z => absurd hn1 z⟩
        · rw [if_neg hn1, if_neg (by omega)]
          have hn0 : n = 0 := by omega
          obtain ⟨r, er, hs, hn⟩ := hK.2.2 d
          rw [er]
          simp only [Res.bind_ok]
          cases r with
          | some j =>
            have := (hs j rfl).1.2.1
            rw [nodata] at this
            have := (hs j rfl).1.1
            simp at *
            omega
          | none =>
            simp only
            rw [if_neg (by omega), if_neg (by omega)]
            have hpos : (finish s p' s.furthest .eof n d).1.pos = s.pos := by
              simp only [finish]; rw [if_neg (by omega)]
            refine ⟨(finish s p' s.furthest .eof n d).1, n, _, rfl, ?_, ?_, ?_⟩
            · rw [hpos]
              exact .ended (Or.inr hn0) (by simp [hn0]) (by rw [hlL]; omega) rfl rfl
            · refine ⟨by simpa [finish] using a1, by simpa [finish] using a2, by omega, by omega,
                Int.le_refl _, by omega, by simp [finish], fun _ => by omega, ?_, Or.inl ?_,
                by simpa [finish] using a12, by simpa [finish] using a13, ?_, fun _ z => absurd z hnoL⟩
              · exact ⟨P.position p', by simpa [finish] using hw, by omega⟩
              · simp only [finish]; rw [if_neg (by omega)]; omega
              · right; simp only [finish, if_true]; rw [if_neg (by omega)]; omega
            · intro _ _
              refine ⟨fun z => absurd z hnoL, fun _ => ?_⟩
              simp only [finish, if_true]; rw [if_neg (by omega)]; omega
      | failed allowed => exact absurd allowed hF

theorem reset_spec (C : Contract P c F H) {s : StringTerminated σ} {lo hi : Int}
    (h : Inv P H k q c o L s lo hi) (hC : Cut q c o L) {p : Int} (h1 : lo ≤ p) (h2 : p ≤ hi) :
    ∃ s', reset P s p = .ok (s', p) ∧ s'.pos = p ∧ s'.status ≠ .error ∧
      (p ≤ s.pos → Inv P H k q c o L s' lo hi) ∧ Inv P H k q c o L s' p p := by
  obtain ⟨a1, a2, a3, a4, a5, a6, a7, a8, ⟨h', a9, a10⟩, a11, a12, a13, a14, a15⟩ := h
  have hr := C.range a9
  have := hC.o0
  obtain ⟨p', e, g1, g2, g3, g4⟩ := C.reset a9 (q := p + s.offset) (by omega) (by omega)
  unfold reset
  rw [e]
  simp only [Res.bind_ok]
  rw [if_pos (by omega), show p + s.offset - s.offset = p by omega]
  have hst : (if p ≠ s.size then Status.ok else s.status) ≠ .error := by
    split
    · simp
    · exact a7
  have heof : (if p ≠ s.size then Status.ok else s.status) = .eof → p = L := by
    split
    · simp
    · intro _; omega
  have hdone : (if p ≠ s.size then Status.ok else s.status) = .eof → Occ q c (o + L) → s.size = L := by
    split
    · simp
    · exact a15
  refine ⟨_, rfl, rfl, hst, ?_, ?_⟩
  · intro hle
    refine ⟨a1, a2, a3, h1, h2, a6, hst, heof, ⟨h', g3 ?_, a10⟩, Or.inl ?_, a12, a13, a14, hdone⟩
    · rcases a11 with z | z <;> omega
    · simp only; omega
  · refine ⟨a1, a2, by omega, Int.le_refl _, Int.le_refl _, by omega, hst, heof, ⟨p + s.offset, ?_, by omega⟩,
      Or.inl ?_, a12, a13, a14, hdone⟩
    · rw [show o + p = p + s.offset by omega]; exact g4
    · simp only; omega

theorem readContract (C : Contract P c F H) (hF : ¬ F.onRead) (hK : SearchOk k q) (hC : Cut q c o L)
    (hlen : (c.length : Int) < 2 ^ 31) :
    ReadContract (ops P) (slice c o L) .never (Inv P H k q c o L) where
  range h := by
    have := slice_length (c := c) hC.o0 hC.L0 hC.le
    have := h.lo0; have := h.lo1; have := h.hi0; have := h.hi1
    simp only [ops]; omega
  status h := by
    have := slice_length (c := c) hC.o0 hC.L0 hC.le
    refine ⟨h.st, fun z => ?_⟩
    have := h.eof z
    simp only [ops]; omega
  narrow h h1 h2 h3 h4 := h.narrow C h1 h2 h3 h4
  read := by
    intro s lo hi h mn mx h1 h2
    obtain ⟨s', n, d, e, r, i, _⟩ := read_spec C hF hK hC hlen h h1 h2
    exact ⟨s', n, d, e, r, fun _ => i⟩

theorem contract (C : Contract P c F H) (hF : ¬ F.onRead) (hK : SearchOk k q) (hC : Cut q c o L)
    (hlen : (c.length : Int) < 2 ^ 31) :
    Contract (ops P) (slice c o L) .never (Inv P H k q c o L) where
  range h := (readContract C hF hK hC hlen).range h
  status h := (readContract C hF hK hC hlen).status h
  narrow h h1 h2 h3 h4 := h.narrow C h1 h2 h3 h4
  size h := by
    have := slice_length (c := c) hC.o0 hC.L0 hC.le
    have := h.size
    simp only [ops]; omega
  read h := (readContract C hF hK hC hlen).read h
  skip := by
    intro s lo hi h k h1 _
    exact baseSkip_spec (readContract C hF hK hC hlen) h h1
  reset := by
    intro s lo hi h p h1 h2
    exact reset_spec C h hC h1 h2

theorem inv_new (C : Contract P c F H) {p : σ} {lo hi : Int} (h : H p lo hi) (hC : Cut q c (P.position p) L) :
    Inv P H k q c (P.position p) L ⟨p, k, P.position p, 0, 0, -1, .ok⟩ 0 0 := by
  have hr := C.range h
  have := hC.o0; have := hC.L0
  refine ⟨rfl, rfl, by simp, by simp, by simp, by omega, by simp, by simp, ⟨hi, ?_, by omega⟩,
    Or.inl (by simp), by simp, ⟨by simp only; omega, fun _ => Or.inr rfl⟩, Or.inl rfl, by simp⟩
  exact C.narrow h (by omega) (by show _ ≤ P.position p; omega) (by show P.position p ≤ _; omega)
    (Int.le_refl _)

end StringTerminated
end Strigi
