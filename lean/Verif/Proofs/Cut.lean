import Verif.CutSpec
import Verif.Proofs.Archive
import Verif.Proofs.Isolate

/-!
# Substreams over a piece of which the end is missing
-/

namespace Strigi

variable {σ α : Type}

theorem PresentsThen.mono {π ε : Type} {A : ProviderOps π ε} {F : Failure} {soft : Prop} {K K' : π → Prop}
    (h : ∀ p, K p → K' p) : ∀ (l : List ArchiveEntry) (p : π), PresentsThen A F soft K p l → PresentsThen A F soft K' p l := by
  intro l
  induction l with
  | nil => exact fun p hp => h p hp
  | cons a l ih =>
    intro p hp
    obtain ⟨p', es, h1, h2, h3, h4, h5, h6, h7, h8⟩ := hp
    exact ⟨p', es, h1, h2, h3, h4, h5, h6, h7, fun es' lo hi hu => ih _ (h8 es' lo hi hu)⟩

theorem PresentsThen.append {π ε : Type} {A : ProviderOps π ε} {F : Failure} {soft : Prop} {K : π → Prop} {l' : List ArchiveEntry} :
    ∀ (l : List ArchiveEntry) (p : π), PresentsThen A F soft (fun p => PresentsThen A F soft K p l') p l →
      PresentsThen A F soft K p (l ++ l') := by
  intro l
  induction l with
  | nil => exact fun p hp => hp
  | cons a l ih =>
    intro p hp
    obtain ⟨p', es, h1, h2, h3, h4, h5, h6, h7, h8⟩ := hp
    exact ⟨p', es, h1, h2, h3, h4, h5, h6, h7, fun es' lo hi hu => ih _ (h8 es' lo hi hu)⟩

theorem PresentsThen.presents {π ε : Type} {A : ProviderOps π ε} {F : Failure} {soft : Prop} {st : Status} :
    ∀ (l : List ArchiveEntry) (p : π), PresentsThen A F soft (EndsWith A st) p l → Presents A F soft st p l := by
  intro l
  induction l with
  | nil => exact fun p hp => hp
  | cons a l ih =>
    intro p hp
    obtain ⟨p', es, h1, h2, h3, h4, h5, h6, h7, h8⟩ := hp
    exact ⟨p', es, h1, h2, h3, h4, h5, h6, h7, fun es' lo hi hu => ih _ (h8 es' lo hi hu)⟩

namespace SubInputStream

variable {P : StreamOps σ α} {c : List α} {soft : Prop}

/-- A substream over a piece of which the end is missing. -/
structure Cut (P : StreamOps σ α) (c : List α) (soft : Prop) (o n : Int) (e : SubInputStream σ) : Prop where
  size : e.size = n
  left : e.pos < n
  parent : ∃ rest, At P c soft e.parent rest
  healthy : e.status ≠ .error → ∃ lo hi, Inv P c o n (fun s lo hi => ∀ l, Behaves P c Failure.never soft s lo hi l) e lo hi
  failed : e.status = .error → At P c soft e.parent []

theorem At.of_inv {o n : Int} {e : SubInputStream σ} {lo hi : Int}
    (h : Inv P c o n (fun s lo hi => ∀ l, Behaves P c Failure.never soft s lo hi l) e lo hi) :
    At P c soft e.parent (c.drop (P.position e.parent).toNat) := ⟨⟨_, _, h.parent⟩, rfl⟩

/-- Reading the substream. -/
theorem cut_read {o n : Int} (ho : 0 ≤ o) (hoc : o ≤ c.length) (hn : n < 2 ^ 31) (hcut : c.length < o + n)
    {e : SubInputStream σ} {lo hi : Int}
    (h : Inv P c o n (fun s lo hi => ∀ l, Behaves P c Failure.never soft s lo hi l) e lo hi)
    {mn mx : Int} (h1 : 1 ≤ mn) (h2 : mx = 0 ∨ mn ≤ mx) {e' : SubInputStream σ} {k : Int} {d : List α}
    (he : read P e mn mx = .ok (e', k, d)) : Cut P c soft o n e' ∧ e'.status ≠ .eof := by
  have C := Contract.of_behaves P c Failure.never soft
  have hwl := window_length (c := c) (o := o) (l := n) ho hoc (by omega)
  rw [if_neg (by omega)] at hwl
  obtain ⟨e2, k2, d2, he2, hr, hk⟩ := read_spec C ho hoc (by omega) hn (by omega) h h1 h2
  rw [he] at he2; cases he2
  have hsize : e.size = n := by rcases h.size with x | x; exact x; omega
  have a1 := h.lo0; have a2 := h.lop; have a3 := h.hip; have a4 := h.hil; have hpp := h.ppos
  unfold read at he
  rw [if_pos (by omega)] at he
  dsimp only at he
  rw [if_neg (by omega), narrow32_of_range (by omega) (by omega)] at he
  generalize hmn : (if mn > e.size - e.pos then e.size - e.pos else mn) = mn' at he
  generalize hmx : (if mx < mn' ∨ mx > e.size - e.pos then e.size - e.pos else mx) = mx' at he
  have b1 : 1 ≤ mn' := by rw [← hmn]; split <;> omega
  have b2 : mn' ≤ mx' := by
    rw [← hmx]; split
    · rw [← hmn]; split <;> omega
    · omega
  obtain ⟨p', n1, d1, ep, r1, g1⟩ := C.read h.parent b1 (Or.inr b2)
  unfold readParent at he
  rw [ep] at he
  simp only [Res.bind_ok] at he
  have hlim : n1 ≤ mx' := by
    cases r1 with
    | data _ _ _ _ limit _ _ => exact limit (by omega)
    | ended no _ _ _ _ => omega
    | failed a _ _ => exact absurd a id
  have hn1 : ¬ n1 < -1 := by
    cases r1 with
    | data pos _ _ _ _ _ _ => omega
    | ended no _ _ _ _ => omega
    | failed a _ _ => exact absurd a id
  have hst1 : P.status p' ≠ .error := by
    cases r1 with
    | data _ _ _ _ _ _ st => exact st
    | ended _ _ _ _ st => rw [st]; decide
    | failed a _ _ => exact absurd a id
  rw [Res.assert_of (by simpa using Or.inr hlim), if_neg hn1] at he
  simp only [Res.bind_ok] at he
  by_cases hlt : n1 < mn'
  · rw [if_pos hlt, if_neg (by omega)] at he
    cases he
    have hend : P.position p' = c.length := by
      cases r1 with
      | data _ _ _ adv _ enough _ => rcases enough with x | x <;> omega
      | ended _ _ atEnd stay _ => omega
      | failed a _ _ => exact absurd a id
    have hat : At P c soft p' [] := ⟨⟨_, _, g1 hst1⟩, by rw [hend]; simp⟩
    exact ⟨⟨hsize, by simp only; omega, ⟨[], hat⟩, fun z => absurd rfl z, fun _ => hat⟩, by simp⟩
  · rw [if_neg hlt] at he
    have hpos : e.pos + n1 < e.size := by
      cases r1 with
      | data _ _ inside _ _ _ _ => omega
      | ended no _ _ _ _ => omega
      | failed a _ _ => exact absurd a id
    have heof : e.status ≠ .eof := by
      intro z
      have := h.eof z
      cases r1 with
      | data _ _ inside _ _ _ _ => omega
      | ended no _ _ _ _ => omega
      | failed a _ _ => exact absurd a id
    rw [if_neg (show e.pos + n1 ≠ e.size by omega)] at he
    cases he
    exact ⟨⟨hsize, by simp only; omega, ⟨_, ⟨⟨_, _, g1 hst1⟩, rfl⟩⟩, fun z => ⟨_, _, hk z⟩, fun z => absurd z h.st⟩, heof⟩

/-- Skipping in the substream. -/
theorem cut_skip {o n : Int} (ho : 0 ≤ o) (hoc : o ≤ c.length) (hcut : c.length < o + n)
    {e : SubInputStream σ} {lo hi : Int}
    (h : Inv P c o n (fun s lo hi => ∀ l, Behaves P c Failure.never soft s lo hi l) e lo hi)
    {j : Int} (h1 : 0 ≤ j) (h2 : j < 2 ^ 31) :
    ∃ e' k, skip P e j = .ok (e', k) ∧ Cut P c soft o n e' ∧ (n ≤ j → At P c soft e'.parent []) := by
  have C := Contract.of_behaves P c Failure.never soft
  have hwl := window_length (c := c) (o := o) (l := n) ho hoc (by omega)
  rw [if_neg (by omega)] at hwl
  have hsize : e.size = n := by rcases h.size with x | x; exact x; omega
  have a1 := h.lo0; have a2 := h.lop; have a3 := h.hip; have a4 := h.hil; have hpp := h.ppos
  have hst := h.st
  unfold skip
  rw [if_neg (by omega)]
  by_cases hj : j = 0
  · rw [if_pos hj]
    exact ⟨e, 0, rfl, ⟨hsize, by omega, ⟨_, At.of_inv h⟩, fun _ => ⟨_, _, h⟩, fun z => absurd z hst⟩, fun z => by omega⟩
  · rw [if_neg hj, if_pos (by omega)]
    dsimp only
    generalize hj' : (if j > e.size - e.pos then e.size - e.pos else j) = j'
    have b1 : 1 ≤ j' := by rw [← hj']; split <;> omega
    have b3 : j' ≤ j := by rw [← hj']; split <;> omega
    have b4 : n ≤ j → j' = e.size - e.pos := by intro z; rw [← hj']; split <;> omega
    have b5 : j' ≤ e.size - e.pos := by rw [← hj']; split <;> omega
    obtain ⟨e2, k2, he2, hr2, hk2⟩ := skipParent_spec C ho hoc (by omega) (by omega) h (k := j') (k' := j') b1 (by omega)
      (Int.le_refl _) (fun _ => ⟨b5, Or.inl rfl⟩) (fun _ => rfl)
    obtain ⟨p', r, ep, r1, g1⟩ := C.skip h.parent (k := j') (by omega) (by omega)
    have hsk := he2
    unfold skipParent at hsk
    rw [ep] at hsk
    simp only [Res.bind_ok] at hsk
    cases r1 with
    | skipped adv res st1 =>
      have hat : At P c soft p' (c.drop (P.position p').toNat) := ⟨⟨_, _, g1 st1⟩, rfl⟩
      have hr : e.pos + r < n := by rcases res with x | ⟨x, _, _⟩ <;> omega
      rw [if_neg st1, if_neg (by omega)] at hsk
      have hfull : n ≤ j → P.position p' = c.length := by intro z; have := b4 z; omega
      have hfull' : n ≤ j → At P c soft p' [] := by intro z; rw [hfull z] at hat; simpa using hat
      by_cases hr0 : r ≤ 0
      · rw [if_pos hr0] at hsk
        cases hsk
        have hend : P.position p' = c.length := by rcases res with x | ⟨x, y, z⟩ <;> omega
        have hat' : At P c soft p' [] := by rw [hend] at hat; simpa using hat
        exact ⟨_, _, he2, ⟨hsize, by simp only; omega, ⟨[], hat'⟩, fun z => absurd rfl z, fun _ => hat'⟩, hfull'⟩
      · rw [if_neg hr0] at hsk
        cases hsk
        exact ⟨_, _, he2, ⟨hsize, by simp only; omega, ⟨_, hat⟩, fun z => ⟨_, _, hk2 z⟩, fun z => absurd z hst⟩, hfull'⟩
    | failed a _ => exact absurd a id

/-- Skipping in the substream when the parent is at its end. -/
theorem cut_skip_end {e : SubInputStream σ} (hleft : e.pos < e.size) (h : At P c soft e.parent []) {j : Int} (h1 : 1 ≤ j)
    (h2 : j < 2 ^ 31) (hne : e.size ≠ -1) :
    ∃ e' k, skip P e j = .ok (e', k) ∧ At P c soft e'.parent [] ∧ e'.status = .error ∧ e'.size = e.size ∧ e'.pos ≤ e.pos := by
  unfold skip
  rw [if_neg (by omega), if_neg (by omega), if_pos hne]
  dsimp only
  generalize hj' : (if j > e.size - e.pos then e.size - e.pos else j) = j'
  have b1 : 1 ≤ j' := by rw [← hj']; split <;> omega
  have b3 : j' ≤ j := by rw [← hj']; split <;> omega
  obtain ⟨⟨lo, hi, hb⟩, hd⟩ := h
  have C := Contract.of_behaves P c Failure.never soft
  have hrg := C.range hb
  have hpe : P.position e.parent = c.length := by
    have := congrArg List.length hd
    rw [List.length_drop, List.length_nil] at this
    omega
  obtain ⟨p', r, ep, r1, g1⟩ := C.skip hb (k := j') (by omega) (by omega)
  unfold skipParent
  rw [ep]
  simp only [Res.bind_ok]
  cases r1 with
  | skipped adv res st1 =>
    have hr : r ≤ 0 := by rcases res with x | ⟨x, _, _⟩ <;> omega
    have hat : At P c soft p' [] := ⟨⟨_, _, g1 st1⟩, by rw [show P.position p' = c.length by omega]; simp⟩
    rw [if_neg st1, if_neg (by omega), if_pos hr]
    exact ⟨_, _, rfl, hat, rfl, rfl, by simp only; omega⟩
  | failed a _ => exact absurd a id

end SubInputStream

namespace At

variable {P : StreamOps σ α} {c : List α} {soft : Prop}

/-- A substream over `n` items of which only `x` is there. -/
theorem sub_cut {s : σ} {x : List α} (h : At P c soft s x) {n : Int} (hx : x.length < n) (h2 : n < 2 ^ 31) :
    ∃ e, SubInputStream.new P s n = .ok e ∧ e.size = n ∧ e.pos = 0 ∧ e.status = .ok ∧
      IsStream (SubInputStream.ops P) x Failure.always soft e ∧
      ∀ e' lo hi, Tries (SubInputStream.ops P) x soft e e' lo hi →
        e'.size = n ∧
        (e'.status ≠ .error → ∀ mn mx s k d, 1 ≤ mn → (mx = 0 ∨ mn ≤ mx) →
          SubInputStream.read P e' mn mx = .ok (s, k, d) → s.status ≠ .eof) ∧
        (e'.status ≠ .ok → At P c soft e'.parent []) ∧
        ∃ e'' r e3 r3, SubInputStream.skip P e' n = .ok (e'', r) ∧ At P c soft e''.parent [] ∧ e''.size = n ∧
          SubInputStream.skip P e'' n = .ok (e3, r3) ∧ At P c soft e3.parent [] ∧ e3.status = .error := by
  have hr := h.range
  have hS := h.isStream
  obtain ⟨⟨lo, hi, h⟩, hd⟩ := h
  have hcut : c.length < P.position s + n := by omega
  have hoc : P.position s ≤ c.length := by omega
  have C := Contract.of_behaves P c Failure.never soft
  obtain ⟨e, he, hi0, hp⟩ := SubInputStream.inv_new C hS (l := n) (by omega)
  obtain ⟨e2, he2, hI⟩ := Props.C15_short_parent hS n (by omega) h2 hcut
  rw [he] at he2; cases he2
  rw [hd] at hI
  have hwl := SubInputStream.window_length (c := c) (o := P.position s) (l := n) hr.1 hoc (by omega)
  rw [if_neg (by omega)] at hwl
  have hw : SubInputStream.window c (P.position s) n = x := by
    unfold SubInputStream.window; rw [if_neg (by omega)]; unfold slice; rw [hd]; apply List.take_of_length_le; omega
  have C' := SubInputStream.contract C (o := P.position s) (l := n) hr.1 hoc (by omega) h2 (by omega) (by omega)
  rw [hw] at C'
  have S' : soft → SoftReset (SubInputStream.ops P) x _ := fun hs => by
    have := SubInputStream.softReset C (SoftReset.of_behaves P c Failure.never soft hs)
      (o := P.position s) (l := n) hr.1 hoc (by omega)
    rw [hw] at this; exact this
  have hes : e.status = .ok ∧ e.size = n := by
    unfold SubInputStream.new at he
    rw [Res.assert_of (by simp; omega)] at he
    cases he; exact ⟨rfl, rfl⟩
  have ofInv : ∀ {e' : SubInputStream σ} {lo hi : Int}, SubInputStream.Inv P c (P.position s) n
      (fun s lo hi => ∀ l, Behaves P c Failure.never soft s lo hi l) e' lo hi →
      SubInputStream.Cut P c soft (P.position s) n e' := by
    intro e' lo hi hv
    have := hv.hip; have := hv.hil
    refine ⟨?_, by omega, ⟨_, SubInputStream.At.of_inv hv⟩, fun _ => ⟨_, _, hv⟩, fun z => absurd z hv.st⟩
    rcases hv.size with x | x
    · exact x
    · omega
  refine ⟨e, he, hes.2, hp, hes.1, hI, ?_⟩
  have key : ∀ {e' : SubInputStream σ} {lo hi : Int}, Tries (SubInputStream.ops P) x soft e e' lo hi →
      SubInputStream.Cut P c soft (P.position s) n e' ∧ (e'.status ≠ .error → SubInputStream.Inv P c (P.position s) n
        (fun s lo hi => ∀ l, Behaves P c Failure.never soft s lo hi l) e' lo hi) := by
    intro e' lo' hi' hu
    induction hu with
    | start => simp only [SubInputStream.ops, hp]; exact ⟨ofInv hi0, fun _ => hi0⟩
    | read _ hst h1 hm er ih =>
      have hv := ih.2 hst
      obtain ⟨e2, n2, d2, er2, _, k2⟩ := C'.read hv h1 hm
      rw [er] at er2; cases er2
      exact ⟨(SubInputStream.cut_read hr.1 hoc h2 hcut hv h1 hm er).1, k2⟩
    | skip _ hst h1 hm er ih =>
      have hv := ih.2 hst
      obtain ⟨e2, r2, er2, _, k2⟩ := C'.skip hv h1 hm
      rw [er] at er2; cases er2
      obtain ⟨e3, r3, er3, hc, _⟩ := SubInputStream.cut_skip hr.1 hoc hcut hv h1 hm
      have er' : SubInputStream.skip P _ _ = _ := er
      rw [er3] at er'; cases er'
      exact ⟨hc, k2⟩
    | back _ hst h1 hm er ih =>
      have hv := ih.2 hst
      have := C'.range hv
      obtain ⟨e2, er2, _, _, k2, _⟩ := C'.reset hv h1 (by omega)
      rw [er] at er2; cases er2
      exact ⟨ofInv (k2 hm), fun _ => k2 hm⟩
    | reset _ hst h1 hm er ih =>
      have hv := ih.2 hst
      obtain ⟨e2, er2, _, _, _, k2⟩ := C'.reset hv h1 hm
      rw [er] at er2; cases er2
      exact ⟨ofInv k2, fun _ => k2⟩
    | jump _ hst hs h1 hm er ih =>
      have hv := ih.2 hst
      obtain ⟨e2, r2, er2, _, _, _, k2⟩ := (S' hs).reset hv h1 hm
      rw [er] at er2; cases er2
      exact ⟨ofInv k2, fun _ => k2⟩
  intro e' lo' hi' hu
  obtain ⟨hc, hv⟩ := key hu
  have hend : e'.status ≠ .ok → At P c soft e'.parent [] := by
    intro z
    cases est : e'.status with
    | ok => exact absurd est z
    | error => exact hc.failed est
    | eof =>
      have hv := hv (by rw [est]; decide)
      have h3 := hv.eof est
      have h4 := hv.ppos
      have := SubInputStream.At.of_inv hv
      rw [show P.position e'.parent = c.length by omega] at this
      simpa using this
  have hfin : ∀ {e1 : SubInputStream σ}, e1.size = n → e1.pos < n → At P c soft e1.parent [] → ∃ e2 r2,
      SubInputStream.skip P e1 n = .ok (e2, r2) ∧ At P c soft e2.parent [] ∧ e2.status = .error ∧ e2.size = n ∧ e2.pos < n := by
    intro e1 hs1 hp1 ha1
    obtain ⟨e2, r2, x1, x2, x3, x4, x5⟩ := SubInputStream.cut_skip_end (j := n) (by omega) ha1 (by omega) h2 (by omega)
    exact ⟨e2, r2, x1, x2, x3, by omega, by omega⟩
  refine ⟨hc.size, fun hst mn mx s1 k d h1 hm er => (SubInputStream.cut_read hr.1 hoc h2 hcut (hv hst) h1 hm er).2, hend, ?_⟩
  by_cases hst : e'.status = .error
  · obtain ⟨e2, r2, x1, x2, x3, x4, x5⟩ := hfin hc.size hc.left (hc.failed hst)
    obtain ⟨e3, r3, y1, y2, y3, y4, y5⟩ := hfin x4 x5 x2
    exact ⟨e2, r2, e3, r3, x1, x2, x4, y1, y2, y3⟩
  · obtain ⟨e2, r2, x1, x2, x3⟩ := SubInputStream.cut_skip hr.1 hoc hcut (hv hst) (j := n) (by omega) h2
    have x3 := x3 (Int.le_refl _)
    obtain ⟨e3, r3, y1, y2, y3, y4, y5⟩ := hfin x2.size x2.left x3
    exact ⟨e2, r2, e3, r3, x1, x3, x2.size, y1, y2, y3⟩

end At
end Strigi
