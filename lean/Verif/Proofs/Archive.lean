import Verif.ArchiveSpec
import Verif.Proofs.SubInputStream
import Verif.Props.SubInputStream

/-!
# Reading exact pieces of a stream that does not fail; substreams over such pieces
-/

namespace Strigi

variable {σ α : Type}

theorem Contract.uses {ops : StreamOps σ α} {c : List α} {H : σ → Int → Int → Prop}
    (C : Contract ops c Failure.never H) {soft : Prop} (S : soft → SoftReset ops c H) {s₀ : σ}
    (h0 : H s₀ (ops.position s₀) (ops.position s₀)) {s : σ} {lo hi : Int}
    (h : Uses ops c soft s₀ s lo hi) : H s lo hi := by
  induction h with
  | start => exact h0
  | read _ h1 h2 e ih =>
    obtain ⟨s', n, d, e', r, k⟩ := C.read ih h1 h2
    rw [e] at e'; cases e'
    apply k
    cases r with
    | data _ _ _ _ _ _ st => exact st
    | ended _ _ _ _ st => rw [st]; decide
    | failed a _ _ => exact absurd a id
  | skip _ h1 h2 e ih =>
    obtain ⟨s', r, e', r', k⟩ := C.skip ih h1 h2
    rw [e] at e'; cases e'
    apply k
    cases r' with
    | skipped _ _ st => exact st
    | failed a _ => exact absurd a id
  | back _ h1 h2 e ih =>
    have := C.range ih
    obtain ⟨s', e', _, _, k, _⟩ := C.reset ih h1 (by omega)
    rw [e] at e'; cases e'; exact k h2
  | reset _ h1 h2 e ih =>
    obtain ⟨s', e', _, _, _, k⟩ := C.reset ih h1 h2
    rw [e] at e'; cases e'; exact k
  | jump _ hs h1 h2 e ih =>
    obtain ⟨s', r, e', _, _, _, k⟩ := (S hs).reset ih h1 h2
    rw [e] at e'; cases e'; exact k

/-- The stream is healthy and what is left to read is `rest`. -/
def At (P : StreamOps σ α) (c : List α) (soft : Prop) (s : σ) (rest : List α) : Prop :=
  (∃ lo hi, ∀ l, Behaves P c Failure.never soft s lo hi l) ∧ c.drop (P.position s).toNat = rest

namespace At

variable {P : StreamOps σ α} {c : List α} {soft : Prop}

theorem of_isStream {s : σ} (h : IsStream P c Failure.never soft s) :
    At P c soft s (c.drop (P.position s).toNat) := ⟨⟨_, _, h⟩, rfl⟩

theorem range {s : σ} {rest : List α} (h : At P c soft s rest) :
    0 ≤ P.position s ∧ P.position s + rest.length = c.length := by
  obtain ⟨⟨lo, hi, h⟩, rfl⟩ := h
  have := (Contract.of_behaves P c Failure.never soft).range h
  simp only [List.length_drop]; omega

theorem isStream {s : σ} {rest : List α} (h : At P c soft s rest) :
    IsStream P c Failure.never soft s := by
  obtain ⟨⟨lo, hi, h⟩, rfl⟩ := h
  have C := Contract.of_behaves P c Failure.never soft
  have := C.range h
  intro l
  exact C.narrow h (by omega) (by omega) (by omega) (by omega) l

theorem status_ne {s : σ} {rest : List α} (h : At P c soft s rest) : P.status s ≠ .error := by
  obtain ⟨⟨lo, hi, h⟩, rfl⟩ := h
  exact ((Contract.of_behaves P c Failure.never soft).status h).1

theorem status_ok {s : σ} {rest : List α} (h : At P c soft s rest) (hne : rest ≠ []) :
    P.status s = .ok := by
  have h1 := h.range
  have h2 := h.status_ne
  have := List.length_pos_iff.mpr hne
  obtain ⟨⟨lo, hi, h⟩, rfl⟩ := h
  have h3 := ((Contract.of_behaves P c Failure.never soft).status h).2
  cases e : P.status s with
  | ok => rfl
  | eof => have := h3 e; omega
  | error => exact absurd e h2

theorem slice_eq {d rest : List α} {p : Int} (hd : c.drop p.toNat = d ++ rest) :
    slice c p d.length = d := by
  unfold slice; rw [hd]; simp

theorem drop_add {d rest : List α} {p : Int} (hp : 0 ≤ p) (hd : c.drop p.toNat = d ++ rest) :
    c.drop (p + d.length).toNat = rest := by
  have : (p + d.length).toNat = p.toNat + d.length := by omega
  rw [this, ← List.drop_drop, hd]; simp

/-- Reading exactly the next `n` items. -/
theorem read {s : σ} {d rest : List α} (h : At P c soft s (d ++ rest)) {n : Int}
    (hn : n = d.length) (h1 : 1 ≤ n) :
    ∃ s', P.read s n n = .ok (s', n, d) ∧ At P c soft s' rest ∧
      P.position s' = P.position s + n := by
  have hr := h.range
  obtain ⟨⟨lo, hi, h⟩, hd⟩ := h
  have C := Contract.of_behaves P c Failure.never soft
  obtain ⟨s', k, d', e, r, g⟩ := C.read h (min := n) (max := n) h1 (Or.inr (Int.le_refl n))
  simp only [List.length_append] at hr
  cases r with
  | data pos items inside adv limit enough st =>
    have hk : k = n := by
      have := limit (by omega)
      rcases enough with x | x <;> omega
    subst hk
    have : d' = d := by rw [items, hn]; exact slice_eq hd
    subst this
    refine ⟨s', e, ⟨⟨_, _, g st⟩, ?_⟩, adv⟩
    rw [adv, hn]; exact drop_add hr.1 hd
  | ended none nodata atEnd stay st => exfalso; omega
  | failed a _ _ => exact absurd a id

/-- Reading more than there is: what is left is returned and the end is reached. -/
theorem read_short {s : σ} {rest : List α} (h : At P c soft s rest) {n : Int} (h1 : 1 ≤ n)
    (hn : rest.length < n) :
    ∃ s' k d, P.read s n n = .ok (s', k, d) ∧ At P c soft s' [] ∧
      (rest ≠ [] → k = rest.length ∧ d = rest) ∧
      (rest = [] → (k = -1 ∨ k = 0) ∧ d = [] ∧ P.status s' = .eof) := by
  have hr := h.range
  obtain ⟨⟨lo, hi, h⟩, hd⟩ := h
  have C := Contract.of_behaves P c Failure.never soft
  obtain ⟨s', k, d', e, r, g⟩ := C.read h (min := n) (max := n) h1 (Or.inr (Int.le_refl n))
  cases r with
  | data pos items inside adv limit enough st =>
    have hk : k = rest.length := by
      rcases enough with x | x <;> omega
    subst hk
    refine ⟨s', _, d', e, ⟨⟨_, _, g st⟩, ?_⟩, fun _ => ⟨rfl, ?_⟩, fun z => ?_⟩
    · rw [adv]
      have := drop_add (rest := []) (p := P.position s) hr.1 (d := rest) (by simpa using hd)
      exact this
    · rw [items]; exact slice_eq (rest := []) (by simpa using hd)
    · rw [z] at pos; simp at pos
  | ended none nodata atEnd stay st =>
    have hz : rest = [] := List.length_eq_zero_iff.mp (by omega)
    refine ⟨s', k, d', e, ⟨⟨_, _, g (by rw [st]; decide)⟩, ?_⟩, fun z => absurd hz z,
      fun _ => ⟨none, nodata, st⟩⟩
    rw [stay, hd, hz]
  | failed a _ _ => exact absurd a id

/-- Skipping the next `n` items. -/
theorem skip {s : σ} {d rest : List α} (h : At P c soft s (d ++ rest)) {n : Int}
    (hn : n = d.length) (h2 : n < 2 ^ 31) :
    ∃ s' r, P.skip s n = .ok (s', r) ∧ At P c soft s' rest ∧ P.position s' = P.position s + n ∧
      (rest ≠ [] ∨ 1 ≤ n → r = n) := by
  have hr := h.range
  obtain ⟨⟨lo, hi, h⟩, hd⟩ := h
  have C := Contract.of_behaves P c Failure.never soft
  obtain ⟨s', r, e, r', g⟩ := C.skip h (k := n) (by omega) h2
  simp only [List.length_append] at hr
  cases r' with
  | skipped adv res st =>
    have ha : P.position s' = P.position s + n := by omega
    refine ⟨s', r, e, ⟨⟨_, _, g st⟩, ?_⟩, ha, fun z => ?_⟩
    · rw [ha, hn]; exact drop_add hr.1 hd
    · rcases res with x | ⟨x1, x2, x3⟩
      · omega
      · rcases z with z | z
        · have := List.length_pos_iff.mpr z; omega
        · omega
  | failed a _ => exact absurd a id

/-- Skipping past the end. -/
theorem skip_short {s : σ} {rest : List α} (h : At P c soft s rest) {n : Int} (h1 : rest.length ≤ n)
    (h2 : n < 2 ^ 31) :
    ∃ s' r, P.skip s n = .ok (s', r) ∧ At P c soft s' [] ∧ P.position s' = c.length := by
  have hr := h.range
  obtain ⟨⟨lo, hi, h⟩, hd⟩ := h
  have C := Contract.of_behaves P c Failure.never soft
  obtain ⟨s', r, e, r', g⟩ := C.skip h (k := n) (by omega) h2
  cases r' with
  | skipped adv res st =>
    have ha : P.position s' = c.length := by omega
    refine ⟨s', r, e, ⟨⟨_, _, g st⟩, ?_⟩, ha⟩
    rw [ha]; simp
  | failed a _ => exact absurd a id

/-- A substream over the next `n` items: it satisfies the stream contract, and after any use of it,
skipping `n` or more items leaves the parent behind the substream. -/
theorem sub {s : σ} {d rest : List α} (h : At P c soft s (d ++ rest)) {n : Int}
    (hn : n = d.length) (h2 : n < 2 ^ 31) :
    ∃ e, SubInputStream.new P s n = .ok e ∧ e.size = n ∧ e.pos = 0 ∧ e.status = .ok ∧
      IsStream (SubInputStream.ops P) d Failure.never soft e ∧
      ∀ e' lo hi, Uses (SubInputStream.ops P) d soft e e' lo hi →
        e'.size = n ∧
        (e'.status ≠ .ok → e'.status = .eof ∧ At P c soft e'.parent rest ∧
          P.position e'.parent = P.position s + n) ∧
        ∀ k, n ≤ k → 1 ≤ k → k < 2 ^ 31 →
        ∃ e'' r, SubInputStream.skip P e' k = .ok (e'', r) ∧ e''.size = n ∧ e''.status = .eof ∧
          At P c soft e''.parent rest ∧ P.position e''.parent = P.position s + n := by
  have hr := h.range
  have hS := h.isStream
  obtain ⟨⟨lo, hi, h⟩, hd⟩ := h
  simp only [List.length_append] at hr
  have hfit : P.position s + n ≤ c.length := by omega
  have C := Contract.of_behaves P c Failure.never soft
  obtain ⟨e, he, hi0, hp⟩ := SubInputStream.inv_new C hS (l := n) (by omega)
  obtain ⟨e2, he2, hsz, hp2, hI⟩ := Props.C14_window hS n (by omega) h2 hfit
  rw [he] at he2; cases he2
  have hdw : slice c (P.position s) n = d := by rw [hn]; exact slice_eq hd
  have hw : SubInputStream.window c (P.position s) n = d := by
    unfold SubInputStream.window; rw [if_neg (by omega)]; exact hdw
  rw [hdw] at hI
  have C' := SubInputStream.contract C (o := P.position s) (l := n) (by omega) (by omega) (by omega) h2
    (by omega) (by omega)
  rw [Props.sub_fails_eq _ (by omega) (by omega) hfit, hw] at C'
  have S' : soft → SoftReset (SubInputStream.ops P) d _ := fun hs => by
    have := SubInputStream.softReset C (SoftReset.of_behaves P c Failure.never soft hs)
      (o := P.position s) (l := n) (by omega) (by omega) (by omega)
    rw [hw] at this; exact this
  have hst : e.status = .ok := by
    unfold SubInputStream.new at he
    rw [Res.assert_of (by simp; omega)] at he
    cases he; rfl
  refine ⟨e, he, hsz, hp, hst, hI, ?_⟩
  intro e' lo' hi' hu
  have hinv := C'.uses S' (by simp only [SubInputStream.ops, hp]; exact hi0) hu
  have hat : ∀ {e'' : SubInputStream σ} {lo hi : Int},
      SubInputStream.Inv P c (P.position s) n
        (fun s lo hi => ∀ l, Behaves P c Failure.never soft s lo hi l) e'' lo hi → e''.pos = n →
      At P c soft e''.parent rest ∧ P.position e''.parent = P.position s + n := by
    intro e'' lo hi hv hpos
    have h3 := hv.ppos
    have h4 : P.position e''.parent = P.position s + n := by omega
    refine ⟨⟨⟨_, _, hv.parent⟩, ?_⟩, h4⟩
    rw [h4, hn]; exact drop_add hr.1 hd
  have hrg := C'.range hinv
  have hsts := C'.status hinv
  simp only [SubInputStream.ops] at hrg hsts
  have hsize : e'.size = n := by
    rcases hinv.size with x | x
    · exact x
    · omega
  refine ⟨hsize, fun z => ?_, ?_⟩
  · cases e3 : e'.status with
    | ok => exact absurd e3 z
    | eof => exact ⟨rfl, hat hinv (by have := hsts.2 e3; omega)⟩
    | error => exact absurd e3 hsts.1
  · intro k hk1 hk2 hk3
    obtain ⟨e'', r, es, rs, kk⟩ := C'.skip hinv (k := k) (by omega) hk3
    cases rs with
    | skipped adv res st =>
      simp only [SubInputStream.ops] at adv es st
      have hp'' : e''.pos = n := by omega
      have hv := kk (by simpa only [SubInputStream.ops] using st)
      have hsz'' : e''.size = n := by
        rcases hv.size with x | x
        · exact x
        · omega
      refine ⟨e'', r, es, hsz'', ?_, hat hv hp''⟩
      unfold SubInputStream.skip at es
      by_cases z : e'.size = e'.pos
      · rw [if_pos z] at es; cases es; rfl
      · rw [if_neg z, if_neg (by omega), if_pos (by omega)] at es
        dsimp only at es
        generalize (if k > e'.size - e'.pos then e'.size - e'.pos else k) = j at es
        unfold SubInputStream.skipParent at es
        generalize hq : P.skip e'.parent _ = res' at es
        rcases res' with ⟨p', sk⟩ | _ | _
        · simp only [Res.bind_ok] at es
          split at es
          · cases es; exact absurd rfl st
          · split at es
            · cases es; rfl
            · split at es
              · cases es; exact absurd rfl st
              · rename_i hne _
                cases es
                exfalso; apply hne; simp only at hp''; omega
        · simp at es
        · simp at es
    | failed a _ => exact absurd a id

/-- As `sub`, for clients that leave the substream with `skip(size())`. -/
theorem sub_skip {s : σ} {d rest : List α} (h : At P c soft s (d ++ rest)) {n : Int}
    (hn : n = d.length) (h2 : n < 2 ^ 31) :
    ∃ e, SubInputStream.new P s n = .ok e ∧ e.size = n ∧ e.pos = 0 ∧
      IsStream (SubInputStream.ops P) d Failure.never soft e ∧
      ∀ e' lo hi, Uses (SubInputStream.ops P) d soft e e' lo hi →
        ∃ e'' r, SubInputStream.skip P e' e'.size = .ok (e'', r) ∧ e''.status = .eof ∧
          At P c soft e''.parent rest ∧ P.position e''.parent = P.position s + n := by
  obtain ⟨e, en, hsz, hpos, hest, hI, hU⟩ := h.sub hn h2
  refine ⟨e, en, hsz, hpos, hI, fun e' lo hi hu => ?_⟩
  obtain ⟨hsz', hne', hk⟩ := hU e' lo hi hu
  by_cases hz : n = 0
  · have hw : e'.pos = 0 := by
      have hr := (Contract.of_behaves (SubInputStream.ops P) d Failure.never soft).range
        ((Contract.of_behaves (SubInputStream.ops P) d Failure.never soft).uses
          (fun hs => SoftReset.of_behaves _ _ _ _ hs) hI hu)
      simp only [SubInputStream.ops] at hr
      omega
    obtain ⟨e3, r3, x3, _, _, x5, x6⟩ := hk 1 (by omega) (by omega) (by omega)
    rw [SubInputStream.skip, if_pos (by omega)] at x3
    cases x3
    exact ⟨{ e' with status := .eof }, -1, by rw [SubInputStream.skip, if_pos (by omega)], rfl, x5, x6⟩
  · obtain ⟨e2, r2, x2, x3, x4, x5, x6⟩ := hk e'.size (by omega) (by omega) (by omega)
    exact ⟨e2, r2, x2, x4, x5, x6⟩

end At
end Strigi
