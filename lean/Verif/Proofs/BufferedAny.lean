import Verif.SafetySpec
import Verif.Proofs.BufferedStream

/-!
# Buffered streams over producers about whose data nothing is known
-/

namespace Strigi

namespace StreamBuffer

variable {α : Type}

theorem Win.extend {b : StreamBuffer α} {c : List α} {p : Int} (h : Win b c p) (d : List α) : Win b (c ++ d) p := by
  have h1 := h.wf.off; have h2 := h.wf.av; have h3 := h.base; have h4 := h.top
  refine ⟨h.wf, h.base, by simp only [List.length_append]; omega, ?_⟩
  rw [h.items]
  congr 1
  unfold slice
  rw [List.drop_append_of_le_length (by omega), List.take_append_of_le_length (by simp; omega)]

/-- Data stored behind the window that is not counted does not matter. -/
theorem Win.scribble {b : StreamBuffer α} {c : List α} {p : Int} (h : Win b c p) {d : List α}
    (hf : b.offset + b.avail + d.length ≤ b.size) :
    ∃ b', b.store (b.offset + b.avail) d = .ok b' ∧ b'.offset = b.offset ∧ b'.avail = b.avail ∧
      b'.size = b.size ∧ Win b' c p := by
  have h1 := h.wf.off; have h2 := h.wf.av; have h3 := h.wf.fits
  have hsz : ((b.mem.take (b.offset + b.avail).toNat ++ d.map some ++
      b.mem.drop ((b.offset + b.avail).toNat + d.length)).length : Int) = b.size := by
    simp only [size, List.length_append, List.length_take, List.length_drop, List.length_map] at *
    omega
  refine ⟨⟨b.mem.take (b.offset + b.avail).toNat ++ d.map some ++
      b.mem.drop ((b.offset + b.avail).toNat + d.length), b.offset, b.avail⟩, ?_, rfl, rfl, hsz, ?_, h.base, h.top, ?_⟩
  · unfold StreamBuffer.store; rw [if_pos (by omega)]
  · exact ⟨h1, h2, by simp only [size] at hsz ⊢; rw [hsz]; exact h3⟩
  · simp only
    rw [← h.items]
    unfold slice
    simp only [Int.toNat_zero, List.drop_zero]
    have e4 : (b.mem.take (b.offset + b.avail).toNat).length = (b.offset + b.avail).toNat := by
      simp only [List.length_take, size] at *; omega
    rw [List.append_assoc, List.take_append_of_le_length (by omega), List.take_of_length_le (by omega)]

end StreamBuffer

namespace BufferedStream

open StreamBuffer

variable {φ α : Type}

/-- A producer that stores no more than there is space for.  `J` holds for all its states; `I f m b` for those from
which it may be called: at most `m` calls will follow and at most `b` items. -/
structure Emits (P : Producer φ α) (J : φ → Prop) (I : φ → Nat → Nat → Prop) : Prop where
  weak : ∀ {f m b}, I f m b → J f
  fuel : ∀ {f m b}, I f m b → m < P.fuel f
  step : ∀ {f m b}, I f m b → ∀ {space : Int}, 0 < space → ∃ f' r, P.fill f space = .ok (f', r) ∧ J f' ∧
    (r.data.length : Int) ≤ space ∧
    ((r.error = false ∧ r.n = r.data.length ∧ ∃ m' b', m' < m ∧ b' + r.data.length ≤ b ∧ I f' m' b') ∨ r.n < 0 ∨
      (r.error = true ∧ r.n = r.data.length ∧ 0 < m ∧ (r.n < space → ∀ space' : Int, 0 < space' →
        ∃ f'' r', P.fill f' space' = .ok (f'', r') ∧ J f'' ∧ r'.n < 0 ∧ (r'.data.length : Int) ≤ space')))

variable {P : Producer φ α} {J : φ → Prop} {I : φ → Nat → Nat → Prop}

/-- The loop ends as soon as a negative number was returned. -/
theorem writeLoop_end {nt mx : Int} {fuel : Nat} {s : BufferedStream φ α} {missing nw : Int} (hf : 0 < fuel)
    (h : ¬ (missing > 0 ∧ nw ≥ 0)) : writeLoop P nt mx fuel s missing nw = .ok (s, nw) := by
  cases fuel with
  | zero => omega
  | succ fuel => unfold writeLoop; rw [if_neg h]

/-- One more call after an error: the producer returns a negative number. -/
theorem writeLoop_dead {nt mx : Int} {fuel : Nat} {s : BufferedStream φ α} {c : List α} {nw : Int} (hf : 1 < fuel)
    (hw : Win s.buf c s.pos) (hs : s.status = .error) (hJ : J s.prod)
    (hdead : nt - s.buf.avail > 0 → ∀ space' : Int, 0 < space' →
        ∃ f'' r', P.fill s.prod space' = .ok (f'', r') ∧ J f'' ∧ r'.n < 0 ∧ (r'.data.length : Int) ≤ space') :
    ∃ s' nw', writeLoop P nt mx fuel s (nt - s.buf.avail) nw = .ok (s', nw') ∧ s'.pos = s.pos ∧ s'.size = s.size ∧
      s'.finished = s.finished ∧ J s'.prod ∧ s'.status = .error := by
  by_cases hc : nt - s.buf.avail > 0 ∧ nw ≥ 0
  · cases fuel with
    | zero => omega
    | succ fuel =>
    unfold writeLoop
    rw [if_pos hc]
    obtain ⟨b, sp, e, hsp, hw', hspe, hav, hoff, hsz, hx, hy⟩ := hw.makeSpace (nt - s.buf.avail)
    rw [e]
    simp only [Res.bind_ok]
    have hspos : 0 < (if mx ≥ nt ∧ sp > mx then mx else sp) ∧ (if mx ≥ nt ∧ sp > mx then mx else sp) ≤ sp := by
      have := hw.wf.av
      split <;> omega
    generalize (if mx ≥ nt ∧ sp > mx then mx else sp) = space at *
    obtain ⟨f', r, ef, hJ', hn, hl⟩ := hdead hc.1 space hspos.1
    rw [ef]
    simp only [Res.bind_ok]
    obtain ⟨b2, e2, o2, a2, s2, w2⟩ := hw'.scribble (d := r.data) (by omega)
    rw [e2]
    simp only [Res.bind_ok]
    rw [Res.assert_of (by
      simp only [decide_eq_true_eq]
      split
      · decide
      · rw [hs]; decide), Res.bind_ok]
    rw [if_neg (by omega)]
    rw [writeLoop_end (by omega) (by omega)]
    refine ⟨_, _, rfl, rfl, rfl, rfl, hJ', ?_⟩
    · simp only; split
      · rfl
      · exact hs
  · rw [writeLoop_end (by omega) hc]
    exact ⟨_, _, rfl, rfl, rfl, rfl, hJ, hs⟩

theorem writeLoop_any (G : Emits P J I) (nt mx : Int) : ∀ (fuel : Nat) (s : BufferedStream φ α) (missing nw : Int) (m b : Nat)
    (c : List α), Win s.buf c s.pos → s.pos + s.buf.avail = c.length → s.status = .ok → I s.prod m b →
    m + 2 ≤ fuel → missing = nt - s.buf.avail → 0 ≤ nw →
    ∃ s' nw' c', writeLoop P nt mx fuel s missing nw = .ok (s', nw') ∧ s'.pos = s.pos ∧ s'.size = s.size ∧
      s'.finished = s.finished ∧ J s'.prod ∧ c <+: c' ∧
      (s'.status = .error ∨ (s'.status = .ok ∧ Win s'.buf c' s.pos ∧ s.pos + s'.buf.avail = c'.length ∧
        (s.buf.offset = 0 → s.buf.size = 0 ∨ s.buf.size = nt → s'.buf.size = 0 ∨ s'.buf.size = nt) ∧
        ((0 ≤ nw' ∧ nt ≤ s'.buf.avail ∧ ∃ m' b', I s'.prod m' b' ∧ b' + c'.length ≤ b + c.length) ∨
          (nw' < 0 ∧ c'.length ≤ b + c.length)))) := by
  intro fuel
  induction fuel with
  | zero => intro s missing nw m b c _ _ _ _ h; omega
  | succ fuel ih =>
    intro s missing nw m bb c hw htop hst hI hfu hmis hnw
    have hwf := hw.wf
    have hb1 := hwf.off; have hb2 := hwf.av; have hb3 := hw.base
    by_cases hc : missing > 0 ∧ nw ≥ 0
    · unfold writeLoop
      rw [if_pos hc]
      obtain ⟨b, sp, e, hsp, hw', hspe, hav, hoff, hsz', hx, hy⟩ := hw.makeSpace missing
      rw [e]
      simp only [Res.bind_ok]
      have hq : s.buf.offset = 0 → s.buf.size = 0 ∨ s.buf.size = nt → b.offset = 0 ∧ b.size = nt := by
        intro z1 z2
        have w1 := hw'.wf.off; have w2 := hwf.fits
        refine ⟨by omega, ?_⟩
        rcases z2 with z2 | z2
        · have := hy z2 (by omega); omega
        · rw [hx (by omega), z2]
      have hspos : 0 < (if mx ≥ nt ∧ sp > mx then mx else sp) ∧ (if mx ≥ nt ∧ sp > mx then mx else sp) ≤ sp ∧
          missing ≤ (if mx ≥ nt ∧ sp > mx then mx else sp) := by
        split <;> omega
      generalize (if mx ≥ nt ∧ sp > mx then mx else sp) = space at *
      obtain ⟨f', r, ef, hJ', hl, hr⟩ := G.step hI hspos.1
      rw [ef]
      simp only [Res.bind_ok]
      by_cases hneg : r.n < 0
      · -- the end, or an error
        obtain ⟨b2, e2, o2, a2, s2, w2⟩ := hw'.scribble (d := r.data) (by omega)
        rw [e2]
        simp only [Res.bind_ok]
        rw [Res.assert_of (by
          simp only [decide_eq_true_eq]
          split
          · decide
          · rw [hst]; decide), Res.bind_ok]
        rw [if_neg (by omega), writeLoop_end (by omega) (by omega)]
        refine ⟨_, _, c, rfl, rfl, rfl, rfl, hJ', List.prefix_refl _, ?_⟩
        simp only
        by_cases he : r.error = true
        · rw [if_pos he]; exact Or.inl rfl
        · rw [if_neg he]
          exact Or.inr ⟨hst, w2, by omega, (fun z1 z2 => by have := hq z1 z2; omega), Or.inr ⟨hneg, by omega⟩⟩
      · -- data
        have hn : r.n = r.data.length := by
          rcases hr with hr | hr | hr
          · exact hr.2.1
          · omega
          · exact hr.2.1
        have hsl : slice (c ++ r.data) (s.pos + b.avail) r.data.length = r.data := by
          unfold slice
          rw [show (s.pos + b.avail).toNat = c.length by omega]
          simp
        obtain ⟨b2, e2, o2, a2, s2, w2⟩ := (hw'.extend r.data).store (d := r.data) (by omega)
          (by simp only [List.length_append]; omega) hsl
        rw [e2]
        simp only [Res.bind_ok]
        rw [Res.assert_of (by
          simp only [decide_eq_true_eq]
          split
          · decide
          · rw [hst]; decide), Res.bind_ok]
        -- both branches continue with the same state
        have hbr : (if r.n > 0 then
            writeLoop P nt mx fuel { s with prod := f', buf := { b2 with avail := b2.avail + r.n }, status := if r.error = true then .error else s.status } (nt - (b2.avail + r.n)) r.n
          else writeLoop P nt mx fuel { s with prod := f', buf := b2, status := if r.error = true then .error else s.status } missing r.n) =
          writeLoop P nt mx fuel { s with prod := f', buf := { b2 with avail := b2.avail + r.data.length }, status := if r.error = true then .error else s.status } (nt - (b2.avail + r.data.length)) r.n := by
          by_cases hp : r.n > 0
          · rw [if_pos hp, hn]
          · rw [if_neg hp]
            have hz : (r.data.length : Int) = 0 := by omega
            rw [hz]
            have e3 : b2.avail + 0 = b2.avail := by omega
            rw [e3]
            have e4 : nt - b2.avail = missing := by omega
            rw [e4]
        rw [hbr]
        rcases hr with ⟨he, _, m', b', hm', hb', hI'⟩ | hr | ⟨he, _, hm0, hdead⟩
        · simp only [he, Bool.false_eq_true, if_false]
          obtain ⟨s3, nw3, c3, e3, g1, g2, g3, g5, g6, g7⟩ := ih
            { s with prod := f', buf := { b2 with avail := b2.avail + r.data.length } }
            (nt - (b2.avail + r.data.length)) r.n m' b' (c ++ r.data) w2
            (by simp only [List.length_append]; omega)
            hst hI' (by omega) rfl (by omega)
          refine ⟨s3, nw3, c3, e3, g1, g2, g3, g5, (List.prefix_append c r.data).trans g6, ?_⟩
          simp only [List.length_append] at g7
          rcases g7 with g7 | ⟨g7, g8, g9, gq, g10⟩
          · exact Or.inl g7
          · refine Or.inr ⟨g7, g8, g9, (fun z1 z2 => by
              obtain ⟨y1, y2⟩ := hq z1 z2
              refine gq ?_ (Or.inr ?_)
              · show b2.offset = 0; omega
              · show b2.size = nt; omega), ?_⟩
            rcases g10 with ⟨g10, g11, m4, b4, g12, g13⟩ | ⟨g10, g11⟩
            · exact Or.inl ⟨g10, g11, m4, b4, g12, by omega⟩
            · exact Or.inr ⟨g10, by omega⟩
        · omega
        · simp only [he, if_true]
          obtain ⟨s3, nw3, e3, g1, g2, g3, g5, g6⟩ := writeLoop_dead (P := P) (J := J) (nt := nt) (mx := mx) (fuel := fuel)
            (s := { s with prod := f', buf := { b2 with avail := b2.avail + r.data.length }, status := .error }) (nw := r.n)
            (by omega) w2 rfl hJ' (by
              intro z
              simp only at z
              exact hdead (by omega))
          exact ⟨s3, nw3, c, e3, g1, g2, g3, g5, List.prefix_refl _, Or.inl g6⟩
    · rw [writeLoop_end (by omega) hc]
      exact ⟨s, nw, c, rfl, rfl, rfl, rfl, G.weak hI, List.prefix_refl _,
        Or.inr ⟨hst, hw, htop, (fun _ z => z), Or.inl ⟨hnw, by omega, m, bb, hI, by omega⟩⟩⟩

/-- The state of a buffered stream that has produced the items `c` so far. -/
structure Live (J : φ → Prop) (I : φ → Nat → Nat → Prop) (T : Nat) (c : List α) (s : BufferedStream φ α) : Prop where
  weak : J s.prod
  win : s.status ≠ .error → Win s.buf c s.pos ∧ s.pos + s.buf.avail = c.length ∧ c.length ≤ T
  live : s.status ≠ .error → s.finished = false → ∃ m b, I s.prod m b ∧ b + c.length ≤ T
  eof : s.status = .eof → s.buf.avail = 0 ∧ s.finished = true

variable {T : Nat} {c : List α} {s : BufferedStream φ α}

theorem ensure_any (G : Emits P J I) (h : Live J I T c s) (hs : s.status = .ok) (mn mx : Int) :
    ∃ s' c', ensure P s mn mx = .ok s' ∧ c <+: c' ∧ Live J I T c' s' ∧ s'.pos = s.pos ∧ s'.size = s.size ∧
      (s'.status = .error ∨ (s'.status = .ok ∧ (mn ≤ s'.buf.avail ∨ s'.finished = true) ∧
        (s.buf.size = 0 → s'.buf.size = 0 ∨ s'.buf.size = mn))) := by
  have hne : s.status ≠ .error := by rw [hs]; decide
  obtain ⟨hw, htop, hT⟩ := h.win hne
  unfold ensure
  split
  · rename_i hc
    obtain ⟨m, b, hI, hb⟩ := h.live hne (by simpa using hc.1)
    unfold writeToBuffer
    have hfu := G.fuel hI
    obtain ⟨s', nw', c', e, g1, g2, g3, g5, g6, g7⟩ := writeLoop_any G mn mx (P.fuel s.prod + 1) s (mn - s.buf.avail) 0 m b c
      hw htop hs hI (by omega) rfl (by omega)
    rw [e]
    simp only [Res.bind_ok]
    rcases g7 with g7 | ⟨g7, g8, g9, gq, g10⟩
    · have hL : Live J I T c' s' := ⟨g5, fun z => absurd g7 z, fun z => absurd g7 z, fun z => by rw [g7] at z; cases z⟩
      split
      · exact ⟨_, c', rfl, g6, ⟨g5, fun z => absurd g7 z, fun z => absurd g7 z, fun z => by rw [g7] at z; cases z⟩, g1, g2, Or.inl g7⟩
      · exact ⟨_, c', rfl, g6, hL, g1, g2, Or.inl g7⟩
    · have hgrow : s.buf.size = 0 → s'.buf.size = 0 ∨ s'.buf.size = mn := by
        intro z
        have w1 := hw.wf.off; have w2 := hw.wf.av; have w3 := hw.wf.fits
        exact gq (by omega) (Or.inl z)
      rw [← g1] at g8 g9
      rcases g10 with ⟨g10, g11, m', b', g12, g13⟩ | ⟨g10, g11⟩
      · rw [if_neg (by omega)]
        exact ⟨_, c', rfl, g6, ⟨g5, fun _ => ⟨g8, g9, by omega⟩, fun _ _ => ⟨m', b', g12, by omega⟩,
          fun z => by rw [g7] at z; cases z⟩, g1, g2, Or.inr ⟨g7, Or.inl g11, hgrow⟩⟩
      · rw [if_pos g10]
        exact ⟨_, c', rfl, g6, ⟨g5, fun _ => ⟨g8, g9, by omega⟩, (fun _ z => by cases z),
          fun z => by rw [g7] at z; cases z⟩, g1, g2, Or.inr ⟨g7, Or.inr rfl, hgrow⟩⟩
  · rename_i hc
    refine ⟨s, c, rfl, List.prefix_refl _, h, rfl, rfl, Or.inr ⟨hs, ?_, fun z => Or.inl z⟩⟩
    by_cases hf : s.finished = true
    · exact Or.inr hf
    · left
      have : ¬ mn > s.buf.avail := fun z => hc ⟨by simpa using hf, z⟩
      omega

theorem read_any (G : Emits P J I) (h : Live J I T c s) {mn : Int} (hmn : 1 ≤ mn) (mx : Int) :
    ∃ s' n d c', read P s mn mx = .ok (s', n, d) ∧ c <+: c' ∧ Live J I T c' s' ∧
      (s.status = .error → n < 0 ∧ s'.status = .error) ∧ (s.status = .eof → n < 0 ∧ s'.status = .eof) ∧
      (mn ≤ mx → n ≤ mx) ∧ (s.buf.size = 0 → n ≤ mn) ∧ (n < mn → s'.status ≠ .ok) ∧
      (0 ≤ n → s'.status ≠ .error ∧ d = slice c' s.pos n ∧ s'.pos = s.pos + n) ∧
      (n < 0 → s'.status = .error ∨ s'.pos = s.pos) := by
  unfold read
  by_cases h1 : s.status = .error
  · rw [if_pos h1]
    exact ⟨s, -2, [], c, rfl, List.prefix_refl _, h, fun _ => ⟨by omega, h1⟩, (fun z => by rw [h1] at z; cases z), fun _ => by omega, (fun _ => by omega),
      (fun _ => by rw [h1]; decide), fun _ => by omega, fun _ => Or.inl h1⟩
  rw [if_neg h1]
  by_cases h2 : s.status = .eof
  · rw [if_pos h2]
    exact ⟨s, -1, [], c, rfl, List.prefix_refl _, h, fun z => absurd z h1, (fun _ => ⟨by omega, h2⟩), fun _ => by omega, (fun _ => by omega),
      (fun _ => by rw [h2]; decide), fun _ => by omega, fun _ => Or.inr rfl⟩
  rw [if_neg h2]
  have hs : s.status = .ok := by cases hst : s.status <;> simp_all
  obtain ⟨x, hx⟩ : ∃ x : Int, x = (if mn > mx then 0 else mx) := ⟨_, rfl⟩
  dsimp only
  rw [← hx]
  obtain ⟨s1, c1, e1, p1, L1, q1, z1, k1⟩ := ensure_any G h hs mn x
  rw [e1, Res.bind_ok]
  by_cases h3 : s1.status = .error
  · rw [if_pos h3]
    exact ⟨s1, -2, [], c1, rfl, p1, L1, fun z => absurd z h1, fun z => absurd z h2, fun _ => by omega, (fun _ => by omega),
      (fun _ => by rw [h3]; decide), fun _ => by omega, fun _ => Or.inl h3⟩
  rw [if_neg h3]
  obtain ⟨k2, k3, k4⟩ := k1.resolve_left h3
  obtain ⟨hw, htop, hT⟩ := L1.win h3
  obtain ⟨b, n, eb, hn, hn0, ho, ha, hm, hwin⟩ := hw.read x
  rw [eb]
  simp only [Res.bind_ok]
  have hzero : s.buf.size = 0 → n ≤ mn := by
    intro z
    have w1 := hw.wf.off; have w2 := hw.wf.fits; have w3 := hw.wf.av
    have hn' : n ≤ s1.buf.avail := by rw [hn]; split <;> omega
    rcases k4 z with y | y <;> omega
  have hav := hw.wf.av
  have hxm : mn ≤ mx → n ≤ mx := by
    intro z
    rw [if_neg (by omega)] at hx
    rw [hn]; split <;> omega
  have hshort : n < mn → n = s1.buf.avail := by
    intro z
    rw [hn] at z ⊢
    split at hx
    · rw [if_pos (by omega)]
    · by_cases hcc : x ≤ 0 ∨ x > s1.buf.avail
      · rw [if_pos hcc]
      · rw [if_neg hcc] at z; omega
  by_cases h4 : s1.pos + n > s1.size ∧ s1.size > 0
  · rw [if_pos h4]
    exact ⟨_, _, _, c1, rfl, p1, ⟨L1.weak, fun z => absurd rfl z, fun z => absurd rfl z, fun z => by cases z⟩,
      fun z => absurd z h1, fun z => absurd z h2, fun _ => by omega, (fun _ => by omega), (fun _ => by simp), fun _ => by omega, fun _ => Or.inl rfl⟩
  rw [if_neg h4]
  by_cases h5 : s1.status = .ok ∧ b.avail = 0 ∧ s1.finished = true
  · rw [if_pos h5]
    refine ⟨_, _, _, c1, rfl, p1, ⟨L1.weak, fun _ => ⟨hwin, by simp only; omega, hT⟩,
      (fun _ z => by simp only at z; rw [h5.2.2] at z; cases z), fun _ => h5.2⟩,
      fun z => absurd z h1, fun z => absurd z h2, ?_, ?_, (fun _ => by simp), ?_, ?_⟩
    · intro z; have := hxm z; split <;> omega
    · intro z; have := hzero z; split <;> omega
    · intro z
      by_cases n0 : n = 0
      · rw [if_pos n0] at z; omega
      · rw [if_neg n0]; exact ⟨by simp, by rw [q1], by simp only; omega⟩
    · intro z
      by_cases n0 : n = 0
      · right; simp only; omega
      · rw [if_neg n0] at z; omega
  · rw [if_neg h5]
    refine ⟨_, _, _, c1, rfl, p1, ⟨L1.weak, fun _ => ⟨hwin, by simp only; omega, hT⟩,
      L1.live, (fun z => by simp only at z; rw [k2] at z; cases z)⟩, fun z => absurd z h1, fun z => absurd z h2, hxm, hzero, ?_,
      fun _ => ⟨h3, by rw [q1], by simp only; omega⟩, fun z => by omega⟩
    intro z
    exfalso
    have e := hshort z
    have hf : s1.finished = true := k3.resolve_left (by omega)
    exact h5 ⟨k2, by omega, hf⟩

theorem skipLoop_any (G : Emits P J I) : ∀ (fuel : Nat) (s : BufferedStream φ α) (c : List α) (n sk : Int), Live J I T c s →
    0 ≤ n → n < fuel → ∃ s' r c', skipLoop P fuel s n sk = .ok (s', r) ∧ c <+: c' ∧ Live J I T c' s' ∧
      (s.status = .error → s'.status = .error) ∧ (s.status = .eof → s'.status = .eof ∧ r = sk) ∧
      (s'.status ≠ .error → sk ≤ r ∧ r ≤ sk + n ∧ s'.pos = s.pos + (r - sk) ∧ (r < sk + n → s'.status = .eof)) ∧
      (s.status ≠ .error → sk + n ≤ r → s'.status ≠ .error) := by
  intro fuel
  induction fuel with
  | zero => intro s c n sk _ _ h; omega
  | succ fuel ih =>
    intro s c n sk h h0 hf
    rw [skipLoop]
    by_cases hn : n ≠ 0
    · rw [if_pos hn]
      by_cases he : s.status = .error
      · dsimp only
        have er : read P s 1 (if n > s.buf.size then s.buf.size else n) = .ok (s, -2, []) := by
          unfold read; rw [if_pos he]
        rw [er, Res.bind_ok]
        dsimp only
        rw [if_pos (by omega)]
        exact ⟨s, sk, c, rfl, List.prefix_refl _, h, id, (fun z => by rw [he] at z; cases z), (fun z => absurd he z), fun z => absurd he z⟩
      obtain ⟨st, hst, h1, h2⟩ : ∃ st : Int, (if n > s.buf.size then s.buf.size else n) = st ∧ (1 ≤ st ∨ s.buf.size = 0) ∧ st ≤ n := by
        have : 0 ≤ s.buf.size := by simp [StreamBuffer.size]
        refine ⟨_, rfl, ?_, ?_⟩ <;> split <;> omega
      dsimp only
      rw [hst]
      obtain ⟨s1, k, d, c1, e, p1, L1, g1, g2, g3, gz, g4, g5, g6⟩ := read_any G h (mn := 1) (by omega) st
      rw [e, Res.bind_ok]
      dsimp only
      have hk : k ≤ n := by
        rcases h1 with h1 | h1
        · have := g3 h1; omega
        · have := gz h1; omega
      by_cases hk0 : k ≤ 0
      · rw [if_pos hk0]
        refine ⟨s1, sk, c1, rfl, p1, L1, fun z => (g1 z).2, (fun z => ⟨(g2 z).2, rfl⟩), fun z => ⟨by omega, by omega, ?_, fun _ => ?_⟩, fun _ z => by omega⟩
        · by_cases k0 : 0 ≤ k
          · have := (g5 k0).2.2; omega
          · have := (g6 (by omega)).resolve_left z; omega
        · have := g4 (by omega)
          cases hst1 : s1.status <;> simp_all
      · rw [if_neg hk0]
        obtain ⟨s2, r, c2, e2, p2, L2, f1, _, f2, f3⟩ := ih s1 c1 (n - k) (sk + k) L1 (by omega) (by omega)
        refine ⟨s2, r, c2, e2, p1.trans p2, L2, fun z => f1 (g1 z).2, (fun z => by have := (g2 z).1; omega), fun z => ?_, fun _ z => f3 (g5 (by omega)).1 (by omega)⟩
        obtain ⟨a1, a2, a3, a4⟩ := f2 z
        have := (g5 (by omega)).2.2
        exact ⟨by omega, by omega, by omega, fun y => a4 (by omega)⟩
    · rw [if_neg hn]
      exact ⟨s, sk, c, rfl, List.prefix_refl _, h, id, (fun z => ⟨z, rfl⟩), (fun _ => ⟨by omega, by omega, by omega, fun z => by omega⟩), fun z _ => z⟩

theorem reset_any (h : Live J I T c s) {q : Int} (hq : 0 ≤ q) : ∃ s' r, reset s q = .ok (s', r) ∧ Live J I T c s' ∧
    (s.status = .error → s'.status = .error ∧ r < 0) ∧
    (s.status ≠ .error → s'.status ≠ .error ∧ s'.pos = r ∧ (r = q ∨ (r = s.pos ∧ s' = s))) := by
  unfold reset
  rw [Res.assert_of (by simpa using hq), Res.bind_ok]
  by_cases h1 : s.status = .error
  · rw [if_pos h1]
    exact ⟨s, -2, rfl, h, fun _ => ⟨h1, by omega⟩, fun z => absurd h1 z⟩
  rw [if_neg h1]
  dsimp only
  obtain ⟨hw, htop, hT⟩ := h.win h1
  split
  · rename_i hc
    refine ⟨_, _, rfl, ⟨h.weak, fun _ => ⟨⟨⟨?_, ?_, ?_⟩, ?_, ?_, ?_⟩, ?_, hT⟩, fun _ z => h.live h1 z, fun z => by cases z⟩,
      fun z => absurd z h1, fun _ => ⟨by simp, rfl, Or.inl (by omega)⟩⟩
    · simp only; omega
    · simp only; omega
    · have := hw.wf.fits; simp only [StreamBuffer.size] at this ⊢; omega
    · have := hw.base; simp only; omega
    · simp only; omega
    · simp only
      have e1 : s.buf.offset - (s.pos - q) + (s.buf.avail + (s.pos - q)) = s.buf.offset + s.buf.avail := by omega
      have e2 : s.pos - (s.pos - q) - (s.buf.offset - (s.pos - q)) = s.pos - s.buf.offset := by omega
      rw [e1, e2]; exact hw.items
    · simp only; omega
  · exact ⟨s, s.pos, rfl, h, fun z => absurd z h1, fun _ => ⟨h1, rfl, Or.inr ⟨rfl, rfl⟩⟩⟩

theorem growing {φ : Type} {P : Producer φ UInt8} {J : φ → Prop} {I : φ → Nat → Nat → Prop} (G : Emits P J I) (T : Nat) :
    Growing (ops P) T (Live J I T) where
  range h hs := by
    obtain ⟨hw, htop, hT⟩ := h.win hs
    have := hw.base; have := hw.wf.off; have := hw.wf.av
    simp only [ops]; omega
  read h mn mx hmn := by
    obtain ⟨s', n, d, c', e, p, L, g1, g2, g3, _, g4⟩ := read_any G h hmn mx
    exact ⟨s', n, d, c', e, p, L, g1, g2, g3, g4⟩
  skip h k hk := by
    obtain ⟨s', r, c', e, p, L, g1, g0, g2, g3⟩ := skipLoop_any G (k.toNat + 1) _ _ k 0 h hk (by omega)
    refine ⟨s', r, c', e, p, L, g1, g0, fun z => ?_, fun z y => g3 z (by omega)⟩
    obtain ⟨a1, a2, a3, a4⟩ := g2 z
    exact ⟨a1, by omega, by simp only [ops]; omega, fun y => a4 (by omega)⟩
  reset h q hq := reset_any h hq

theorem live_new {T m b : Nat} {f : φ} {J : φ → Prop} {I : φ → Nat → Nat → Prop} (hJ : J f) (h : I f m b) (hT : b ≤ T) (sz : Int) {n : Int}
    (hn : 0 < n) : ∃ s : BufferedStream φ α, setMinBufSize (BufferedStream.new f sz) n = .ok s ∧ Live J I T [] s ∧ s.pos = 0 ∧ s.status = .ok ∧
      s.prod = f ∧ s.size = sz := by
  have hw : Win (StreamBuffer.empty : StreamBuffer α) [] 0 := Win.empty []
  obtain ⟨b', sp, e, h1, w, h2, h3, h4, h5, h6, h7⟩ := hw.makeSpace n
  refine ⟨⟨f, b', false, 0, sz, .ok⟩, ?_, ⟨hJ, fun _ => ⟨w, ?_, by simp⟩, fun _ _ => ⟨m, b, h, by simpa using hT⟩, fun z => by cases z⟩, rfl, rfl, rfl, rfl⟩
  · unfold setMinBufSize
    show (StreamBuffer.empty.makeSpace n >>= _) = _
    rw [e]; rfl
  · simp only [h3]; simp [StreamBuffer.empty]

/-- A new stream whose buffer has no memory yet. -/
theorem live_fresh {T m b : Nat} {f : φ} {J : φ → Prop} {I : φ → Nat → Nat → Prop} (hJ : J f) (h : I f m b) (hT : b ≤ T) (sz : Int) :
    Live J I T [] (BufferedStream.new f sz : BufferedStream φ α) :=
  ⟨hJ, fun _ => ⟨Win.empty [], by simp [BufferedStream.new, StreamBuffer.empty], by simp⟩, fun _ _ => ⟨m, b, h, by simpa using hT⟩, fun z => by cases z⟩

end BufferedStream
end Strigi
