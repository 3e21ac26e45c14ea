import Verif.Model.Zip
import Verif.ZipSpec
import Verif.Proofs.Archive
import Verif.Proofs.Decompress
import Verif.Proofs.Cpio
import Verif.Props.TextUtils

namespace Strigi

/-- `f` embeds the states of a stream class into those of another one. -/
structure Embeds {ε τ α : Type} (S : StreamOps ε α) (T : StreamOps τ α) (f : ε → τ) : Prop where
  read : ∀ s mn mx, T.read (f s) mn mx = (do let (s', r) ← S.read s mn mx; .ok (f s', r))
  skip : ∀ s k, T.skip (f s) k = (do let (s', r) ← S.skip s k; .ok (f s', r))
  reset : ∀ s q, T.reset (f s) q = (do let (s', r) ← S.reset s q; .ok (f s', r))
  position : ∀ s, T.position (f s) = S.position s
  size : ∀ s, T.size (f s) = S.size s
  status : ∀ s, T.status (f s) = S.status s

namespace Embeds

variable {ε τ α : Type} {S : StreamOps ε α} {T : StreamOps τ α} {f : ε → τ}

theorem behaves (h : Embeds S T f) {c : List α} {F : Failure} {soft : Prop} :
    ∀ (l : List Op) {s : ε} {lo hi : Int}, Behaves S c F soft s lo hi l → Behaves T c F soft (f s) lo hi l := by
  intro l
  induction l with
  | nil =>
    intro s lo hi hb
    simp only [Behaves, Healthy, h.position, h.size, h.status] at hb ⊢
    exact hb
  | cons op l ih =>
    intro s lo hi hb
    obtain ⟨hh, hb⟩ := hb
    refine ⟨?_, ?_⟩
    · simp only [Healthy, h.position, h.size, h.status] at hh ⊢
      exact hh
    · cases op with
      | read mn mx =>
        intro h1 h2
        obtain ⟨s', n, d, e, r, k⟩ := hb h1 h2
        refine ⟨f s', n, d, ?_, ?_, ?_⟩
        · rw [h.read, e]; rfl
        · rw [h.position, h.position, h.status]; exact r
        · rw [h.position, h.position, h.status]; exact fun z => ih (k z)
      | skip k =>
        intro h1 h2
        obtain ⟨s', r, e, p, k⟩ := hb h1 h2
        refine ⟨f s', r, ?_, ?_, ?_⟩
        · rw [h.skip, e]; rfl
        · rw [h.position, h.position, h.status]; exact p
        · rw [h.position, h.status]; exact fun z => ih (k z)
      | reset q =>
        refine ⟨fun h1 h2 => ?_, fun hs h1 h2 => ?_⟩
        · obtain ⟨s', e, p, st, k1, k2⟩ := hb.1 h1 h2
          refine ⟨f s', ?_, ?_, ?_, ?_, ih k2⟩
          · rw [h.reset, e]; rfl
          · rw [h.position]; exact p
          · rw [h.status]; exact st
          · rw [h.position]; exact fun z => ih (k1 z)
        · obtain ⟨s', r, e, p, o, st, k⟩ := hb.2 hs h1 h2
          refine ⟨f s', r, ?_, ?_, ?_, ?_, ih k⟩
          · rw [h.reset, e]; rfl
          · rw [h.position]; exact p
          · rw [h.position]; exact o
          · rw [h.status]; exact st

theorem isStream (h : Embeds S T f) {c : List α} {F : Failure} {soft : Prop} {s : ε}
    (hs : IsStream S c F soft s) : IsStream T c F soft (f s) := by
  intro l
  rw [h.position]
  exact h.behaves l (hs l)

theorem split {ρ : Type} {x : Res (ε × ρ)} {t : τ} {r : ρ}
    (e : (do let (s', r) ← x; .ok (f s', r)) = Res.ok (t, r)) : ∃ s', x = .ok (s', r) ∧ t = f s' := by
  obtain ⟨⟨s', r'⟩, e1, e2⟩ := BufferedStream.bind_eq_ok e
  cases e2
  exact ⟨s', e1, rfl⟩

theorem uses (h : Embeds S T f) {c : List α} {soft : Prop} {s₀ : ε} {t : τ} {lo hi : Int}
    (hu : Uses T c soft (f s₀) t lo hi) : ∃ s, t = f s ∧ Uses S c soft s₀ s lo hi := by
  induction hu with
  | start => exact ⟨s₀, rfl, by rw [h.position]; exact .start⟩
  | read _ h1 h2 e ih =>
    obtain ⟨s, rfl, hs⟩ := ih
    rw [h.read] at e
    obtain ⟨s', e', rfl⟩ := split e
    refine ⟨s', rfl, ?_⟩
    rw [h.position, h.position]
    exact .read hs h1 h2 e'
  | skip _ h1 h2 e ih =>
    obtain ⟨s, rfl, hs⟩ := ih
    rw [h.skip] at e
    obtain ⟨s', e', rfl⟩ := split e
    refine ⟨s', rfl, ?_⟩
    rw [h.position]
    exact .skip hs h1 h2 e'
  | back _ h1 h2 e ih =>
    obtain ⟨s, rfl, hs⟩ := ih
    rw [h.reset] at e
    rw [h.position] at h2
    obtain ⟨s', e', rfl⟩ := split e
    exact ⟨s', rfl, .back hs h1 h2 e'⟩
  | reset _ h1 h2 e ih =>
    obtain ⟨s, rfl, hs⟩ := ih
    rw [h.reset] at e
    obtain ⟨s', e', rfl⟩ := split e
    exact ⟨s', rfl, .reset hs h1 h2 e'⟩
  | jump _ h0 h1 h2 e ih =>
    obtain ⟨s, rfl, hs⟩ := ih
    rw [h.reset] at e
    obtain ⟨s', e', rfl⟩ := split e
    exact ⟨s', rfl, .jump hs h0 h1 h2 e'⟩

end Embeds

/-- A substream over the next `n` items with an invariant from which it can be left. -/
theorem At.sub_inv {σ α : Type} {P : StreamOps σ α} {c : List α} {soft : Prop} {s : σ} {d rest : List α}
    (h : At P c soft s (d ++ rest)) {n : Int} (hn : n = d.length) (h2 : n < 2 ^ 31) :
    ∃ e, SubInputStream.new P s n = .ok e ∧ e.size = n ∧ e.pos = 0 ∧ e.status = .ok ∧
      ∃ H, Contract (SubInputStream.ops P) d Failure.never H ∧ (soft → SoftReset (SubInputStream.ops P) d H) ∧
      H e 0 0 ∧
      ∀ e' lo hi, H e' lo hi → e'.size = n ∧ (e'.pos = n →
        At P c soft e'.parent rest ∧ P.position e'.parent = P.position s + n) := by
  have hr := h.range
  have hS := h.isStream
  obtain ⟨⟨lo, hi, h⟩, hd⟩ := h
  simp only [List.length_append] at hr
  have hfit : P.position s + n ≤ c.length := by omega
  have C := Contract.of_behaves P c Failure.never soft
  obtain ⟨e, he, hi0, hp⟩ := SubInputStream.inv_new C hS (l := n) (by omega)
  have hdw : slice c (P.position s) n = d := by rw [hn]; exact At.slice_eq hd
  have hw : SubInputStream.window c (P.position s) n = d := by
    unfold SubInputStream.window; rw [if_neg (by omega)]; exact hdw
  have C' := SubInputStream.contract C (o := P.position s) (l := n) (by omega) (by omega) (by omega) h2
    (by omega) (by omega)
  rw [Props.sub_fails_eq _ (by omega) (by omega) hfit, hw] at C'
  have S' : soft → SoftReset (SubInputStream.ops P) d _ := fun hs => by
    have := SubInputStream.softReset C (SoftReset.of_behaves P c Failure.never soft hs)
      (o := P.position s) (l := n) (by omega) (by omega) (by omega)
    rw [hw] at this; exact this
  have hst : e.status = .ok ∧ e.size = n := by
    unfold SubInputStream.new at he
    rw [Res.assert_of (by simp; omega)] at he
    cases he; exact ⟨rfl, rfl⟩
  refine ⟨e, he, hst.2, hp, hst.1, _, C', S', hi0, ?_⟩
  intro e' lo' hi' hv
  have hsize : e'.size = n := by
    rcases hv.size with x | x
    · exact x
    · omega
  refine ⟨hsize, fun hpos => ?_⟩
  have h3 := hv.ppos
  have h4 : P.position e'.parent = P.position s + n := by omega
  refine ⟨⟨⟨_, _, hv.parent⟩, ?_⟩, h4⟩
  rw [h4, hn]; exact At.drop_add hr.1 hd

namespace Zip

open ZipSpec

variable {σ ζ : Type} {P : StreamOps σ UInt8} {D : Decompressor ζ} {N : Nat}

theorem embeds_stored : Embeds (SubInputStream.ops P) (entryOps P D N) Entry.stored :=
  ⟨fun _ _ _ => rfl, fun _ _ => rfl, fun _ _ => rfl, fun _ => rfl, fun _ => rfl, fun _ => rfl⟩

theorem embeds_deflated :
    Embeds (SubInputStream.ops (GZip.ops (SubInputStream.ops P) D N)) (entryOps P D N) Entry.deflated :=
  ⟨fun _ _ _ => rfl, fun _ _ => rfl, fun _ _ => rfl, fun _ => rfl, fun _ => rfl, fun _ => rfl⟩

theorem embeds_streamed : Embeds (GZip.ops P D N) (entryOps P D N) Entry.streamed :=
  ⟨fun _ _ _ => rfl, fun _ _ => rfl, fun _ _ => rfl, fun _ => rfl, fun _ => rfl, fun _ => rfl⟩

theorem skipAll_embeds {ε τ : Type} {S : StreamOps ε UInt8} {T : StreamOps τ UInt8} {f : ε → τ} (h : Embeds S T f)
    (k : Int) : ∀ (fuel : Nat) (e : ε), skipAll T k fuel (f e) = (do let e ← skipAll S k fuel e; .ok (f e)) := by
  intro fuel
  induction fuel with
  | zero => intro e; rfl
  | succ fuel ih =>
    intro e
    rw [skipAll, skipAll, h.status]
    by_cases hs : S.status e = .ok
    · rw [if_pos hs, if_pos hs, h.skip]
      cases hk : S.skip e k with
      | ok r => simp only [Res.bind_ok]; exact ih r.1
      | fault x => rfl
      | diverge => rfl
    · rw [if_neg hs, if_neg hs]; rfl

variable {c : List UInt8} {soft : Prop} {R : ζ → List UInt8 → List UInt8 → Prop}

/-- Stored data. -/
theorem stored_spec {input : σ} {y rest : List UInt8} (hA : At P c soft input (y ++ rest))
    (hl : y.length < 2 ^ 31) {fuel : Nat} (hf : 2 ≤ fuel) (l : Locals) (hm : l.method ≠ 8) :
    ∃ e, openEntry P D N input y.length l = .ok (.stored e) ∧ e.pos = 0 ∧ e.size = y.length ∧
      IsStream (entryOps P D N) y Failure.never soft (.stored e) ∧
      ∀ e' lo hi, Uses (entryOps P D N) y soft (.stored e) e' lo hi →
        ∃ input', leaveOther P D N fuel e' true = .ok (input', true) ∧ (∀ d, e' ≠ .deflated d) ∧ At P c soft input' rest := by
  obtain ⟨e, en, hsz, hpos, hest, hI, hU⟩ := hA.sub (n := (y.length : Int)) rfl (by omega)
  refine ⟨e, ?_, hpos, hsz, embeds_stored.isStream hI, ?_⟩
  · rw [openEntry, if_neg hm, en]; rfl
  · intro t lo hi hu
    obtain ⟨e', rfl, hu'⟩ := embeds_stored.uses hu
    obtain ⟨hsz', hne', hk⟩ := hU e' lo hi hu'
    obtain ⟨f, rfl⟩ : ∃ f, fuel = f + 2 := ⟨fuel - 2, by omega⟩
    unfold leaveOther
    simp only
    rw [skipAll_embeds embeds_stored, show (entryOps P D N).size (.stored e') = e'.size from rfl, hsz']
    generalize hk' : (if (y.length : Int) < 1 then (1024 : Int) else y.length) = k
    have hkr : (y.length : Int) ≤ k ∧ 1 ≤ k ∧ k < 2 ^ 31 := by
      rw [← hk']; split <;> omega
    rw [skipAll]
    by_cases hs : (SubInputStream.ops P).status e' = .ok
    · obtain ⟨e'', r, x, _, x2, x3, _⟩ := hk k hkr.1 hkr.2.1 hkr.2.2
      rw [if_pos hs, show (SubInputStream.ops P).skip e' k = _ from x]
      simp only [Res.bind_ok]
      rw [skipAll, if_neg (by simp only [SubInputStream.ops]; rw [x2]; decide)]
      exact ⟨e''.parent, rfl, by simp, x3⟩
    · rw [if_neg hs]
      exact ⟨e'.parent, rfl, by simp, (hne' hs).2.1⟩

/-- Deflated data of known size. -/
theorem deflated_spec (hD : Unpacks D False R) {input : σ} {x y rest : List UInt8}
    (hA : At P c soft input (x ++ rest)) (hl : y.length < 2 ^ 31) (hlx : x.length < 2 ^ 31) (hR : R D.init x y)
    (hx : x ≠ []) (hN : 2 * (x.length + y.length) + 1 < N) (l : Locals) (hm : l.method = 8)
    (hc : l.compressed = x.length) :
    ∃ e, openEntry P D N input y.length l = .ok (.deflated e) ∧ e.pos = 0 ∧ e.size = y.length ∧
      IsStream (entryOps P D N) y Failure.never soft (.deflated e) ∧
      ∀ e' lo hi, Uses (entryOps P D N) y soft (.deflated e) e' lo hi →
        ∃ d z r, e' = .deflated d ∧ SubInputStream.skip P d.parent.prod.input d.parent.prod.input.size = .ok (z, r) ∧
          At P c soft z.parent rest := by
  obtain ⟨z, ez, hsz, hpz, hstz, H, C, S, hH, hleave⟩ := hA.sub_inv (n := (x.length : Int)) rfl (by omega)
  have hz0 : (SubInputStream.ops P).position z = 0 := hpz
  obtain ⟨C', S', u, eu, hpu, hHu⟩ := Unpack.opened (keep := true) C hD False [] (N := N) hH
    (Or.inl ⟨by rw [hz0]; simp, rfl⟩) hR hx hN
  have hF : (⟨Failure.never.onRead ∨ False ∨ False, Failure.never.onRead ∨ False ∨ False⟩ : Failure) = Failure.never := by
    simp [Failure.never]
  rw [hF, List.append_nil] at C'
  rw [List.append_nil] at S' hHu
  have hu0 : (GZip.ops (SubInputStream.ops P) D N).position u = 0 := hpu
  have C' : Contract (GZip.ops (SubInputStream.ops P) D N) y Failure.never _ := C'
  have S' : SoftReset (GZip.ops (SubInputStream.ops P) D N) y _ := S'
  obtain ⟨e, he, hie, hpe⟩ := SubInputStream.inv_new C' hHu (l := (y.length : Int)) (by omega)
  rw [hu0] at hie
  have hw : SubInputStream.window y 0 (y.length : Int) = y := by
    unfold SubInputStream.window; simp [slice]
  have CE := SubInputStream.contract C' (o := 0) (l := (y.length : Int)) (by omega) (by omega) (by omega) (by omega)
    (by omega) (by omega)
  rw [Props.sub_fails_eq _ (by omega) (by omega) (by omega), hw] at CE
  have SE := SubInputStream.softReset C' S' (o := 0) (l := (y.length : Int)) (by omega) (by omega) (by omega)
  rw [hw] at SE
  have hesz : e.size = y.length := by
    unfold SubInputStream.new at he
    rw [Res.assert_of (by simp)] at he
    cases he; rfl
  have hpe' : (SubInputStream.ops (GZip.ops (SubInputStream.ops P) D N)).position e = 0 := hpe
  refine ⟨e, ?_, hpe, hesz, embeds_deflated.isStream (CE.isStream (fun _ => SE) (by rw [hpe']; exact hie)), ?_⟩
  · rw [openEntry, if_pos hm, if_pos (by omega), hc, ez]
    simp only [Res.bind_ok]
    rw [GZip.new]
    simp only [Bool.false_eq_true, if_false]
    rw [eu]
    simp only [Res.bind_ok]
    rw [he]
    rfl
  · intro t lo hi hu
    obtain ⟨e', rfl, hu'⟩ := embeds_deflated.uses hu
    have hv := CE.uses (fun _ => SE) (by rw [hpe']; exact hie) hu'
    have hB := hv.parent
    have hst := (C'.status hB).1
    have hz : ∃ lo hi, H e'.parent.prod.input lo hi := by
      rcases hB.2 with h | ⟨_, rest', m, h⟩ | ⟨_, _, h⟩
      · exact absurd h hst
      · obtain ⟨_, _, h⟩ := h
        split at h
        · obtain ⟨_, _, _, _, _, ⟨lo, hi, _, h⟩, _⟩ := h
          exact ⟨lo, hi, h⟩
        · exact h.2.2
      · exact h
    obtain ⟨lo2, hi2, hz⟩ := hz
    obtain ⟨hzs, _⟩ := hleave _ _ _ hz
    obtain ⟨z', r, ek, rk, kk⟩ := C.skip hz (k := (x.length : Int)) (by omega) (by omega)
    cases rk with
    | skipped adv res st =>
      have hrg := C.range hz
      refine ⟨e', z', r, rfl, by rw [hzs]; exact ek, (hleave _ _ _ (kk st)).2 ?_ |>.1⟩
      have : (SubInputStream.ops P).position z' = z'.pos := rfl
      omega
    | failed a _ => exact absurd a id

/-- Skipping at the end of a buffered stream. -/
theorem skip_at_end {φ : Type} {Q : Producer φ UInt8} {y : List UInt8} {H : BufferedStream φ UInt8 → Int → Int → Prop}
    (C : Contract (BufferedStream.ops Q) y Failure.never H) {e : BufferedStream φ UInt8} {lo hi : Int} (h : H e lo hi)
    (he : e.pos = y.length) {k : Int} (hk : 1 ≤ k) (hb : 0 ≤ e.buf.size) :
    ∃ e' r, BufferedStream.skip Q e k = .ok (e', r) ∧ e'.status = .eof ∧ ∃ lo hi, H e' lo hi := by
  unfold BufferedStream.skip
  rw [BufferedStream.skipLoop, if_pos (by omega)]
  simp only
  generalize hm : (if k > e.buf.size then e.buf.size else k) = m
  have hm1 : m = 0 ∨ 1 ≤ m := by rw [← hm]; split <;> omega
  obtain ⟨e', n, d, er, ro, hk⟩ := C.read h (min := 1) (max := m) (by omega) hm1
  rw [show BufferedStream.read Q e 1 m = _ from er]
  simp only [Res.bind_ok]
  cases ro with
  | data pos items inside adv limit enough st =>
    have : (BufferedStream.ops Q).position e = e.pos := rfl
    omega
  | ended none nodata atEnd stay st =>
    rw [if_pos (by omega)]
    exact ⟨e', 0, rfl, st, _, _, hk (by rw [st]; decide)⟩
  | failed a _ _ => exact absurd a id

/-- Deflated data of unknown size. -/
theorem streamed_spec (hD : Unpacks D False R) {input : σ} {x y rest : List UInt8}
    (hA : At P c soft input (x ++ rest)) (hl : y.length < 2 ^ 31) (hR : R D.init x y)
    (hx : x ≠ []) (hN : 2 * (x.length + y.length) + 1 < N) (l : Locals) (hm : l.method = 8) {fuel : Nat}
    (hf : y.length + 2 < fuel) :
    ∃ e, openEntry P D N input (-1) l = .ok (.streamed e) ∧ e.pos = 0 ∧ e.size = -1 ∧
      IsStream (entryOps P D N) y Failure.never soft (.streamed e) ∧
      ∀ e' lo hi, Uses (entryOps P D N) y soft (.streamed e) e' lo hi →
        ∃ input', leaveOther P D N fuel e' false = skipDescriptor P input' ∧ (∀ d, e' ≠ .deflated d) ∧ At P c soft input' rest := by
  have hrA := hA.range
  obtain ⟨⟨lo, hi, hH⟩, hd⟩ := hA
  have C := Contract.of_behaves P c Failure.never soft
  obtain ⟨C', S', u, eu, hpu, hHu⟩ := Unpack.opened (keep := true) C hD False [] (N := N) hH
    (Or.inl ⟨by rw [hd]; simp, rfl⟩) hR hx hN
  have hF : (⟨Failure.never.onRead ∨ False ∨ False, Failure.never.onRead ∨ False ∨ False⟩ : Failure) = Failure.never := by
    simp [Failure.never]
  rw [hF, List.append_nil] at C'
  rw [List.append_nil] at S' hHu
  have hu0 : (GZip.ops P D N).position u = 0 := hpu
  have C' : Contract (GZip.ops P D N) y Failure.never _ := C'
  have S' : SoftReset (GZip.ops P D N) y _ := S'
  have husz : u.size = -1 := by
    unfold Unpack.openStream BufferedStream.setMinBufSize at eu
    obtain ⟨⟨b, sp⟩, _, e⟩ := BufferedStream.bind_eq_ok eu
    cases e; rfl
  refine ⟨u, ?_, hpu, husz, embeds_streamed.isStream (C'.isStream (fun _ => S') (by rw [hu0]; exact hHu)), ?_⟩
  · rw [openEntry, if_pos hm, if_neg (by omega), GZip.new]
    simp only [Bool.false_eq_true, if_false]
    rw [eu]
    rfl
  · intro t lo hi hu
    obtain ⟨e', rfl, hu'⟩ := embeds_streamed.uses hu
    have hv := C'.uses (fun _ => S') (by rw [hu0]; exact hHu) hu'
    have atEof : ∀ (e : BufferedStream (Unpack.State σ ζ) UInt8) (lo hi : Int), (BufferedStream.Healthy (Unpack.Rest P (fun s lo hi => ∀ l, Behaves P c Failure.never soft s lo hi l) R c
          (P.position input + x.length) False [] N) y (-1) e lo hi ∧
          BufferedStream.Tracks (fun s => ∃ rest m, Unpack.Rest P (fun s lo hi => ∀ l, Behaves P c Failure.never soft s lo hi l) R c
          (P.position input + x.length) False [] N s rest m) (Unpack.AtStop P (fun s lo hi => ∀ l, Behaves P c Failure.never soft s lo hi l)
          (P.position input + x.length)) e) → e.status = .eof →
        At P c soft e.prod.input rest := by
      intro e lo hi hv heof
      have hfin := (hv.1.1.eof heof).2
      rcases hv.2 with z | z | ⟨_, hq, lo2, hi2, hb⟩
      · rw [heof] at z; cases z
      · rw [hfin] at z; cases z.1
      · refine ⟨⟨_, _, hb⟩, ?_⟩
        rw [hq]
        exact At.drop_add hrA.1 hd
    have loop : ∀ (fuel : Nat) (k : Int) (e : BufferedStream (Unpack.State σ ζ) UInt8) (lo hi : Int), 1 ≤ k → k < 2 ^ 31 →
        (BufferedStream.Healthy (Unpack.Rest P (fun s lo hi => ∀ l, Behaves P c Failure.never soft s lo hi l) R c
          (P.position input + x.length) False [] N) y (-1) e lo hi ∧
          BufferedStream.Tracks (fun s => ∃ rest m, Unpack.Rest P (fun s lo hi => ∀ l, Behaves P c Failure.never soft s lo hi l) R c
          (P.position input + x.length) False [] N s rest m) (Unpack.AtStop P (fun s lo hi => ∀ l, Behaves P c Failure.never soft s lo hi l)
          (P.position input + x.length)) e) →
        y.length - e.pos.toNat + 1 < fuel → ∃ e', skipAll (GZip.ops P D N) k fuel e = .ok e' ∧ At P c soft e'.prod.input rest := by
      intro fuel
      induction fuel with
      | zero => intro k e lo hi _ _ _ h; omega
      | succ fuel ih =>
        intro k e lo hi hk1 hk2 hv hlt
        rw [skipAll]
        by_cases hs : (GZip.ops P D N).status e = .ok
        · rw [if_pos hs]
          have hrg := C'.range hv
          have hpp : (GZip.ops P D N).position e = e.pos := rfl
          by_cases hend : e.pos = y.length
          · obtain ⟨e2, r, ek, hst, lo2, hi2, h2⟩ := skip_at_end C' hv hend hk1 (by
              have := hv.1.1.win.wf.off; have := hv.1.1.win.wf.av; have := hv.1.1.win.wf.fits; omega)
            rw [show (GZip.ops P D N).skip e k = _ from ek]
            simp only [Res.bind_ok]
            obtain ⟨g, rfl⟩ : ∃ g, fuel = g + 1 := ⟨fuel - 1, by omega⟩
            rw [skipAll, if_neg (by rw [show (GZip.ops P D N).status e2 = e2.status from rfl, hst]; decide)]
            exact ⟨e2, rfl, atEof e2 lo2 hi2 h2 hst⟩
          · obtain ⟨e2, r, ek, rk, kk⟩ := C'.skip hv (k := k) (by omega) hk2
            rw [ek]
            simp only [Res.bind_ok]
            cases rk with
            | skipped adv res st =>
              have hpp2 : (GZip.ops P D N).position e2 = e2.pos := rfl
              exact ih k e2 _ _ hk1 hk2 (kk st) (by omega)
            | failed a _ => exact absurd a id
        · rw [if_neg hs]
          have hst := C'.status hv
          have heof : e.status = .eof := by
            have : (GZip.ops P D N).status e = e.status := rfl
            cases h : e.status with
            | ok => rw [this] at hs; exact absurd h hs
            | eof => rfl
            | error => rw [this] at hst; exact absurd h hst.1
          exact ⟨e, rfl, atEof e lo hi hv heof⟩
    have hrg := C'.range hv
    have hsz := C'.size hv
    simp only [Failure.never, or_false] at hsz
    unfold leaveOther
    simp only
    rw [skipAll_embeds embeds_streamed]
    rw [embeds_streamed.size]
    generalize hk' : (if (GZip.ops P D N).size e' < 1 then (1024 : Int) else (GZip.ops P D N).size e') = k
    obtain ⟨e2, ek, hA2⟩ := loop fuel k e' lo hi (by rw [← hk']; split <;> omega) (by rw [← hk']; split <;> omega) hv (by omega)
    rw [ek]
    exact ⟨e2.prod.input, rfl, by simp, hA2⟩

/-! ## Numbers -/

theorem read16 {pre f post l : List UInt8} {n k : Nat} (hf : Field 2 f n) (hl : l = pre ++ f ++ post)
    (hp : pre.length = k) : TextUtils.readLittleEndianUInt16 (l.drop k) = .ok n := by
  obtain ⟨h1, h2⟩ := hf
  rcases f with _ | ⟨b0, _ | ⟨b1, _ | ⟨_, _⟩⟩⟩ <;> simp at h1
  rw [hl, ← hp, List.append_assoc, List.drop_left, ← h2]
  exact (Props.C31_16 b0 b1 post).1

theorem read32 {pre f post l : List UInt8} {n k : Nat} (hf : Field 4 f n) (hl : l = pre ++ f ++ post)
    (hp : pre.length = k) : TextUtils.readLittleEndianUInt32 (l.drop k) = .ok n := by
  obtain ⟨h1, h2⟩ := hf
  rcases f with _ | ⟨b0, _ | ⟨b1, _ | ⟨b2, _ | ⟨b3, _ | ⟨_, _⟩⟩⟩⟩⟩ <;> simp at h1
  rw [hl, ← hp, List.append_assoc, List.drop_left, ← h2]
  exact (Props.C31_32 b0 b1 b2 b3 post).1

theorem signature_iff {l : List UInt8} (hl : 4 ≤ l.length) :
    ∃ n, TextUtils.readLittleEndianUInt32 l = .ok n ∧ (n = 0x08074b50 ↔ signature <+: l) := by
  rcases l with _ | ⟨b0, _ | ⟨b1, _ | ⟨b2, _ | ⟨b3, l⟩⟩⟩⟩ <;> simp at hl
  refine ⟨_, (Props.C31_32 b0 b1 b2 b3 l).1, ?_⟩
  simp only [Text.leValue, signature, List.cons_prefix_cons, List.nil_prefix, and_true]
  have h0 := b0.toNat_lt; have h1 := b1.toNat_lt; have h2 := b2.toNat_lt; have h3 := b3.toNat_lt
  constructor
  · intro h
    refine ⟨?_, ?_, ?_, ?_⟩ <;> apply UInt8.toNat_inj.mp <;> simp <;> omega
  · rintro ⟨rfl, rfl, rfl, rfl⟩
    rfl

theorem flag_iff (n : Nat) : n &&& 8 ≠ 0 ↔ n.testBit 3 = true := by
  constructor
  · intro h
    cases hb : n.testBit 3 with
    | true => rfl
    | false =>
      exfalso; apply h
      apply Nat.eq_of_testBit_eq
      intro i
      rw [Nat.testBit_and, show (8 : Nat) = 2 ^ 3 from rfl, Nat.testBit_two_pow]
      by_cases hi : 3 = i
      · subst hi; simp [hb]
      · simp [hi]
  · intro h z
    have := congrArg (fun m => m.testBit 3) z
    simp only [Nat.testBit_and, h] at this
    revert this; decide

/-! ## Data descriptors -/

theorem skipSignature_present {input : σ} {v rest : List UInt8} (hA : At P c soft input (signature ++ v ++ rest))
    (hv : v.length = 12) : ∃ input', skipSignature P input = .ok input' ∧ At P c soft input' rest := by
  obtain ⟨i, er, hA', _⟩ := hA.read (n := 16) (by simp [signature, hv]) (by omega)
  obtain ⟨n, en, hn⟩ := signature_iff (l := signature ++ v) (by simp [signature])
  refine ⟨i, ?_, hA'⟩
  unfold skipSignature
  simp only
  rw [er]
  simp only [Res.bind_ok, if_true]
  rw [en]
  simp only [Res.bind_ok]
  rw [if_neg (by simp only [ne_eq, Decidable.not_not]; exact hn.mpr (List.prefix_append _ _))]

theorem skipSignature_absent {input : σ} {rest : List UInt8} (hA : At P c soft input rest)
    (hl : 16 ≤ rest.length) (hs : ¬ signature <+: rest) :
    ∃ input', skipSignature P input = .ok input' ∧ At P c soft input' rest := by
  have hr := hA.range
  have hI := hA.isStream
  have C := Contract.of_behaves P c Failure.never soft
  have hd := hA.2
  obtain ⟨i, n, d, er, ro, hk⟩ := C.read hI (min := 16) (max := 16) (by omega) (Or.inr (by omega))
  cases ro with
  | data pos items inside adv limit enough st =>
    have hn : n = 16 := by
      have := limit (by omega)
      rcases enough with x | x <;> omega
    have hpre : d <+: rest := by rw [items, slice, hd]; exact List.take_prefix _ _
    have hdl : d.length = 16 := by
      have : (d.length : Int) = n := by rw [items]; exact slice_length (by omega) (by omega) (by omega)
      omega
    obtain ⟨k, ek, hkk⟩ := signature_iff (l := d) (by omega)
    obtain ⟨i2, e2, hp2, _, _, hB⟩ := C.reset (hk st) (q := P.position input) (Int.le_refl _) (by omega)
    refine ⟨i2, ?_, ⟨⟨_, _, hB⟩, by rw [hp2]; exact hd⟩⟩
    unfold skipSignature
    simp only
    rw [er]
    simp only [Res.bind_ok]
    rw [if_pos hn, ek]
    simp only [Res.bind_ok]
    rw [if_pos (fun z => hs ((hkk.mp z).trans hpre)), e2]
    rfl
  | ended none nodata atEnd stay st => exfalso; omega
  | failed a _ _ => exact absurd a id

theorem skipDescriptor_spec {input : σ} {d rest : List UInt8} (hA : At P c soft input (d ++ rest))
    (hd : Descriptor d) : ∃ input', skipDescriptor P input = .ok (input', true) ∧ At P c soft input' rest := by
  unfold skipDescriptor
  rcases hd with ⟨v, rfl, hv⟩ | ⟨hs, hl⟩
  · rw [List.append_assoc] at hA
    obtain ⟨i, er, hA', _⟩ := hA.read (n := 4) (by simp [signature]) (by omega)
    obtain ⟨n, en, hn⟩ := signature_iff (l := signature) (by simp [signature])
    obtain ⟨i2, er2, hA2, _⟩ := hA'.read (n := 12) (by omega) (by omega)
    refine ⟨i2, ?_, hA2⟩
    rw [er]
    simp only [Res.bind_ok, if_true]
    rw [en]
    simp only [Res.bind_ok]
    rw [if_pos (hn.mpr List.prefix_rfl), er2]
    rfl
  · rw [← List.take_append_drop 4 d, List.append_assoc] at hA
    obtain ⟨i, er, hA', _⟩ := hA.read (n := 4) (by simp [hl]) (by omega)
    obtain ⟨n, en, hn⟩ := signature_iff (l := d.take 4) (by simp [hl])
    obtain ⟨i2, er2, hA2, _⟩ := hA'.read (n := 8) (by simp [hl]) (by omega)
    refine ⟨i2, ?_, hA2⟩
    rw [er]
    simp only [Res.bind_ok, if_true]
    rw [en]
    simp only [Res.bind_ok]
    rw [if_neg (fun z => hs ((hn.mp z).trans (List.take_prefix _ _))), er2]
    rfl

/-! ## The header -/

theorem readFileName_spec {s : State σ ζ} {name rest : List UInt8} (hA : At P c soft s.input (name ++ rest))
    (hne : name ≠ []) : ∃ input, readFileName P s name.length =
      .ok { s with input := input, info := { s.info with filename := (shown name).1, type := (shown name).2 } } ∧
      At P c soft input rest := by
  have hpos := List.length_pos_iff.mpr hne
  obtain ⟨i, er, hA', _⟩ := hA.read (n := (name.length : Int)) rfl (by omega)
  refine ⟨i, ?_, hA'⟩
  unfold readFileName
  rw [er]
  simp only [Res.bind_ok]
  rw [if_neg (by simp)]
  obtain ⟨l, b, rfl⟩ : ∃ l b, name = l ++ [b] := ⟨name.dropLast, name.getLast hne, (List.dropLast_concat_getLast hne).symm⟩
  have hs : slice (l ++ [b]) 0 ((l ++ [b]).length : Int) = l ++ [b] := by
    unfold slice; rw [Int.toNat_natCast]; simp only [Int.toNat_zero, List.drop_zero]; exact List.take_length
  have hg : aget (l ++ [b]) (((l ++ [b]).length : Int) - 1) = .ok b := Cpio.aget_append_right (by simp)
  rw [hs, hg]
  simp only [Res.bind_ok, shown, List.getLast?_append, List.getLast?_singleton, Option.some_or, List.dropLast_concat]
  by_cases hb : b = 47
  · rw [if_pos hb, if_pos (by rw [hb])]
    simp
  · rw [if_neg hb, if_neg (by simpa using hb)]

/-- A local file header: the fields hold these numbers. -/
structure Header (head : List UInt8) (flags method time compressed size name extra : Nat) : Prop where
  fields : ∃ ver fl me ti crc cs us nl xl : List UInt8,
    head = [0x50, 0x4b, 0x03, 0x04] ++ ver ++ fl ++ me ++ ti ++ crc ++ cs ++ us ++ nl ++ xl ∧
    ver.length = 2 ∧ Field 2 fl flags ∧ Field 2 me method ∧ Field 4 ti time ∧ crc.length = 4 ∧
    Field 4 cs compressed ∧ Field 4 us size ∧ Field 2 nl name ∧ Field 2 xl extra

theorem readHeader_spec {mktime : TextUtils.Tm → Int} {s : State σ ζ} {head name extra rest : List UInt8}
    {flags method time compressed size : Nat} (hst : s.status = .ok)
    (hh : Header head flags method time compressed size name.length extra.length)
    (hc : compressed < 2 ^ 31) (hm : flags.testBit 3 = true → method = 8) (hne : name ≠ []) (hrest : rest ≠ [])
    (hx : extra.length < 2 ^ 31) (hA : At P c soft s.input (head ++ (name ++ (extra ++ rest)))) :
    ∃ input, readHeader P mktime s = .ok ({ s with
        input := input
        info := ⟨(shown name).1, if flags.testBit 3 then -1 else size, mktime (TextUtils.dosFields time), (shown name).2⟩ },
        ⟨method, if flags.testBit 3 then -1 else compressed⟩) ∧ At P c soft input rest := by
  obtain ⟨ver, fl, me, ti, crc, cs, us, nl, xl, hhead, l1, f1, f2, f3, l2, f4, f5, f6, f7⟩ := hh.fields
  have hl : (head.length : Int) = 30 := by
    rw [hhead]
    simp [l1, l2, f1.1, f2.1, f3.1, f4.1, f5.1, f6.1, f7.1]
  obtain ⟨i, er, hA', _⟩ := hA.read (n := 30) hl.symm (by omega)
  have e26 : TextUtils.readLittleEndianUInt16 (head.drop 26) = .ok name.length :=
    read16 f6 (pre := [0x50, 0x4b, 0x03, 0x04] ++ ver ++ fl ++ me ++ ti ++ crc ++ cs ++ us) (post := xl) (by rw [hhead])
      (by simp [l1, l2, f1.1, f2.1, f3.1, f4.1, f5.1])
  have e28 : TextUtils.readLittleEndianUInt16 (head.drop 28) = .ok extra.length :=
    read16 f7 (pre := [0x50, 0x4b, 0x03, 0x04] ++ ver ++ fl ++ me ++ ti ++ crc ++ cs ++ us ++ nl) (post := []) (by rw [hhead]; simp)
      (by simp [l1, l2, f1.1, f2.1, f3.1, f4.1, f5.1, f6.1])
  have e22 : TextUtils.readLittleEndianUInt32 (head.drop 22) = .ok size :=
    read32 f5 (pre := [0x50, 0x4b, 0x03, 0x04] ++ ver ++ fl ++ me ++ ti ++ crc ++ cs) (post := nl ++ xl) (by rw [hhead]; simp)
      (by simp [l1, l2, f1.1, f2.1, f3.1, f4.1])
  have e18 : TextUtils.readLittleEndianUInt32 (head.drop 18) = .ok compressed :=
    read32 f4 (pre := [0x50, 0x4b, 0x03, 0x04] ++ ver ++ fl ++ me ++ ti ++ crc) (post := us ++ nl ++ xl) (by rw [hhead]; simp)
      (by simp [l1, l2, f1.1, f2.1, f3.1])
  have e10 : TextUtils.readLittleEndianUInt32 (head.drop 10) = .ok time :=
    read32 f3 (pre := [0x50, 0x4b, 0x03, 0x04] ++ ver ++ fl ++ me) (post := crc ++ cs ++ us ++ nl ++ xl) (by rw [hhead]; simp)
      (by simp [l1, f1.1, f2.1])
  have e8 : TextUtils.readLittleEndianUInt16 (head.drop 8) = .ok method :=
    read16 f2 (pre := [0x50, 0x4b, 0x03, 0x04] ++ ver ++ fl) (post := ti ++ crc ++ cs ++ us ++ nl ++ xl) (by rw [hhead]; simp)
      (by simp [l1, f1.1])
  have e6 : TextUtils.readLittleEndianUInt16 (head.drop 6) = .ok flags :=
    read16 f1 (pre := [0x50, 0x4b, 0x03, 0x04] ++ ver) (post := me ++ ti ++ crc ++ cs ++ us ++ nl ++ xl) (by rw [hhead]; simp)
      (by simp [l1])
  obtain ⟨i2, en, hA2⟩ := readFileName_spec (ζ := ζ)
    (s := { s with input := i, info := { s.info with size := if flags.testBit 3 then -1 else size, mtime := mktime (TextUtils.dosFields time) } })
    (name := name) (rest := extra ++ rest) hA' hne
  obtain ⟨i3, r, ek, hA3, _, hr⟩ := hA2.skip (n := (extra.length : Int)) rfl (by omega)
  have hr := hr (Or.inl hrest)
  subst hr
  refine ⟨i3, ?_, hA3⟩
  unfold readHeader
  rw [er]
  simp only [Res.bind_ok]
  rw [if_neg (by simp)]
  have a0 : aget head 0 = .ok 0x50 := by rw [hhead]; simp [aget]
  have a1 : aget head 1 = .ok 0x4b := by rw [hhead]; simp [aget]
  have a2 : aget head 2 = .ok 0x03 := by rw [hhead]; simp [aget]
  have a3 : aget head 3 = .ok 0x04 := by rw [hhead]; simp [aget]
  rw [a0, a1]
  simp only [Res.bind_ok]
  rw [if_neg (by simp), a2, a3]
  simp only [Res.bind_ok]
  rw [if_neg (by simp)]
  unfold readFields
  rw [e26, e28, e22, e18, e8, e6, e10]
  simp only [Res.bind_ok]
  rw [if_neg (by omega), if_neg (by rw [flag_iff]; rintro ⟨z1, z2⟩; exact z2 (hm z1))]
  simp only [flag_iff]
  unfold readNames
  by_cases hb : flags.testBit 3 = true
  · simp only [hb, decide_true, if_true] at en ⊢
    rw [en]
    simp only [Res.bind_ok]
    rw [if_neg (by simp [hst]), ek]
    simp
  · simp only [hb, decide_false, Bool.false_eq_true, if_false] at en ⊢
    rw [en]
    simp only [Res.bind_ok]
    rw [if_neg (by simp [hst]), ek]
    simp

/-! ## Iteration -/

/-- Leaving the current entry leads to an input with the property `Q`. -/
def Leads (P : StreamOps σ UInt8) (D : Decompressor ζ) (N fuel : Nat) (s : State σ ζ) (Q : σ → Prop) : Prop :=
  s.status = .ok ∧ ∃ input, leave P D N fuel s = .ok ({ s with entry := none, input := input }, true) ∧ Q input

/-- The provider is about to read `rest`. -/
def Ready (P : StreamOps σ UInt8) (D : Decompressor ζ) (c : List UInt8) (soft : Prop) (N fuel : Nat) (s : State σ ζ)
    (rest : List UInt8) : Prop :=
  s.status = .ok ∧
    ∃ input, leave P D N fuel s = .ok ({ s with entry := none, input := input }, true) ∧ At P c soft input rest

/-- `mktime` of the fields that `dos2unixtime` computes. -/
def clock (mktime : TextUtils.Tm → Int) (y mo d h mi se : Int) : Int := mktime ⟨y - 1900, mo - 1, d, h, mi, se⟩

theorem leave_other {s : State σ ζ} {e : Entry σ ζ} {fuel : Nat} (h : ∀ d, e ≠ .deflated d) (he : s.entry = some e) :
    leave P D N fuel s = (do
      let (input, ok) ← leaveOther P D N fuel e (decide (0 ≤ s.info.size))
      .ok ({ s with entry := none, input := input, status := if ok then s.status else .error }, ok)) := by
  unfold leave
  rw [he]
  cases e with
  | deflated d => exact absurd rfl (h d)
  | stored => rfl
  | streamed => rfl

theorem nextEntry_gen (hD : Unpacks D False R) {mktime : TextUtils.Tm → Int} {fuel : Nat} {s : State σ ζ} {m : Member}
    {rest : List UInt8} (hm : m.WellFormed (R D.init)) (hN : 2 * (m.data.length + m.content.length) + 1 < N)
    (hf : m.content.length + 2 < fuel) {Q : σ → Prop}
    (hsig : m.kind = .deflated → ∀ z, At P c soft z (m.descriptor ++ rest) → ∃ i, skipSignature P z = .ok i ∧ Q i)
    (hoth : m.kind ≠ .deflated → ∀ i, At P c soft i rest → Q i) (hrne : m.data ++ (m.descriptor ++ rest) ≠ [])
    (hR : Ready P D c soft N fuel s (m.bytes ++ rest)) :
    ∃ s' e, nextEntry P D mktime N fuel s = .ok s' ∧ s'.entry = some e ∧ s'.info = (m.entry (clock mktime)).info ∧
      s'.status = .ok ∧ (entryOps P D N).position e = 0 ∧ (entryOps P D N).size e = (m.entry (clock mktime)).info.size ∧
      IsStream (entryOps P D N) m.content Failure.never soft e ∧
      ∀ e' lo hi, Uses (entryOps P D N) m.content soft e e' lo hi →
        Leads P D N fuel { s' with entry := some e' } Q := by
  obtain ⟨hst, input, el, hA⟩ := hR
  generalize hhead : [0x50, 0x4b, 0x03, 0x04] ++ m.version ++ m.flagsField ++ m.methodField ++ m.timeField ++ m.crc ++
    m.compressedField ++ m.sizeField ++ m.nameField ++ m.extraField = head
  have hsplit : m.bytes ++ rest = head ++ (m.name ++ (m.extra ++ (m.data ++ (m.descriptor ++ rest)))) := by
    rw [← hhead, Member.bytes]; simp
  rw [hsplit] at hA
  have hxl : m.extra.length < 2 ^ 31 := by
    have h1 := hm.extra
    obtain ⟨h1, h2⟩ := h1
    rcases hf : m.extraField with _ | ⟨b0, _ | ⟨b1, _ | ⟨_, _⟩⟩⟩ <;> rw [hf] at h1 h2 <;> simp at h1
    simp only [Text.leValue] at h2
    have := b0.toNat_lt; have := b1.toNat_lt; omega
  -- the numbers in the header
  have hnum : ∃ me co si, Field 2 m.methodField me ∧ Field 4 m.compressedField co ∧ Field 4 m.sizeField si ∧ co < 2 ^ 31 ∧
      (m.flags.testBit 3 = true → me = 8) := by
    have he := hm.encoded
    have hr := hm.range
    unfold Member.Encoded at he
    split at he
    · exact ⟨0, _, _, he.2.1, he.2.2.1, he.2.2.2.1, by omega, by rw [he.1]; simp⟩
    · exact ⟨8, _, _, he.2.1, he.2.2.1, he.2.2.2.1, by omega, fun _ => rfl⟩
    · obtain ⟨_, h2, ⟨n, h3, h4⟩, h5, _⟩ := he
      exact ⟨8, n, _, h2, h3, ⟨h5, rfl⟩, h4, fun _ => rfl⟩
  obtain ⟨me, co, si, fme, fco, fsi, hco, hme⟩ := hnum
  have hh : Header head m.flags me m.time.encode co si m.name.length m.extra.length :=
    ⟨_, _, _, _, _, _, _, _, _, hhead.symm, hm.version, hm.flags, fme, hm.time.2, hm.crc, fco, fsi, hm.name.1, hm.extra⟩
  obtain ⟨i, eh, hA'⟩ := readHeader_spec (mktime := mktime) (s := { s with entry := none, input := input }) hst hh hco hme
    hm.name.2.1 hrne hxl hA
  have htime : mktime (TextUtils.dosFields m.time.encode) =
      clock mktime m.time.year m.time.month m.time.day ((m.time.hour % 16 : Nat) : Int) m.time.min
        ((m.time.sec / 2 * 2 : Nat) : Int) := by
    rw [Props.C42_dos_fields hm.time.1]; rfl
  rw [htime] at eh
  have hfn : (shown m.name).1 ≠ [] := by
    intro z
    unfold shown at z
    split at z
    · rename_i hg
      have h1 := hm.name.2.1
      have h2 := hm.name.2.2
      rw [← List.dropLast_concat_getLast h1] at h2
      rw [List.getLast?_eq_some_getLast h1] at hg
      simp only at z
      rw [z] at h2
      rw [Option.some.inj hg] at h2
      exact h2 rfl
    · exact hm.name.2.1 z
  -- everything but the entry stream
  have hnext : ∀ e, openEntry P D N i (if m.flags.testBit 3 then -1 else (si : Int)) ⟨me, if m.flags.testBit 3 then -1 else co⟩ = .ok e →
      (if m.flags.testBit 3 then (-1 : Int) else si) = (m.entry (clock mktime)).info.size →
      nextEntry P D mktime N fuel s = .ok { s with entry := some e, input := i, info := (m.entry (clock mktime)).info } := by
    intro e he hsz
    rw [nextEntry, if_neg (by simp [hst]), el]
    simp only [Res.bind_ok, if_true]
    have hok : P.status input = .ok := hA.status_ok (by simp [hrne])
    rw [next, if_neg (by simp [hok]), eh]
    simp only [Res.bind_ok]
    rw [if_neg (by simp [hst]), if_neg (by simpa using hfn), he]
    simp only [Res.bind_ok]
    rw [hsz]
    rfl
  have he := hm.encoded
  have hr := hm.range
  have uniq : ∀ {k : Nat} {f : List UInt8} {a b : Nat}, Field k f a → Field k f b → a = b := by
    intro k f a b h1 h2; rw [← h1.2, ← h2.2]
  unfold Member.Encoded at he
  split at he
  · rename_i hkind
    obtain ⟨hb, h1, h2, h3, hdata, hdesc⟩ := he
    have := uniq fsi h3
    subst this
    rw [hdata, hdesc, List.nil_append] at hA'
    obtain ⟨e, eo, hpos, hsz, hI, hU⟩ := stored_spec (D := D) (N := N) hA' hr.1 (fuel := fuel) (by omega)
      ⟨me, if m.flags.testBit 3 then -1 else co⟩ (by have := uniq fme h1; simp only; omega)
    have hsize : (m.entry (clock mktime)).info.size = m.content.length := by
      simp [Member.entry, hkind]
    have hsize2 : (if m.flags.testBit 3 then (-1 : Int) else (m.content.length : Int)) = (m.entry (clock mktime)).info.size := by
      rw [hsize, hb]; simp
    refine ⟨_, .stored e, hnext (.stored e) ?_ hsize2, rfl, rfl, hst, hpos, ?_, hI, ?_⟩
    · rw [hsize2, hsize]; exact eo
    · rw [hsize]; exact hsz
    · intro e' lo hi hu
      obtain ⟨i', el', hnd, hAt⟩ := hU e' lo hi hu
      refine ⟨hst, i', ?_, hoth (by rw [hkind]; decide) _ hAt⟩
      rw [leave_other hnd rfl]
      simp only
      rw [hsize, show decide ((0 : Int) ≤ (m.content.length : Int)) = true by simp, el']
      simp
  · rename_i hkind
    obtain ⟨hb, h1, h2, h3, hinf, hxne, hdesc⟩ := he
    have := uniq fsi h3
    subst this
    have := uniq fco h2
    subst this
    have := uniq fme h1
    subst this
    obtain ⟨e, eo, hpos, hsz, hI, hU⟩ := deflated_spec (N := N) hD hA' hr.1 hr.2 hinf hxne hN
      ⟨((8 : Nat) : Int), if m.flags.testBit 3 then -1 else m.data.length⟩ rfl (by simp [hb])
    have hsize : (m.entry (clock mktime)).info.size = m.content.length := by
      simp [Member.entry, hkind]
    have hsize2 : (if m.flags.testBit 3 then (-1 : Int) else (m.content.length : Int)) = (m.entry (clock mktime)).info.size := by
      rw [hsize, hb]; simp
    refine ⟨_, .deflated e, hnext (.deflated e) ?_ hsize2, rfl, rfl, hst, hpos, ?_, hI, ?_⟩
    · rw [hsize2, hsize]; exact eo
    · rw [hsize]; exact hsz
    · intro e' lo hi hu
      obtain ⟨d, z, r, rfl, ek, hAt⟩ := hU e' lo hi hu
      obtain ⟨i', es, hA2⟩ := hsig hkind _ hAt
      refine ⟨hst, i', ?_, hA2⟩
      unfold leave
      simp only
      rw [ek]
      simp only [Res.bind_ok]
      rw [es]
      rfl
  · rename_i hkind
    obtain ⟨hb, h1, _, _, hinf, hxne, hdesc⟩ := he
    have := uniq fme h1
    subst this
    obtain ⟨e, eo, hpos, hsz, hI, hU⟩ := streamed_spec (N := N) hD hA' hr.1 hinf hxne hN
      ⟨((8 : Nat) : Int), if m.flags.testBit 3 then -1 else co⟩ rfl hf
    have hsize : (m.entry (clock mktime)).info.size = -1 := by
      simp [Member.entry, hkind]
    have hsize2 : (if m.flags.testBit 3 then (-1 : Int) else (si : Int)) = (m.entry (clock mktime)).info.size := by
      rw [hsize, hb]; simp
    refine ⟨_, .streamed e, hnext (.streamed e) ?_ hsize2, rfl, rfl, hst, hpos, ?_, hI, ?_⟩
    · rw [hsize2, hsize]; exact eo
    · rw [hsize]; exact hsz
    · intro e' lo hi hu
      obtain ⟨i1, el', hnd, hAt⟩ := hU e' lo hi hu
      obtain ⟨i', es, hA2⟩ := skipDescriptor_spec hAt hdesc
      refine ⟨hst, i', ?_, hoth (by rw [hkind]; decide) _ hA2⟩
      rw [leave_other hnd rfl]
      simp only
      rw [hsize, show decide ((0 : Int) ≤ -1) = false by decide, el', es]
      simp

theorem nextEntry_spec (hD : Unpacks D False R) {mktime : TextUtils.Tm → Int} {fuel : Nat} {s : State σ ζ} {m : Member}
    {rest : List UInt8} (hm : m.WellFormed (R D.init)) (hN : 2 * (m.data.length + m.content.length) + 1 < N)
    (hf : m.content.length + 2 < fuel)
    (hrest : m.kind = .deflated → m.descriptor = [] → 16 ≤ rest.length ∧ ¬ signature <+: rest)
    (hrne : m.data ++ (m.descriptor ++ rest) ≠ [])
    (hR : Ready P D c soft N fuel s (m.bytes ++ rest)) :
    ∃ s' e, nextEntry P D mktime N fuel s = .ok s' ∧ s'.entry = some e ∧ s'.info = (m.entry (clock mktime)).info ∧
      s'.status = .ok ∧ (entryOps P D N).position e = 0 ∧ (entryOps P D N).size e = (m.entry (clock mktime)).info.size ∧
      IsStream (entryOps P D N) m.content Failure.never soft e ∧
      ∀ e' lo hi, Uses (entryOps P D N) m.content soft e e' lo hi →
        Ready P D c soft N fuel { s' with entry := some e' } rest := by
  refine nextEntry_gen hD hm hN hf (Q := fun i => At P c soft i rest) (fun hk z hAt => ?_) (fun _ i h => h) hrne hR
  have he := hm.encoded
  unfold Member.Encoded at he
  rw [hk] at he
  obtain ⟨_, _, _, _, _, _, hdesc⟩ := he
  rcases hdesc with hd | ⟨v, hd, hv⟩
  · rw [hd, List.nil_append] at hAt
    exact skipSignature_absent hAt (hrest hk hd).1 (hrest hk hd).2
  · rw [hd] at hAt
    exact skipSignature_present hAt hv

/-- `nextEntry()` at the central directory. -/
theorem nextEntry_directory {mktime : TextUtils.Tm → Int} {fuel : Nat} {s : State σ ζ} {l : List UInt8}
    (hl : Directory l) (hR : Ready P D c soft N fuel s l) :
    ∃ s', nextEntry P D mktime N fuel s = .ok s' ∧ Finished (ops P D mktime N fuel) .eof s' := by
  obtain ⟨hst, input, el, hA⟩ := hR
  obtain ⟨⟨t, ht⟩, hlen⟩ := hl
  have hok : P.status input = .ok := hA.status_ok (by intro z; rw [z] at hlen; simp at hlen)
  rw [← List.take_append_drop 30 l] at hA
  obtain ⟨i, er, hA', _⟩ := hA.read (n := 30) (by simp; omega) (by omega)
  have hhead : l.take 30 = [0x50, 0x4b, 0x01, 0x02] ++ t.take 26 := by
    rw [← ht]; rfl
  refine ⟨{ s with entry := none, input := i, status := .eof }, ?_, rfl, rfl, ?_⟩
  · rw [nextEntry, if_neg (by simp [hst]), el]
    simp only [Res.bind_ok, if_true]
    rw [next, if_neg (by simp [hok]), readHeader, er]
    simp only [Res.bind_ok]
    have a0 : aget (l.take 30) 0 = .ok 0x50 := by rw [hhead]; simp [aget]
    have a1 : aget (l.take 30) 1 = .ok 0x4b := by rw [hhead]; simp [aget]
    have a2 : aget (l.take 30) 2 = .ok 0x01 := by rw [hhead]; simp [aget]
    have a3 : aget (l.take 30) 3 = .ok 0x02 := by rw [hhead]; simp [aget]
    rw [if_neg (by simp), a0, a1]
    simp only [Res.bind_ok]
    rw [if_neg (by simp), a2, a3]
    simp only [Res.bind_ok]
    rw [if_pos (by simp)]
    simp
  · simp only [ops]
    rw [nextEntry, if_pos (by simp)]

theorem member_start {m : Member} (rest : List UInt8) {inflates : List UInt8 → List UInt8 → Prop} (hm : m.WellFormed inflates) :
    16 ≤ (m.bytes ++ rest).length ∧ ¬ signature <+: m.bytes ++ rest := by
  constructor
  · simp only [Member.bytes, List.length_append, List.length_cons, List.length_nil, hm.version, hm.flags.1, hm.time.2.1, hm.crc,
      hm.name.1.1, hm.extra.1]
    omega
  · simp [Member.bytes, signature]

theorem directory_start {l : List UInt8} (hl : Directory l) : 16 ≤ l.length ∧ ¬ signature <+: l := by
  obtain ⟨⟨t, rfl⟩, h⟩ := hl
  exact ⟨by omega, by simp [signature]⟩

/-- Members, and then something that is not the rest of a data descriptor. -/
theorem presents_then (hD : Unpacks D False R) {mktime : TextUtils.Tm → Int} {fuel : Nat} {last : Status} {tail : List UInt8}
    {l : List ArchiveEntry} (htail : 16 ≤ tail.length ∧ ¬ signature <+: tail)
    (hl : ∀ s : State σ ζ, Ready P D c soft N fuel s tail → Presents (ops P D mktime N fuel) Failure.never soft last s l) :
    ∀ (ms : List Member) (s : State σ ζ), (∀ m ∈ ms, m.WellFormed (R D.init) ∧
        2 * (m.data.length + m.content.length) + 1 < N ∧ m.content.length + 2 < fuel) →
      Ready P D c soft N fuel s (ms.flatMap Member.bytes ++ tail) →
      Presents (ops P D mktime N fuel) Failure.never soft last s (ms.map (Member.entry (clock mktime)) ++ l) := by
  intro ms
  induction ms with
  | nil =>
    intro s _ hR
    simp only [List.flatMap_nil, List.nil_append] at hR
    exact hl s hR
  | cons m ms ih =>
    intro s hms hR
    rw [List.flatMap_cons, List.append_assoc] at hR
    obtain ⟨hm, hN, hf⟩ := hms m (by simp)
    have hrest : 16 ≤ (ms.flatMap Member.bytes ++ tail).length ∧ ¬ signature <+: ms.flatMap Member.bytes ++ tail := by
      cases ms with
      | nil => simpa using htail
      | cons m2 ms2 =>
        rw [List.flatMap_cons, List.append_assoc]
        exact member_start _ (hms m2 (by simp)).1
    obtain ⟨s', e, x1, x2, x3, x4, x5, x6, x7, x8⟩ := nextEntry_spec hD (mktime := mktime) hm hN hf (fun _ _ => hrest)
      (by intro z; simp only [List.append_eq_nil_iff] at z; have := hrest.1; rw [List.length_append, z.2.2.1, z.2.2.2] at this; simp at this) hR
    refine ⟨s', e, x1, x2, x3, x4, x5, x6, x7, fun e' lo hi hu => ?_⟩
    exact ih _ (fun m' hm' => hms m' (by simp [hm'])) (x8 e' lo hi hu)

theorem presents (hD : Unpacks D False R) {mktime : TextUtils.Tm → Int} {fuel : Nat} {dir : List UInt8} (hdir : Directory dir)
    (ms : List Member) (s : State σ ζ) (hms : ∀ m ∈ ms, m.WellFormed (R D.init) ∧
        2 * (m.data.length + m.content.length) + 1 < N ∧ m.content.length + 2 < fuel)
    (hR : Ready P D c soft N fuel s (ms.flatMap Member.bytes ++ dir)) :
    Presents (ops P D mktime N fuel) Failure.never soft .eof s (ms.map (Member.entry (clock mktime))) := by
  have := presents_then (l := []) (last := .eof) (mktime := mktime) hD (directory_start hdir)
    (fun s hs => nextEntry_directory hdir hs) ms s hms hR
  rwa [List.append_nil] at this

/-- A data descriptor that is cut off. -/
theorem skipDescriptor_short {input : σ} {d : List UInt8} (hA : At P c soft input d)
    (h1 : signature <+: d → d.length < 16) (h2 : ¬ signature <+: d → d.length < 12) :
    ∃ input', skipDescriptor P input = .ok (input', false) := by
  unfold skipDescriptor
  by_cases h4 : d.length < 4
  · obtain ⟨i, k, d', er, _, ha, hb⟩ := hA.read_short (n := 4) (by omega) (by omega)
    refine ⟨i, ?_⟩
    rw [er]
    simp only [Res.bind_ok]
    rw [if_neg]
    by_cases hz : d = []
    · have := (hb hz).1; omega
    · have := (ha hz).1; omega
  · rw [← List.take_append_drop 4 d] at hA
    obtain ⟨i, er, hA', _⟩ := hA.read (n := 4) (by simp; omega) (by omega)
    obtain ⟨n, en, hn⟩ := signature_iff (l := d.take 4) (by simp; omega)
    have hpre : signature <+: d.take 4 ↔ signature <+: d := by
      constructor
      · exact fun z => z.trans (List.take_prefix _ _)
      · intro z
        rw [List.prefix_iff_eq_take.mp z]
        exact List.prefix_rfl
    rw [er]
    simp only [Res.bind_ok, if_true]
    rw [en]
    simp only [Res.bind_ok]
    by_cases hs : signature <+: d
    · have := h1 hs
      rw [if_pos (hn.mpr (hpre.mpr hs))]
      obtain ⟨i2, k, d', er2, _, ha, hb⟩ := hA'.read_short (n := 12) (by omega) (by simp; omega)
      refine ⟨i2, ?_⟩
      rw [er2]
      simp only [Res.bind_ok]
      rw [decide_eq_false]
      by_cases hz : d.drop 4 = []
      · have := (hb hz).1; omega
      · have := (ha hz).1; rw [List.length_drop] at this; omega
    · have := h2 hs
      rw [if_neg (fun z => hs (hpre.mp (hn.mp z)))]
      obtain ⟨i2, k, d', er2, _, ha, hb⟩ := hA'.read_short (n := 8) (by omega) (by simp; omega)
      refine ⟨i2, ?_⟩
      rw [er2]
      simp only [Res.bind_ok]
      rw [decide_eq_false]
      by_cases hz : d.drop 4 = []
      · have := (hb hz).1; omega
      · have := (ha hz).1; rw [List.length_drop] at this; omega

end Zip
end Strigi
