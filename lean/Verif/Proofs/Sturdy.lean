import Verif.SafetySpec
import Verif.Model.StringStream
import Verif.Model.SubInputStream
import Verif.Proofs.BufferedStream
import Verif.Proofs.Opener

/-!
# Streams that may be used in any way, and substreams of them

`Robust` and `Growing` streams are not closed under `SubInputStream`: a substream whose parent ended too early has the
status `Error`, but a `reset` brings it back.  `Sturdy` is.
-/

namespace Strigi

/-- What is known of a stream from outside: the number of bytes is at most `total`; `loc` is where it really is; `dead`:
it will never deliver anything; `fin`: it will deliver nothing before a `reset`; `gives p d`: the bytes `d` may be
delivered at position `p`; `allowed q`: `reset` may be called with `q`; `back`: no `reset` to a position that was passed is
refused. -/
structure View (σ : Type) where
  total : Nat
  loc : σ → Int
  dead : σ → Prop
  fin : σ → Prop
  gives : Int → List UInt8 → Prop
  allowed : Int → Prop
  back : Prop

/-- All calls (`read` with a first argument of at least `lo` and less than 2 GB, `skip` and `reset` with numbers that
are not negative) return, also after errors. -/
structure Sturdy {σ : Type} (P : StreamOps σ UInt8) (lo : Int) (H : σ → Prop) (V : View σ) : Prop where
  sync : ∀ {s : σ}, H s → P.status s ≠ .error → ¬ V.dead s ∧ P.position s = V.loc s
  range : ∀ {s : σ}, H s → ¬ V.dead s → 0 ≤ V.loc s ∧ V.loc s ≤ V.total ∧ P.position s ≤ V.loc s ∧ V.allowed (V.loc s)
  ended : ∀ {s : σ}, H s → P.status s = .error → V.fin s
  below : ∀ {p q : Int}, p ≤ q → V.allowed q → V.allowed p
  read : ∀ {s : σ}, H s → ∀ mn mx : Int, lo ≤ mn → mn < 2 ^ 31 → ∃ s' n d, P.read s mn mx = .ok (s', n, d) ∧ H s' ∧
    (P.status s = .error → n < 0 ∧ P.status s' = .error) ∧
    (V.fin s → n ≤ 0 ∧ V.fin s' ∧ (¬ V.dead s' → V.loc s' = V.loc s)) ∧
    (1 ≤ mn → mn ≤ mx → n ≤ mx ∧ (¬ V.dead s' → V.loc s' ≤ V.loc s + mx)) ∧
    (1 ≤ mn → mn ≤ mx ∨ mx < 1 → n < mn → P.status s' ≠ .ok ∧ V.fin s') ∧
    (0 ≤ n → P.status s' ≠ .error ∧ (d.length : Int) = n ∧ V.gives (V.loc s) d ∧ V.loc s' = V.loc s + n) ∧
    (n < 0 → P.status s' = .error ∨ V.loc s' = V.loc s) ∧
    (¬ V.dead s' → ¬ V.dead s ∧ V.loc s ≤ V.loc s')
  skip : ∀ {s : σ}, H s → ∀ k : Int, 0 ≤ k → ∃ s' r, P.skip s k = .ok (s', r) ∧ H s' ∧
    (P.status s = .error → P.status s' = .error) ∧
    (V.fin s → V.fin s' ∧ (¬ V.dead s' → V.loc s' = V.loc s)) ∧
    (P.status s' ≠ .error → r ≤ k ∧ V.loc s' = V.loc s + max r 0 ∧ (r ≤ 0 → 0 < k → V.fin s')) ∧
    (P.status s ≠ .error → k ≤ r → P.status s' ≠ .error) ∧
    (¬ V.dead s' → ¬ V.dead s ∧ V.loc s ≤ V.loc s' ∧ V.loc s' ≤ V.loc s + k)
  reset : ∀ {s : σ}, H s → ∀ q : Int, 0 ≤ q → V.allowed q ∨ V.dead s → ∃ s' r, P.reset s q = .ok (s', r) ∧ H s' ∧
    (V.dead s → V.dead s' ∧ r < 0) ∧
    (¬ V.dead s → P.status s' ≠ .error ∧ P.position s' = r ∧ (r = q ∨ r = V.loc s ∨ (V.loc s ≤ r ∧ r < q ∧ V.fin s')) ∧
      (V.back → q ≤ V.loc s → r = q))

variable {σ : Type} {P : StreamOps σ UInt8} {lo : Int} {H : σ → Prop} {V : View σ}

namespace Sturdy

theorem dead_error (S : Sturdy P lo H V) {s : σ} (h : H s) (hd : V.dead s) : P.status s = .error :=
  Classical.byContradiction fun z => (S.sync h z).1 hd

theorem pos_range (S : Sturdy P lo H V) {s : σ} (h : H s) (hs : P.status s ≠ .error) : 0 ≤ P.position s ∧ P.position s ≤ V.total := by
  obtain ⟨h1, h2⟩ := S.sync h hs
  obtain ⟨g1, g2, _⟩ := S.range h h1
  omega

/-- `read`, in terms of positions. -/
theorem fetch (S : Sturdy P lo H V) {s : σ} (h : H s) {mn mx : Int} (h1 : lo ≤ mn) (h2 : mn < 2 ^ 31) :
    ∃ s' n d, P.read s mn mx = .ok (s', n, d) ∧ H s' ∧
      (1 ≤ mn → mn ≤ mx → n ≤ mx) ∧
      (1 ≤ mn → mn ≤ mx ∨ mx < 1 → n < mn → P.status s' ≠ .ok ∧ V.fin s') ∧
      (0 ≤ n → P.status s ≠ .error ∧ P.status s' ≠ .error ∧ (d.length : Int) = n ∧ V.gives (P.position s) d ∧
        P.position s' = P.position s + n) ∧
      (P.status s' ≠ .error → P.status s ≠ .error ∧ P.position s ≤ P.position s') := by
  obtain ⟨s', n, d, e, h', ger, gfin, gmx, gsh, gd, gn, gm⟩ := S.read h mn mx h1 h2
  have hlast : P.status s' ≠ .error → P.status s ≠ .error := fun z z' => z (ger z').2
  refine ⟨s', n, d, e, h', fun a b => (gmx a b).1, gsh, fun n0 => ?_, fun z => ⟨hlast z, ?_⟩⟩
  · obtain ⟨k1, k2, k3, k4⟩ := gd n0
    have x1 := (S.sync h (hlast k1)).2
    have x2 := (S.sync h' k1).2
    exact ⟨hlast k1, k1, k2, by rw [x1]; exact k3, by omega⟩
  · obtain ⟨x0, x1⟩ := S.sync h' z
    have x2 := (S.sync h (hlast z)).2
    have := (gm x0).2
    omega

/-- A read of exactly `n > 0` bytes that succeeds. -/
theorem read_exact (S : Sturdy P lo H V) {s s' : σ} {n : Int} {d : List UInt8} (h : H s) (h1 : 1 ≤ n) (hlo : lo ≤ n)
    (h2 : n < 2 ^ 31) (e : P.read s n n = .ok (s', n, d)) : (d.length : Int) = n ∧ P.status s ≠ .error ∧ P.status s' ≠ .error ∧
      V.gives (P.position s) d ∧ 0 ≤ P.position s ∧ P.position s + n ≤ V.total ∧ P.position s' = P.position s + n := by
  obtain ⟨s1, n1, d1, e1, hH, _, _, hdata, _⟩ := S.fetch h (mn := n) (mx := n) hlo h2
  rw [e] at e1; cases e1
  obtain ⟨g1, g2, g3, g4, g5⟩ := hdata (by omega)
  have r1 := S.pos_range h g1
  have r2 := S.pos_range hH g2
  exact ⟨g3, g1, g2, g4, r1.1, by omega, g5⟩

/-- `skip`, in terms of positions. -/
theorem leap (S : Sturdy P lo H V) {s : σ} (h : H s) {k : Int} (hk : 0 ≤ k) : ∃ s' r, P.skip s k = .ok (s', r) ∧ H s' ∧
    (P.status s' ≠ .error → P.status s ≠ .error ∧ r ≤ k ∧ P.position s' = P.position s + max r 0) ∧
    (P.status s ≠ .error → k ≤ r → P.status s' ≠ .error) := by
  obtain ⟨s', r, e, h', ger, gfin, gok, gr, gm⟩ := S.skip h k hk
  have hlast : P.status s' ≠ .error → P.status s ≠ .error := fun z z' => z (ger z')
  refine ⟨s', r, e, h', fun z => ⟨hlast z, (gok z).1, ?_⟩, gr⟩
  have x1 := (S.sync h' z).2
  have x2 := (S.sync h (hlast z)).2
  have := (gok z).2.1
  omega

/-- A position that was reached before may be returned to. -/
theorem back (S : Sturdy P lo H V) {s s' : σ} (h : H s) (hs : P.status s ≠ .error) (h' : H s') :
    ∃ t r, P.reset s' (P.position s) = .ok (t, r) ∧ H t := by
  obtain ⟨h1, h2⟩ := S.sync h hs
  have r := S.range h h1
  rw [h2]
  obtain ⟨t, r, e, ht, _⟩ := S.reset h' (V.loc s) r.1 (Or.inl r.2.2.2)
  exact ⟨t, r, e, ht⟩

end Sturdy

/-! ## Streams over a fixed content, and over one that becomes known -/

/-- The view of a robust stream. -/
def Robust.view (P : StreamOps σ UInt8) (c : List UInt8) (H : σ → Prop) : View σ where
  total := c.length
  loc := P.position
  dead s := P.status s = .error
  fin s := P.status s = .error ∨ P.position s = c.length
  gives p d := 0 ≤ p ∧ d = slice c p d.length
  allowed _ := True
  back := ∀ {s s' : σ} {q r : Int}, H s → P.status s ≠ .error → 0 ≤ q → q ≤ P.position s → P.reset s q = .ok (s', r) → r = q

theorem Robust.sturdy {c : List UInt8} (R : Robust P c lo H) : Sturdy P lo H (Robust.view P c H) where
  sync _ hs := ⟨hs, rfl⟩
  range h hs := ⟨(R.range h hs).1, (R.range h hs).2, Int.le_refl _, trivial⟩
  ended _ hs := Or.inl hs
  below _ _ := trivial
  read := by
    intro s h mn mx h1 h2
    obtain ⟨s', n, d, e, h', gd, gl, gr, gn⟩ := R.read h mn mx h1 h2
    have hlast : P.status s' ≠ .error → P.status s ≠ .error := fun z z' => z (gd z').2
    refine ⟨s', n, d, e, h', gd, ?_, ?_, ?_, ?_, ?_, ?_⟩
    · rintro (hf | hf)
      · obtain ⟨x1, x2⟩ := gd hf
        exact ⟨by omega, Or.inl x2, fun z => absurd x2 z⟩
      · have key : ∀ z : P.status s' ≠ .error, n ≤ 0 ∧ P.position s' = P.position s := by
          intro z
          have r := R.range h' z
          by_cases n0 : 0 ≤ n
          · have := (gr n0).2.2.1
            omega
          · exact ⟨by omega, (gn (by omega)).resolve_left z⟩
        refine ⟨?_, ?_, fun z => (key z).2⟩
        · by_cases n0 : 0 ≤ n
          · exact (key (gr n0).1).1
          · omega
        · by_cases z : P.status s' = .error
          · exact Or.inl z
          · exact Or.inr (by rw [(key z).2]; exact hf)
    · intro a b
      refine ⟨(gl a b).1, fun z => ?_⟩
      have := (gl a b).1
      show P.position s' ≤ P.position s + mx
      by_cases n0 : 0 ≤ n
      · have := (gr n0).2.2.1; omega
      · have := (gn (by omega)).resolve_left z; omega
    · intro a b z
      exact R.short h a h2 b e z
    · intro n0
      obtain ⟨k1, k2, k3, _⟩ := gr n0
      have r1 := R.range h' k1
      have r2 := R.range h (hlast k1)
      have hl : (d.length : Int) = n := by
        rw [k2]; unfold slice; rw [List.length_take, List.length_drop]; omega
      refine ⟨k1, hl, ?_, k3⟩
      show 0 ≤ P.position s ∧ d = slice c (P.position s) d.length
      rw [hl]; exact ⟨r2.1, k2⟩
    · exact gn
    · intro z
      refine ⟨hlast z, ?_⟩
      show P.position s ≤ P.position s'
      by_cases n0 : 0 ≤ n
      · have := (gr n0).2.2.1; omega
      · have := (gn (by omega)).resolve_left z; omega
  skip := by
    intro s h k hk
    obtain ⟨s', r, e, h', gd, gok, gk⟩ := R.skip h k hk
    refine ⟨s', r, e, h', gd, ?_, ?_, gk, ?_⟩
    · intro hf
      by_cases z : P.status s' = .error
      · exact ⟨Or.inl z, fun y => absurd z y⟩
      · have hf : P.position s = c.length := by
          rcases hf with hf | hf
          · exact absurd (gd hf) z
          · exact hf
        have r1 := R.range h' z
        have := (gok z).2.1
        have hp : P.position s' = P.position s := by omega
        exact ⟨Or.inr (by rw [hp]; exact hf), fun _ => hp⟩
    · intro z
      obtain ⟨k1, k2, k3⟩ := gok z
      refine ⟨k1, k2, fun r0 r1 => Or.inr ?_⟩
      have := k3 r0 r1
      omega
    · intro z
      refine ⟨fun y => z (gd y), ?_⟩
      have := gok z
      show P.position s ≤ P.position s' ∧ P.position s' ≤ P.position s + k
      omega
  reset := by
    intro s h q hq _
    obtain ⟨s', r, e, h', g1, g2⟩ := R.reset h q hq
    refine ⟨s', r, e, h', g1, fun z => ?_⟩
    obtain ⟨k1, k2, k3⟩ := g2 z
    refine ⟨k1, k2, ?_, fun hb hq' => hb h z hq hq' e⟩
    have := R.range h z
    show r = q ∨ r = P.position s ∨ (P.position s ≤ r ∧ r < q ∧ (P.status s' = .error ∨ P.position s' = c.length))
    omega

/-- The view of a stream whose content becomes known while it is read. -/
def Growing.view (P : StreamOps σ UInt8) (T : Nat) (K : Int → List UInt8 → Prop) : View σ where
  total := T
  loc := P.position
  dead s := P.status s = .error
  fin s := P.status s ≠ .ok
  gives := K
  allowed _ := True
  back := False

theorem Growing.sturdy {T : Nat} {G : List UInt8 → σ → Prop} (R : Growing P T G) {K : Int → List UInt8 → Prop}
    (hK : ∀ {c s}, G c s → ∀ p d, d = slice c p d.length → K p d) : Sturdy P 1 (fun s => ∃ c, G c s) (Growing.view P T K) where
  sync _ hs := ⟨hs, rfl⟩
  range := by
    rintro s ⟨c, h⟩ hs
    have := R.range h hs
    exact ⟨this.1, by show P.position s ≤ T; omega, Int.le_refl _, trivial⟩
  ended _ hs := by show P.status _ ≠ .ok; rw [hs]; simp
  below _ _ := trivial
  read := by
    rintro s ⟨c, h⟩ mn mx h1 h2
    obtain ⟨s', n, d, c', e, _, h', gd, ge, gl, gs, gr, gn⟩ := R.read h mn mx h1
    have hlast : P.status s' ≠ .error → P.status s ≠ .error := fun z z' => z (gd z').2
    refine ⟨s', n, d, e, ⟨c', h'⟩, gd, ?_, ?_, ?_, ?_, gn, ?_⟩
    · intro hf
      show n ≤ 0 ∧ P.status s' ≠ .ok ∧ (P.status s' ≠ .error → P.position s' = P.position s)
      have hx : n < 0 ∧ P.status s' ≠ .ok := by
        cases hst : P.status s with
        | ok => exact absurd hst hf
        | eof => obtain ⟨x1, x2⟩ := ge hst; exact ⟨x1, by rw [x2]; simp⟩
        | error => obtain ⟨x1, x2⟩ := gd hst; exact ⟨x1, by rw [x2]; simp⟩
      exact ⟨by omega, hx.2, fun z => (gn hx.1).resolve_left z⟩
    · intro a b
      refine ⟨gl b, fun z => ?_⟩
      have := gl b
      show P.position s' ≤ P.position s + mx
      by_cases n0 : 0 ≤ n
      · have := (gr n0).2.2; omega
      · have := (gn (by omega)).resolve_left z; omega
    · intro a b z
      exact ⟨gs z, gs z⟩
    · intro n0
      obtain ⟨k1, k2, k3⟩ := gr n0
      have r1 := R.range h' k1
      have r2 := R.range h (hlast k1)
      have hl : (d.length : Int) = n := by
        rw [k2]; unfold slice; rw [List.length_take, List.length_drop]; omega
      exact ⟨k1, hl, hK h' _ _ (by rw [hl]; exact k2), k3⟩
    · intro z
      refine ⟨hlast z, ?_⟩
      show P.position s ≤ P.position s'
      by_cases n0 : 0 ≤ n
      · have := (gr n0).2.2; omega
      · have := (gn (by omega)).resolve_left z; omega
  skip := by
    rintro s ⟨c, h⟩ k hk
    obtain ⟨s', r, c', e, _, h', gd, ge, gok, gk⟩ := R.skip h k hk
    refine ⟨s', r, e, ⟨c', h'⟩, gd, ?_, ?_, gk, ?_⟩
    · intro hf
      show P.status s' ≠ .ok ∧ (P.status s' ≠ .error → P.position s' = P.position s)
      cases hst : P.status s with
      | ok => exact absurd hst hf
      | eof =>
        obtain ⟨x1, x2⟩ := ge hst
        refine ⟨by rw [x1]; simp, fun z => ?_⟩
        have := (gok z).2.2.1
        omega
      | error => have := gd hst; exact ⟨by rw [this]; simp, fun z => absurd this z⟩
    · intro z
      obtain ⟨k1, k2, k3, k4⟩ := gok z
      refine ⟨k2, ?_, fun r0 r1 => ?_⟩
      · show P.position s' = P.position s + max r 0
        omega
      · show P.status s' ≠ .ok
        rw [k4 (by omega)]; simp
    · intro z
      refine ⟨fun y => z (gd y), ?_⟩
      have := gok z
      show P.position s ≤ P.position s' ∧ P.position s' ≤ P.position s + k
      omega
  reset := by
    rintro s ⟨c, h⟩ q hq _
    obtain ⟨s', r, e, h', g1, g2⟩ := R.reset h q hq
    refine ⟨s', r, e, ⟨c, h'⟩, g1, fun z => ?_⟩
    obtain ⟨k1, k2, k3⟩ := g2 z
    refine ⟨k1, k2, ?_, fun z => z.elim⟩
    rcases k3 with k3 | k3
    · exact Or.inl k3
    · exact Or.inr (Or.inl k3.1)

/-! ## Substreams -/

namespace SubInputStream

/-- The state of a substream of known size on such a stream, however it was used. -/
structure Usable (P : StreamOps σ UInt8) (V : View σ) (H : σ → Prop) (e : SubInputStream σ) : Prop where
  parent : H e.parent
  off : 0 ≤ e.offset
  size : 0 ≤ e.size
  small : e.size < 2 ^ 31
  le : e.pos ≤ e.size
  sync : ¬ V.dead e.parent → e.offset ≤ V.loc e.parent ∧ V.loc e.parent ≤ e.offset + e.size ∧
    e.pos ≤ V.loc e.parent - e.offset ∧ (e.pos = V.loc e.parent - e.offset ∨ V.fin e.parent)
  exact : e.status ≠ .error → P.status e.parent ≠ .error ∧ e.pos = V.loc e.parent - e.offset
  failed : e.status = .error → V.fin e.parent ∧ e.pos < e.size

/-- The parent is where the substream says, or further. -/
theorem Usable.pos (S : Sturdy P lo H V) {e : SubInputStream σ} (u : Usable P V H e) (hs : P.status e.parent ≠ .error) :
    e.offset ≤ P.position e.parent ∧ P.position e.parent ≤ e.offset + e.size := by
  obtain ⟨h1, h2⟩ := S.sync u.parent hs
  have := u.sync h1
  omega

theorem Usable.ok (S : Sturdy P lo H V) {e : SubInputStream σ} (u : Usable P V H e) (hs : e.status ≠ .error) :
    P.status e.parent ≠ .error ∧ e.pos = P.position e.parent - e.offset := by
  obtain ⟨h1, h2⟩ := u.exact hs
  have := (S.sync u.parent h1).2
  exact ⟨h1, by omega⟩

theorem usable_new (S : Sturdy P lo H V) {s : σ} (h : H s) (hs : P.status s ≠ .error) {len : Int} (hl : 0 ≤ len)
    (hb : len < 2 ^ 31) :
    ∃ e, SubInputStream.new P s len = .ok e ∧ Usable P V H e ∧ e.size = len ∧ e.offset = P.position s ∧ e.parent = s ∧ e.pos = 0 ∧ e.status = .ok := by
  obtain ⟨h1, h2⟩ := S.sync h hs
  have r := S.range h h1
  refine ⟨⟨s, P.position s, 0, len, .ok⟩, ?_, ⟨h, by simp only; omega, hl, hb, hl, fun _ => ?_, fun _ => ⟨hs, by simp only; omega⟩,
    fun z => by cases z⟩, rfl, rfl, rfl, rfl, rfl⟩
  · unfold SubInputStream.new
    rw [Res.assert_of (by simp; omega), Res.bind_ok]
  · simp only
    omega

/-- The view of a substream that begins at `o` and has `z` bytes. -/
def view (V : View σ) (o z : Int) : View (SubInputStream σ) where
  total := (min z (V.total - o)).toNat
  loc e := V.loc e.parent - e.offset
  dead e := V.dead e.parent
  fin e := V.fin e.parent ∨ e.pos = e.size
  gives p d := V.gives (p + o) d
  allowed q := q ≤ z ∧ V.allowed (q + o)
  back := V.back

/-- The states of such a substream. -/
def Inside (P : StreamOps σ UInt8) (V : View σ) (H : σ → Prop) (o z : Int) (e : SubInputStream σ) : Prop :=
  Usable P V H e ∧ e.offset = o ∧ e.size = z

theorem sub_read (S : Sturdy P lo H V) (hlo : lo ≤ 1) {e : SubInputStream σ} (h : Usable P V H e) {mn mx : Int} (h1 : 1 ≤ mn)
    (h2 : mn < 2 ^ 31) : ∃ e' n d, SubInputStream.read P e mn mx = .ok (e', n, d) ∧ Usable P V H e' ∧
      e'.size = e.size ∧ e'.offset = e.offset ∧
      (e.status = .error → n < 0 ∧ e'.status = .error) ∧
      ((V.fin e.parent ∨ e.pos = e.size) → n ≤ 0 ∧ (V.fin e'.parent ∨ e'.pos = e'.size) ∧
        (¬ V.dead e'.parent → V.loc e'.parent = V.loc e.parent)) ∧
      (mn ≤ mx → n ≤ mx ∧ (¬ V.dead e'.parent → V.loc e'.parent ≤ V.loc e.parent + mx)) ∧
      (n < mn → e'.status ≠ .ok ∧ (V.fin e'.parent ∨ e'.pos = e'.size)) ∧
      (0 ≤ n → 1 ≤ n ∧ e'.status ≠ .error ∧ (d.length : Int) = n ∧ V.gives (V.loc e.parent) d ∧ V.loc e'.parent = V.loc e.parent + n) ∧
      (n < 0 → e'.status = .error ∨ V.loc e'.parent = V.loc e.parent) ∧
      (¬ V.dead e'.parent → ¬ V.dead e.parent ∧ V.loc e.parent ≤ V.loc e'.parent) := by
  have hsz := h.size
  have hle := h.le
  have hsm := h.small
  unfold SubInputStream.read
  rw [if_pos (by omega)]
  dsimp only
  by_cases hl : e.size - e.pos = 0
  · rw [if_pos hl]
    have hne : e.status ≠ .error := fun z => by have := (h.failed z).2; omega
    refine ⟨_, _, _, rfl, ⟨h.parent, h.off, h.size, h.small, h.le, h.sync, fun _ => h.exact hne, fun z => by cases z⟩, rfl, rfl,
      fun z => absurd z hne, fun _ => ⟨by omega, Or.inr (by simp only; omega), fun _ => rfl⟩, fun z => ⟨by omega, fun _ => by simp only; omega⟩,
      fun _ => ⟨by simp, Or.inr (by simp only; omega)⟩, fun z => by omega, fun _ => Or.inr rfl, fun z => ⟨z, by simp only; omega⟩⟩
  rw [if_neg hl]
  obtain ⟨m, hm⟩ : ∃ m : Int, m = (if mn > e.size - e.pos then narrow32 (e.size - e.pos) else mn) := ⟨_, rfl⟩
  rw [← hm]
  have hm1 : 1 ≤ m ∧ m < 2 ^ 31 ∧ m ≤ e.size - e.pos ∧ m ≤ mn ∧ (m = mn ∨ m = e.size - e.pos) := by
    split at hm
    · rw [narrow32_of_range (by omega) (by omega)] at hm; omega
    · omega
  obtain ⟨x, hx⟩ : ∃ x : Int, x = (if mx < m ∨ mx > e.size - e.pos then narrow32 (e.size - e.pos) else mx) := ⟨_, rfl⟩
  rw [← hx]
  have hx1 : e.size - e.pos < 2 ^ 31 → m ≤ x ∧ x ≤ e.size - e.pos ∧ (mn ≤ mx → x ≤ mx) := by
    intro hb
    split at hx
    · rw [narrow32_of_range (by omega) hb] at hx; omega
    · omega
  clear hm hx
  have hfinp : 2 ^ 31 ≤ e.size - e.pos → V.fin e.parent := by
    intro hb
    by_cases hz : e.status = .error
    · exact (h.failed hz).1
    · obtain ⟨y1, y2⟩ := h.exact hz
      have := h.sync (S.sync h.parent y1).1
      omega
  unfold readParent
  obtain ⟨s', n, d, er, hH, ger, gfin, gmx, gsh, gd, gn, gm⟩ := S.read h.parent m x (by omega) hm1.2.1
  rw [er, Res.bind_ok]
  dsimp only
  rw [Res.assert_of (by
    simp only [decide_eq_true_eq]
    by_cases z : m ≤ x
    · exact Or.inr (gmx hm1.1 z).1
    · left; omega), Res.bind_ok]
  have hfin' : n < m → V.fin s' := by
    intro hn
    by_cases hb : e.size - e.pos < 2 ^ 31
    · exact (gsh hm1.1 (Or.inl (hx1 hb).1) hn).2
    · exact (gfin (hfinp (by omega))).2.1
  -- the parent's position stays inside
  have hin : ¬ V.dead s' → V.loc s' ≤ e.offset + e.size ∧ (mn ≤ mx → V.loc s' ≤ V.loc e.parent + mx) := by
    intro z
    obtain ⟨z0, z1⟩ := gm z
    obtain ⟨a1, a2, a3, a4⟩ := h.sync z0
    by_cases hf : V.fin e.parent
    · have := (gfin hf).2.2 z
      exact ⟨by omega, fun _ => by omega⟩
    · by_cases hb : e.size - e.pos < 2 ^ 31
      · obtain ⟨b1, b2, b3⟩ := hx1 hb
        have b4 := (gmx hm1.1 b1).2 z
        have b5 := a4.resolve_right hf
        exact ⟨by omega, fun w => by have := b3 w; omega⟩
      · exact absurd (hfinp (by omega)) hf
  have hstay : n < m → Usable P V H { e with parent := s', status := .error } := by
    intro hn
    refine ⟨hH, h.off, h.size, h.small, h.le, fun z => ?_, fun z => by simp at z, fun _ => ⟨hfin' hn, by simp only; omega⟩⟩
    simp only at z ⊢
    obtain ⟨z0, z1⟩ := gm z
    obtain ⟨a1, a2, a3, a4⟩ := h.sync z0
    have := (hin z).1
    exact ⟨by omega, by omega, by omega, Or.inr (hfin' hn)⟩
  have hnx : n < m → ∀ k : Int, k < -1 → (e.status = .error → k < 0 ∧ Status.error = Status.error) ∧
      ((V.fin e.parent ∨ e.pos = e.size) → k ≤ 0 ∧ (V.fin s' ∨ e.pos = e.size) ∧ (¬ V.dead s' → V.loc s' = V.loc e.parent)) ∧
      (mn ≤ mx → k ≤ mx ∧ (¬ V.dead s' → V.loc s' ≤ V.loc e.parent + mx)) := by
    intro hn k hk
    refine ⟨fun _ => ⟨by omega, rfl⟩, fun hf => ⟨by omega, Or.inl (hfin' hn), ?_⟩, fun z => ⟨by omega, fun z' => (hin z').2 z⟩⟩
    have hf : V.fin e.parent := hf.resolve_right (by omega)
    exact (gfin hf).2.2
  by_cases c1 : n < -1
  · rw [if_pos c1]
    obtain ⟨x1, x2, x3⟩ := hnx (by omega) n c1
    exact ⟨_, _, _, rfl, hstay (by omega), rfl, rfl, x1, x2, x3, fun _ => ⟨by simp, Or.inl (hfin' (by omega))⟩, fun z => by omega,
      fun _ => Or.inl rfl, gm⟩
  rw [if_neg c1]
  by_cases c2 : n < m
  · rw [if_pos c2, if_neg (by omega)]
    obtain ⟨x1, x2, x3⟩ := hnx c2 (-2) (by omega)
    exact ⟨_, _, _, rfl, hstay c2, rfl, rfl, x1, x2, x3, fun _ => ⟨by simp, Or.inl (hfin' c2)⟩, fun z => by omega,
      fun _ => Or.inl rfl, gm⟩
  · rw [if_neg c2]
    obtain ⟨g1, g2, g3, g4⟩ := gd (by omega)
    have hnf : ¬ V.fin e.parent := fun z => by have := (gfin z).1; omega
    have hne : e.status ≠ .error := fun z => hnf (h.failed z).1
    obtain ⟨y1, y2⟩ := h.exact hne
    have hb : e.size - e.pos < 2 ^ 31 := by
      by_cases hb : e.size - e.pos < 2 ^ 31
      · exact hb
      · exact absurd (hfinp (by omega)) hnf
    obtain ⟨b1, b2, b3⟩ := hx1 hb
    have b4 := (gmx hm1.1 b1).1
    have hd' := (S.sync hH g1).1
    obtain ⟨z0, z1⟩ := gm hd'
    obtain ⟨a1, a2, a3, a4⟩ := h.sync z0
    refine ⟨_, _, _, rfl, ⟨hH, h.off, h.size, h.small, by simp only; omega, ?_, ?_, ?_⟩, rfl, rfl, fun z => absurd z hne, ?_, ?_, ?_, ?_, ?_, gm⟩
    · intro _
      simp only
      exact ⟨by omega, by omega, by omega, Or.inl (by omega)⟩
    · intro _
      exact ⟨g1, by simp only; omega⟩
    · simp only
      split
      · intro z; cases z
      · intro z; exact absurd z hne
    · intro hf
      rcases hf with hf | hf
      · exact absurd hf hnf
      · omega
    · intro z
      have := b3 z
      exact ⟨by omega, fun _ => by simp only; omega⟩
    · intro z
      have hp : e.pos + n = e.size := by omega
      simp only [hp, if_true]
      exact ⟨by simp, Or.inr trivial⟩
    · intro _
      refine ⟨by omega, ?_, g2, g3, g4⟩
      simp only
      split
      · simp
      · exact hne
    · intro z; omega

theorem sub_skip (S : Sturdy P lo H V) {e : SubInputStream σ} (h : Usable P V H e) {k : Int} (h1 : 0 ≤ k) :
    ∃ e' r, SubInputStream.skip P e k = .ok (e', r) ∧ Usable P V H e' ∧ e'.size = e.size ∧ e'.offset = e.offset ∧
      (e.status = .error → e'.status = .error) ∧
      ((V.fin e.parent ∨ e.pos = e.size) → (V.fin e'.parent ∨ e'.pos = e'.size) ∧ (¬ V.dead e'.parent → V.loc e'.parent = V.loc e.parent)) ∧
      (e'.status ≠ .error → r ≤ k ∧ V.loc e'.parent = V.loc e.parent + max r 0 ∧ (r ≤ 0 → 0 < k → V.fin e'.parent ∨ e'.pos = e'.size)) ∧
      (e.status ≠ .error → k ≤ r → e'.status ≠ .error) ∧
      (¬ V.dead e'.parent → ¬ V.dead e.parent ∧ V.loc e.parent ≤ V.loc e'.parent ∧ V.loc e'.parent ≤ V.loc e.parent + k) ∧
      (e.status = .ok → 0 < k → e'.status ≠ .ok ∨ e.pos < e'.pos) := by
  have hsz := h.size
  have hle := h.le
  unfold SubInputStream.skip
  by_cases c1 : e.size = e.pos
  · rw [if_pos c1]
    have hne : e.status ≠ .error := fun z => by have := (h.failed z).2; omega
    refine ⟨_, _, rfl, ⟨h.parent, h.off, h.size, h.small, h.le, h.sync, fun _ => h.exact hne, fun z => by cases z⟩, rfl, rfl,
      fun z => absurd z hne, fun _ => ⟨Or.inr (by simp only; omega), fun _ => rfl⟩,
      fun _ => ⟨by omega, by simp only; omega, fun _ _ => Or.inr (by simp only; omega)⟩, fun _ z => by omega,
      fun z => ⟨z, by simp only; omega, by simp only; omega⟩, fun _ _ => Or.inl (by simp)⟩
  rw [if_neg c1]
  by_cases c2 : k = 0
  · rw [if_pos c2]
    exact ⟨_, _, rfl, h, rfl, rfl, fun z => z, fun z => ⟨z, fun _ => rfl⟩, fun _ => ⟨by omega, by omega, fun _ z => by omega⟩,
      fun z _ => z, fun z => ⟨z, by omega, by omega⟩, fun _ z => by omega⟩
  rw [if_neg c2, if_pos (by omega)]
  dsimp only
  obtain ⟨j, hj⟩ : ∃ j : Int, j = (if k > e.size - e.pos then e.size - e.pos else k) := ⟨_, rfl⟩
  rw [← hj]
  have hj1 : 0 < j ∧ j ≤ e.size - e.pos ∧ j ≤ k := by split at hj <;> omega
  unfold skipParent
  obtain ⟨s', r, er, hH, ger, gfin, gok, gr, gm⟩ := S.skip h.parent j (by omega)
  rw [er, Res.bind_ok]
  dsimp only
  have hmono : ¬ V.dead s' → ¬ V.dead e.parent ∧ V.loc e.parent ≤ V.loc s' ∧ V.loc s' ≤ V.loc e.parent + k := by
    intro z
    have := gm z
    exact ⟨this.1, this.2.1, by omega⟩
  have hin : ¬ V.dead s' → e.offset ≤ V.loc s' ∧ V.loc s' ≤ e.offset + e.size ∧ e.pos ≤ V.loc s' - e.offset := by
    intro z
    obtain ⟨z0, z1, z2⟩ := gm z
    obtain ⟨a1, a2, a3, a4⟩ := h.sync z0
    rcases a4 with a4 | a4
    · omega
    · have := (gfin a4).2 z; omega
  have hfx : (V.fin e.parent ∨ e.pos = e.size) → V.fin s' ∧ (¬ V.dead s' → V.loc s' = V.loc e.parent) :=
    fun hf => gfin (hf.resolve_right (by omega))
  by_cases c3 : P.status s' = .error
  · rw [if_pos c3]
    have hf := S.ended hH c3
    refine ⟨_, _, rfl, ⟨hH, h.off, h.size, h.small, h.le, fun z => ?_, fun z => by simp at z, fun _ => ⟨hf, by simp only; omega⟩⟩, rfl, rfl,
      fun _ => rfl, fun z => ⟨Or.inl hf, (hfx z).2⟩, fun z => by simp at z, fun z y => ?_, hmono, fun _ _ => Or.inl (by simp)⟩
    · simp only at z ⊢
      have := hin z
      exact ⟨this.1, this.2.1, this.2.2, Or.inr hf⟩
    · exact absurd c3 (gr (h.exact z).1 (by omega))
  rw [if_neg c3]
  obtain ⟨g1, g2, g3⟩ := gok c3
  have hd' := (S.sync hH c3).1
  obtain ⟨z0, z1, z2⟩ := gm hd'
  obtain ⟨a1, a2, a3, a4⟩ := h.sync z0
  have hi := hin hd'
  have hr0 : r ≤ 0 → V.fin s' := fun z => g3 z hj1.1
  have hnf : 0 < r → ¬ V.fin e.parent := by
    intro z w
    have := (gfin w).2 hd'
    omega
  have hne : 0 < r → e.status ≠ .error := fun z w => hnf z (h.failed w).1
  by_cases c4 : e.pos + r = e.size
  · rw [if_pos c4]
    have hx := (h.exact (hne (by omega))).2
    refine ⟨_, _, rfl, ⟨hH, h.off, h.size, h.small, by simp only; omega, fun _ => ?_, fun _ => ⟨c3, by simp only; omega⟩, fun z => by cases z⟩,
      rfl, rfl, fun z => absurd z (hne (by omega)), fun z => ⟨Or.inl (hfx z).1, (hfx z).2⟩,
      fun _ => ⟨by omega, g2, fun z => by omega⟩, fun _ _ => by simp, hmono, fun _ _ => Or.inl (by simp)⟩
    simp only
    exact ⟨by omega, by omega, by omega, Or.inl (by omega)⟩
  rw [if_neg c4]
  by_cases c5 : r ≤ 0
  · rw [if_pos c5]
    refine ⟨_, _, rfl, ⟨hH, h.off, h.size, h.small, by simp only; omega, fun _ => ?_, fun z => by simp at z,
      fun _ => ⟨hr0 c5, by simp only; omega⟩⟩,
      rfl, rfl, fun _ => rfl, fun z => ⟨Or.inl (hfx z).1, (hfx z).2⟩, fun z => by simp at z, fun _ z => by omega, hmono,
      fun _ _ => Or.inl (by simp)⟩
    simp only
    exact ⟨by omega, by omega, by omega, Or.inr (hr0 c5)⟩
  · rw [if_neg c5]
    have hx := (h.exact (hne (by omega))).2
    have hlt : e.pos + r < e.size := by omega
    refine ⟨_, _, rfl, ⟨hH, h.off, h.size, h.small, by simp only; omega, fun _ => ?_, fun _ => ⟨c3, by simp only; omega⟩,
      fun z => absurd z (hne (by omega))⟩,
      rfl, rfl, fun z => absurd z (hne (by omega)), fun z => ⟨Or.inl (hfx z).1, (hfx z).2⟩,
      fun _ => ⟨by omega, g2, fun z => by omega⟩, fun z _ => z, hmono, fun _ _ => Or.inr (by simp only; omega)⟩
    simp only
    exact ⟨by omega, by omega, by omega, Or.inl (by omega)⟩

theorem sub_reset (S : Sturdy P lo H V) {e : SubInputStream σ} (h : Usable P V H e) {q : Int} (h1 : 0 ≤ q)
    (h2 : q ≤ e.size ∧ V.allowed (q + e.offset) ∨ V.dead e.parent) :
    ∃ e' r, SubInputStream.reset P e q = .ok (e', r) ∧ Usable P V H e' ∧ e'.size = e.size ∧ e'.offset = e.offset ∧
      (V.dead e.parent → V.dead e'.parent ∧ r < 0) ∧
      (¬ V.dead e.parent → e'.status ≠ .error ∧ e'.pos = r ∧ (r = q ∨ r = V.loc e.parent - e.offset ∨
        (V.loc e.parent - e.offset ≤ r ∧ r < q ∧ V.fin e'.parent)) ∧ (V.back → q ≤ V.loc e.parent - e.offset → r = q)) := by
  have hoff := h.off
  have hsz := h.size
  unfold SubInputStream.reset
  rw [Res.assert_of (by simp; omega), Res.bind_ok]
  obtain ⟨s', r, er, hH, hdead, hok⟩ := S.reset h.parent (q + e.offset) (by omega) (h2.imp And.right id)
  rw [er, Res.bind_ok]
  dsimp only
  by_cases hd : V.dead e.parent
  · obtain ⟨z1, z2⟩ := hdead hd
    rw [if_pos (by omega)]
    exact ⟨_, _, rfl, ⟨hH, h.off, h.size, h.small, by simp only; omega, fun z => absurd z1 z, fun z => by simp at z,
      fun _ => ⟨S.ended hH (S.dead_error hH z1), by simp only; omega⟩⟩, rfl, rfl, fun _ => ⟨z1, z2⟩, fun z => absurd hd z⟩
  · obtain ⟨g1, g2, g3, g6⟩ := hok hd
    obtain ⟨a1, a2, a3, a4⟩ := h.sync hd
    have h2 := h2.resolve_right hd
    have hd' := (S.sync hH g1).1
    have hl' := (S.sync hH g1).2
    rw [if_neg (by omega)]
    refine ⟨_, _, rfl, ⟨hH, h.off, h.size, h.small, by simp only; omega, fun _ => ?_, fun _ => ⟨g1, by simp only; omega⟩,
      fun z => absurd z g1⟩, rfl, rfl, fun z => absurd z hd, fun _ => ⟨g1, rfl, ?_, fun z1 z2 => by have := g6 z1 (by omega); omega⟩⟩
    · simp only
      exact ⟨by omega, by omega, by omega, Or.inl (by omega)⟩
    · rcases g3 with g3 | g3 | ⟨g3, g4, g5⟩
      · left; omega
      · right; left; omega
      · right; right; exact ⟨by omega, by omega, g5⟩

/-- A substream of known size may be used in any way, too (but not asked for no bytes at all). -/
theorem sturdy (S : Sturdy P lo H V) (hlo : lo ≤ 1) (o z : Int) : Sturdy (SubInputStream.ops P) 1 (Inside P V H o z) (view V o z) where
  sync := by
    rintro e ⟨u, ho, hz⟩ hs
    obtain ⟨x1, x2⟩ := u.exact hs
    exact ⟨(S.sync u.parent x1).1, x2⟩
  range := by
    rintro e ⟨u, ho, hz⟩ hd
    obtain ⟨a1, a2, a3, _⟩ := u.sync hd
    obtain ⟨_, hvt, _, this⟩ := S.range u.parent hd
    have hz0 := u.size
    refine ⟨by simp only [view]; omega, by simp only [view]; omega, a3, ?_, ?_⟩
    · simp only [view]; omega
    · simp only [view]
      rw [← ho, Int.sub_add_cancel]; exact this
  ended := by
    rintro e ⟨u, _⟩ hs
    exact Or.inl (u.failed hs).1
  below := by
    rintro p q hpq ⟨h1, h2⟩
    exact ⟨by omega, S.below (by omega) h2⟩
  read := by
    rintro e ⟨u, ho, hz⟩ mn mx h1 h2
    obtain ⟨e', n, d, er, u', z1, z2, g1, g2, g3, g4, g5, g6, g7⟩ := sub_read S hlo u (mx := mx) h1 h2
    refine ⟨e', n, d, er, ⟨u', by omega, by omega⟩, g1, ?_, ?_, ?_, ?_, ?_, ?_⟩
    · intro hf
      obtain ⟨x1, x2, x3⟩ := g2 hf
      exact ⟨x1, x2, fun y => by have := x3 y; simp only [view]; omega⟩
    · intro _ y
      obtain ⟨x1, x2⟩ := g3 y
      exact ⟨x1, fun y => by have := x2 y; simp only [view]; omega⟩
    · intro _ _ y
      exact g4 y
    · intro y
      obtain ⟨_, x1, x2, x3, x4⟩ := g5 y
      refine ⟨x1, x2, ?_, by simp only [view]; omega⟩
      simp only [view]
      rw [← ho, Int.sub_add_cancel]; exact x3
    · intro y
      rcases g6 y with x | x
      · exact Or.inl x
      · exact Or.inr (by simp only [view]; omega)
    · intro y
      obtain ⟨x1, x2⟩ := g7 y
      exact ⟨x1, by simp only [view]; omega⟩
  skip := by
    rintro e ⟨u, ho, hz⟩ k h1
    obtain ⟨e', r, er, u', z1, z2, g1, g2, g3, g4, g5, _⟩ := sub_skip S u h1
    refine ⟨e', r, er, ⟨u', by omega, by omega⟩, g1, ?_, ?_, g4, ?_⟩
    · intro hf
      obtain ⟨x1, x2⟩ := g2 hf
      exact ⟨x1, fun y => by have := x2 y; simp only [view]; omega⟩
    · intro y
      obtain ⟨x1, x2, x3⟩ := g3 y
      exact ⟨x1, by simp only [view]; omega, x3⟩
    · intro y
      obtain ⟨x1, x2, x3⟩ := g5 y
      exact ⟨x1, by simp only [view]; omega, by simp only [view]; omega⟩
  reset := by
    rintro e ⟨u, ho, hz⟩ q h1 h2
    obtain ⟨e', r, er, u', z1, z2, g1, g2⟩ := sub_reset S u h1 (by
      rw [ho, hz]; exact h2)
    refine ⟨e', r, er, ⟨u', by omega, by omega⟩, g1, fun hd => ?_⟩
    obtain ⟨x1, x2, x3, x4⟩ := g2 hd
    refine ⟨x1, x2, ?_, x4⟩
    rcases x3 with x3 | x3 | ⟨x3, x4, x5⟩
    · exact Or.inl x3
    · exact Or.inr (Or.inl (by simp only [view]; omega))
    · exact Or.inr (Or.inr ⟨by simp only [view]; omega, x4, Or.inl x5⟩)

end SubInputStream

end Strigi
