import Verif.Proofs.UnpackSafe
import Verif.Proofs.Zip

/-!
# The zip reader on arbitrary bytes
-/

namespace Strigi

variable {σ : Type} {P : StreamOps σ UInt8} {lo : Int} {H : σ → Prop} {V : View σ}

/-! ## Streams inside of other types -/

/-- The view through an injection with the partial inverse `un`. -/
def View.inside {τ : Type} (V : View σ) (un : τ → Option σ) : View τ where
  total := V.total
  loc t := match un t with | some s => V.loc s | none => 0
  dead t := ∃ s, un t = some s ∧ V.dead s
  fin t := ∃ s, un t = some s ∧ V.fin s
  gives := V.gives
  allowed := V.allowed
  back := V.back

theorem Embeds.sturdy {τ : Type} {Q : StreamOps τ UInt8} {f : σ → τ} (E : Embeds P Q f) (S : Sturdy P lo H V) {un : τ → Option σ}
    (hu : ∀ s, un (f s) = some s) : Sturdy Q lo (fun t => ∃ s, t = f s ∧ H s) (V.inside un) := by
  have hl : ∀ s, (V.inside un).loc (f s) = V.loc s := fun s => by simp only [View.inside, hu]
  have hd : ∀ s, (V.inside un).dead (f s) ↔ V.dead s := fun s => by simp [View.inside, hu]
  have hf : ∀ s, (V.inside un).fin (f s) ↔ V.fin s := fun s => by simp [View.inside, hu]
  refine ⟨?_, ?_, ?_, fun a b => S.below a b, ?_, ?_, ?_⟩
  · rintro t ⟨s, rfl, h⟩ hs
    rw [E.status] at hs
    rw [hd, hl, E.position]
    exact S.sync h hs
  · rintro t ⟨s, rfl, h⟩ hs
    rw [hd] at hs
    rw [hl, E.position]
    exact S.range h hs
  · rintro t ⟨s, rfl, h⟩ hs
    rw [E.status] at hs
    rw [hf]
    exact S.ended h hs
  · rintro t ⟨s, rfl, h⟩ mn mx h1 h2
    obtain ⟨s', n, d, e, h', g⟩ := S.read h mn mx h1 h2
    refine ⟨f s', n, d, by rw [E.read, e]; rfl, ⟨s', rfl, h'⟩, ?_⟩
    simp only [hl, hd, hf, E.status]
    exact g
  · rintro t ⟨s, rfl, h⟩ k hk
    obtain ⟨s', r, e, h', g⟩ := S.skip h k hk
    refine ⟨f s', r, by rw [E.skip, e]; rfl, ⟨s', rfl, h'⟩, ?_⟩
    simp only [hl, hd, hf, E.status]
    exact g
  · rintro t ⟨s, rfl, h⟩ q hq ha
    rw [hd] at ha
    obtain ⟨s', r, e, h', g⟩ := S.reset h q hq ha
    refine ⟨f s', r, by rw [E.reset, e]; rfl, ⟨s', rfl, h'⟩, ?_⟩
    simp only [hl, hd, hf, E.status, E.position]
    exact g

namespace Zip

open Text

/-! ## Numbers -/

theorem le16 {l : List UInt8} {k : Nat} (h : k + 2 ≤ l.length) :
    TextUtils.readLittleEndianUInt16 (l.drop k) = .ok (leValue ((l.drop k).take 2)) := by
  have hl : 2 ≤ (l.drop k).length := by rw [List.length_drop]; omega
  generalize l.drop k = m at hl ⊢
  rcases m with _ | ⟨b0, _ | ⟨b1, m⟩⟩ <;> simp at hl
  exact (Props.C31_16 b0 b1 m).1

theorem le32 {l : List UInt8} {k : Nat} (h : k + 4 ≤ l.length) :
    TextUtils.readLittleEndianUInt32 (l.drop k) = .ok (leValue ((l.drop k).take 4)) := by
  have hl : 4 ≤ (l.drop k).length := by rw [List.length_drop]; omega
  generalize l.drop k = m at hl ⊢
  rcases m with _ | ⟨b0, _ | ⟨b1, _ | ⟨b2, _ | ⟨b3, m⟩⟩⟩⟩ <;> simp at hl
  exact (Props.C31_32 b0 b1 b2 b3 m).1

theorem leValue_two (l : List UInt8) : leValue (l.take 2) < 2 ^ 16 := by
  rcases l with _ | ⟨b0, _ | ⟨b1, m⟩⟩ <;> simp [leValue]
  · have := b0.toNat_lt; omega
  · have := b0.toNat_lt; have := b1.toNat_lt; omega

/-! ## Going to the end of an entry -/

theorem skipAll_total {ε : Type} {S : StreamOps ε UInt8} {I : ε → Prop} {mu : ε → Nat} {k : Int}
    (h : ∀ e, I e → S.status e = .ok → ∃ e' r, S.skip e k = .ok (e', r) ∧ I e' ∧ (S.status e' = .ok → mu e' < mu e)) :
    ∀ (fuel : Nat) (e : ε), I e → 0 < fuel → (S.status e = .ok → mu e + 1 < fuel) →
      ∃ e', skipAll S k fuel e = .ok e' ∧ I e' := by
  intro fuel
  induction fuel with
  | zero => intro e _ z; omega
  | succ fuel ih =>
    intro e hI _ hf
    rw [skipAll]
    by_cases hs : S.status e = .ok
    · rw [if_pos hs]
      have := hf hs
      obtain ⟨e', r, e1, hI', hm⟩ := h e hI hs
      rw [e1, Res.bind_ok]
      exact ih e' hI' (by omega) (fun z => by have := hm z; omega)
    · rw [if_neg hs]
      exact ⟨e, rfl, hI⟩

variable {ζ : Type} {D : Decompressor ζ} {g : Nat} {w : ζ → Nat} {N T : Nat}

theorem skipAll_stored (R : Sturdy P lo H V) {b : Int} {e : SubInputStream σ} (u : SubInputStream.Usable P V H e) (hb : b ≤ e.offset)
    {k : Int} (hk : 1 ≤ k) {fuel : Nat} (hf : V.total + 1 < fuel) :
    ∃ e', skipAll (SubInputStream.ops P) k fuel e = .ok e' ∧ SubInputStream.Usable P V H e' ∧ b ≤ e'.offset := by
  refine skipAll_total (I := fun e => SubInputStream.Usable P V H e ∧ b ≤ e.offset) (mu := fun e => (V.total - P.position e.parent).toNat)
    ?_ fuel e ⟨u, hb⟩ (by omega) ?_
  · rintro e ⟨u, hb⟩ hs
    obtain ⟨e', r, e1, u', _, z2, _, _, _, _, _, z3⟩ := SubInputStream.sub_skip R u (k := k) (by omega)
    refine ⟨e', r, e1, ⟨u', by omega⟩, fun hs' => ?_⟩
    obtain ⟨x1, x2⟩ := u.ok R (show e.status ≠ .error by rw [show e.status = .ok from hs]; simp)
    obtain ⟨y1, y2⟩ := u'.ok R (show e'.status ≠ .error by rw [show e'.status = .ok from hs']; simp)
    have := R.pos_range u'.parent y1
    have := (z3 hs (by omega)).resolve_left (fun z => z hs')
    omega
  · intro hs
    have := R.pos_range u.parent (u.ok R (show e.status ≠ .error by rw [show e.status = .ok from hs]; simp)).1
    omega

theorem skipAll_growing {τ : Type} {B : StreamOps τ UInt8} {G : List UInt8 → τ → Prop} (K : Growing B T G) {cc : List UInt8} {e : τ}
    (h : G cc e) {k : Int} (hk : 1 ≤ k) {fuel : Nat} (hf : T + 1 < fuel) : ∃ e', skipAll B k fuel e = .ok e' ∧ ∃ cc, G cc e' := by
  refine skipAll_total (I := fun e => ∃ cc, G cc e) (mu := fun e => (T - B.position e).toNat) ?_ fuel e ⟨cc, h⟩ (by omega) ?_
  · rintro e ⟨cc, h⟩ hs
    obtain ⟨e', r, c', e1, _, h', _, _, hok, _⟩ := K.skip h k (by omega)
    refine ⟨e', r, e1, ⟨c', h'⟩, fun hs' => ?_⟩
    have hne : B.status e' ≠ .error := by rw [hs']; decide
    obtain ⟨g1, g2, g3, g4⟩ := hok hne
    have hr : ¬ r < k := fun z => by have := g4 z; rw [hs'] at this; cases this
    have := K.range h' hne
    omega
  · intro hs
    have := K.range h (by rw [hs]; decide)
    omega

/-! ## Entries -/

/-- The states of the stream that decompresses the part of `z` bytes from `o` on. -/
abbrev Inflating (P : StreamOps σ UInt8) (V : View σ) (H : σ → Prop) (g : Nat) (w : ζ → Nat) (N T : Nat) (o z : Int)
    (s : BufferedStream (Unpack.State (SubInputStream σ) ζ) UInt8) : Prop :=
  ∃ cc, Unpack.Runs (SubInputStream.ops P) (SubInputStream.Inside P V H o z) (SubInputStream.view V o z) 0 g w N T cc s

/-- Nothing is known about its content. -/
abbrev anything (T : Nat) {τ : Type} (Q : StreamOps τ UInt8) : View τ := Growing.view Q T (fun _ _ => True)

/-- An entry stream in any state; its data begin at `b` or behind it. -/
def EntryOk (P : StreamOps σ UInt8) (V : View σ) (H : σ → Prop) (D : Decompressor ζ) (g : Nat) (w : ζ → Nat) (N T : Nat) (b : Int) :
    Entry σ ζ → Prop
  | .stored e => SubInputStream.Usable P V H e ∧ b ≤ e.offset
  | .deflated e => ∃ o z, b ≤ o ∧ SubInputStream.Usable (GZip.ops (SubInputStream.ops P) D N) (anything T (GZip.ops (SubInputStream.ops P) D N))
      (Inflating P V H g w N T o z) e
  | .streamed e => ∃ cc, Unpack.Runs P H V b g w N T cc e

theorem EntryOk.input {b : Int} {e : Entry σ ζ} (h : EntryOk P V H D g w N T b e) : H e.input := by
  cases e with
  | stored e => exact h.1.parent
  | deflated e =>
    obtain ⟨o, z, _, u⟩ := h
    obtain ⟨cc, hc⟩ := u.parent
    exact (Unpack.runs_under hc).1.parent
  | streamed e =>
    obtain ⟨cc, hc⟩ := h
    exact Unpack.runs_under hc

/-- The entry is not compressed. -/
def Entry.Plain : Entry σ ζ → Prop
  | .stored _ => True
  | _ => False

/-- The size of a stored entry is bounded by `n`, that of another one by `T`. -/
def Entry.bound (n T : Nat) : Entry σ ζ → Nat
  | .stored _ => n
  | _ => T

/-- Where an entry that is compressed may be reset to. -/
def Entry.limit (e : Entry σ ζ) (q : Int) : Prop := match e with | .deflated e => q ≤ e.size | _ => True

/-- The stream inside. -/
def Entry.unStored : Entry σ ζ → Option (SubInputStream σ)
  | .stored e => some e
  | _ => none

/-- The stream inside. -/
def Entry.unDeflated : Entry σ ζ → Option (SubInputStream (BufferedStream (Unpack.State (SubInputStream σ) ζ) UInt8))
  | .deflated e => some e
  | _ => none

/-- The stream inside. -/
def Entry.unStreamed : Entry σ ζ → Option (BufferedStream (Unpack.State σ ζ) UInt8)
  | .streamed e => some e
  | _ => none

theorem inflating_sturdy (R : Sturdy P lo H V) (hlo : lo ≤ 1) (hD : Tidy D g w) (o z : Int) :
    Sturdy (GZip.ops (SubInputStream.ops P) D N) 1 (Inflating P V H g w N T o z) (anything T (GZip.ops (SubInputStream.ops P) D N)) :=
  Growing.sturdy (Unpack.runs_growing (SubInputStream.sturdy R hlo o z) (by omega) hD true (Int.le_refl 0) N T) (fun _ _ _ _ => trivial)

theorem entry_sturdy (R : Sturdy P lo H V) (hlo : lo ≤ 1) (hD : Tidy D g w) {b : Int} (hb : 0 ≤ b) {e : Entry σ ζ} (h : EntryOk P V H D g w N T b e) :
    ∃ G W, Sturdy (entryOps P D N) 1 G W ∧ G e ∧ W.total ≤ e.bound V.total T ∧
      (e.Plain → (V.back → W.back) ∧ ∃ o, ∀ q d, W.gives q d → V.gives (q + o) d) ∧
      (¬ e.Plain → ∀ q, W.allowed q ↔ e.limit q) ∧ (∀ e', G e' → EntryOk P V H D g w N T b e') ∧
      ((∀ q, V.allowed q) → ∀ q, (entryOps P D N).size e = -1 ∨ q ≤ (entryOps P D N).size e → W.allowed q) := by
  cases e with
  | stored e =>
    obtain ⟨u, hu⟩ := h
    refine ⟨_, _, embeds_stored.sturdy (SubInputStream.sturdy R hlo e.offset e.size) (un := Entry.unStored) (fun _ => rfl),
      ⟨e, rfl, u, rfl, rfl⟩, ?_, fun _ => ⟨fun z => z, e.offset, fun _ _ z => z⟩, fun z => absurd trivial z, ?_, ?_⟩
    · have := u.off
      simp only [View.inside, SubInputStream.view, Entry.bound]; omega
    · rintro e' ⟨x, rfl, u', h1, h2⟩
      exact ⟨u', by omega⟩
    · intro hV q hq
      rw [embeds_stored.size] at hq
      have := u.size
      simp only [SubInputStream.ops] at hq
      exact ⟨by omega, hV _⟩
  | deflated e =>
    obtain ⟨o, z, h1, u⟩ := h
    refine ⟨_, _, embeds_deflated.sturdy (SubInputStream.sturdy (inflating_sturdy R hlo hD o z) (by omega) e.offset e.size) (un := Entry.unDeflated) (fun _ => rfl),
      ⟨e, rfl, u, rfl, rfl⟩, ?_, fun z => z.elim, fun _ q => ⟨fun z => z.1, fun z => ⟨z, trivial⟩⟩, ?_, ?_⟩
    · have := u.off
      simp only [View.inside, SubInputStream.view, Growing.view, Entry.bound]; omega
    · rintro e' ⟨x, rfl, u', _⟩
      exact ⟨o, z, h1, u'⟩
    · intro hV q hq
      rw [embeds_deflated.size] at hq
      have := u.size
      simp only [SubInputStream.ops] at hq
      exact ⟨by omega, trivial⟩
  | streamed e =>
    obtain ⟨cc, hc⟩ := h
    refine ⟨_, _, embeds_streamed.sturdy (Growing.sturdy (K := fun _ _ => True) (Unpack.runs_growing R hlo hD true hb N T) (fun _ _ _ _ => trivial)) (un := Entry.unStreamed) (fun _ => rfl),
      ⟨e, rfl, cc, hc⟩, ?_, fun z => z.elim, fun _ q => ⟨fun z => z, fun _ => trivial⟩, ?_, fun _ _ _ => trivial⟩
    · simp only [View.inside, Growing.view, Entry.bound]; omega
    · rintro e' ⟨x, rfl, h'⟩
      exact h'

variable (hD : Tidy D g w)

/-! ## Leaving an entry -/

theorem skipSignature_total (R : Sturdy P lo H V) (hlo : lo ≤ 16) {s : σ} (h : H s) :
    ∃ s', skipSignature P s = .ok s' ∧ H s' ∧ (P.status s' ≠ .error → P.status s ≠ .error ∧ P.position s ≤ P.position s') := by
  unfold skipSignature
  dsimp only
  obtain ⟨s1, n, d, e1, h1, g1, g2, g3, g4⟩ := R.fetch h (mn := 16) (mx := 16) hlo (by omega)
  rw [e1, Res.bind_ok]
  dsimp only
  by_cases hn : n = 16
  · rw [if_pos hn]
    rw [hn] at e1
    obtain ⟨x1, x2, x3, x4, x5, x6, x7⟩ := R.read_exact h (by omega) hlo (by omega) e1
    obtain ⟨v, ev, _⟩ := signature_iff (l := d) (by omega)
    rw [ev, Res.bind_ok]
    split
    · obtain ⟨y1, y2⟩ := R.sync h x2
      obtain ⟨y3, y4⟩ := R.sync h1 x3
      obtain ⟨s2, r, e2, h2, _, k2⟩ := R.reset h1 (P.position s) x5 (Or.inl (by rw [y2]; exact (R.range h y1).2.2.2))
      rw [e2, Res.bind_ok]
      refine ⟨s2, rfl, h2, fun z => ⟨x2, ?_⟩⟩
      obtain ⟨_, k3, k4, _⟩ := k2 y3
      omega
    · exact ⟨s1, rfl, h1, fun _ => ⟨x2, by omega⟩⟩
  · rw [if_neg hn]
    exact ⟨s1, rfl, h1, g4⟩

/-- Any read leaves the input at its position or behind it. -/
theorem read_forward (R : Sturdy P lo H V) {s : σ} (h : H s) {k : Int} (h1 : lo ≤ k) (h2 : k < 2 ^ 31) :
    ∃ s' n d, P.read s k k = .ok (s', n, d) ∧ H s' ∧ (P.status s' ≠ .error → P.status s ≠ .error ∧ P.position s ≤ P.position s') := by
  obtain ⟨s1, n, d, e1, h1, _, _, _, g4⟩ := R.fetch h (mx := k) h1 h2
  exact ⟨s1, n, d, e1, h1, g4⟩

theorem skipDescriptor_total (R : Sturdy P lo H V) (hlo : lo ≤ 1) {s : σ} (h : H s) :
    ∃ s' b, skipDescriptor P s = .ok (s', b) ∧ H s' ∧
      (P.status s' ≠ .error → P.status s ≠ .error ∧ P.position s ≤ P.position s') := by
  unfold skipDescriptor
  obtain ⟨s1, n, d, e1, h1, p1⟩ := read_forward R h (k := 4) (by omega) (by omega)
  rw [e1, Res.bind_ok]
  dsimp only
  by_cases hn : n = 4
  · rw [if_pos hn]
    rw [hn] at e1
    obtain ⟨x1, x2, x3, x4, x5, x6, x7⟩ := R.read_exact h (by omega) (by omega) (by omega) e1
    obtain ⟨v, ev, _⟩ := signature_iff (l := d) (by omega)
    rw [ev, Res.bind_ok]
    split
    · obtain ⟨s2, m, d2, e2, h2, p2⟩ := read_forward R h1 (k := 12) (by omega) (by omega)
      rw [e2, Res.bind_ok]
      exact ⟨s2, _, rfl, h2, fun z => ⟨x2, by have := p2 z; omega⟩⟩
    · obtain ⟨s2, m, d2, e2, h2, p2⟩ := read_forward R h1 (k := 8) (by omega) (by omega)
      rw [e2, Res.bind_ok]
      exact ⟨s2, _, rfl, h2, fun z => ⟨x2, by have := p2 z; omega⟩⟩
  · rw [if_neg hn]
    exact ⟨s1, false, rfl, h1, p1⟩

include hD in
theorem leaveOther_total (R : Sturdy P lo H V) (hlo : lo ≤ 1) {b : Int} (hb : 0 ≤ b) {e : Entry σ ζ} (h : EntryOk P V H D g w N T b e)
    (hn : ∀ d, e ≠ .deflated d) {fuel : Nat} (hf : V.total + T + 1 < fuel) (known : Bool) :
    ∃ s' ok, leaveOther P D N fuel e known = .ok (s', ok) ∧ H s' ∧ (P.status s' ≠ .error → b ≤ P.position s') := by
  have hskip : ∀ k : Int, 1 ≤ k → ∃ e', skipAll (entryOps P D N) k fuel e = .ok e' ∧ H e'.input ∧
      (P.status e'.input ≠ .error → b ≤ P.position e'.input) := by
    intro k hk
    cases e with
    | stored e =>
      obtain ⟨e', er, u, ho⟩ := skipAll_stored R h.1 h.2 hk (fuel := fuel) (by omega)
      rw [skipAll_embeds embeds_stored, er]
      refine ⟨_, rfl, u.parent, fun z => ?_⟩
      have := u.pos R z
      show b ≤ P.position e'.parent
      omega
    | deflated e => exact absurd rfl (hn e)
    | streamed e =>
      have K := Unpack.runs_growing R hlo hD true hb N T
      obtain ⟨cc, hc⟩ := h
      obtain ⟨e', er, c', hc'⟩ := skipAll_growing K hc hk (fuel := fuel) (by omega)
      rw [skipAll_embeds embeds_streamed, show skipAll (GZip.ops P D N) k fuel e = _ from er]
      exact ⟨_, rfl, hc'.weak.1, fun z => by obtain ⟨z1, z2⟩ := R.sync hc'.weak.1 z; rw [show P.position (Entry.streamed e').input = _ from z2]; exact hc'.weak.2 z1⟩
  unfold leaveOther
  dsimp only
  obtain ⟨e', er, hH, hp⟩ := hskip (if (entryOps P D N).size e < 1 then 1024 else (entryOps P D N).size e) (by split <;> omega)
  rw [er, Res.bind_ok]
  cases known with
  | true => exact ⟨_, _, rfl, hH, hp⟩
  | false =>
    obtain ⟨s', ok, e1, h1, p1⟩ := skipDescriptor_total R hlo hH
    refine ⟨s', ok, by simpa using e1, h1, fun z => ?_⟩
    obtain ⟨z1, z2⟩ := p1 z
    have := hp z1
    omega

/-- What holds whatever the input and the client: there were `n` entries. -/
structure Ok (P : StreamOps σ UInt8) (V : View σ) (H : σ → Prop) (D : Decompressor ζ) (g : Nat) (w : ζ → Nat) (N T : Nat) (n : Nat)
    (s : State σ ζ) : Prop where
  entry : ∀ e, s.entry = some e → EntryOk P V H D g w N T (30 * n) e
  input : s.entry = none → H s.input ∧ (s.status = .ok → P.status s.input ≠ .error → (30 : Int) * n ≤ P.position s.input)
  bound : 30 * n ≤ V.total

include hD in
theorem leave_total (R : Sturdy P lo H V) (hlo : lo ≤ 1) {n : Nat} {s : State σ ζ} (h : Ok P V H D g w N T n s) (hs : s.status = .ok)
    {fuel : Nat} (hf : V.total + T + 1 < fuel) :
    ∃ s' ok, leave P D N fuel s = .ok (s', ok) ∧ s'.entry = none ∧ H s'.input ∧
      (P.status s'.input ≠ .error → (30 : Int) * n ≤ P.position s'.input) ∧ (ok = true → s'.status = .ok) := by
  rcases he : s.entry with _ | e
  · unfold leave
    rw [he]
    exact ⟨s, true, rfl, he, (h.input he).1, (h.input he).2 hs, fun _ => hs⟩
  · have hE := h.entry e he
    have hother : (∀ d, e ≠ .deflated d) → ∃ s' ok, leave P D N fuel s = .ok (s', ok) ∧ s'.entry = none ∧ H s'.input ∧
        (P.status s'.input ≠ .error → (30 : Int) * n ≤ P.position s'.input) ∧ (ok = true → s'.status = .ok) := by
      intro hd
      rw [leave_other hd he]
      obtain ⟨s', ok, e1, h1, p1⟩ := leaveOther_total hD R hlo (by omega) hE hd hf (decide (0 ≤ s.info.size))
      rw [e1, Res.bind_ok]
      exact ⟨_, ok, rfl, rfl, h1, p1, fun z => by simp only [z, if_true]; exact hs⟩
    cases e with
    | stored e => exact hother (fun d => by simp)
    | streamed e => exact hother (fun d => by simp)
    | deflated e =>
      unfold leave
      rw [he]
      dsimp only
      obtain ⟨o, z, ho, hE⟩ := hE
      obtain ⟨cc, hc⟩ := hE.parent
      obtain ⟨u, hou, _⟩ := Unpack.runs_under hc
      obtain ⟨z, r, e1, u', _, ho', _⟩ := SubInputStream.sub_skip R u u.size
      rw [e1, Res.bind_ok]
      dsimp only
      obtain ⟨s', e2, h2, p2⟩ := skipSignature_total R (by omega) u'.parent
      rw [e2, Res.bind_ok]
      refine ⟨_, true, rfl, rfl, h2, fun y => ?_, fun _ => hs⟩
      obtain ⟨y1, y2⟩ := p2 y
      have := (u'.pos R y1).1
      simp only
      omega

/-! ## Headers -/

theorem readFileName_total (R : Sturdy P lo H V) (hlo : lo ≤ 1) {s : State σ ζ} (h : H s.input) {len : Int} (h1 : 1 ≤ len) (h2 : len < 2 ^ 16) :
    ∃ s', readFileName P s len = .ok s' ∧ H s'.input ∧ s'.status = s.status ∧ s'.entry = s.entry ∧ s'.info.size = s.info.size ∧
      (P.status s'.input ≠ .error → P.position s.input ≤ P.position s'.input) ∧
      (s'.info.filename ≠ [] → P.status s'.input ≠ .error) := by
  unfold readFileName
  obtain ⟨s1, n, d, e1, hH, p1⟩ := read_forward R h (k := len) (by omega) (by omega)
  rw [e1, Res.bind_ok]
  dsimp only
  by_cases hn : n ≠ len
  · rw [if_pos hn]
    exact ⟨_, rfl, hH, rfl, rfl, rfl, fun z => (p1 z).2, fun z => absurd rfl z⟩
  · rw [if_neg hn]
    have hn := Classical.not_not.1 hn
    rw [hn] at e1
    obtain ⟨x1, x2, x3, x4, x5, x6, x7⟩ := R.read_exact h h1 (by omega) (by omega) e1
    have hl : ((slice d 0 n).length : Int) = len := by
      rw [hn]; exact slice_length_exact (by omega) (by omega) (by omega)
    obtain ⟨ch, ec⟩ := aget_total (l := slice d 0 n) (i := len - 1) (by omega) (by omega)
    rw [ec, Res.bind_ok]
    split
    · exact ⟨_, rfl, hH, rfl, rfl, rfl, fun z => (p1 z).2, fun _ => x3⟩
    · exact ⟨_, rfl, hH, rfl, rfl, rfl, fun z => (p1 z).2, fun _ => x3⟩

theorem readNames_total (R : Sturdy P lo H V) (hlo : lo ≤ 1) {s : State σ ζ} (h : H s.input) {len extra : Int} (h1 : 1 ≤ len) (h2 : len < 2 ^ 16)
    (h3 : 0 ≤ extra) :
    ∃ s', readNames P s len extra = .ok s' ∧ H s'.input ∧ s'.entry = s.entry ∧ s'.info.size = s.info.size ∧
      (P.status s'.input ≠ .error → P.position s.input ≤ P.position s'.input) ∧
      (s'.status = .ok → s'.info.filename ≠ [] → P.status s'.input ≠ .error) := by
  unfold readNames
  obtain ⟨s1, e1, hH, q1, q2, q3, q4, q5⟩ := readFileName_total R hlo h h1 h2
  rw [e1, Res.bind_ok]
  by_cases hs : s1.status ≠ .ok
  · rw [if_pos hs]
    exact ⟨_, rfl, hH, q2, q3, q4, fun z => by cases z⟩
  rw [if_neg hs]
  obtain ⟨s2, r, e2, hH2, g2, g3⟩ := R.leap hH h3
  rw [e2, Res.bind_ok]
  dsimp only
  have hp : P.status s2 ≠ .error → P.position s.input ≤ P.position s2 := by
    intro z
    have := q4 (g2 z).1
    have := (g2 z).2.2
    omega
  by_cases hr : r ≠ extra
  · rw [if_pos hr]
    exact ⟨_, rfl, hH2, q2, q3, hp, fun z => by cases z⟩
  · rw [if_neg hr]
    exact ⟨_, rfl, hH2, q2, q3, hp, fun _ z => g3 (q5 z) (by omega)⟩

/-- What a header tells: there is something to open. -/
def Opens (s' : State σ ζ) (l : Locals) : Prop :=
  (l.method = 8 → 0 ≤ s'.info.size → s'.info.size < 2 ^ 31 ∧ 0 ≤ l.compressed ∧ l.compressed < 2 ^ 31) ∧
    (l.method ≠ 8 → 0 ≤ s'.info.size ∧ s'.info.size < 2 ^ 31)

theorem readFields_total (R : Sturdy P lo H V) (hlo : lo ≤ 1) (mktime : TextUtils.Tm → Int) {s : State σ ζ} (h : H s.input) {hb : List UInt8}
    (hl : hb.length = 30) (h1 : leValue ((hb.drop 26).take 2) ≠ 0) (h2 : leValue ((hb.drop 22).take 4) < 2 ^ 31) :
    ∃ s' l, readFields P mktime s hb = .ok (s', l) ∧ H s'.input ∧ s'.entry = s.entry ∧
      (P.status s'.input ≠ .error → P.position s.input ≤ P.position s'.input) ∧
      (s'.status = .ok → s'.info.filename ≠ [] → P.status s'.input ≠ .error ∧ Opens s' l) := by
  unfold readFields
  rw [le16 (by omega), Res.bind_ok, le16 (by omega), Res.bind_ok, le32 (by omega), Res.bind_ok]
  dsimp only
  rw [le32 (by omega), Res.bind_ok]
  have hn2 := leValue_two (hb.drop 26)
  generalize leValue ((hb.drop 26).take 2) = len at *
  generalize leValue ((hb.drop 28).take 2) = ext at *
  generalize leValue ((hb.drop 22).take 4) = sz at *
  generalize leValue ((hb.drop 18).take 4) = cs at *
  by_cases hc : 2 ^ 31 ≤ cs
  · rw [if_pos hc]
    exact ⟨_, _, rfl, h, rfl, fun _ => by simp only; omega, fun z => by cases z⟩
  rw [if_neg hc, le16 (by omega), Res.bind_ok, le16 (by omega), Res.bind_ok]
  generalize leValue ((hb.drop 8).take 2) = me at *
  generalize leValue ((hb.drop 6).take 2) = fl at *
  split
  · exact ⟨_, _, rfl, h, rfl, fun _ => by simp only; omega, fun z => by cases z⟩
  rename_i hfm
  rw [le32 (by omega), Res.bind_ok]
  split
  · rename_i hu
    obtain ⟨s', e1, q1, q2, q3, q4, q5⟩ := readNames_total R hlo (ζ := ζ)
      (s := { s with info := { s.info with size := -1, mtime := mktime (TextUtils.dosFields (leValue ((hb.drop 10).take 4))) } })
      (len := len) (extra := ext) h (by omega) (by omega) (by omega)
    refine ⟨s', ⟨me, -1⟩, by rw [e1]; rfl, q1, q2, q4, fun z1 z2 => ⟨q5 z1 z2, ?_⟩⟩
    simp only at q3
    have hm : me = 8 := by
      have hu' : fl &&& 8 ≠ 0 := by simpa using hu
      by_cases hm : me = 8
      · exact hm
      · exact absurd ⟨hu', hm⟩ hfm
    refine ⟨fun _ z => by omega, fun z => ?_⟩
    exact absurd (by simp only; omega) z
  · rename_i hu
    obtain ⟨s', e1, q1, q2, q3, q4, q5⟩ := readNames_total R hlo (ζ := ζ)
      (s := { s with info := { s.info with size := sz, mtime := mktime (TextUtils.dosFields (leValue ((hb.drop 10).take 4))) } })
      (len := len) (extra := ext) h (by omega) (by omega) (by omega)
    refine ⟨s', ⟨me, cs⟩, by rw [e1]; rfl, q1, q2, q4, fun z1 z2 => ⟨q5 z1 z2, ?_⟩⟩
    simp only at q3
    exact ⟨fun _ _ => ⟨by omega, by simp only; omega, by simp only; omega⟩, fun _ => by omega⟩

/-- A bound on what the input may deliver: see `ZipSpec.Sane`. -/
def SaneV (V : View σ) : Prop :=
  ∀ p b, V.gives p b → b.length = 30 → b.take 4 = [0x50, 0x4b, 0x03, 0x04] →
    leValue ((b.drop 26).take 2) ≠ 0 ∧ leValue ((b.drop 22).take 4) < 2 ^ 31

theorem readHeader_total (R : Sturdy P lo H V) (hlo : lo ≤ 1) (hc : SaneV V) (mktime : TextUtils.Tm → Int) {s : State σ ζ} (h : H s.input) :
    ∃ s' l, readHeader P mktime s = .ok (s', l) ∧ H s'.input ∧ s'.entry = s.entry ∧
      (s'.status = .ok → s'.info.filename ≠ [] → P.status s'.input ≠ .error ∧ P.status s.input ≠ .error ∧
        P.position s.input + 30 ≤ P.position s'.input ∧ Opens s' l) := by
  unfold readHeader
  obtain ⟨s1, n, d, e1, hH, _⟩ := read_forward R h (k := 30) (by omega) (by omega)
  rw [e1, Res.bind_ok]
  dsimp only
  by_cases hn : n ≠ 30
  · rw [if_pos hn]
    exact ⟨_, _, rfl, hH, rfl, fun z => by cases z⟩
  rw [if_neg hn]
  rw [Classical.not_not.1 hn] at e1
  obtain ⟨x1, x2, x3, x4, x5, x6, x7⟩ := R.read_exact h (by omega) (by omega) (by omega) e1
  obtain ⟨b0, eb0⟩ := aget_total (l := d) (i := 0) (by omega) (by omega)
  obtain ⟨b1, eb1⟩ := aget_total (l := d) (i := 1) (by omega) (by omega)
  obtain ⟨b2, eb2⟩ := aget_total (l := d) (i := 2) (by omega) (by omega)
  obtain ⟨b3, eb3⟩ := aget_total (l := d) (i := 3) (by omega) (by omega)
  rw [eb0, Res.bind_ok, eb1, Res.bind_ok]
  split
  · exact ⟨_, _, rfl, hH, rfl, fun z => by cases z⟩
  rename_i hm1
  rw [eb2, Res.bind_ok, eb3, Res.bind_ok]
  split
  · exact ⟨_, _, rfl, hH, rfl, fun z => by cases z⟩
  rename_i hm2
  have hd4 : d.take 4 = [0x50, 0x4b, 0x03, 0x04] := by
    rcases d with _ | ⟨a0, _ | ⟨a1, _ | ⟨a2, _ | ⟨a3, d⟩⟩⟩⟩ <;> simp at x1 <;> try omega
    simp [aget] at eb0 eb1 eb2 eb3
    subst eb0 eb1 eb2 eb3
    have g0 : a0 = 0x50 := Classical.not_not.1 (fun z => hm1 (Or.inl z))
    have g1 : a1 = 0x4b := Classical.not_not.1 (fun z => hm1 (Or.inr z))
    have g2 : a2 = 0x03 := Classical.not_not.1 (fun z => hm2 (Or.inl z))
    have g3 : a3 = 0x04 := Classical.not_not.1 (fun z => hm2 (Or.inr z))
    rw [g0, g1, g2, g3]; rfl
  have hsane := hc _ d x4 (by omega) hd4
  obtain ⟨s', l, e2, q1, q2, q3, q4⟩ := readFields_total R hlo mktime (s := { s with input := s1 }) (hb := d) hH (by omega) hsane.1 hsane.2
  refine ⟨s', l, e2, q1, q2, fun z1 z2 => ?_⟩
  obtain ⟨y1, y2⟩ := q4 z1 z2
  have := q3 y1
  simp only at this
  exact ⟨y1, x2, by omega, y2⟩

/-! ## The next entry -/

theorem openEntry_total (R : Sturdy P lo H V) (hlo : lo ≤ 1) (hD : Tidy D g w) {s : State σ ζ} {l : Locals} (h : H s.input) (hs : P.status s.input ≠ .error)
    (ho : Opens s l) {b : Int} (hb : b ≤ P.position s.input) (hN : 2 * (w D.init + (g + 1) * V.total) < N)
    (hT : w D.init + g * V.total ≤ T) :
    ∃ e, openEntry P D N s.input s.info.size l = .ok e ∧ EntryOk P V H D g w N T b e := by
  unfold openEntry
  by_cases hm : l.method = 8
  · rw [if_pos hm]
    by_cases hz : s.info.size ≥ 0
    · rw [if_pos hz]
      obtain ⟨o1, o2, o3⟩ := ho.1 hm hz
      obtain ⟨z, ez, u, hzs, hzo, _⟩ := SubInputStream.usable_new R h hs o2 o3
      rw [ez, Res.bind_ok]
      unfold GZip.new
      simp only [Bool.false_eq_true, if_false]
      have S1 := SubInputStream.sturdy R hlo z.offset z.size
      have htot : (SubInputStream.view V z.offset z.size).total ≤ V.total := by
        have := u.off
        simp only [SubInputStream.view]; omega
      have hz1 : SubInputStream.Inside P V H z.offset z.size z := ⟨u, rfl, rfl⟩
      obtain ⟨t, et, L, p1, p2, p3⟩ := Unpack.runs_new (D := D) (g := g) (w := w) S1 hz1 (lo := 0) (fun y => (S1.range hz1 y).1) (N := N) (T := T)
        (by have := Nat.mul_le_mul_left (g + 1) htot; omega) (by have := Nat.mul_le_mul_left g htot; omega)
      rw [et, Res.bind_ok]
      obtain ⟨e, ee, ue, _⟩ := SubInputStream.usable_new (inflating_sturdy (N := N) (T := T) R hlo hD z.offset z.size) ⟨[], L⟩
        (by rw [show (GZip.ops (SubInputStream.ops P) D N).status t = _ from p2]; simp) hz o1
      rw [ee, Res.bind_ok]
      exact ⟨.deflated e, rfl, z.offset, z.size, by omega, ue⟩
    · rw [if_neg hz]
      unfold GZip.new
      simp only [Bool.false_eq_true, if_false]
      obtain ⟨t, et, L, p1, p2, p3⟩ := Unpack.runs_new (D := D) (g := g) (w := w) R h (lo := b)
        (fun y => by have := (R.sync h hs).2; omega) (N := N) (T := T) hN hT
      rw [et, Res.bind_ok]
      exact ⟨.streamed t, rfl, [], L⟩
  · rw [if_neg hm]
    obtain ⟨o1, o2⟩ := ho.2 hm
    obtain ⟨z, ez, u, hzs, hzo, _⟩ := SubInputStream.usable_new R h hs o1 o2
    rw [ez, Res.bind_ok]
    exact ⟨.stored z, rfl, u, by omega⟩

/-- The input below. -/
def under (s : State σ ζ) : σ := match s.entry with | some e => e.input | none => s.input

include hD in
theorem nests (R : Sturdy P lo H V) (hlo : lo ≤ 1) (hc : SaneV V) (mktime : TextUtils.Tm → Int)
    (hN : 2 * (w D.init + (g + 1) * V.total) < N) (hT : w D.init + g * V.total ≤ T) {fuel : Nat} (hf : V.total + T + 1 < fuel) :
    Nests V H (ops P D mktime N fuel) under (Entry.bound V.total T) Entry.Plain Entry.limit (Ok P V H D g w N T) where
  next := by
    intro n s h
    refine (fun (key : ∃ s', nextEntry P D mktime N fuel s = .ok s' ∧ ((∃ e, s'.entry = some e ∧ Ok P V H D g w N T (n + 1) s') ∨
        (s'.entry = none ∧ Ok P V H D g w N T n s'))) => ?_) ?_
    · obtain ⟨s', e1, h1 | h1⟩ := key
      · obtain ⟨e, he, h1⟩ := h1
        refine ⟨s', e1, ?_⟩
        rw [show (ops P D mktime N fuel).entry s' = some e from he]
        exact h1
      · refine ⟨s', e1, ?_⟩
        rw [show (ops P D mktime N fuel).entry s' = none from h1.1]
        exact h1.2
    unfold nextEntry
    by_cases hs : s.status ≠ .ok
    · rw [if_pos hs]
      refine ⟨_, rfl, Or.inr ⟨rfl, ⟨(fun e z => by simp at z), fun _ => ⟨?_, fun z => absurd z hs⟩, h.bound⟩⟩⟩
      simp only
      rcases he : s.entry with _ | e
      · exact (h.input he).1
      · exact (h.entry e he).input
    rw [if_neg hs]
    have hs := Classical.not_not.1 hs
    obtain ⟨s1, ok, e1, q1, q2, q3, q4⟩ := leave_total hD R hlo h hs hf
    rw [e1, Res.bind_ok]
    dsimp only
    have hnone : ∀ s' : State σ ζ, s'.entry = none → H s'.input → s'.status ≠ .ok →
        (∃ e, s'.entry = some e ∧ Ok P V H D g w N T (n + 1) s') ∨ (s'.entry = none ∧ Ok P V H D g w N T n s') := by
      intro s' z1 z2 z3
      exact Or.inr ⟨z1, ⟨(fun e z => by rw [z1] at z; cases z), fun _ => ⟨z2, fun z => absurd z z3⟩, h.bound⟩⟩
    cases ok with
    | false =>
      simp only [Bool.false_eq_true, if_false]
      exact ⟨s1, rfl, Or.inr ⟨q1, ⟨(fun e z => by rw [q1] at z; cases z), fun _ => ⟨q2, fun _ => q3⟩, h.bound⟩⟩⟩
    | true =>
      simp only [if_true]
      unfold next
      by_cases he : P.status s1.input = .eof
      · rw [if_pos he]
        exact ⟨_, rfl, hnone _ q1 q2 (by simp)⟩
      rw [if_neg he]
      obtain ⟨s2, l, e2, r1, r2, r3⟩ := readHeader_total R hlo hc mktime q2
      rw [e2, Res.bind_ok]
      dsimp only
      by_cases h2 : s2.status ≠ .ok
      · rw [if_pos h2]
        exact ⟨_, rfl, hnone _ (by rw [r2, q1]) r1 h2⟩
      rw [if_neg h2]
      by_cases h3 : s2.info.filename.length ≤ 0
      · rw [if_pos h3]
        exact ⟨_, rfl, hnone _ (by rw [← q1]; exact r2) r1 (by simp)⟩
      rw [if_neg h3]
      obtain ⟨k1, k2, k3, k4⟩ := r3 (Classical.not_not.1 h2) (fun z => by rw [z] at h3; simp at h3)
      have := q3 k2
      obtain ⟨e, ee, hE⟩ := openEntry_total (D := D) (g := g) (w := w) (N := N) (T := T) (b := 30 * (n + 1 : Nat)) R hlo hD r1 k1 k4 (by omega) hN hT
      rw [ee, Res.bind_ok]
      have hr := R.pos_range r1 k1
      exact ⟨_, rfl, Or.inl ⟨e, rfl, ⟨(fun e' z => by cases z; exact hE), (fun z => by cases z), by omega⟩⟩⟩
  under := by
    intro n s h
    unfold under
    cases he : s.entry with
    | none => exact (h.input he).1
    | some e => exact (h.entry e he).input
  entry := by
    intro n s e h he
    obtain ⟨G, W, S, h1, h2, h3, h6, h4, h5⟩ := entry_sturdy R hlo hD (by omega) (h.entry e he)
    exact ⟨G, W, S, h1, h2, h3, h6, fun e' z => ⟨(fun x y => by cases y; exact h4 e' z), (fun y => by cases y), h.bound⟩, h5⟩

theorem new_ok (R : Sturdy P lo H V) {input : σ} (h : H input) : Ok P V H D g w N T 0 (new input) :=
  ⟨(fun e z => by cases z), fun _ => ⟨h, fun _ z => by have := R.pos_range h z; simp only [new] at *; omega⟩, by omega⟩

end Zip

end Strigi
