import Verif.CutSpec
import Verif.Proofs.Decompress
import Verif.Proofs.Archive
import Verif.Proofs.Zip
import Verif.Proofs.Cut

/-!
# Decompressing data of which the end is missing
-/

namespace Strigi

variable {σ α : Type}

/-- The invariant of a contract holds until the first error. -/
theorem Contract.tries {ops : StreamOps σ α} {c c' : List α} {F : Failure} {H : σ → Int → Int → Prop} (C : Contract ops c F H)
    {soft : Prop} (S : soft → SoftReset ops c H) (hl : c'.length ≤ c.length) {s₀ s : σ} {lo hi : Int}
    (h0 : H s₀ (ops.position s₀) (ops.position s₀)) (hu : Tries ops c' soft s₀ s lo hi) :
    ops.status s ≠ .error → H s lo hi := by
  induction hu with
  | start => exact fun _ => h0
  | read _ hst h1 hm er ih =>
    obtain ⟨e2, n2, d2, er2, _, k2⟩ := C.read (ih hst) h1 hm
    rw [er] at er2; cases er2
    exact k2
  | skip _ hst h1 hm er ih =>
    obtain ⟨e2, r2, er2, _, k2⟩ := C.skip (ih hst) h1 hm
    rw [er] at er2; cases er2
    exact k2
  | back _ hst h1 hm er ih =>
    have := C.range (ih hst)
    obtain ⟨e2, er2, _, _, k2, _⟩ := C.reset (ih hst) h1 (by omega)
    rw [er] at er2; cases er2
    exact fun _ => k2 hm
  | reset _ hst h1 hm er ih =>
    obtain ⟨e2, er2, _, _, _, k2⟩ := C.reset (ih hst) h1 hm
    rw [er] at er2; cases er2
    exact fun _ => k2
  | jump _ hst hs h1 hm er ih =>
    obtain ⟨e2, r2, er2, _, _, _, k2⟩ := (S hs).reset (ih hst) h1 (by omega)
    rw [er] at er2; cases er2
    exact fun _ => k2

/-- What every call keeps holds after any number of calls. -/
theorem Tries.keep {ops : StreamOps σ α} {c : List α} {soft : Prop} {J : σ → Prop}
    (hr : ∀ {s s' : σ} {mn mx n : Int} {d : List α}, J s → ops.read s mn mx = .ok (s', n, d) → J s')
    (hk : ∀ {s s' : σ} {k r : Int}, J s → ops.skip s k = .ok (s', r) → J s')
    (hq : ∀ {s s' : σ} {q r : Int}, J s → ops.reset s q = .ok (s', r) → J s')
    {s₀ s : σ} {lo hi : Int} (h0 : J s₀) (hu : Tries ops c soft s₀ s lo hi) : J s := by
  induction hu with
  | start => exact h0
  | read _ _ _ _ e ih => exact hr ih e
  | skip _ _ _ _ e ih => exact hk ih e
  | back _ _ _ _ e ih => exact hq ih e
  | reset _ _ _ _ e ih => exact hq ih e
  | jump _ _ _ _ _ e ih => exact hq ih e

theorem Embeds.tries {ε τ : Type} {S : StreamOps ε α} {T : StreamOps τ α} {f : ε → τ} (h : Embeds S T f) {c : List α} {soft : Prop}
    {s₀ : ε} {t : τ} {lo hi : Int} (hu : Tries T c soft (f s₀) t lo hi) : ∃ s, t = f s ∧ Tries S c soft s₀ s lo hi := by
  induction hu with
  | start => exact ⟨s₀, rfl, by rw [h.position]; exact .start⟩
  | read _ hst h1 h2 e ih =>
    obtain ⟨s, rfl, hs⟩ := ih
    rw [h.read] at e
    rw [h.status] at hst
    obtain ⟨s', e', rfl⟩ := Embeds.split e
    refine ⟨s', rfl, ?_⟩
    rw [h.position, h.position]
    exact .read hs hst h1 h2 e'
  | skip _ hst h1 h2 e ih =>
    obtain ⟨s, rfl, hs⟩ := ih
    rw [h.skip] at e
    rw [h.status] at hst
    obtain ⟨s', e', rfl⟩ := Embeds.split e
    refine ⟨s', rfl, ?_⟩
    rw [h.position]
    exact .skip hs hst h1 h2 e'
  | back _ hst h1 h2 e ih =>
    obtain ⟨s, rfl, hs⟩ := ih
    rw [h.reset] at e
    rw [h.position] at h2
    rw [h.status] at hst
    obtain ⟨s', e', rfl⟩ := Embeds.split e
    exact ⟨s', rfl, .back hs hst h1 h2 e'⟩
  | reset _ hst h1 h2 e ih =>
    obtain ⟨s, rfl, hs⟩ := ih
    rw [h.reset] at e
    rw [h.status] at hst
    obtain ⟨s', e', rfl⟩ := Embeds.split e
    exact ⟨s', rfl, .reset hs hst h1 h2 e'⟩
  | jump _ hst h0 h1 h2 e ih =>
    obtain ⟨s, rfl, hs⟩ := ih
    rw [h.reset] at e
    rw [h.status] at hst
    obtain ⟨s', e', rfl⟩ := Embeds.split e
    exact ⟨s', rfl, .jump hs hst h0 h1 h2 e'⟩

namespace BufferedStream

variable {φ : Type} {P : Producer φ α} {J G : φ → Prop}

/-- A producer that never reports an end: it goes on (`J`) or fails (`G`). -/
def Endless (P : Producer φ α) (J G : φ → Prop) : Prop :=
  ∀ f space f' r, J f → 0 < space → P.fill f space = .ok (f', r) →
    (r.error = false ∧ 0 ≤ r.n ∧ J f') ∨ (r.error = true ∧ r.n < 0 ∧ G f')

/-- The state of a stream over such a producer. -/
def Doomed (J G : φ → Prop) (s : BufferedStream φ α) : Prop :=
  s.size = -1 ∧ ((s.status = .ok ∧ s.finished = false ∧ J s.prod) ∨ (s.status = .error ∧ G s.prod))

theorem writeLoop_doomed (T : Endless P J G) (nt mx : Int) :
    ∀ (fuel : Nat) (s : BufferedStream φ α) (missing nw : Int) (s' : BufferedStream φ α) (nw' : Int),
      writeLoop P nt mx fuel s missing nw = .ok (s', nw') → missing = nt - s.buf.avail →
      ((s.status = .ok ∧ 0 ≤ nw ∧ J s.prod) ∨ (s.status = .error ∧ nw < 0 ∧ G s.prod)) →
      s'.finished = s.finished ∧ s'.size = s.size ∧
      ((s'.status = .ok ∧ 0 ≤ nw' ∧ J s'.prod) ∨ (s'.status = .error ∧ nw' < 0 ∧ G s'.prod)) := by
  intro fuel
  induction fuel with
  | zero => intro s missing nw s' nw' h; simp [writeLoop] at h
  | succ fuel ih =>
    intro s missing nw s' nw' h hmis hI
    unfold writeLoop at h
    by_cases hc : missing > 0 ∧ nw ≥ 0
    · rw [if_pos hc] at h
      obtain ⟨⟨b, space⟩, e1, h⟩ := bind_eq_ok h
      obtain ⟨a1, a2, a3⟩ := makeSpace_ok e1
      simp only at h
      have hsp : 0 < (if mx ≥ nt ∧ space > mx then mx else space) := by split <;> omega
      generalize (if mx ≥ nt ∧ space > mx then mx else space) = sp at h hsp
      obtain ⟨⟨f, r⟩, e2, h⟩ := bind_eq_ok h
      obtain ⟨b2, e3, h⟩ := bind_eq_ok h
      obtain ⟨u, e4, h⟩ := bind_eq_ok h
      rcases hI with ⟨i1, i2, i3⟩ | ⟨_, i2, _⟩
      · have key : ((if r.error then Status.error else s.status) = .ok ∧ 0 ≤ r.n ∧ J f) ∨
            ((if r.error then Status.error else s.status) = .error ∧ r.n < 0 ∧ G f) := by
          rcases T _ _ _ _ i3 hsp e2 with ⟨x1, x2, x3⟩ | ⟨x1, x2, x3⟩
          · left; rw [x1]; exact ⟨by simpa using i1, x2, x3⟩
          · right; rw [x1]; exact ⟨by simp, x2, x3⟩
        simp only at h
        split at h
        · have := ih _ _ _ _ _ h rfl key
          exact this
        · have := ih _ _ _ _ _ h (by have := store_avail e3; simp only at this ⊢; omega) key
          exact this
      · omega
    · rw [if_neg hc] at h
      cases h
      exact ⟨rfl, rfl, hI⟩

theorem ensure_doomed (T : Endless P J G) {s s' : BufferedStream φ α} {mn mx : Int} (hI : Doomed J G s) (hok : s.status = .ok)
    (h : ensure P s mn mx = .ok s') : Doomed J G s' := by
  unfold ensure at h
  split at h
  · obtain ⟨hsz, hI⟩ := hI
    rcases hI with ⟨i1, i2, i3⟩ | ⟨i1, i2⟩
    · unfold writeToBuffer at h
      obtain ⟨⟨s1, nw⟩, e, h⟩ := bind_eq_ok h
      obtain ⟨h1, h2, h3⟩ := writeLoop_doomed T _ _ _ _ _ _ _ _ e rfl (Or.inl ⟨i1, Int.le_refl _, i3⟩)
      simp only at h
      split at h
      · cases h
        rcases h3 with ⟨_, z, _⟩ | ⟨z1, _, z2⟩
        · omega
        · exact ⟨by simp only; rw [h2, hsz], Or.inr ⟨z1, z2⟩⟩
      · cases h
        rcases h3 with ⟨z1, _, z2⟩ | ⟨_, z, _⟩
        · exact ⟨by rw [h2, hsz], Or.inl ⟨z1, by rw [h1, i2], z2⟩⟩
        · omega
    · rw [hok] at i1; cases i1
  · cases h; exact hI

theorem read_doomed (T : Endless P J G) {s s' : BufferedStream φ α} {mn mx n : Int} {d : List α}
    (hI : Doomed J G s) (h : read P s mn mx = .ok (s', n, d)) : Doomed J G s' := by
  unfold read at h
  split at h
  · cases h; exact hI
  · rename_i hne
    split at h
    · cases h; exact hI
    · rename_i hne2
      have hok : s.status = .ok := by
        cases e : s.status with
        | ok => rfl
        | error => exact absurd e hne
        | eof => exact absurd e hne2
      obtain ⟨s1, e1, h⟩ := bind_eq_ok h
      have h1 := ensure_doomed T hI hok e1
      split at h
      · cases h; exact h1
      · rename_i hne
        obtain ⟨hsz, h1⟩ := h1
        rcases h1 with ⟨j1, j2, j3⟩ | ⟨z, _⟩
        · obtain ⟨⟨b, k, d'⟩, e2, h⟩ := bind_eq_ok h
          simp only at h
          rw [if_neg (by omega), if_neg (by rw [j2]; simp)] at h
          cases h
          exact ⟨hsz, Or.inl ⟨j1, j2, j3⟩⟩
        · exact absurd z hne

theorem skipLoop_doomed (T : Endless P J G) :
    ∀ (fuel : Nat) {s s' : BufferedStream φ α} {n sk r : Int},
      Doomed J G s → skipLoop P fuel s n sk = .ok (s', r) → Doomed J G s' := by
  intro fuel
  induction fuel with
  | zero => intro s s' n sk r _ h; simp [skipLoop] at h
  | succ fuel ih =>
    intro s s' n sk r hI h
    unfold skipLoop at h
    split at h
    · obtain ⟨⟨s1, k, d⟩, e, h⟩ := bind_eq_ok h
      have h1 := read_doomed T hI e
      simp only at h
      split at h
      · cases h; exact h1
      · exact ih h1 h
    · cases h; exact hI

theorem reset_doomed {s s' : BufferedStream φ α} {q r : Int} (hI : Doomed J G s)
    (h : reset s q = .ok (s', r)) : Doomed J G s' := by
  unfold reset at h
  obtain ⟨u, _, h⟩ := bind_eq_ok h
  split at h
  · cases h; exact hI
  · rename_i hne
    obtain ⟨hsz, hI⟩ := hI
    rcases hI with ⟨j1, j2, j3⟩ | ⟨z, _⟩
    · simp only at h
      split at h
      · cases h; exact ⟨hsz, Or.inl ⟨rfl, j2, j3⟩⟩
      · cases h; exact ⟨hsz, Or.inl ⟨j1, j2, j3⟩⟩
    · exact absurd z hne

theorem Doomed.not_eof {s : BufferedStream φ α} (h : Doomed J G s) : s.status ≠ .eof := by
  rcases h.2 with ⟨z, _⟩ | ⟨z, _⟩ <;> rw [z] <;> decide

theorem Doomed.error {s : BufferedStream φ α} (h : Doomed J G s) (hs : s.status = .error) : G s.prod := by
  rcases h.2 with ⟨z, _⟩ | ⟨_, z⟩
  · rw [hs] at z; cases z
  · exact z

theorem Doomed.prod {s : BufferedStream φ α} (h : Doomed J G s) : J s.prod ∨ G s.prod := by
  rcases h.2 with ⟨_, _, z⟩ | ⟨_, z⟩
  · exact Or.inl z
  · exact Or.inr z

end BufferedStream

namespace Unpack

open BufferedStream

variable {ζ : Type} {P : StreamOps σ UInt8} {c : List UInt8} {F : Failure} {H : σ → Int → Int → Prop}
  {D : Decompressor ζ} {R : ζ → List UInt8 → List UInt8 → Prop} {keep : Bool}

/-- The decompressor has not seen the end of the input yet. -/
def Lacks (P : StreamOps σ UInt8) (H : σ → Int → Int → Prop) (R : ζ → List UInt8 → List UInt8 → Prop) (c : List UInt8) (stop : Int)
    (N : Nat) (I : σ → Prop) (f : State σ ζ) : Prop :=
  I f.input ∧ f.isOpen = true ∧ ∃ rest m, Rest P H R c stop True [] N f rest m

/-- One step of the decompressor while the input lacks its end. -/
theorem decompress_more (hD : Unpacks D False R) {f f' : State σ ζ} {space : Int} {r : Fill UInt8} {x y : List UInt8} {q : Int}
    (hR : R f.z x y) (hx : Fits True [] x (c.drop q.toNat)) (hlt : (c.drop q.toNat).length < x.length)
    (ha : f.availIn <+: c.drop q.toNat) (hsp : 0 < space) (e : decompress P D keep f space = .ok (f', r)) :
    f'.input = f.input ∧ f'.isOpen = f.isOpen ∧ r.error = false ∧ 0 ≤ r.n := by
  obtain ⟨z', k, out, code, e1, hk, hout, y', hy, hc⟩ := hD hR (hx.compatible ha) hsp
  unfold decompress at e
  rw [e1] at e
  rcases hc with ⟨rfl, hxk, _⟩ | ⟨rfl, _⟩ | ⟨z, _⟩
  · exfalso
    have h1 := congrArg List.length hxk
    rw [List.length_take] at h1
    have h2 := ha.length_le
    omega
  · cases e
    exact ⟨rfl, rfl, rfl, by simp⟩
  · exact absurd z id

/-- A decompressor over an input that ends too early. -/
theorem endless (C : Contract P c F H) (hD : Unpacks D False R) {stop : Int} (hstop : c.length < stop) (N : Nat) {I E : σ → Prop}
    (hI : ∀ {s s' : σ} {lo hi n : Int} {d : List UInt8}, I s → H s lo hi → P.read s 1 0 = .ok (s', n, d) → I s' ∧ (n < 1 → E s')) :
    Endless (producer P D keep N) (Lacks P H R c stop N I) (fun f => I f.input ∧ E f.input) := by
  rintro f space f' r ⟨hi, ho, rest, m, hRest⟩ hsp e
  obtain ⟨f2, r2, e2, hstep⟩ := fill_step (keep := keep) C hD hsp hRest
  have e : fill P D keep f space = .ok (f', r) := e
  rw [e] at e2; cases e2
  have finish : f'.isOpen = f.isOpen → I f'.input → r.error = false → 0 ≤ r.n →
      r.error = false ∧ 0 ≤ r.n ∧ Lacks P H R c stop N I f' := by
    intro h1 h2 h3 h4
    refine ⟨h3, h4, h2, by rw [h1, ho], ?_⟩
    rcases hstep with ⟨_, _, _, rest', m', _, _, h⟩ | ⟨_, h, _⟩ | ⟨_, h, _⟩ | ⟨_, h, _⟩
    · exact ⟨rest', m', h⟩
    · omega
    · rw [h3] at h; cases h
    · rw [h3] at h; cases h
  obtain ⟨_, hf, hRest⟩ := hRest
  rw [if_pos ho] at hRest
  obtain ⟨x, y, q, hR, _, ⟨lo, hi', hlo, hH⟩, hq, ha, hx, hst, hav, _⟩ := hRest
  have hrg := C.range hH
  have hlt : (c.drop q.toNat).length < x.length := by
    rw [List.length_drop]; omega
  unfold fill at e
  rw [if_neg (by simp [ho])] at e
  split at e
  · rename_i hao
    obtain ⟨t, e1, e⟩ := bind_eq_ok e
    unfold readFromStream at e1
    obtain ⟨⟨i, n, d⟩, er, e1⟩ := bind_eq_ok e1
    obtain ⟨hi1, hi2⟩ := hI hi hH er
    dsimp only at e1
    by_cases hn : n < 1
    · rw [if_pos hn] at e1
      cases e1
      simp only [if_true] at e
      cases e
      exact Or.inr ⟨rfl, by simp, hi1, hi2 hn⟩
    · rw [if_neg hn] at e1
      cases e1
      rw [if_neg (by simp [hf])] at e
      obtain ⟨hae, _⟩ := hav hao
      rw [hae] at hq
      simp only [List.length_nil, Int.natCast_zero, Int.add_zero] at hq
      obtain ⟨s2, n2, d2, er2, ro, _⟩ := C.read hH (min := 1) (max := 0) (by omega) (Or.inl rfl)
      rw [er] at er2; cases er2
      have hd : slice d 0 n <+: c.drop q.toNat := by
        cases ro with
        | data pos items inside adv limit enough st =>
          rw [items, hq]
          exact (List.take_prefix _ _).trans (by rw [Int.toNat_zero, List.drop_zero]; exact List.take_prefix _ _)
        | ended none nodata atEnd stay st => exfalso; omega
        | failed a1 a2 a3 => exfalso; omega
      obtain ⟨y1, y2, y3, y4⟩ := decompress_more (c := c) hD (f := { f with input := i, availIn := slice d 0 n }) hR hx hlt hd hsp e
      exact Or.inl (finish y2 (by rw [y1]; exact hi1) y3 y4)
  · obtain ⟨y1, y2, y3, y4⟩ := decompress_more (c := c) hD hR hx hlt ha hsp e
    exact Or.inl (finish y2 (by rw [y1]; exact hi) y3 y4)

/-- The stream that was just opened over such an input. -/
theorem doomed_new {x y : List UInt8} {input : σ} {lo hi : Int} (C : Contract P c F H) {N : Nat}
    (hH : H input lo hi) (hc : c.drop (P.position input).toNat <+: x) (hlt : (c.drop (P.position input).toNat).length < x.length)
    (hR : R D.init x y) (hN : 2 * (x.length + y.length) + 1 < N) {I E : σ → Prop} (hI : I input)
    {s : BufferedStream (State σ ζ) UInt8} (e : openStream D input = .ok s) :
    Doomed (Lacks P H R c (P.position input + x.length) N I) (fun f => I f.input ∧ E f.input) s := by
  have hne : x ≠ [] := by intro z; rw [z] at hlt; simp at hlt
  have h0 : Rest P H R c (P.position input + x.length) True [] N (start D input) (y ++ [])
      (2 * (x.length + y.length) + 1) := by
    refine ⟨hN, rfl, ?_⟩
    have hrg := C.range hH
    simp only [start, if_true]
    refine ⟨x, y, P.position input, hR, rfl, ⟨lo, hi, hrg.2.1, hH⟩, by simp, by simp, Or.inr ⟨trivial, hc, hlt⟩, rfl,
      fun _ => ⟨trivial, hne⟩, by simp⟩
  unfold openStream setMinBufSize at e
  obtain ⟨⟨b, sp⟩, _, e⟩ := bind_eq_ok e
  cases e
  exact ⟨rfl, Or.inl ⟨rfl, rfl, hI, rfl, _, _, h0⟩⟩

end Unpack
end Strigi
