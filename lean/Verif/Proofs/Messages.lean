import Verif.MessageSpec
import Verif.Model.Messages
import Verif.Proofs.Lifecycle

/-!
# Proofs about the texts of errors
-/

namespace Strigi

namespace BufferedStream

variable {φ α : Type}

/-- A subclass that stores a text when it reports an error, and never removes it.  The exceptions are in `X`: the number that is returned
is negative then. -/
def Speaks (P : Producer (Said φ) α) (J X : Said φ → Prop) : Prop :=
  ∀ f space f' r, J f → P.fill f space = .ok (f', r) →
    (J f' ∨ (r.error = true ∧ r.n < 0)) ∧ (r.error = true → f'.msg ≠ "" ∨ (X f' ∧ r.n < 0)) ∧ (f.msg ≠ "" → f'.msg ≠ "" ∨ (X f' ∧ r.n < 0))

/-- the invariant of a stream -/
def Told (J X : Said φ → Prop) (s : BufferedStream (Said φ) α) : Prop :=
  (s.status ≠ .error → J s.prod) ∧ (s.status = .error → s.prod.msg ≠ "" ∨ (0 < s.size ∧ s.size < s.pos) ∨ X s.prod)

variable {P : Producer (Said φ) α} {J X : Said φ → Prop}

theorem writeLoop_told (T : Speaks P J X) (nt mx : Int) :
    ∀ (fuel : Nat) (s : BufferedStream (Said φ) α) (missing nw : Int) (s' : BufferedStream (Said φ) α) (nw' : Int),
      writeLoop P nt mx fuel s missing nw = .ok (s', nw') →
      (J s.prod ∨ (s.status = .error ∧ nw < 0)) → (s.status = .error → s.prod.msg ≠ "" ∨ (X s.prod ∧ nw < 0)) →
      (J s'.prod ∨ (s'.status = .error ∧ nw' < 0)) ∧ (s'.status = .error → s'.prod.msg ≠ "" ∨ (X s'.prod ∧ nw' < 0)) := by
  intro fuel
  induction fuel with
  | zero => intro s missing nw s' nw' h; simp [writeLoop] at h
  | succ fuel ih =>
    intro s missing nw s' nw' h hJ hE
    unfold writeLoop at h
    by_cases hc : missing > 0 ∧ nw ≥ 0
    · rw [if_pos hc] at h
      obtain ⟨⟨b, space⟩, e1, h⟩ := bind_eq_ok h
      simp only at h
      generalize (if mx ≥ nt ∧ space > mx then mx else space) = sp at h
      obtain ⟨⟨f, r⟩, e2, h⟩ := bind_eq_ok h
      obtain ⟨b2, e3, h⟩ := bind_eq_ok h
      obtain ⟨u, e4, h⟩ := bind_eq_ok h
      have hJ : J s.prod := hJ.elim id (fun g => absurd g.2 (by omega))
      obtain ⟨hf, h1, h2⟩ := T _ _ _ _ hJ e2
      have hf : J f ∨ ((if r.error then Status.error else s.status) = .error ∧ r.n < 0) :=
        hf.imp id (fun g => ⟨by rw [if_pos g.1], g.2⟩)
      have key : (if r.error then Status.error else s.status) = .error → f.msg ≠ "" ∨ (X f ∧ r.n < 0) := by
        intro z
        by_cases hr : r.error = true
        · exact h1 hr
        · simp only [hr] at z
          rcases hE z with g | g
          · exact h2 g
          · exact absurd g.2 (by omega)
      simp only at h
      split at h
      · exact ih _ _ _ _ _ h hf key
      · exact ih _ _ _ _ _ h hf key
    · rw [if_neg hc] at h
      cases h
      exact ⟨hJ, hE⟩

theorem ensure_told (T : Speaks P J X) {s s' : BufferedStream (Said φ) α} {mn mx : Int} (hJ : J s.prod) (hs : s.status ≠ .error)
    (h : ensure P s mn mx = .ok s') : Told J X s' := by
  unfold ensure at h
  split at h
  · unfold writeToBuffer at h
    obtain ⟨⟨s1, nw⟩, e, h⟩ := bind_eq_ok h
    have := writeLoop_told T _ _ _ _ _ _ _ _ e (Or.inl hJ) (fun z => absurd z hs)
    have : Told J X s1 := ⟨fun z => this.1.elim id (fun g => absurd g.1 z), fun z => (this.2 z).imp id (fun g => Or.inr g.1)⟩
    simp only at h
    split at h
    · cases h; exact this
    · cases h; exact this
  · cases h; exact ⟨fun _ => hJ, fun z => absurd z hs⟩

theorem bufRead_nonneg {b b' : StreamBuffer α} {mx n : Int} {d : List α} (h : b.read mx = .ok (b', n, d)) : 0 ≤ n := by
  unfold StreamBuffer.read at h
  obtain ⟨_, _, h⟩ := bind_eq_ok h
  obtain ⟨_, e, h⟩ := bind_eq_ok h
  obtain ⟨_, _, h⟩ := bind_eq_ok h
  obtain ⟨_, _, h⟩ := bind_eq_ok h
  obtain ⟨_, _, h⟩ := bind_eq_ok h
  have e : 0 ≤ b.avail := by
    by_cases hb : 0 ≤ b.avail
    · exact hb
    · simp [Res.assert, hb] at e
  cases h
  split <;> omega

theorem read_told (T : Speaks P J X) {s s' : BufferedStream (Said φ) α} {mn mx n : Int} {d : List α} (hJ : Told J X s)
    (h : read P s mn mx = .ok (s', n, d)) : Told J X s' ∧ (n < -1 → s'.status = .error) := by
  unfold read at h
  split at h
  · rename_i hs
    cases h; exact ⟨hJ, fun _ => hs⟩
  · split at h
    · cases h; exact ⟨hJ, fun z => by omega⟩
    · obtain ⟨s1, e1, h⟩ := bind_eq_ok h
      have h1 := ensure_told T (hJ.1 (by assumption)) (by assumption) e1
      split at h
      · rename_i hs
        cases h; exact ⟨h1, fun _ => hs⟩
      · rename_i hs
        obtain ⟨⟨b, k, d'⟩, e2, h⟩ := bind_eq_ok h
        have hk := bufRead_nonneg e2
        simp only at h
        split at h
        · rename_i hp
          cases h; exact ⟨⟨fun z => absurd rfl z, fun _ => Or.inr (Or.inl ⟨hp.2, hp.1⟩)⟩, fun _ => rfl⟩
        · split at h
          · cases h
            refine ⟨⟨fun _ => h1.1 (by assumption), fun z => by cases z⟩, fun z => ?_⟩
            exfalso
            split at z <;> omega
          · cases h
            exact ⟨⟨h1.1, fun z => absurd z hs⟩, fun z => by omega⟩

theorem skipLoop_told (T : Speaks P J X) :
    ∀ (fuel : Nat) {s s' : BufferedStream (Said φ) α} {n sk r : Int},
      Told J X s → skipLoop P fuel s n sk = .ok (s', r) → Told J X s' := by
  intro fuel
  induction fuel with
  | zero => intro s s' n sk r _ h; simp [skipLoop] at h
  | succ fuel ih =>
    intro s s' n sk r hJ h
    unfold skipLoop at h
    split at h
    · obtain ⟨⟨s1, k, d⟩, e, h⟩ := bind_eq_ok h
      have h1 := (read_told T hJ e).1
      simp only at h
      split at h
      · cases h; exact h1
      · exact ih h1 h
    · cases h; exact hJ

theorem reset_told {s s' : BufferedStream (Said φ) α} {q r : Int} (hJ : Told J X s)
    (h : reset s q = .ok (s', r)) : Told J X s' := by
  unfold reset at h
  obtain ⟨u, _, h⟩ := bind_eq_ok h
  split at h
  · cases h; exact hJ
  · rename_i hs
    simp only at h
    split at h
    · cases h; exact ⟨fun _ => hJ.1 hs, fun z => by cases z⟩
    · cases h; exact hJ

theorem Told.error {s : BufferedStream (Said φ) α} (h : Told J X s) (hs : s.status = .error) : s.error ≠ "" ∨ X s.prod := by
  unfold BufferedStream.error
  rcases h.2 hs with g | g | g
  · refine Or.inl ?_
    split
    · decide
    · exact g
  · refine Or.inl ?_
    rw [if_pos g]; decide
  · exact Or.inr g

theorem Speaks.explains (T : Speaks P J (fun _ => False)) : Explains (ops P) BufferedStream.error (Told J (fun _ => False)) where
  read h e := ⟨(read_told T h e).1, fun z => ((read_told T h e).1.error ((read_told T h e).2 z)).elim id False.elim⟩
  skip h e := skipLoop_told T _ h e
  reset h e := reset_told h e
  error h z := (h.error z).elim id False.elim

theorem run_told (T : Speaks P J X) : ∀ (l : List Op) {s s' : BufferedStream (Said φ) α}, Told J X s → run (ops P) s l = .ok s' → Told J X s' := by
  intro l
  induction l with
  | nil => intro s s' h e; cases e; exact h
  | cons o l ih =>
    intro s s' h e
    cases o with
    | read mn mx =>
      unfold run at e
      obtain ⟨⟨s1, n, d⟩, e1, e⟩ := bind_eq_ok e
      exact ih (read_told T h e1).1 e
    | skip n =>
      unfold run at e
      obtain ⟨⟨s1, r⟩, e1, e⟩ := bind_eq_ok e
      exact ih (skipLoop_told T _ h e1) e
    | reset q =>
      unfold run at e
      obtain ⟨⟨s1, r⟩, e1, e⟩ := bind_eq_ok e
      exact ih (reset_told h e1) e

/-- a subclass without exceptions -/
theorem Speaks.of (T : ∀ {f space f' r}, J f → P.fill f space = .ok (f', r) →
    J f' ∧ (r.error = true → f'.msg ≠ "") ∧ (f.msg ≠ "" → f'.msg ≠ "")) : Speaks P J (fun _ => False) :=
  fun _ _ _ _ h e => let ⟨a, b, c⟩ := T h e; ⟨Or.inl a, fun z => Or.inl (b z), fun z => Or.inl (c z)⟩

theorem told_new {f : Said φ} (h : J f) (size : Int) : Told J X (new f size : BufferedStream (Said φ) α) := ⟨fun _ => h, fun z => by cases z⟩

theorem told_min {s s' : BufferedStream (Said φ) α} {n : Int} (h : Told J X s) (e : setMinBufSize s n = .ok s') : Told J X s' := by
  unfold setMinBufSize at e
  obtain ⟨x, _, e⟩ := bind_eq_ok e
  cases e
  exact h

end BufferedStream

open BufferedStream (bind_eq_ok Speaks Told)

section

variable {σ ζ : Type} {P : StreamOps σ UInt8} {err : σ → String} {H : σ → Prop}

/-! ## gzip -/

theorem Unpack.decompress_keeps (E : Explains P err H) {D : Decompressor ζ} {keep : Bool} {s s' : Unpack.State σ ζ} {space : Int} {r : Fill UInt8}
    (h : H s.input) (e : Unpack.decompress P D keep s space = .ok (s', r)) : H s'.input ∧ (s'.failed = true → r.error = true ∨ s.failed = true) := by
  unfold Unpack.decompress at e
  generalize D.run s.z s.availIn space = x at e
  obtain ⟨z, k, out, code⟩ := x
  simp only at e
  cases code with
  | more => cases e; exact ⟨h, Or.inr⟩
  | failed => cases e; exact ⟨h, fun _ => Or.inl rfl⟩
  | ended =>
    simp only at e
    split at e
    · obtain ⟨⟨i, r'⟩, e1, e⟩ := bind_eq_ok e
      cases e
      exact ⟨E.reset h e1, Or.inr⟩
    · cases e; exact ⟨h, Or.inr⟩

/-- the invariant of the subclass -/
def Unpack.Has (H : σ → Prop) (f : Said (Unpack.State σ ζ)) : Prop := H f.st.input ∧ (f.st.failed = true → f.msg ≠ "")

theorem Unpack.decompressSaid_speaks (E : Explains P err H) {D : Decompressor ζ} {keep : Bool} {f f' : Said (Unpack.State σ ζ)} {space : Int} {r : Fill UInt8}
    (h : Has H f) (e : decompressSaid P D keep f space = .ok (f', r)) :
    Has H f' ∧ (r.error = true → f'.msg ≠ "") ∧ (f.msg ≠ "" → f'.msg ≠ "") := by
  unfold decompressSaid at e
  obtain ⟨⟨st, r'⟩, e1, e⟩ := bind_eq_ok e
  obtain ⟨h1, h2⟩ := decompress_keeps E h.1 e1
  cases e
  have key : r.error = true → (if r.error = true then "DATA_ERROR" else f.msg) ≠ "" := fun z => by rw [if_pos z]; decide
  have key2 : f.msg ≠ "" → (if r.error = true then "DATA_ERROR" else f.msg) ≠ "" := fun z => by
    split
    · decide
    · exact z
  exact ⟨⟨h1, fun z => (h2 z).elim key (fun z => key2 (h.2 z))⟩, key, key2⟩

theorem Unpack.gzip_speaks (E : Explains P err H) (D : Decompressor ζ) (N : Nat) : Speaks (producerSaid P err D true N) (Has H) (fun _ => False) := by
  refine Speaks.of ?_
  intro f space f' r h e
  have e : fillSaid P err D true f space = _ := e
  unfold fillSaid at e
  by_cases ho : f.st.isOpen = false
  · rw [if_pos ho] at e
    cases e
    exact ⟨h, (fun z => by cases z), id⟩
  rw [if_neg ho] at e
  by_cases ha : f.st.availOut ≠ 0
  · rw [if_pos ha] at e
    obtain ⟨g, eg, e⟩ := bind_eq_ok e
    have hg : Has H g ∧ (f.msg ≠ "" → g.msg ≠ "") := by
      unfold readSaid at eg
      obtain ⟨⟨i, n, d⟩, er, eg⟩ := bind_eq_ok eg
      obtain ⟨hi, hn⟩ := E.read h.1 er
      simp only [if_true, decide_eq_true_eq] at eg
      by_cases h1 : n < -1
      · rw [if_pos h1] at eg
        cases eg
        exact ⟨⟨hi, fun _ => hn h1⟩, fun _ => hn h1⟩
      rw [if_neg h1] at eg
      by_cases h2 : n < 1
      · rw [if_pos h2] at eg
        cases eg
        exact ⟨⟨hi, fun _ => by simp⟩, fun _ => by simp⟩
      · rw [if_neg h2] at eg
        cases eg
        exact ⟨⟨hi, h.2⟩, id⟩
    by_cases hf : g.st.failed = true
    · rw [if_pos hf] at e
      cases e
      exact ⟨hg.1, fun _ => hg.1.2 hf, hg.2⟩
    · rw [if_neg hf] at e
      obtain ⟨k1, k2, k3⟩ := decompressSaid_speaks E hg.1 e
      exact ⟨k1, k2, fun z => k3 (hg.2 z)⟩
  · rw [if_neg ha] at e
    exact decompressSaid_speaks E h e

/-! ## bz2 and LZMA: the text of an input that ended is copied -/

/-- the exception: the input has not failed -/
def Unpack.Quiet (P : StreamOps σ UInt8) (f : Said (Unpack.State σ ζ)) : Prop := P.status f.st.input ≠ .error

theorem Unpack.bz2_speaks (E : Explains P err H) (D : Decompressor ζ) (N : Nat) :
    Speaks (producerSaid P err D false N) (fun f => H f.st.input ∧ f.st.failed = false) (Quiet P) := by
  intro f space f' r h e
  have e : fillSaid P err D false f space = _ := e
  have dec : ∀ {g : Said (State σ ζ)}, H g.st.input → g.st.failed = false → (f.msg ≠ "" → g.msg ≠ "") → decompressSaid P D false g space = .ok (f', r) →
      ((H f'.st.input ∧ f'.st.failed = false) ∨ (r.error = true ∧ r.n < 0)) ∧ (r.error = true → f'.msg ≠ "" ∨ (Quiet P f' ∧ r.n < 0)) ∧
        (f.msg ≠ "" → f'.msg ≠ "" ∨ (Quiet P f' ∧ r.n < 0)) := by
    intro g hg hgf hm e
    obtain ⟨k1, k2, k3⟩ := decompressSaid_speaks E (f := g) ⟨hg, fun z => by rw [hgf] at z; cases z⟩ e
    refine ⟨?_, fun z => Or.inl (k2 z), fun z => Or.inl (k3 (hm z))⟩
    by_cases hr : r.error = true
    · refine Or.inr ⟨hr, ?_⟩
      unfold decompressSaid at e
      obtain ⟨⟨st, r'⟩, e1, e⟩ := bind_eq_ok e
      cases e
      unfold decompress at e1
      generalize D.run g.st.z g.st.availIn space = x at e1
      obtain ⟨z, k, out, code⟩ := x
      simp only at e1
      cases code with
      | more => cases e1; cases hr
      | failed => cases e1; simp
      | ended =>
        simp only at e1
        split at e1
        · obtain ⟨⟨i, r'⟩, _, e1⟩ := bind_eq_ok e1
          cases e1; cases hr
        · cases e1; cases hr
    · refine Or.inl ⟨k1.1, ?_⟩
      unfold decompressSaid at e
      obtain ⟨⟨st, r'⟩, e1, e⟩ := bind_eq_ok e
      have := (decompress_keeps E hg e1).2
      cases e
      cases hf : st.failed with
      | false => rfl
      | true =>
        rcases this hf with g | g
        · exact absurd g hr
        · rw [hgf] at g; cases g
  unfold fillSaid at e
  by_cases ho : f.st.isOpen = false
  · rw [if_pos ho] at e
    cases e
    exact ⟨Or.inl h, (fun z => by cases z), fun z => Or.inl z⟩
  rw [if_neg ho] at e
  by_cases ha : f.st.availOut ≠ 0
  · rw [if_pos ha] at e
    obtain ⟨g, eg, e⟩ := bind_eq_ok e
    have hg : (g.st.failed = true ∧ (g.msg ≠ "" ∨ Quiet P g)) ∨ (H g.st.input ∧ g.st.failed = false ∧ g.msg = f.msg) := by
      unfold readSaid at eg
      obtain ⟨⟨i, n, d⟩, er, eg⟩ := bind_eq_ok eg
      obtain ⟨hi, hn⟩ := E.read h.1 er
      simp only [Bool.false_eq_true, if_false, decide_eq_true_eq] at eg
      by_cases h1 : n ≤ -1
      · rw [if_pos h1] at eg
        cases eg
        refine Or.inl ⟨rfl, ?_⟩
        by_cases hs : P.status i = .error
        · exact Or.inl (E.error hi hs)
        · exact Or.inr hs
      rw [if_neg h1] at eg
      by_cases h2 : n < 1
      · rw [if_pos h2] at eg
        cases eg
        exact Or.inl ⟨rfl, Or.inl (by simp)⟩
      · rw [if_neg h2] at eg
        cases eg
        exact Or.inr ⟨hi, h.2, rfl⟩
    rcases hg with ⟨hf, hm⟩ | ⟨hi, hf, hm⟩
    · rw [if_pos hf] at e
      cases e
      have := hm.imp id (fun z : Quiet P f' => (⟨z, by decide⟩ : Quiet P f' ∧ (-1 : Int) < 0))
      exact ⟨Or.inr ⟨rfl, by decide⟩, fun _ => this, fun _ => this⟩
    · rw [if_neg (by rw [hf]; decide)] at e
      exact dec hi hf (fun z => by rw [hm]; exact z) e
  · rw [if_neg ha] at e
    exact dec h.1 h.2 id e

theorem LzmaStream.speaks (E : Explains P err H) (D : LzmaDecoder ζ) (N : Nat) :
    Speaks (producerSaid P err D N) (fun f => H f.st.input ∧ (f.st.failed = true → f.msg ≠ "")) (fun f => P.status f.st.input ≠ .error) := by
  intro f space f' r h e
  have e : fillSaid P err D f space = _ := e
  have dec : ∀ {g : Said (State σ ζ)}, H g.st.input → g.st.failed = false → (f.msg ≠ "" → g.msg ≠ "") → decompressSaid D g space = .ok (f', r) →
      ((H f'.st.input ∧ (f'.st.failed = true → f'.msg ≠ "")) ∨ (r.error = true ∧ r.n < 0)) ∧
        (r.error = true → f'.msg ≠ "" ∨ (P.status f'.st.input ≠ .error ∧ r.n < 0)) ∧
        (f.msg ≠ "" → f'.msg ≠ "" ∨ (P.status f'.st.input ≠ .error ∧ r.n < 0)) := by
    intro g hg hgf hm e
    unfold decompressSaid at e
    obtain ⟨⟨st, r'⟩, e1, e⟩ := bind_eq_ok e
    have key : H st.input ∧ (st.failed = true → r'.error = true) := by
      unfold decompress at e1
      obtain ⟨x, _, e1⟩ := bind_eq_ok e1
      have e1 := Res.ok.inj e1
      unfold finish at e1
      split at e1
      · cases e1; exact ⟨hg, fun _ => rfl⟩
      · split at e1
        · cases e1; exact ⟨hg, fun _ => rfl⟩
        · cases e1; exact ⟨hg, fun z => by rw [hgf] at z; cases z⟩
      · split at e1
        · cases e1; exact ⟨hg, fun _ => rfl⟩
        · cases e1; exact ⟨hg, fun z => by rw [hgf] at z; cases z⟩
    cases e
    have k1 : r.error = true → (if r.error = true then "error decompressing" else g.msg) ≠ "" := fun z => by rw [if_pos z]; decide
    refine ⟨Or.inl ⟨key.1, fun z => k1 (key.2 z)⟩, fun z => Or.inl (k1 z), fun z => Or.inl ?_⟩
    by_cases hr : r.error = true
    · exact k1 hr
    · simp only [if_neg hr]; exact hm z
  unfold fillSaid at e
  by_cases ho : f.st.failed = true
  · rw [if_pos ho] at e
    cases e
    exact ⟨Or.inl h, (fun z => by cases z), fun z => Or.inl z⟩
  rw [if_neg ho] at e
  by_cases hm : f.st.msize = f.st.done
  · rw [if_pos hm] at e
    cases e
    exact ⟨Or.inl h, (fun z => by cases z), fun z => Or.inl z⟩
  rw [if_neg hm] at e
  by_cases ha : f.st.availIn = []
  · rw [if_pos ha] at e
    obtain ⟨g, eg, e⟩ := bind_eq_ok e
    have hg : (g.st.failed = true ∧ (g.msg ≠ "" ∨ P.status g.st.input ≠ .error)) ∨ (H g.st.input ∧ g.st.failed = false ∧ g.msg = f.msg) := by
      unfold readSaid at eg
      obtain ⟨x, er, eg⟩ := bind_eq_ok eg
      obtain ⟨hi, hn⟩ := E.read h.1 (show P.read f.st.input 1 0 = .ok (x.1, x.2.1, x.2.2) from er)
      by_cases h1 : x.2.1 ≤ -1
      · rw [if_pos h1] at eg
        cases eg
        refine Or.inl ⟨rfl, ?_⟩
        by_cases hs : P.status x.1 = .error
        · exact Or.inl (E.error hi hs)
        · exact Or.inr hs
      rw [if_neg h1] at eg
      by_cases h2 : x.2.1 < 1
      · rw [if_pos h2] at eg
        cases eg
        exact Or.inl ⟨rfl, Or.inl (by simp)⟩
      · rw [if_neg h2] at eg
        cases eg
        exact Or.inr ⟨hi, by simpa using ho, rfl⟩
    rcases hg with ⟨hf, hm⟩ | ⟨hi, hf, hm⟩
    · rw [if_pos hf] at e
      cases e
      have := hm.imp id (fun z : P.status f'.st.input ≠ .error => (⟨z, by decide⟩ : P.status f'.st.input ≠ .error ∧ (-1 : Int) < 0))
      exact ⟨Or.inr ⟨rfl, by decide⟩, fun _ => this, fun _ => this⟩
    · rw [if_neg (by rw [hf]; decide)] at e
      exact dec hi hf (fun z => by rw [hm]; exact z) e
  · rw [if_neg ha] at e
    exact dec h.1 (by simpa using ho) id e

/-! ## compress, base64, encodings -/

theorem GZipCompress.speaks (E : Explains P err H) (K : Compressor ζ) (N : Nat) :
    Speaks (GZipCompress.producerSaid P err K N) (fun f => H f.st.input) (fun _ => False) := by
  refine Speaks.of ?_
  intro f space f' r h e
  have e : GZipCompress.fillSaid P err K f space = _ := e
  unfold GZipCompress.fillSaid at e
  obtain ⟨⟨st, r'⟩, e1, e⟩ := bind_eq_ok e
  have key : H st.input ∧ (r'.error = true → err st.input ≠ "") := by
    unfold GZipCompress.fill at e1
    have hfin : ∀ (s : State σ ζ) z, H s.input → finish K s z space = (st, r') → H st.input ∧ r'.error = false := by
      intro s z hs ef
      unfold finish at ef
      simp only at ef
      split at ef <;> (cases ef; exact ⟨hs, rfl⟩)
    have hfeed : ∀ (s : State σ ζ) z, H s.input → feed K s z space = (st, r') → H st.input ∧ r'.error = false := by
      intro s z hs ef
      unfold feed at ef
      cases ef
      exact ⟨hs, rfl⟩
    cases hz : f.st.z with
    | none =>
      rw [hz] at e1
      cases e1
      exact ⟨h, fun z => by cases z⟩
    | some z =>
      rw [hz] at e1
      simp only at e1
      by_cases ha : f.st.availIn = []
      · rw [if_pos ha] at e1
        obtain ⟨x, er, e1⟩ := bind_eq_ok e1
        obtain ⟨hi, hn⟩ := E.read h (show P.read f.st.input 1 0 = .ok (x.1, x.2.1, x.2.2) from er)
        by_cases h1 : x.2.1 < -1
        · rw [if_pos h1] at e1
          cases e1
          exact ⟨hi, fun _ => hn h1⟩
        rw [if_neg h1] at e1
        by_cases h2 : x.2.1 < 1
        · rw [if_pos h2] at e1
          have e1 := Res.ok.inj e1
          have := hfin _ _ (by exact hi) e1
          exact ⟨this.1, fun z => by rw [this.2] at z; cases z⟩
        · rw [if_neg h2] at e1
          have e1 := Res.ok.inj e1
          have := hfeed _ _ (by exact hi) e1
          exact ⟨this.1, fun z => by rw [this.2] at z; cases z⟩
      · rw [if_neg ha] at e1
        have e1 := Res.ok.inj e1
        have := hfeed _ _ h e1
        exact ⟨this.1, fun z => by rw [this.2] at z; cases z⟩
  cases e
  refine ⟨key.1, fun z => ?_, fun z => ?_⟩
  · simp only [if_pos z]; exact key.2 z
  · by_cases hr : r.error = true
    · simp only [if_pos hr]; exact key.2 hr
    · simp only [if_neg hr]; exact z

theorem Base64.loop_said (E : Explains P err H) (space : Int) : ∀ (fuel : Nat) (s s' : State σ) (out out' : List UInt8) (b : Bool), H s.input →
    loop P space fuel s out = .ok (s', out', b) → H s'.input ∧ (b = true → err s'.input ≠ "") := by
  intro fuel
  induction fuel with
  | zero => intro s s' out out' b _ e; cases e
  | succ fuel ih =>
    intro s s' out out' b h e
    unfold loop at e
    obtain ⟨⟨s1, more, er⟩, e1, e⟩ := bind_eq_ok e
    have h1 : H s1.input ∧ (er = true → err s1.input ≠ "") := by
      unfold moreData at e1
      split at e1
      · obtain ⟨⟨p, n, d⟩, e2, e1⟩ := bind_eq_ok e1
        obtain ⟨hp, hn⟩ := E.read h e2
        simp only at e1
        split at e1
        · rename_i h1
          cases e1; exact ⟨hp, fun _ => hn h1⟩
        · split at e1
          · cases e1; exact ⟨hp, fun z => by cases z⟩
          · cases e1; exact ⟨hp, fun z => by cases z⟩
      · cases e1; exact ⟨h, fun z => by cases z⟩
    simp only at e
    split at e
    · cases e; exact h1
    · split at e
      · cases e
      · rename_i c chunk hch
        split at e
        · split at e
          · cases e; exact ⟨h1.1, fun z => by cases z⟩
          · split at e
            · cases e; exact ⟨h1.1, fun z => by cases z⟩
            · cases e; exact ⟨h1.1, fun z => by cases z⟩
        · split at e
          · exact ih _ _ _ _ _ (by exact h1.1) e
          · split at e
            · split at e
              · cases e; exact ⟨h1.1, fun z => by cases z⟩
              · split at e
                · cases e; exact ⟨h1.1, fun z => by cases z⟩
                · split at e
                  · cases e; exact ⟨h1.1, fun z => by cases z⟩
                  · exact ih _ _ _ _ _ (by exact h1.1) e
            · exact ih _ _ _ _ _ (by exact h1.1) e

theorem Base64.speaks (E : Explains P err H) (N : Nat) : Speaks (Base64.producerSaid P err N) (fun f => H f.st.input) (fun _ => False) := by
  refine Speaks.of ?_
  intro f space f' r h e
  have e : Base64.fillSaid P err N f space = _ := e
  unfold Base64.fillSaid at e
  obtain ⟨⟨st, r'⟩, e1, e⟩ := bind_eq_ok e
  have key : H st.input ∧ (r'.error = true → err st.input ≠ "") := by
    unfold Base64.fill at e1
    split at e1
    · cases e1; exact ⟨h, fun z => by cases z⟩
    · split at e1
      · split at e1
        · cases e1; exact ⟨h, fun z => by cases z⟩
        · split at e1
          · cases e1; exact ⟨h, fun z => by cases z⟩
          · cases e1; exact ⟨h, fun z => by cases z⟩
      · obtain ⟨⟨s1, out, b⟩, e2, e1⟩ := bind_eq_ok e1
        have := Base64.loop_said E _ _ _ _ _ _ _ h e2
        cases e1
        exact this
  cases e
  refine ⟨key.1, fun z => ?_, fun z => ?_⟩
  · simp only [if_pos z]; exact key.2 z
  · by_cases hr : r.error = true
    · simp only [if_pos hr]; exact key.2 hr
    · simp only [if_neg hr]; exact z

theorem Iconv.decodeSaid_speaks {τ α : Type} {cs : Charset τ α} {f f' : Said (State σ τ)} {space : Int} {r : Fill α} (h : H f.st.input)
    (e : decodeSaid cs f space = (f', r)) : H f'.st.input ∧ (r.error = true → f'.msg ≠ "") ∧ (f.msg ≠ "" → f'.msg ≠ "") := by
  unfold decodeSaid at e
  have hi : (decode cs f.st space).1.input = f.st.input := by
    unfold decode
    split <;> rfl
  cases e
  refine ⟨by rw [hi]; exact h, fun z => ?_, fun z => ?_⟩
  · simp only [if_pos z]; decide
  · simp only
    split
    · decide
    · exact z

theorem Iconv.speaks {τ α : Type} (E : Explains P err H) (cs : Charset τ α) (N : Nat) :
    Speaks (Iconv.producerSaid P err cs N) (fun f => H f.st.input) (fun _ => False) := by
  refine Speaks.of ?_
  intro f space f' r h e
  have e : Iconv.fillSaid P err cs f space = _ := e
  unfold Iconv.fillSaid at e
  split at e
  · obtain ⟨⟨p, n, d⟩, er, e⟩ := bind_eq_ok e
    obtain ⟨hi, hn⟩ := E.read h er
    simp only at e
    split at e
    · rename_i h1
      cases e
      exact ⟨hi, fun _ => hn h1, fun _ => hn h1⟩
    · split at e
      · cases e
        refine ⟨hi, fun z => ?_, fun z => ?_⟩
        · have z : f.st.chars ≠ [] := by simpa using z
          simp only [if_pos z]; decide
        · simp only
          split
          · decide
          · exact z
      · split at e
        · cases e
        · exact decodeSaid_speaks (f := { f with st := { f.st with input := p, chars := f.st.chars ++ d } }) hi (Res.ok.inj e)
  · exact decodeSaid_speaks h (Res.ok.inj e)

end
end Strigi
