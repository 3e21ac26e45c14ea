import Verif.Proofs.Nest
import Verif.Proofs.Archive
import Verif.Proofs.Zip

/-!
# Archives are presented although readers are opened on their entries
-/

namespace Strigi

open Nest

variable {ε : Type} {Q : StreamOps ε UInt8} {c : List UInt8}

/-- What a stream does with calls that the contract does not describe. -/
structure Lenient (Q : StreamOps ε UInt8) (c : List UInt8) (K : ε → Prop) : Prop where
  read : ∀ {s : ε}, K s → ∀ {mn mx : Int}, 1 ≤ mn → mn < 2 ^ 31 → ¬ (mx = 0 ∨ mn ≤ mx) → ∃ mx', (mx' = 0 ∨ mn ≤ mx') ∧ Q.read s mn mx = Q.read s mn mx'
  short : ∀ {s s' : ε} {mn mx n : Int} {d : List UInt8}, K s → 1 ≤ mn → mx = 0 ∨ mn ≤ mx → Q.read s mn mx = .ok (s', n, d) → n < mn → Q.status s' ≠ .ok
  skip : ∀ {s : ε}, K s → ∀ {k : Int}, 2 ^ 31 ≤ k → ∃ s' r, Q.skip s k = .ok (s', r) ∧ K s' ∧
    Q.position s' = c.length ∧ (r = Q.position s' - Q.position s ∨ (r = -1 ∧ Q.position s = c.length))
  small : c.length < 2 ^ 31

/-- The states of a stream that a client has used properly. -/
def Proper (Q : StreamOps ε UInt8) (c : List UInt8) (e s : ε) : Prop := ∃ lo hi, Uses Q c True e s lo hi

theorem Proper.behaves {e s : ε} (hI : IsStream Q c Failure.never True e) (h : Proper Q c e s) :
    ∃ lo hi, ∀ l, Behaves Q c Failure.never True s lo hi l := by
  obtain ⟨lo, hi, h⟩ := h
  exact ⟨lo, hi, (Contract.of_behaves Q c Failure.never True).uses (fun hs => SoftReset.of_behaves _ _ _ _ hs) hI h⟩

theorem Proper.isStream {e s : ε} (hI : IsStream Q c Failure.never True e) (h : Proper Q c e s) : IsStream Q c Failure.never True s := by
  obtain ⟨lo, hi, h⟩ := h.behaves hI
  have C := Contract.of_behaves Q c Failure.never True
  have r := C.range h
  exact C.narrow h r.2.1 (Int.le_refl _) (Int.le_refl _) r.2.2.1

theorem Proper.health {e s : ε} (hI : IsStream Q c Failure.never True e) (h : Proper Q c e s) :
    0 ≤ Q.position s ∧ Q.position s ≤ c.length ∧ Q.status s ≠ .error := by
  have C := Contract.of_behaves Q c Failure.never True
  have h := h.isStream hI
  have r := C.range h
  exact ⟨r.1, r.2.2.2, (C.status h).1⟩

/-- The view of an entry stream. -/
def entryView (Q : StreamOps ε UInt8) (c : List UInt8) (e : ε) : View ε where
  total := c.length
  loc := Q.position
  dead _ := False
  fin s := Q.position s = c.length
  gives p d := 0 ≤ p ∧ d = slice c p d.length
  allowed q := q ≤ c.length
  back := (contentFacts Q c e).back

theorem proper_sturdy {e : ε} (hI : IsStream Q c Failure.never True e) (L : Lenient Q c (Proper Q c e)) :
    Sturdy Q 1 (Proper Q c e) (entryView Q c e) where
  sync _ _ := ⟨id, rfl⟩
  range h _ := ⟨(h.health hI).1, (h.health hI).2.1, Int.le_refl _, (h.health hI).2.1⟩
  ended h hs := absurd hs (h.health hI).2.2
  below h1 h2 := Int.le_trans h1 h2
  read := by
    intro s h mn mx h1 h2
    obtain ⟨mx', hm, em, hmm⟩ : ∃ mx', (mx' = 0 ∨ mn ≤ mx') ∧ Q.read s mn mx = Q.read s mn mx' ∧ (mn ≤ mx → mx' = mx) := by
      by_cases hm : mx = 0 ∨ mn ≤ mx
      · exact ⟨mx, hm, rfl, fun _ => rfl⟩
      · obtain ⟨mx', a, b⟩ := L.read h h1 h2 hm
        exact ⟨mx', a, b, fun z => absurd (Or.inr z) hm⟩
    have hs := (h.health hI).2.2
    have hp := h.health hI
    obtain ⟨s', n, d, e', r, _⟩ := (Contract.of_behaves Q c Failure.never True).read (h.isStream hI) h1 hm
    have h' : Proper Q c e s' := by
      obtain ⟨lo, hi, u⟩ := h
      exact ⟨_, _, .read u h1 hm e'⟩
    have hp' := h'.health hI
    refine ⟨s', n, d, by rw [em]; exact e', h', fun z => absurd z hs, ?_⟩
    simp only [entryView]
    have hsh := L.short h h1 hm e'
    cases r with
    | data pos items inside adv limit enough st =>
      have hl : (d.length : Int) = n := by
        rw [items]; unfold slice; simp only [List.length_take, List.length_drop]; omega
      refine ⟨fun z => by omega, fun _ hle => ?_, fun _ _ hlt => ⟨hsh hlt, by omega⟩, fun _ => ⟨st, hl, ⟨hp.1, ?_⟩, adv⟩, fun z => by omega, fun _ => ⟨id, by omega⟩⟩
      · have := hmm hle
        subst this
        have := limit (by omega)
        exact ⟨this, fun _ => by omega⟩
      · rw [hl]; exact items
    | ended none nodata atEnd stay st =>
      refine ⟨fun _ => ⟨by omega, by omega, fun _ => by omega⟩, fun _ _ => ⟨by omega, fun _ => by omega⟩, fun _ _ hlt => ⟨hsh hlt, by omega⟩, fun n0 => ?_, fun _ => Or.inr stay,
        fun _ => ⟨id, by omega⟩⟩
      have : n = 0 := by omega
      subst this nodata
      exact ⟨by rw [st]; decide, rfl, ⟨hp.1, by simp [slice]⟩, by omega⟩
    | failed a _ _ => exact absurd a id
  skip := by
    intro s h k hk
    have hs := (h.health hI).2.2
    have hp := h.health hI
    have hl := L.small
    obtain ⟨s', r, e', h', adv, res⟩ : ∃ s' r, Q.skip s k = .ok (s', r) ∧ Proper Q c e s' ∧ Q.position s' = min (Q.position s + k) c.length ∧
        (r = Q.position s' - Q.position s ∨ (r = -1 ∧ Q.position s' = Q.position s ∧ Q.position s = c.length)) := by
      by_cases hm : k < 2 ^ 31
      · obtain ⟨s', r, e', o, _⟩ := (Contract.of_behaves Q c Failure.never True).skip (h.isStream hI) hk hm
        have h' : Proper Q c e s' := by
          obtain ⟨lo, hi, u⟩ := h
          exact ⟨_, _, .skip u hk hm e'⟩
        cases o with
        | skipped adv res st => exact ⟨s', r, e', h', adv, res⟩
        | failed a _ => exact absurd a id
      · obtain ⟨s', r, e', h', adv, res⟩ := L.skip h (k := k) (by omega)
        exact ⟨s', r, e', h', by omega, by omega⟩
    have st := (h'.health hI).2.2
    refine ⟨s', r, e', h', fun z => absurd z hs, ?_⟩
    simp only [entryView]
    exact ⟨fun z => ⟨by omega, fun _ => by omega⟩, fun _ => ⟨by omega, by omega, fun _ _ => by omega⟩, fun _ _ => st, fun _ => ⟨id, by omega, by omega⟩⟩
  reset := by
    intro s h q hq ha
    have hq' : q ≤ c.length := ha.resolve_right id
    obtain ⟨lo, hi, hB⟩ := h.behaves hI
    obtain ⟨s', r, e', hp, ho, st, _⟩ := (SoftReset.of_behaves Q c Failure.never True trivial).reset hB hq hq'
    have h' : Proper Q c e s' := by
      obtain ⟨lo, hi, u⟩ := h
      exact ⟨_, _, .jump u trivial hq hq' e'⟩
    refine ⟨s', r, e', h', fun z => z.elim, fun _ => ⟨st, hp, ?_, fun b hle => ?_⟩⟩
    · rcases ho with ho | ho
      · exact Or.inl ho
      · exact Or.inr (Or.inl ho)
    · obtain ⟨lo, hi, u⟩ := h
      exact b s lo hi q s' r u hq hle e'

theorem proper_meets {e : ε} (hI : IsStream Q c Failure.never True e) (L : Lenient Q c (Proper Q c e)) :
    Meets (contentFacts Q c e) Q (Proper Q c e) (entryView Q c e) :=
  ⟨proper_sturdy hI L, Nat.le_refl _, ⟨0, fun p d z => by rw [Int.add_zero]; exact z⟩, fun z => z.elim, id⟩

theorem handled_proper {e : ε} (hI : IsStream Q c Failure.never True e) (L : Lenient Q c (Proper Q c e)) {e' : ε} (h : Handled Q c e e') :
    Proper Q c e e' := by
  induction h with
  | rest => exact ⟨_, _, .start⟩
  | read _ h1 h2 e ih => obtain ⟨lo, hi, u⟩ := ih; exact ⟨_, _, .read u h1 h2 e⟩
  | skip _ h1 h2 e ih => obtain ⟨lo, hi, u⟩ := ih; exact ⟨_, _, .skip u h1 h2 e⟩
  | reset _ h1 h2 e ih => obtain ⟨lo, hi, u⟩ := ih; exact ⟨_, _, .jump u trivial h1 h2 e⟩
  | inside _ v ih =>
    obtain ⟨I, n, N, i⟩ := session_ok v (proper_meets hI L) ih
    exact N.under i

theorem presents_nested {π : Type} {A : ProviderOps π ε} {last : Status} :
    ∀ (l : List ArchiveEntry) (p : π), (∀ a ∈ l, ∀ p p' e, A.nextEntry p = .ok p' → A.entry p' = some e → A.info p' = a.info →
      A.stream.size e = a.info.size → IsStream A.stream a.content Failure.never True e →
      Lenient A.stream a.content (Proper A.stream a.content e)) → Presents A Failure.never True last p l → PresentsNested A last p l := by
  intro l
  induction l with
  | nil => intro p _ h; exact h
  | cons a l ih =>
    intro p hl h
    obtain ⟨p', e, h1, h2, h3, h4, h5, h6, h7, h8⟩ := h
    refine ⟨p', e, h1, h2, h3, h4, h5, h6, fun e' he => ?_⟩
    have L := hl a (by simp) p p' e h1 h2 h3 h6 h7
    have hp := handled_proper h7 L he
    refine ⟨hp.isStream h7, meets_safe (proper_meets h7 L) hp, ?_⟩
    obtain ⟨lo, hi, u⟩ := hp
    exact ih _ (fun b hb => hl b (by simp [hb])) (h8 e' lo hi u)

/-! ## Substreams -/

variable {σ : Type} {P : StreamOps σ UInt8}

theorem sub_size {e e' : SubInputStream σ} {lo hi : Int} (hs : e.size ≠ -1) (h : Uses (SubInputStream.ops P) c True e e' lo hi) :
    e'.size = e.size := by
  have hread : ∀ {s s' : SubInputStream σ} {mn mx n : Int} {d : List UInt8}, s.size ≠ -1 →
      SubInputStream.read P s mn mx = .ok (s', n, d) → s'.size = s.size := by
    intro s s' mn mx n d h0 e
    unfold SubInputStream.read at e
    rw [if_pos h0] at e
    dsimp only at e
    by_cases hl : s.size - s.pos = 0
    · rw [if_pos hl] at e; cases e; rfl
    · rw [if_neg hl] at e
      generalize (if mn > s.size - s.pos then narrow32 (s.size - s.pos) else mn) = mn' at e
      generalize (if mx < mn' ∨ mx > s.size - s.pos then narrow32 (s.size - s.pos) else mx) = mx' at e
      unfold SubInputStream.readParent at e
      cases hr : P.read s.parent mn' mx' with
      | fault x => rw [hr] at e; cases e
      | diverge => rw [hr] at e; cases e
      | ok x =>
        obtain ⟨p, m, b⟩ := x
        rw [hr] at e
        simp only [Res.bind_ok] at e
        by_cases ha : mx' < mn' ∨ m ≤ mx'
        · rw [Res.assert_of (decide_eq_true ha), Res.bind_ok] at e
          rw [if_neg h0] at e
          split at e
          · cases e; rfl
          · split at e
            · cases e; rfl
            · cases e; rfl
        · unfold Res.assert at e
          rw [if_neg (by simpa using ha)] at e; cases e
  have hskip : ∀ {s s' : SubInputStream σ} {k r : Int}, SubInputStream.skip P s k = .ok (s', r) → s'.size = s.size := by
    intro s s' k r e
    have hp : ∀ {k : Int}, SubInputStream.skipParent P s k = .ok (s', r) → s'.size = s.size := by
      intro k e
      unfold SubInputStream.skipParent at e
      cases hr : P.skip s.parent k with
      | fault x => rw [hr] at e; cases e
      | diverge => rw [hr] at e; cases e
      | ok x =>
        obtain ⟨p, m⟩ := x
        rw [hr] at e
        simp only [Res.bind_ok] at e
        split at e
        · cases e; rfl
        · split at e
          · cases e; rfl
          · split at e
            · cases e; rfl
            · cases e; rfl
    unfold SubInputStream.skip at e
    split at e
    · cases e; rfl
    · split at e
      · cases e; rfl
      · split at e
        · exact hp e
        · exact hp e
  have hreset : ∀ {s s' : SubInputStream σ} {q r : Int}, SubInputStream.reset P s q = .ok (s', r) → s'.size = s.size := by
    intro s s' q r e
    unfold SubInputStream.reset at e
    by_cases ha : q ≥ 0
    · rw [Res.assert_of (decide_eq_true ha), Res.bind_ok] at e
      cases hr : P.reset s.parent (q + s.offset) with
      | fault x => rw [hr] at e; cases e
      | diverge => rw [hr] at e; cases e
      | ok x =>
        obtain ⟨p, m⟩ := x
        rw [hr] at e
        simp only [Res.bind_ok] at e
        split at e
        · cases e; rfl
        · cases e; rfl
    · unfold Res.assert at e
      rw [if_neg (by simpa using ha)] at e; cases e
  induction h with
  | start => rfl
  | read _ _ _ e ih => rw [← ih]; exact hread (by rw [ih]; exact hs) e
  | skip _ _ _ e ih => rw [← ih]; exact hskip e
  | back _ _ _ e ih => rw [← ih]; exact hreset e
  | reset _ _ _ e ih => rw [← ih]; exact hreset e
  | jump _ _ _ _ e ih => rw [← ih]; exact hreset e

theorem sub_lenient {e : SubInputStream σ} (hI : IsStream (SubInputStream.ops P) c Failure.never True e) (hs : e.size ≠ -1)
    (hc : c.length < 2 ^ 31) : Lenient (SubInputStream.ops P) c (Proper (SubInputStream.ops P) c e) := by
  have C := Contract.of_behaves (SubInputStream.ops P) c Failure.never True
  have key : ∀ {s : SubInputStream σ}, Proper (SubInputStream.ops P) c e s → s.size = c.length ∧ 0 ≤ s.pos ∧ s.pos ≤ c.length := by
    intro s h
    have h1 := h.health hI
    have h2 := C.size (h.isStream hI)
    obtain ⟨lo, hi, u⟩ := h
    have h3 := sub_size hs u
    simp only [SubInputStream.ops, Failure.never, or_false] at h1 h2
    omega
  refine ⟨?_, ?_, ?_, hc⟩
  · intro s h mn mx h1 h2 hm
    obtain ⟨k1, k2, k3⟩ := key h
    refine ⟨max mn (s.size - s.pos), Or.inr (by omega), ?_⟩
    simp only [SubInputStream.ops]
    unfold SubInputStream.read
    have hne : s.size ≠ -1 := by omega
    rw [if_pos hne, if_pos hne]
    dsimp only
    by_cases hl : s.size - s.pos = 0
    · rw [if_pos hl, if_pos hl]
    · rw [if_neg hl, if_neg hl]
      have hn : narrow32 (s.size - s.pos) = s.size - s.pos := narrow32_of_range (by omega) (by omega)
      rw [hn]
      by_cases hmn : mn > s.size - s.pos
      · rw [if_pos hmn, if_pos (show max mn (s.size - s.pos) < s.size - s.pos ∨ max mn (s.size - s.pos) > s.size - s.pos by omega)]
        by_cases hx : mx < s.size - s.pos ∨ mx > s.size - s.pos
        · rw [if_pos hx]
        · rw [if_neg hx, show mx = s.size - s.pos by omega]
      · rw [if_neg hmn, if_pos (by omega)]
        by_cases hx : max mn (s.size - s.pos) < mn ∨ max mn (s.size - s.pos) > s.size - s.pos
        · rw [if_pos hx]
        · rw [if_neg hx, show max mn (s.size - s.pos) = s.size - s.pos by omega]
  · intro s s' mn mx n d h h1 hm er hlt
    obtain ⟨k1, k2, k3⟩ := key h
    have h' : Proper (SubInputStream.ops P) c e s' := by
      obtain ⟨lo, hi, u⟩ := h
      exact ⟨_, _, .read u h1 hm er⟩
    obtain ⟨s2, n2, d2, er2, r, _⟩ := C.read (h.isStream hI) h1 hm
    rw [er] at er2; cases er2
    cases r with
    | failed a _ _ => exact absurd a id
    | ended _ _ _ _ st => rw [st]; decide
    | data pos items inside adv limit enough st =>
      have hend : s.pos + n = c.length := by
        simp only [SubInputStream.ops] at enough
        omega
      simp only [SubInputStream.ops] at adv st er ⊢
      unfold SubInputStream.read at er
      rw [if_pos (by omega)] at er
      dsimp only at er
      rw [if_neg (show ¬ s.size - s.pos = 0 by omega)] at er
      generalize (if mn > s.size - s.pos then narrow32 (s.size - s.pos) else mn) = mn' at er
      generalize (if mx < mn' ∨ mx > s.size - s.pos then narrow32 (s.size - s.pos) else mx) = mx' at er
      unfold SubInputStream.readParent at er
      cases hr : P.read s.parent mn' mx' with
      | fault x => rw [hr] at er; cases er
      | diverge => rw [hr] at er; cases er
      | ok x =>
        obtain ⟨p, m, b⟩ := x
        rw [hr] at er
        simp only [Res.bind_ok] at er
        by_cases ha : mx' < mn' ∨ m ≤ mx'
        · rw [Res.assert_of (decide_eq_true ha), Res.bind_ok] at er
          rw [if_neg (show ¬ s.size = -1 by omega)] at er
          split at er
          · cases er; simp
          · split at er
            · cases er; simp
            · cases er
              dsimp only
              rw [if_pos (by omega)]; decide
        · unfold Res.assert at er
          rw [if_neg (by simpa using ha)] at er; cases er
  · intro s h k hk
    obtain ⟨k1, k2, k3⟩ := key h
    have hsk : SubInputStream.skip P s k = SubInputStream.skip P s (max 1 (s.size - s.pos)) := by
      unfold SubInputStream.skip
      by_cases hz : s.size = s.pos
      · rw [if_pos hz, if_pos hz]
      · have hne : s.size ≠ -1 := by omega
        rw [show max 1 (s.size - s.pos) = s.size - s.pos by omega, if_neg hz, if_neg hz, if_neg (show ¬ k = 0 by omega),
          if_neg (show ¬ s.size - s.pos = 0 by omega), if_pos hne, if_pos hne]
        dsimp only
        rw [if_pos (show k > s.size - s.pos by omega), if_neg (show ¬ s.size - s.pos > s.size - s.pos by omega)]
    obtain ⟨s', r, e', o, _⟩ := C.skip (h.isStream hI) (k := max 1 (s.size - s.pos)) (by omega) (by omega)
    have h' : Proper (SubInputStream.ops P) c e s' := by
      obtain ⟨lo, hi, u⟩ := h
      exact ⟨_, _, .skip u (k := max 1 (s.size - s.pos)) (by omega) (by omega) e'⟩
    refine ⟨s', r, ?_, h', ?_⟩
    · rw [← e']; exact hsk
    · cases o with
      | skipped adv res st =>
        simp only [SubInputStream.ops] at adv res ⊢
        omega
      | failed a _ => exact absurd a id

/-! ## Streams inside of a sum -/

theorem Embeds.behaves_inv {τ : Type} {S : StreamOps ε UInt8} {T : StreamOps τ UInt8} {f : ε → τ} (h : Embeds S T f) {F : Failure} {soft : Prop} :
    ∀ (l : List Op) {s : ε} {lo hi : Int}, Behaves T c F soft (f s) lo hi l → Behaves S c F soft s lo hi l := by
  intro l
  induction l with
  | nil =>
    intro s lo hi hb
    simp only [Behaves, Healthy, h.position, h.size, h.status] at hb ⊢
    exact hb
  | cons op l ih =>
    intro s lo hi hb
    obtain ⟨hh, hb⟩ := hb
    refine ⟨?_, ?_⟩
    · simp only [Healthy, h.position, h.size, h.status] at hh ⊢
      exact hh
    · cases op with
      | read mn mx =>
        intro h1 h2
        obtain ⟨t, n, d, e, r, k⟩ := hb h1 h2
        rw [h.read] at e
        obtain ⟨s', e', rfl⟩ := Embeds.split e
        rw [h.position, h.position, h.status] at r k
        exact ⟨s', n, d, e', r, fun z => ih (k z)⟩
      | skip k =>
        intro h1 h2
        obtain ⟨t, r, e, p, k⟩ := hb h1 h2
        rw [h.skip] at e
        obtain ⟨s', e', rfl⟩ := Embeds.split e
        rw [h.position, h.position, h.status] at p
        rw [h.position, h.status] at k
        exact ⟨s', r, e', p, fun z => ih (k z)⟩
      | reset q =>
        refine ⟨fun h1 h2 => ?_, fun hs h1 h2 => ?_⟩
        · obtain ⟨t, e, p, st, k1, k2⟩ := hb.1 h1 h2
          rw [h.reset] at e
          obtain ⟨s', e', rfl⟩ := Embeds.split e
          rw [h.position] at p k1
          rw [h.status] at st
          exact ⟨s', e', p, st, fun z => ih (k1 z), ih k2⟩
        · obtain ⟨t, r, e, p, o, st, k⟩ := hb.2 hs h1 h2
          rw [h.reset] at e
          obtain ⟨s', e', rfl⟩ := Embeds.split e
          rw [h.position] at p o
          rw [h.status] at st
          exact ⟨s', r, e', p, o, st, ih k⟩

theorem Embeds.uses_of {τ : Type} {S : StreamOps ε UInt8} {T : StreamOps τ UInt8} {f : ε → τ} (h : Embeds S T f) {soft : Prop} {s₀ s : ε} {lo hi : Int}
    (hu : Uses S c soft s₀ s lo hi) : Uses T c soft (f s₀) (f s) lo hi := by
  induction hu with
  | start => rw [← h.position]; exact .start
  | read _ h1 h2 e ih =>
    rw [← h.position, ← h.position]
    exact .read ih h1 h2 (by rw [h.read, e]; rfl)
  | skip _ h1 h2 e ih =>
    rw [← h.position]
    exact .skip ih h1 h2 (by rw [h.skip, e]; rfl)
  | back _ h1 h2 e ih => exact .back ih h1 (by rw [h.position]; exact h2) (by rw [h.reset, e]; rfl)
  | reset _ h1 h2 e ih => exact .reset ih h1 h2 (by rw [h.reset, e]; rfl)
  | jump _ h0 h1 h2 e ih => exact .jump ih h0 h1 h2 (by rw [h.reset, e]; rfl)

theorem Embeds.lenient {τ : Type} {S : StreamOps ε UInt8} {T : StreamOps τ UInt8} {f : ε → τ} (h : Embeds S T f) {e : ε}
    (L : Lenient S c (Proper S c e)) : Lenient T c (Proper T c (f e)) := by
  have key : ∀ {t : τ}, Proper T c (f e) t → ∃ s, t = f s ∧ Proper S c e s := by
    intro t ⟨lo, hi, u⟩
    obtain ⟨s, rfl, u'⟩ := h.uses u
    exact ⟨s, rfl, lo, hi, u'⟩
  refine ⟨?_, ?_, ?_, L.small⟩
  · intro t ht mn mx h1 h2 hm
    obtain ⟨s, rfl, hs⟩ := key ht
    obtain ⟨mx', a, b⟩ := L.read hs h1 h2 hm
    exact ⟨mx', a, by rw [h.read, h.read, b]⟩
  · intro t t' mn mx n d ht h1 hm er hlt
    obtain ⟨s, rfl, hs⟩ := key ht
    rw [h.read] at er
    obtain ⟨s', e', rfl⟩ := Embeds.split er
    rw [h.status]
    exact L.short hs h1 hm e' hlt
  · intro t ht k hk
    obtain ⟨s, rfl, hs⟩ := key ht
    obtain ⟨s', r, e', ⟨lo, hi, u⟩, h1, h2⟩ := L.skip hs hk
    refine ⟨f s', r, by rw [h.skip, e']; rfl, ⟨lo, hi, h.uses_of u⟩, ?_⟩
    rw [h.position, h.position]
    exact ⟨h1, h2⟩

/-! ## Buffered streams -/

variable {φ : Type} {B : Producer φ UInt8}

open BufferedStream in
theorem writeLoop_enough (nt mx : Int) : ∀ (fuel : Nat) (s : BufferedStream φ UInt8) (missing nw : Int) (s' : BufferedStream φ UInt8) (nw' : Int),
    writeLoop B nt mx fuel s missing nw = .ok (s', nw') → missing = nt - s.buf.avail → nw' < 0 ∨ nt ≤ s'.buf.avail := by
  intro fuel
  induction fuel with
  | zero => intro s missing nw s' nw' h; simp [writeLoop] at h
  | succ fuel ih =>
    intro s missing nw s' nw' h hmis
    unfold writeLoop at h
    by_cases hc : missing > 0 ∧ nw ≥ 0
    · rw [if_pos hc] at h
      obtain ⟨⟨b, space⟩, e1, h⟩ := bind_eq_ok h
      obtain ⟨a1, a2, a3⟩ := makeSpace_ok e1
      simp only at h
      obtain ⟨⟨f, r⟩, e2, h⟩ := bind_eq_ok h
      obtain ⟨b2, e3, h⟩ := bind_eq_ok h
      obtain ⟨u, e4, h⟩ := bind_eq_ok h
      simp only at h
      split at h
      · exact ih _ _ _ _ _ h rfl
      · exact ih _ _ _ _ _ h (by have := store_avail e3; simp only at this ⊢; omega)
    · rw [if_neg hc] at h
      cases h
      omega

open BufferedStream in
theorem ensure_enough {s s' : BufferedStream φ UInt8} {mn mx : Int} (h : ensure B s mn mx = .ok s') :
    s'.finished = true ∨ mn ≤ s'.buf.avail := by
  unfold ensure at h
  split at h
  · unfold writeToBuffer at h
    obtain ⟨⟨s1, nw⟩, e, h⟩ := bind_eq_ok h
    have := writeLoop_enough _ _ _ _ _ _ _ _ e rfl
    simp only at h
    split at h
    · cases h; exact Or.inl rfl
    · cases h; exact Or.inr (by omega)
  · rename_i hc
    cases h
    cases hf : s.finished with
    | true => exact Or.inl rfl
    | false => exact Or.inr (by simp [hf] at hc; omega)

open BufferedStream in
theorem buffered_short {s s' : BufferedStream φ UInt8} {mn mx n : Int} {d : List UInt8} (h1 : 1 ≤ mn) (hm : mx = 0 ∨ mn ≤ mx)
    (h : BufferedStream.read B s mn mx = .ok (s', n, d)) (hlt : n < mn) : s'.status ≠ .ok := by
  unfold BufferedStream.read at h
  split at h
  · rename_i hs; cases h; rw [hs]; decide
  · split at h
    · rename_i hs; cases h; rw [hs]; decide
    · obtain ⟨s1, e1, h⟩ := bind_eq_ok h
      have h2 := ensure_enough e1
      split at h
      · rename_i hs; cases h; rw [hs]; decide
      · obtain ⟨⟨b, k, d'⟩, e2, h⟩ := bind_eq_ok h
        obtain ⟨g1, g2, g3, g4⟩ : 0 ≤ s1.buf.avail ∧ k = (if (if mn > mx then 0 else mx) ≤ 0 ∨ (if mn > mx then 0 else mx) > s1.buf.avail then s1.buf.avail else (if mn > mx then 0 else mx)) ∧
            b.avail = s1.buf.avail - k ∧ True := by
          unfold StreamBuffer.read at e2
          obtain ⟨_, e2⟩ := assert_eq_ok e2
          obtain ⟨a2, e2⟩ := assert_eq_ok e2
          obtain ⟨_, e2⟩ := assert_eq_ok e2
          obtain ⟨_, e2⟩ := assert_eq_ok e2
          obtain ⟨d2, _, e2⟩ := bind_eq_ok e2
          cases e2
          exact ⟨by simpa using a2, rfl, rfl, trivial⟩
        simp only at h
        split at h
        · cases h; simp
        · rename_i hns
          split at h
          · cases h; simp
          · rename_i hne
            cases h
            intro hok
            apply hne
            refine ⟨hok, ?_, ?_⟩
            · split at g2 <;> split at g2 <;> omega
            · rcases h2 with h2 | h2
              · exact h2
              · split at g2 <;> split at g2 <;> omega

open BufferedStream in
theorem buffered_lenient {e : BufferedStream φ UInt8} (hI : IsStream (BufferedStream.ops B) c Failure.never True e)
    (hc : c.length < 2 ^ 31) : Lenient (BufferedStream.ops B) c (Proper (BufferedStream.ops B) c e) := by
  have C := Contract.of_behaves (BufferedStream.ops B) c Failure.never True
  refine ⟨?_, ?_, ?_, hc⟩
  · intro s h mn mx h1 h2 hm
    refine ⟨0, Or.inl rfl, ?_⟩
    show BufferedStream.read B s mn mx = BufferedStream.read B s mn 0
    unfold BufferedStream.read
    rw [if_pos (show mn > mx by omega), if_pos (show mn > 0 by omega)]
  · intro s s' mn mx n d h h1 hm er hlt
    exact buffered_short h1 hm er hlt
  · intro s h k hk
    have hp := h.health hI
    have loop : ∀ (fuel : Nat) (s : BufferedStream φ UInt8) (k sk : Int), Proper (BufferedStream.ops B) c e s → c.length < s.pos + k →
        (c.length - s.pos).toNat < fuel → ∃ s', skipLoop B fuel s k sk = .ok (s', sk + (c.length - s.pos)) ∧ Proper (BufferedStream.ops B) c e s' ∧ s'.pos = c.length := by
      intro fuel
      induction fuel with
      | zero => intro s k sk _ _ z; omega
      | succ fuel ih =>
        intro s k sk h hk hf
        have hp := h.health hI
        simp only [BufferedStream.ops] at hp
        unfold skipLoop
        rw [if_pos (by omega)]
        dsimp only
        have hb : 0 ≤ s.buf.size := by simp [StreamBuffer.size]
        generalize hm : (if k > s.buf.size then s.buf.size else k) = m
        have hm1 : m = 0 ∨ 1 ≤ m := by rw [← hm]; split <;> omega
        obtain ⟨s1, n, d, er, ro, _⟩ := C.read (h.isStream hI) (min := 1) (max := m) (by omega) hm1
        have h1 : Proper (BufferedStream.ops B) c e s1 := by
          obtain ⟨lo, hi, u⟩ := h
          exact ⟨_, _, .read u (by omega) hm1 er⟩
        rw [show BufferedStream.read B s 1 m = _ from er]
        simp only [Res.bind_ok]
        cases ro with
        | data pos items inside adv limit enough st =>
          simp only [BufferedStream.ops] at adv inside
          rw [if_neg (by omega)]
          obtain ⟨s', es, h', hs'⟩ := ih s1 (k - n) (sk + n) h1 (by omega) (by omega)
          exact ⟨s', by rw [es]; congr 2; omega, h', hs'⟩
        | ended none nodata atEnd stay st =>
          simp only [BufferedStream.ops] at atEnd stay
          rw [if_pos (by omega)]
          exact ⟨s1, by congr 2; omega, h1, by omega⟩
        | failed a _ _ => exact absurd a id
    simp only [BufferedStream.ops] at hp ⊢
    obtain ⟨s', e', h', hs'⟩ := loop (k.toNat + 1) s k 0 h (by omega) (by omega)
    exact ⟨s', _, e', h', hs', Or.inl (by omega)⟩

/-- At the end the size is known. -/
def BufferedStream.SizeKnown (s : BufferedStream φ UInt8) : Prop := 0 ≤ s.pos ∧ (s.status = .eof → s.size ≠ -1)

open BufferedStream in
theorem ensure_status {s s' : BufferedStream φ UInt8} {mn mx : Int} (h : ensure B s mn mx = .ok s') (hs : s.status ≠ .eof) :
    s'.status ≠ .eof ∧ s'.pos = s.pos := by
  have loop : ∀ (fuel : Nat) (s : BufferedStream φ UInt8) (missing nw : Int) (s' : BufferedStream φ UInt8) (nw' : Int),
      writeLoop B mn mx fuel s missing nw = .ok (s', nw') → s.status ≠ .eof → s'.status ≠ .eof ∧ s'.pos = s.pos := by
    intro fuel
    induction fuel with
    | zero => intro s missing nw s' nw' h; simp [writeLoop] at h
    | succ fuel ih =>
      intro s missing nw s' nw' h hs
      unfold writeLoop at h
      by_cases hc : missing > 0 ∧ nw ≥ 0
      · rw [if_pos hc] at h
        obtain ⟨⟨b, space⟩, e1, h⟩ := bind_eq_ok h
        simp only at h
        obtain ⟨⟨f, r⟩, e2, h⟩ := bind_eq_ok h
        obtain ⟨b2, e3, h⟩ := bind_eq_ok h
        obtain ⟨hst, h⟩ := assert_eq_ok h
        have hst : (if r.error = true then Status.error else s.status) ≠ Status.eof := of_decide_eq_true hst
        simp only at h
        split at h
        · have := ih _ _ _ _ _ h hst; exact this
        · have := ih _ _ _ _ _ h hst; exact this
      · rw [if_neg hc] at h
        cases h
        exact ⟨hs, rfl⟩
  unfold ensure at h
  split at h
  · unfold writeToBuffer at h
    obtain ⟨⟨s1, nw⟩, e, h⟩ := bind_eq_ok h
    have := loop _ _ _ _ _ _ e hs
    simp only at h
    split at h
    · cases h; exact this
    · cases h; exact this
  · cases h; exact ⟨hs, rfl⟩

open BufferedStream in
theorem BufferedStream.SizeKnown.read {s s' : BufferedStream φ UInt8} {mn mx n : Int} {d : List UInt8} (hs : SizeKnown s) (h : BufferedStream.read B s mn mx = .ok (s', n, d)) : SizeKnown s' := by
  unfold BufferedStream.read at h
  split at h
  · cases h; exact hs
  · split at h
    · cases h; exact hs
    · rename_i hne
      obtain ⟨s1, e1, h⟩ := bind_eq_ok h
      obtain ⟨h1, h2⟩ := ensure_status e1 hne
      have h0 := hs.1
      split at h
      · cases h; exact ⟨by omega, fun z => absurd z h1⟩
      · obtain ⟨⟨b, k, d'⟩, e2, h⟩ := bind_eq_ok h
        have hk : 0 ≤ k := by
          unfold StreamBuffer.read at e2
          obtain ⟨_, e2⟩ := assert_eq_ok e2
          obtain ⟨a2, e2⟩ := assert_eq_ok e2
          obtain ⟨_, e2⟩ := assert_eq_ok e2
          obtain ⟨_, e2⟩ := assert_eq_ok e2
          obtain ⟨d2, _, e2⟩ := bind_eq_ok e2
          cases e2
          have a2 : 0 ≤ s1.buf.avail := of_decide_eq_true a2
          split <;> omega
        simp only at h
        split at h
        · cases h; exact ⟨by dsimp only; omega, fun z => by simp at z⟩
        · split at h
          · cases h
            refine ⟨by dsimp only; omega, fun _ => ?_⟩
            dsimp only
            split
            · omega
            · assumption
          · cases h; exact ⟨by dsimp only; omega, fun z => absurd z h1⟩

open BufferedStream in
theorem BufferedStream.SizeKnown.reset {s s' : BufferedStream φ UInt8} {q r : Int} (hs : SizeKnown s) (h : BufferedStream.reset s q = .ok (s', r)) : SizeKnown s' := by
  unfold BufferedStream.reset at h
  obtain ⟨hq, h⟩ := assert_eq_ok h
  have hq : 0 ≤ q := of_decide_eq_true hq
  split at h
  · cases h; exact hs
  · dsimp only at h
    split at h
    · cases h; exact ⟨by dsimp only; omega, fun z => by simp at z⟩
    · cases h; exact hs

open BufferedStream in
theorem BufferedStream.SizeKnown.skip {s s' : BufferedStream φ UInt8} {k r : Int} (hs : SizeKnown s) (h : BufferedStream.skip B s k = .ok (s', r)) : SizeKnown s' := by
  have loop : ∀ (fuel : Nat) (s : BufferedStream φ UInt8) (a b : Int), SizeKnown s → skipLoop B fuel s a b = .ok (s', r) → SizeKnown s' := by
    intro fuel
    induction fuel with
    | zero => intro s a b _ h; simp [skipLoop] at h
    | succ fuel ih =>
      intro s a b hs h
      unfold skipLoop at h
      split at h
      · dsimp only at h
        obtain ⟨⟨s1, n, d⟩, e1, h⟩ := bind_eq_ok h
        have h1 := hs.read e1
        simp only at h
        split at h
        · cases h; exact h1
        · exact ih _ _ _ h1 h
      · cases h; exact hs
  unfold BufferedStream.skip at h
  exact loop _ _ _ _ hs h

theorem BufferedStream.SizeKnown.uses {e s : BufferedStream φ UInt8} {soft : Prop} {lo hi : Int} (he : BufferedStream.SizeKnown e) (h : Uses (BufferedStream.ops B) c soft e s lo hi) : BufferedStream.SizeKnown s := by
  induction h with
  | start => exact he
  | read _ _ _ e ih => exact ih.read e
  | skip _ _ _ e ih => exact ih.skip e
  | back _ _ _ e ih => exact ih.reset e
  | reset _ _ _ e ih => exact ih.reset e
  | jump _ _ _ _ e ih => exact ih.reset e

/-! ## Entries of zip files -/

namespace Zip

open BufferedStream

variable {ζ : Type} {D : Decompressor ζ} {N : Nat}

theorem readFileName_size {s s' : State σ ζ} {len : Int} (h : readFileName P s len = .ok s') : s'.info.size = s.info.size := by
  unfold readFileName at h
  obtain ⟨⟨i, n, b⟩, _, h⟩ := bind_eq_ok h
  simp only at h
  split at h
  · cases h; rfl
  · obtain ⟨x, _, h⟩ := bind_eq_ok h
    split at h
    · cases h; rfl
    · cases h; rfl

theorem readNames_size {s s' : State σ ζ} {a b : Int} (h : readNames P s a b = .ok s') : s'.info.size = s.info.size := by
  unfold readNames at h
  obtain ⟨s1, e, h⟩ := bind_eq_ok h
  have := readFileName_size e
  split at h
  · cases h; exact this
  · obtain ⟨⟨i, n⟩, _, h⟩ := bind_eq_ok h
    simp only at h
    split at h
    · cases h; exact this
    · cases h; exact this

/-- Only deflated members have an unknown size. -/
theorem readFields_size {mktime : TextUtils.Tm → Int} {s s' : State σ ζ} {hb : List UInt8} {l : Locals}
    (h : readFields P mktime s hb = .ok (s', l)) : s'.status = .error ∨ l.method = 8 ∨ 0 ≤ s'.info.size := by
  unfold readFields at h
  obtain ⟨namelen, _, h⟩ := bind_eq_ok h
  obtain ⟨extralen, _, h⟩ := bind_eq_ok h
  obtain ⟨size, _, h⟩ := bind_eq_ok h
  obtain ⟨compressed, _, h⟩ := bind_eq_ok h
  split at h
  · cases h; exact Or.inl rfl
  · obtain ⟨method, _, h⟩ := bind_eq_ok h
    obtain ⟨flags, _, h⟩ := bind_eq_ok h
    by_cases hx : flags &&& 8 ≠ 0 ∧ method ≠ 8
    · rw [if_pos hx] at h; cases h; exact Or.inl rfl
    · rw [if_neg hx] at h
      obtain ⟨dost, _, h⟩ := bind_eq_ok h
      obtain ⟨s1, e, h⟩ := bind_eq_ok h
      cases h
      have := readNames_size e
      right
      by_cases hm : method = 8
      · exact Or.inl (by dsimp only; omega)
      · right
        have hf : ¬ flags &&& 8 ≠ 0 := fun z => hx ⟨z, hm⟩
        rw [this]
        simp [hf]

theorem readHeader_size {mktime : TextUtils.Tm → Int} {s s' : State σ ζ} {l : Locals}
    (h : readHeader P mktime s = .ok (s', l)) : s'.status ≠ .ok ∨ l.method = 8 ∨ 0 ≤ s'.info.size := by
  unfold readHeader at h
  obtain ⟨⟨i, n, b⟩, _, h⟩ := bind_eq_ok h
  simp only at h
  split at h
  · cases h; exact Or.inl (by simp)
  · obtain ⟨b0, _, h⟩ := bind_eq_ok h
    obtain ⟨b1, _, h⟩ := bind_eq_ok h
    split at h
    · cases h; exact Or.inl (by simp)
    · obtain ⟨b2, _, h⟩ := bind_eq_ok h
      obtain ⟨b3, _, h⟩ := bind_eq_ok h
      split at h
      · cases h; exact Or.inl (by simp)
      · rcases readFields_size h with z | z
        · exact Or.inl (by rw [z]; decide)
        · exact Or.inr z

/-- The kind of an entry whose size is unknown. -/
theorem entry_kinds {mktime : TextUtils.Tm → Int} {fuel : Nat} {s s' : State σ ζ} {e : Entry σ ζ}
    (h : nextEntry P D mktime N fuel s = .ok s') (he : s'.entry = some e) : (0 ≤ s'.info.size ∧ ∀ b, e ≠ .streamed b) ∨ (s'.info.size < 0 ∧ ∃ b, e = .streamed b ∧ ∃ input, GZip.new P D false input = .ok b) := by
  unfold nextEntry at h
  split at h
  · cases h; cases he
  · obtain ⟨⟨s1, ok⟩, el, h⟩ := bind_eq_ok h
    have h1 : s1.entry = none := by
      unfold leave at el
      split at el
      · rename_i h0; cases el; exact h0
      · obtain ⟨⟨z, r⟩, _, el⟩ := bind_eq_ok el
        obtain ⟨i, _, el⟩ := bind_eq_ok el
        cases el; rfl
      · obtain ⟨⟨i, r⟩, _, el⟩ := bind_eq_ok el
        cases el; rfl
    simp only at h
    split at h
    · unfold next at h
      split at h
      · cases h; rw [h1] at he; cases he
      · obtain ⟨⟨s2, l⟩, er, h⟩ := bind_eq_ok h
        have h2 := readHeader_size er
        have h3 : s2.entry = none := by
          have : ∀ {s s' : State σ ζ} {len : Int}, readFileName P s len = .ok s' → s'.entry = s.entry := by
            intro s s' len h
            unfold readFileName at h
            obtain ⟨⟨i, n, b⟩, _, h⟩ := bind_eq_ok h
            simp only at h
            split at h
            · cases h; rfl
            · obtain ⟨x, _, h⟩ := bind_eq_ok h
              split at h
              · cases h; rfl
              · cases h; rfl
          have hn : ∀ {s s' : State σ ζ} {a b : Int}, readNames P s a b = .ok s' → s'.entry = s.entry := by
            intro s s' a b h
            unfold readNames at h
            obtain ⟨s1, e, h⟩ := bind_eq_ok h
            have := this e
            split at h
            · cases h; exact this
            · obtain ⟨⟨i, n⟩, _, h⟩ := bind_eq_ok h
              simp only at h
              split at h
              · cases h; exact this
              · cases h; exact this
          rw [← h1]
          unfold readHeader at er
          obtain ⟨⟨i, n, b⟩, _, er⟩ := bind_eq_ok er
          simp only at er
          split at er
          · cases er; rfl
          · obtain ⟨b0, _, er⟩ := bind_eq_ok er
            obtain ⟨b1, _, er⟩ := bind_eq_ok er
            split at er
            · cases er; rfl
            · obtain ⟨b2, _, er⟩ := bind_eq_ok er
              obtain ⟨b3, _, er⟩ := bind_eq_ok er
              split at er
              · cases er; rfl
              · unfold readFields at er
                obtain ⟨namelen, _, er⟩ := bind_eq_ok er
                obtain ⟨extralen, _, er⟩ := bind_eq_ok er
                obtain ⟨size, _, er⟩ := bind_eq_ok er
                obtain ⟨compressed, _, er⟩ := bind_eq_ok er
                split at er
                · cases er; rfl
                · obtain ⟨method, _, er⟩ := bind_eq_ok er
                  obtain ⟨flags, _, er⟩ := bind_eq_ok er
                  by_cases hx : flags &&& 8 ≠ 0 ∧ method ≠ 8
                  · rw [if_pos hx] at er; cases er; rfl
                  · rw [if_neg hx] at er
                    obtain ⟨dost, _, er⟩ := bind_eq_ok er
                    obtain ⟨s1, e, er⟩ := bind_eq_ok er
                    cases er
                    rw [hn e]
                    dsimp only
                    split <;> rfl
        simp only at h
        split at h
        · cases h; rw [h3] at he; cases he
        · rename_i hok
          split at h
          · cases h; rw [h3] at he; cases he
          · obtain ⟨e', eo, h⟩ := bind_eq_ok h
            cases h
            cases he
            unfold openEntry at eo
            split at eo
            · split at eo
              · rename_i hsz
                obtain ⟨u1, _, eo⟩ := bind_eq_ok eo
                obtain ⟨u2, _, eo⟩ := bind_eq_ok eo
                obtain ⟨u3, _, eo⟩ := bind_eq_ok eo
                cases eo
                exact Or.inl ⟨hsz, fun b z => by cases z⟩
              · obtain ⟨u, eu, eo⟩ := bind_eq_ok eo
                cases eo
                exact Or.inr ⟨by dsimp only; omega, u, rfl, _, eu⟩
            · rename_i hm
              obtain ⟨u1, _, eo⟩ := bind_eq_ok eo
              cases eo
              rcases h2 with h2 | h2 | h2
              · exact absurd (Classical.not_not.1 hok) h2
              · exact absurd h2 hm
              · exact Or.inl ⟨h2, fun b z => by cases z⟩
    · cases h; rw [h1] at he; cases he

theorem entry_kind {mktime : TextUtils.Tm → Int} {fuel : Nat} {s s' : State σ ζ} {e : Entry σ ζ}
    (h : nextEntry P D mktime N fuel s = .ok s') (he : s'.entry = some e) : 0 ≤ s'.info.size ∨ ∃ b, e = .streamed b :=
  (entry_kinds h he).imp (fun z => z.1) (fun ⟨_, b, e, _⟩ => ⟨b, e⟩)

theorem entry_lenient {e : Entry σ ζ} (hI : IsStream (entryOps P D N) c Failure.never True e) (hc : c.length < 2 ^ 31)
    (hk : (entryOps P D N).size e ≠ -1 ∨ ∃ b, e = .streamed b) : Lenient (entryOps P D N) c (Proper (entryOps P D N) c e) := by
  cases e with
  | stored e =>
    refine embeds_stored.lenient (sub_lenient (fun l => ?_) ?_ hc)
    · exact embeds_stored.behaves_inv l (hI l)
    · rcases hk with hk | ⟨b, hk⟩
      · exact hk
      · cases hk
  | deflated e =>
    refine embeds_deflated.lenient (sub_lenient (fun l => ?_) ?_ hc)
    · exact embeds_deflated.behaves_inv l (hI l)
    · rcases hk with hk | ⟨b, hk⟩
      · exact hk
      · cases hk
  | streamed e =>
    refine embeds_streamed.lenient (buffered_lenient (fun l => ?_) hc)
    exact embeds_streamed.behaves_inv l (hI l)

end Zip

end Strigi
