import Verif.Proofs.Sturdy

/-!
# Providers whose entries may be used in any way
-/

namespace Strigi

variable {σ : Type} {P : StreamOps σ UInt8} {lo : Int} {H : σ → Prop} {V : View σ}

/-- What a provider preserves, whatever its entry streams are. -/
structure TameBy (ok : Int → Int → Prop) {π ε : Type} (A : ProviderOps π ε) (I : Nat → π → Prop) : Prop where
  next : ∀ {n p}, I n p → ∃ p', A.nextEntry p = .ok p' ∧ I (match A.entry p' with | some _ => n + 1 | none => n) p'
  read : ∀ {n p e}, I n p → A.entry p = some e → ∀ mn mx : Int, ok mn mx →
    ∃ e' k d, A.stream.read e mn mx = .ok (e', k, d) ∧ I n (A.setEntry p e')
  skip : ∀ {n p e}, I n p → A.entry p = some e → ∀ k : Int, 0 ≤ k → ∃ e' r, A.stream.skip e k = .ok (e', r) ∧ I n (A.setEntry p e')
  reset : ∀ {n p e}, I n p → A.entry p = some e → ∀ q : Int, 0 ≤ q → A.stream.size e = -1 ∨ q ≤ A.stream.size e →
    ∃ e' r, A.stream.reset e q = .ok (e', r) ∧ I n (A.setEntry p e')

theorem TameBy.smooth {ok : Int → Int → Prop} {π ε : Type} {A : ProviderOps π ε} {I : Nat → π → Prop} (T : TameBy ok A I) {p₀ p : π} {n : Nat} (h0 : I 0 p₀)
    (h : VisitsBy ok A p₀ n p) : I n p ∧ SmoothBy ok A p := by
  have hI : I n p := by
    induction h with
    | start => exact h0
    | next _ e he ih =>
      obtain ⟨p', e', i⟩ := T.next ih
      rw [e] at e'; cases e'; rw [he] at i; exact i
    | last _ e he ih =>
      obtain ⟨p', e', i⟩ := T.next ih
      rw [e] at e'; cases e'; rw [he] at i; exact i
    | read _ he h1 e ih =>
      obtain ⟨e', n, d, er, i⟩ := T.read ih he _ _ h1
      rw [er] at e; cases e; exact i
    | skip _ he h1 e ih =>
      obtain ⟨e', r, er, i⟩ := T.skip ih he _ h1
      rw [er] at e; cases e; exact i
    | reset _ he h1 h2 e ih =>
      obtain ⟨e', r, er, i⟩ := T.reset ih he _ h1 h2
      rw [er] at e; cases e; exact i
  refine ⟨hI, ?_, fun e he => ⟨?_, ?_, ?_⟩⟩
  · obtain ⟨p', e, _⟩ := T.next hI
    exact ⟨p', e⟩
  · intro mn mx h1
    obtain ⟨e', n, d, er, _⟩ := T.read hI he mn mx h1
    exact ⟨_, er⟩
  · intro k h1
    obtain ⟨e', r, er, _⟩ := T.skip hI he k h1
    exact ⟨_, er⟩
  · intro q h1 h2
    obtain ⟨e', r, er, _⟩ := T.reset hI he q h1 h2
    exact ⟨_, er⟩

/-- A provider whose entry streams may be used in any way, by clients and by readers that are opened on them: the entry
stream is `Sturdy`, whatever state it is left in the provider can go on, and the input is in a state that it is
allowed to be in (`under`).  At most `B e` bytes come out of an entry; those of a `plain` one are bytes of the input; another
one may be reset to the positions in `limit`. -/
structure Nests {π ε : Type} (V : View σ) (H : σ → Prop) (A : ProviderOps π ε) (under : π → σ)
    (B : ε → Nat) (plain : ε → Prop) (limit : ε → Int → Prop) (I : Nat → π → Prop) : Prop where
  next : ∀ {n p}, I n p → ∃ p', A.nextEntry p = .ok p' ∧ I (match A.entry p' with | some _ => n + 1 | none => n) p'
  under : ∀ {n p}, I n p → H (under p)
  entry : ∀ {n p e}, I n p → A.entry p = some e → ∃ G W, Sturdy A.stream 1 G W ∧ G e ∧ W.total ≤ B e ∧
    (plain e → (V.back → W.back) ∧ ∃ o, ∀ q d, W.gives q d → V.gives (q + o) d) ∧
    (¬ plain e → ∀ q, W.allowed q ↔ limit e q) ∧ (∀ e', G e' → I n (A.setEntry p e')) ∧
    ((∀ q, V.allowed q) → ∀ q, A.stream.size e = -1 ∨ q ≤ A.stream.size e → W.allowed q)

theorem Nests.tame {π ε : Type} {A : ProviderOps π ε} {under : π → σ} {B : ε → Nat} {plain : ε → Prop}
    {limit : ε → Int → Prop} {I : Nat → π → Prop} (N : Nests V H A under B plain limit I) (hV : ∀ q, V.allowed q) : TameBy AnyRead A I where
  next := N.next
  read := by
    intro n p e h he mn mx hk
    obtain ⟨G, W, S, hG, _, _, _, hI, _⟩ := N.entry h he
    obtain ⟨e', k, d, er, hG', _⟩ := S.read hG mn mx hk.1 hk.2
    exact ⟨e', k, d, er, hI e' hG'⟩
  skip := by
    intro n p e h he k hk
    obtain ⟨G, W, S, hG, _, _, _, hI, _⟩ := N.entry h he
    obtain ⟨e', r, er, hG', _⟩ := S.skip hG k hk
    exact ⟨e', r, er, hI e' hG'⟩
  reset := by
    intro n p e h he q hq hs
    obtain ⟨G, W, S, hG, _, _, _, hI, hw⟩ := N.entry h he
    obtain ⟨e', r, er, hG', _⟩ := S.reset hG q hq (Or.inl (hw hV q hs))
    exact ⟨e', r, er, hI e' hG'⟩

/-- What a provider whose entries are substreams of known size has to preserve. -/
structure Tame {π : Type} (P : StreamOps σ UInt8) (V : View σ) (H : σ → Prop)
    (A : ProviderOps π (SubInputStream σ)) (I : Nat → π → Prop) : Prop where
  stream : A.stream = SubInputStream.ops P
  entry : ∀ {n p e}, I n p → A.entry p = some e → SubInputStream.Usable P V H e
  set : ∀ {n p e e'}, I n p → A.entry p = some e → SubInputStream.Usable P V H e' → e'.size = e.size →
    e'.offset = e.offset → I n (A.setEntry p e')
  next : ∀ {n p}, I n p → ∃ p', A.nextEntry p = .ok p' ∧ I (match A.entry p' with | some _ => n + 1 | none => n) p'

theorem Tame.nests {π : Type} {A : ProviderOps π (SubInputStream σ)} {I : Nat → π → Prop} (S : Sturdy P lo H V) (hlo : lo ≤ 1)
    (T : Tame P V H A I) (under : π → σ) (hu : ∀ {n p}, I n p → A.entry p = none → H (under p))
    (hu' : ∀ {p e}, A.entry p = some e → under p = e.parent) (limit : SubInputStream σ → Int → Prop) :
    Nests V H A under (fun _ => V.total) (fun _ => True) limit I where
  next := by
    intro n p h
    obtain ⟨p', e, i⟩ := T.next h
    refine ⟨p', e, ?_⟩
    cases hh : A.entry p' <;> rw [hh] at i <;> exact i
  under := by
    intro n p h
    cases he : A.entry p with
    | none => exact hu h he
    | some e => rw [hu' he]; exact (T.entry h he).parent
  entry := by
    intro n p e h he
    have u := T.entry h he
    refine ⟨SubInputStream.Inside P V H e.offset e.size, SubInputStream.view V e.offset e.size, ?_, ⟨u, rfl, rfl⟩, ?_,
      fun _ => ⟨fun z => z, e.offset, fun _ _ z => z⟩, fun z => absurd trivial z, fun e' g => T.set h he g.1 g.2.2 g.2.1, ?_⟩
    · rw [T.stream]; exact SubInputStream.sturdy S hlo _ _
    · have := u.off
      simp only [SubInputStream.view]; omega
    · intro hV q hq
      rw [T.stream] at hq
      have := u.size
      simp only [SubInputStream.ops] at hq
      exact ⟨by omega, hV _⟩

theorem Tame.smooth {π : Type} {A : ProviderOps π (SubInputStream σ)} {I : Nat → π → Prop} (S : Sturdy P lo H V) (hlo : lo ≤ 1)
    (T : Tame P V H A I) (hV : ∀ q, V.allowed q) {p₀ p : π} {n : Nat} (h0 : I 0 p₀) (h : Visits A p₀ n p) : I n p ∧ Smooth A p := by
  have tb : TameBy AnyRead A I :=
    { next := by
        intro n p h
        obtain ⟨p', e, i⟩ := T.next h
        refine ⟨p', e, ?_⟩
        cases hh : A.entry p' <;> rw [hh] at i <;> exact i
      read := by
        intro n p e h he mn mx hk
        obtain ⟨e', k, d, er, u, z1, z2, _⟩ := SubInputStream.sub_read S hlo (T.entry h he) (mx := mx) hk.1 hk.2
        exact ⟨e', k, d, by rw [T.stream]; exact er, T.set h he u z1 z2⟩
      skip := by
        intro n p e h he k hk
        obtain ⟨e', r, er, u, z1, z2, _⟩ := SubInputStream.sub_skip S (T.entry h he) hk
        exact ⟨e', r, by rw [T.stream]; exact er, T.set h he u z1 z2⟩
      reset := by
        intro n p e h he q hq hs
        have u := T.entry h he
        have := u.size
        rw [T.stream] at hs
        simp only [SubInputStream.ops] at hs
        obtain ⟨e', r, er, u', z1, z2, _⟩ := SubInputStream.sub_reset S u hq (Or.inl ⟨by omega, hV _⟩)
        exact ⟨e', r, by rw [T.stream]; exact er, T.set h he u' z1 z2⟩ }
  exact tb.smooth h0 h

end Strigi
