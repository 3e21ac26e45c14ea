import Verif.ErrorSpec
import Verif.Model.Tar
import Verif.Model.Ar
import Verif.Model.Cpio
import Verif.Model.Sdf
import Verif.Model.Zip
import Verif.Model.Mail
import Verif.Model.StringStream
import Verif.Model.FileStreams
import Verif.Proofs.Decompress

namespace Strigi

open BufferedStream (bind_eq_ok assert_eq_ok)

variable {σ : Type} {P : StreamOps σ UInt8} {H : σ → Prop}

/-- A call keeps the invariant, and an error. -/
def Keeps (P : StreamOps σ UInt8) (H : σ → Prop) (s s' : σ) : Prop :=
  H s → H s' ∧ (P.status s = .error → P.status s' = .error)

theorem Keeps.refl (s : σ) : Keeps P H s s := fun h => ⟨h, id⟩

theorem Keeps.trans {a b c : σ} (h1 : Keeps P H a b) (h2 : Keeps P H b c) : Keeps P H a c := fun h =>
  ⟨(h2 (h1 h).1).1, fun e => (h2 (h1 h).1).2 ((h1 h).2 e)⟩

namespace FailStop

theorem k_read (F : FailStop P H) {s s' : σ} {mn mx n : Int} {d : List UInt8} (e : P.read s mn mx = .ok (s', n, d)) :
    Keeps P H s s' := fun h => ⟨(F.read h e).1, (F.read h e).2.2⟩

theorem k_skip (F : FailStop P H) {s s' : σ} {k r : Int} (e : P.skip s k = .ok (s', r)) : Keeps P H s s' :=
  fun h => F.skip h e

theorem k_reset (F : FailStop P H) {s s' : σ} {q r : Int} (e : P.reset s q = .ok (s', r)) : Keeps P H s s' :=
  fun h => ⟨(F.reset h e).1, (F.reset h e).2.1⟩

/-- A `read` in a failed state delivers nothing. -/
theorem dead (F : FailStop P H) {s s' : σ} {mn mx n : Int} {d : List UInt8} (h : H s) (he : P.status s = .error)
    (e : P.read s mn mx = .ok (s', n, d)) : n < 0 ∧ P.status s' = .error := by
  obtain ⟨_, h2, h3⟩ := F.read h e
  refine ⟨?_, h3 he⟩
  by_cases hn : 0 ≤ n
  · exact absurd (h3 he) (h2 hn)
  · omega

end FailStop

namespace SubInputStream

variable {τ α : Type} {S : StreamOps τ α} {R : τ → τ → Prop}

theorem rel_readParent (hr : ∀ {s s' : τ} {mn mx n : Int} {d : List α}, S.read s mn mx = .ok (s', n, d) → R s s')
    {e e' : SubInputStream τ} {mn mx n : Int} {d : List α}
    (h : readParent S e mn mx = .ok (e', n, d)) : R e.parent e'.parent := by
  unfold readParent at h
  obtain ⟨⟨p, m, d1⟩, e1, h⟩ := bind_eq_ok h
  dsimp only at h
  obtain ⟨_, h⟩ := assert_eq_ok h
  have k := hr e1
  split at h
  · cases h; exact k
  · split at h
    · split at h
      · split at h
        · cases h; exact k
        · cases h; exact k
      · cases h; exact k
    · cases h; exact k

theorem rel_read (rf : ∀ a, R a a) (hr : ∀ {s s' : τ} {mn mx n : Int} {d : List α}, S.read s mn mx = .ok (s', n, d) → R s s')
    {e e' : SubInputStream τ} {mn mx n : Int} {d : List α}
    (h : SubInputStream.read S e mn mx = .ok (e', n, d)) : R e.parent e'.parent := by
  unfold SubInputStream.read at h
  by_cases h1 : e.size ≠ -1
  · rw [if_pos h1] at h
    dsimp only at h
    by_cases h2 : e.size - e.pos = 0
    · rw [if_pos h2] at h; cases h; exact rf _
    · rw [if_neg h2] at h; exact rel_readParent hr h
  · rw [if_neg h1] at h; exact rel_readParent hr h

theorem rel_skipParent (hk : ∀ {s s' : τ} {k r : Int}, S.skip s k = .ok (s', r) → R s s') {e e' : SubInputStream τ} {k r : Int}
    (h : skipParent S e k = .ok (e', r)) : R e.parent e'.parent := by
  unfold skipParent at h
  obtain ⟨⟨p, m⟩, e1, h⟩ := bind_eq_ok h
  dsimp only at h
  have k := hk e1
  split at h
  · cases h; exact k
  · split at h
    · cases h; exact k
    · split at h
      · cases h; exact k
      · cases h; exact k

theorem rel_skip (rf : ∀ a, R a a) (hk : ∀ {s s' : τ} {k r : Int}, S.skip s k = .ok (s', r) → R s s')
    {e e' : SubInputStream τ} {k r : Int}
    (h : SubInputStream.skip S e k = .ok (e', r)) : R e.parent e'.parent := by
  unfold SubInputStream.skip at h
  by_cases h1 : e.size = e.pos
  · rw [if_pos h1] at h; cases h; exact rf _
  · rw [if_neg h1] at h
    by_cases h2 : k = 0
    · rw [if_pos h2] at h; cases h; exact rf _
    · rw [if_neg h2] at h
      by_cases h3 : e.size ≠ -1
      · rw [if_pos h3] at h; exact rel_skipParent hk h
      · rw [if_neg h3] at h; exact rel_skipParent hk h

theorem rel_reset (hq : ∀ {s s' : τ} {q r : Int}, S.reset s q = .ok (s', r) → R s s') {e e' : SubInputStream τ} {q r : Int}
    (h : SubInputStream.reset S e q = .ok (e', r)) : R e.parent e'.parent := by
  unfold SubInputStream.reset at h
  obtain ⟨_, h⟩ := assert_eq_ok h
  obtain ⟨⟨p, m⟩, e1, h⟩ := bind_eq_ok h
  dsimp only at h
  have k := hq e1
  split at h
  · cases h; exact k
  · cases h; exact k

theorem k_read (F : FailStop P H) {e e' : SubInputStream σ} {mn mx n : Int} {d : List UInt8}
    (h : SubInputStream.read P e mn mx = .ok (e', n, d)) : Keeps P H e.parent e'.parent :=
  rel_read Keeps.refl F.k_read h

theorem k_skip (F : FailStop P H) {e e' : SubInputStream σ} {k r : Int}
    (h : SubInputStream.skip P e k = .ok (e', r)) : Keeps P H e.parent e'.parent :=
  rel_skip Keeps.refl F.k_skip h

theorem k_reset (F : FailStop P H) {e e' : SubInputStream σ} {q r : Int}
    (h : SubInputStream.reset P e q = .ok (e', r)) : Keeps P H e.parent e'.parent :=
  rel_reset F.k_reset h

end SubInputStream

/-- What is shown of every reader; `cur` is the state of the input of a reader, `par` that of an entry stream. -/
structure Watch {π ε : Type} (A : ProviderOps π ε) (cur : π → σ) (par : ε → σ) (P : StreamOps σ UInt8) (H : σ → Prop) : Prop where
  atEntry : ∀ {p : π} {e : ε}, A.entry p = some e → cur p = par e
  set : ∀ (p : π) (e : ε), A.entry (A.setEntry p e) = some e ∧ A.status (A.setEntry p e) = A.status p
  read : ∀ {e e' : ε} {mn mx n : Int} {d : List UInt8}, A.stream.read e mn mx = .ok (e', n, d) → Keeps P H (par e) (par e')
  skip : ∀ {e e' : ε} {k r : Int}, A.stream.skip e k = .ok (e', r) → Keeps P H (par e) (par e')
  reset : ∀ {e e' : ε} {q r : Int}, A.stream.reset e q = .ok (e', r) → Keeps P H (par e) (par e')
  idle : ∀ {p p' : π}, A.status p ≠ .ok → A.nextEntry p = .ok p' →
    A.status p' = A.status p ∧ (A.entry p = none → A.entry p' = none) ∧ cur p' = cur p
  next : ∀ {p p' : π}, H (cur p) → A.status p = .ok → A.nextEntry p = .ok p' →
    H (cur p') ∧ (A.status p' = .eof → A.entry p' = none ∧ P.status (cur p') ≠ .error) ∧
      (P.status (cur p) = .error → A.status p' = .error ∧ A.entry p' = none ∧ P.status (cur p') = .error)

theorem Watch.tells {π ε : Type} {A : ProviderOps π ε} {cur : π → σ} {par : ε → σ} (W : Watch A cur par P H) {p₀ : π}
    (h0 : H (cur p₀)) (h1 : A.status p₀ = .eof → A.entry p₀ = none ∧ P.status (cur p₀) ≠ .error) :
    TellsErrors A cur P p₀ := by
  have step : ∀ {p p' : π}, (H (cur p) ∧ (A.status p = .eof → A.entry p = none ∧ P.status (cur p) ≠ .error)) →
      A.nextEntry p = .ok p' →
      H (cur p') ∧ (A.status p' = .eof → A.entry p' = none ∧ P.status (cur p') ≠ .error) := by
    intro p p' i e
    by_cases hs : A.status p = .ok
    · obtain ⟨a, b, _⟩ := W.next i.1 hs e
      exact ⟨a, b⟩
    · obtain ⟨a, b, c⟩ := W.idle hs e
      rw [a, c]
      exact ⟨i.1, fun z => ⟨b (i.2 z).1, (i.2 z).2⟩⟩
  have sub : ∀ {p : π} {e e' : ε}, (H (cur p) ∧ (A.status p = .eof → A.entry p = none ∧ P.status (cur p) ≠ .error)) →
      A.entry p = some e → Keeps P H (par e) (par e') →
      H (cur (A.setEntry p e')) ∧
        (A.status (A.setEntry p e') = .eof → A.entry (A.setEntry p e') = none ∧ P.status (cur (A.setEntry p e')) ≠ .error) := by
    intro p e e' i he k
    obtain ⟨s1, s2⟩ := W.set p e'
    rw [W.atEntry s1, s2]
    have hc := i.1
    rw [W.atEntry he] at hc
    refine ⟨(k hc).1, fun z => ?_⟩
    have := (i.2 z).1
    rw [he] at this; cases this
  have inv : ∀ n p, Reach A p₀ n p →
      H (cur p) ∧ (A.status p = .eof → A.entry p = none ∧ P.status (cur p) ≠ .error) := by
    intro n p hr
    induction hr with
    | start => exact ⟨h0, h1⟩
    | next _ e _ ih => exact step ih e
    | last _ e _ ih => exact step ih e
    | read _ he _ e ih => exact sub ih he (W.read e)
    | skip _ he _ e ih => exact sub ih he (W.skip e)
    | reset _ he _ e ih => exact sub ih he (W.reset e)
  intro n p hr
  have i := inv n p hr
  refine ⟨fun z => (i.2 z).2, fun p' he e => ?_⟩
  by_cases hs : A.status p = .ok
  · obtain ⟨a, b, d⟩ := W.next i.1 hs e
    obtain ⟨d1, d2, d3⟩ := d he
    exact ⟨d1, fun _ => d2, d3⟩
  · obtain ⟨a, b, c⟩ := W.idle hs e
    have : A.status p = .error := by
      cases hh : A.status p with
      | ok => exact absurd hh hs
      | eof => exact absurd he (i.2 hh).2
      | error => rfl
    rw [a, c]
    exact ⟨this, fun z => absurd z hs, he⟩

/-- The state of the input of the readers whose entries are `SubInputStream`s. -/
def Provider.current (p : Provider σ) : σ := match p.entry with | none => p.input | some e => e.parent

/-! ## tar -/

namespace Tar

variable {fuel : Nat}

theorem k_header (F : FailStop P H) {s s' : State σ} {d : List UInt8} (h : H s.input) (e : readHeader P s = .ok (s', d)) :
    Keeps P H s.input s'.input ∧ s'.entry = s.entry ∧
      (s.status = .ok → (s'.status = .ok ∨ s'.status = .eof → P.status s'.input ≠ .error) ∧
      (P.status s.input = .error → s'.status = .error)) := by
  unfold readHeader at e
  obtain ⟨⟨i, n, d1⟩, e1, e⟩ := bind_eq_ok e
  dsimp only at e
  obtain ⟨f1, f2, f3⟩ := F.read h e1
  have fd := fun z => F.dead h z e1
  by_cases c1 : n = 0 ∨ P.status i = .eof
  · rw [if_pos c1] at e
    cases e
    refine ⟨F.k_read e1, rfl, fun _ => ⟨fun _ => ?_, fun z => ?_⟩⟩
    · rcases c1 with c1 | c1
      · exact f2 (by omega)
      · dsimp only; rw [c1]; simp
    · obtain ⟨g1, g2⟩ := fd z
      rcases c1 with c1 | c1
      · omega
      · rw [c1] at g2; cases g2
  · rw [if_neg c1] at e
    by_cases c2 : n ≠ 512
    · rw [if_pos c2] at e
      cases e
      exact ⟨F.k_read e1, rfl, fun _ => ⟨(fun z => by rcases z with z | z <;> cases z), fun _ => rfl⟩⟩
    · rw [if_neg c2] at e
      cases e
      refine ⟨F.k_read e1, rfl, fun _ => ⟨fun _ => f2 (by omega), fun z => ?_⟩⟩
      obtain ⟨g1, g2⟩ := fd z
      omega

/-- The result of the functions that read a header. -/
def Told (P : StreamOps σ UInt8) (H : σ → Prop) (s s' : State σ) : Prop :=
  H s'.input ∧ s'.entry = s.entry ∧ (s'.status = .eof → P.status s'.input ≠ .error)

theorem k_zeros (F : FailStop P H) : ∀ (fuel : Nat) (n : Int) (s s' : State σ), H s.input → s.status = .ok →
    zeroBlocks P fuel n s = .ok s' → Told P H s s' := by
  intro fuel
  induction fuel with
  | zero => intro n s s' _ _ e; cases e
  | succ fuel ih =>
    intro n s s' h ho e
    unfold zeroBlocks at e
    obtain ⟨⟨t, hb⟩, e1, e⟩ := bind_eq_ok e
    dsimp only at e
    obtain ⟨k1, k2, k3⟩ := k_header F h e1
    obtain ⟨k3, k4⟩ := k3 ho
    have k1 := (k1 h).1
    split at e
    · cases e; exact ⟨k1, k2, fun z => by cases z⟩
    · split at e
      · cases e; exact ⟨k1, k2, fun z => k3 (Or.inr z)⟩
      · rename_i c2
        split at e
        · obtain ⟨a, b, c⟩ := ih _ _ _ k1 (Classical.not_not.1 c2) e
          exact ⟨a, b.trans k2, c⟩
        · cases e; exact ⟨k1, k2, fun z => by cases z⟩

theorem k_octal {s s' : State σ} {b : List UInt8} {o v : Int} (e : readOctalField s b o = .ok (s', v)) :
    s'.input = s.input ∧ s'.entry = s.entry ∧ (s'.status = s.status ∨ s'.status = .error) := by
  unfold readOctalField at e
  obtain ⟨x, e1, e⟩ := bind_eq_ok e
  cases x with
  | none => cases e; exact ⟨rfl, rfl, Or.inr rfl⟩
  | some v => cases e; exact ⟨rfl, rfl, Or.inl rfl⟩

theorem k_finish {s s' : State σ} {hb : List UInt8} (e : finish s hb = .ok s') :
    s'.input = s.input ∧ s'.entry = s.entry ∧ (s.status = .ok → s'.status ≠ .eof) := by
  unfold finish at e
  obtain ⟨⟨t, v⟩, e1, e⟩ := bind_eq_ok e
  obtain ⟨a1, a2, a3⟩ := k_octal e1
  dsimp only at e
  have ne : ∀ {x y : Status}, x = .ok → y = x ∨ y = .error → y ≠ .eof := by
    intro x y hx h
    rcases h with h | h <;> rw [h] <;> simp [hx]
  split at e
  · cases e; exact ⟨a1, a2, fun z => ne z a3⟩
  · rename_i c1
    obtain ⟨⟨u, w⟩, e2, e⟩ := bind_eq_ok e
    obtain ⟨b1, b2, b3⟩ := k_octal e2
    dsimp only at e b1 b2 b3 c1
    have c1 := Classical.not_not.1 c1
    rw [a1] at b1; rw [a2] at b2
    split at e
    · cases e; exact ⟨b1, b2, fun _ => ne c1 b3⟩
    · obtain ⟨x, _, e⟩ := bind_eq_ok e
      obtain ⟨y, _, e⟩ := bind_eq_ok e
      cases e
      exact ⟨b1, b2, fun _ => ne c1 b3⟩

theorem k_longLink (F : FailStop P H) {s s' : State σ} {b : List UInt8} (h : H s.input) (ho : s.status = .ok)
    (e : readLongLink P s b = .ok s') : H s'.input ∧ s'.entry = s.entry ∧ s'.status ≠ .eof := by
  unfold readLongLink at e
  obtain ⟨⟨t, v⟩, e1, e⟩ := bind_eq_ok e
  obtain ⟨a1, a2, a3⟩ := k_octal e1
  have ht : t.status ≠ .eof := by rcases a3 with a3 | a3 <;> rw [a3] <;> simp [ho]
  dsimp only at e
  generalize (if v.tmod 512 ≠ 0 then 512 - v.tmod 512 else 0) = left at e
  split at e
  · cases e; exact ⟨by rw [a1]; exact h, a2, ht⟩
  · obtain ⟨⟨i, n, d⟩, e2, e⟩ := bind_eq_ok e
    have h2 := (F.read (by rw [a1]; exact h) e2).1
    dsimp only at e
    split at e
    · cases e; exact ⟨h2, a2, fun z => by cases z⟩
    · obtain ⟨⟨j, m⟩, e3, e⟩ := bind_eq_ok e
      have h3 := (F.skip h2 e3).1
      dsimp only at e
      split at e
      · cases e; exact ⟨h3, a2, fun z => by cases z⟩
      · cases e; exact ⟨h3, a2, ht⟩

theorem k_parse (F : FailStop P H) : ∀ (fuel : Nat) (s s' : State σ), H s.input → s.status = .ok →
    parseHeader P fuel s = .ok s' → Told P H s s' ∧ (P.status s.input = .error → s'.status = .error ∧ P.status s'.input = .error) := by
  intro fuel
  induction fuel with
  | zero => intro s s' _ _ e; cases e
  | succ fuel ih =>
    intro s s' h ho e
    unfold parseHeader at e
    obtain ⟨⟨t, hb⟩, e1, e⟩ := bind_eq_ok e
    dsimp only at e
    obtain ⟨k1, k2, k3⟩ := k_header F h e1
    obtain ⟨k3, k4⟩ := k3 ho
    obtain ⟨k1, k5⟩ := k1 h
    by_cases c1 : t.status ≠ .ok
    · rw [if_pos c1] at e
      cases e
      exact ⟨⟨k1, k2, fun z => by cases z⟩, fun z => ⟨rfl, k5 z⟩⟩
    · rw [if_neg c1] at e
      have c1 := Classical.not_not.1 c1
      refine ⟨?_, fun z => absurd (k4 z) (by rw [c1]; simp)⟩
      have alive : P.status t.input ≠ .error := k3 (Or.inl c1)
      by_cases c2 : (slice hb 0 512).all (· = 0) = true
      · rw [if_pos c2] at e
        obtain ⟨a, b, c⟩ := k_zeros F _ _ _ _ k1 c1 e
        exact ⟨a, b.trans k2, c⟩
      · rw [if_neg c2] at e
        obtain ⟨ch, _, e⟩ := bind_eq_ok e
        by_cases c3 : ch = false
        · rw [if_pos c3] at e
          cases e; exact ⟨k1, k2, fun z => by cases z⟩
        · rw [if_neg c3] at e
          obtain ⟨len, _, e⟩ := bind_eq_ok e
          by_cases c4 : len = 0
          · rw [if_pos c4] at e
            cases e; exact ⟨k1, k2, fun _ => alive⟩
          · rw [if_neg c4] at e
            generalize (if len > 100 then 100 else len) = len at e
            split at e
            · obtain ⟨u, e2, e⟩ := bind_eq_ok e
              obtain ⟨b1, b2, b3⟩ := k_longLink (s := { t with info := { t.info with filename := [] } }) F k1 c1 e2
              split at e
              · cases e; exact ⟨b1, b2.trans k2, fun z => absurd z b3⟩
              · rename_i cu
                obtain ⟨⟨v, hb2⟩, e3, e⟩ := bind_eq_ok e
                obtain ⟨q1, q2, q3⟩ := k_header F b1 e3
                obtain ⟨q3, q4⟩ := q3 (Classical.not_not.1 cu)
                have q1 := (q1 b1).1
                dsimp only at e
                split at e
                · cases e; exact ⟨q1, (q2.trans b2).trans k2, fun z => q3 (Or.inr z)⟩
                · rename_i cv
                  obtain ⟨w1, w2, w3⟩ := k_finish e
                  exact ⟨by rw [w1]; exact q1, ((w2.trans q2).trans b2).trans k2, fun z => absurd z (w3 (Classical.not_not.1 cv))⟩
            · split at e
              · split at e
                · obtain ⟨⟨a, b, c⟩, _⟩ := ih _ _ (by exact k1) (by exact c1) e
                  exact ⟨a, b.trans k2, c⟩
                · obtain ⟨w1, w2, w3⟩ := k_finish e
                  exact ⟨by rw [w1]; exact k1, w2.trans k2, fun z => absurd z (w3 c1)⟩
              · obtain ⟨w1, w2, w3⟩ := k_finish e
                exact ⟨by rw [w1]; exact k1, w2.trans k2, fun z => absurd z (w3 c1)⟩

theorem k_leave (F : FailStop P H) {s s' : State σ} (e : leave P s = .ok s') :
    Keeps P H s.toProvider.current s'.input ∧ s'.entry = none ∧ s'.status = s.status := by
  unfold leave at e
  unfold Provider.current
  cases hh : s.entry with
  | none => rw [hh] at e; cases e; exact ⟨Keeps.refl _, hh, rfl⟩
  | some x =>
    rw [hh] at e
    obtain ⟨⟨x1, r⟩, e1, e⟩ := bind_eq_ok e
    obtain ⟨⟨i, r2⟩, e2, e⟩ := bind_eq_ok e
    cases e
    exact ⟨(SubInputStream.k_skip F e1).trans (F.k_skip e2), rfl, rfl⟩

theorem watch (F : FailStop P H) (fuel : Nat) :
    Watch (ops P fuel) (fun s => s.toProvider.current) (fun e => e.parent) P H where
  atEntry {p e} h := by
    change p.entry = some e at h
    simp only [Provider.current, h]
  set p e := ⟨rfl, rfl⟩
  read h := SubInputStream.k_read F h
  skip h := SubInputStream.k_skip F h
  reset h := SubInputStream.k_reset F h
  idle {p p'} h e := by
    change p.status ≠ .ok at h
    change nextEntry P fuel p = .ok p' at e
    unfold nextEntry at e
    rw [if_pos h] at e; cases e
    exact ⟨rfl, id, rfl⟩
  next {p p'} h ho e := by
    change p.status = .ok at ho
    change nextEntry P fuel p = .ok p' at e
    change H p'.toProvider.current ∧ (p'.status = .eof → p'.entry = none ∧ P.status p'.toProvider.current ≠ .error) ∧
      (P.status p.toProvider.current = .error →
        p'.status = .error ∧ p'.entry = none ∧ P.status p'.toProvider.current = .error)
    unfold nextEntry at e
    rw [if_neg (fun z => z ho)] at e
    obtain ⟨s, e1, e⟩ := bind_eq_ok e
    obtain ⟨a1, a2, a3⟩ := k_leave F e1
    obtain ⟨h1, h2⟩ := a1 h
    obtain ⟨t, e2, e⟩ := bind_eq_ok e
    obtain ⟨⟨b1, b2, b3⟩, b4⟩ := k_parse F _ _ _ h1 (a3.trans ho) e2
    have hn : t.entry = none := b2.trans a2
    have hc : t.toProvider.current = t.input := by simp only [Provider.current, hn]
    by_cases c1 : t.status ≠ .ok
    · rw [if_pos c1] at e; cases e
      rw [hc]
      exact ⟨b1, fun z => ⟨hn, b3 z⟩, fun z => ⟨(b4 (h2 z)).1, hn, (b4 (h2 z)).2⟩⟩
    · rw [if_neg c1] at e
      have c1 := Classical.not_not.1 c1
      have hx : P.status p.toProvider.current ≠ .error := fun z => by
        have := (b4 (h2 z)).1
        rw [c1] at this; cases this
      split at e
      · obtain ⟨x, e3, e⟩ := bind_eq_ok e
        obtain ⟨_, e3⟩ := assert_eq_ok e3
        cases e3; cases e
        exact ⟨b1, fun z => absurd (c1.symm.trans z) (by simp), fun z => absurd z hx⟩
      · cases e
        rw [hc]
        exact ⟨b1, fun z => ⟨hn, b3 z⟩, fun z => absurd z hx⟩

end Tar

/-! ## cpio -/

namespace Cpio

theorem nameLen_range {b : List UInt8} {base : Int} : ∀ {n : Nat} {len r : Int}, nameLen b base n len = .ok r → r ≤ len + n := by
  intro n
  induction n with
  | zero => intro len r e; cases e; omega
  | succ n ih =>
    intro len r e
    unfold nameLen at e
    obtain ⟨c, _, e⟩ := bind_eq_ok e
    split at e
    · have := ih e; omega
    · cases e; omega

theorem k_name (F : FailStop P H) {s s' : State σ} {k : Int} (h : H s.input) (ho : s.status = .ok)
    (e : readName P s k = .ok s') : H s'.input ∧ s'.entry = s.entry ∧ (s'.status = .eof → P.status s'.input ≠ .error) := by
  unfold readName at e
  dsimp only at e
  generalize ht : k + padTo4 ((k + 2).tmod 4) = toread at e
  have ht : k ≤ toread := by
    have : 0 ≤ padTo4 ((k + 2).tmod 4) := by
      unfold padTo4
      have := Int.tmod_lt_of_pos (k + 2) (show (0 : Int) < 4 by omega)
      split <;> omega
    omega
  obtain ⟨⟨i, n, b⟩, e1, e⟩ := bind_eq_ok e
  dsimp only at e
  obtain ⟨f1, f2, f3⟩ := F.read h e1
  split at e
  · cases e; exact ⟨f1, rfl, fun z => by cases z⟩
  · rename_i hn
    obtain ⟨base, _, e⟩ := bind_eq_ok e
    obtain ⟨len, e3, e⟩ := bind_eq_ok e
    have hl := nameLen_range e3
    split at e
    · rename_i hname
      cases e
      refine ⟨f1, rfl, fun _ => f2 ?_⟩
      have : (slice b base len).length = 10 := by rw [hname]; rfl
      have h2 : (slice b base len).length ≤ len.toNat := by
        unfold slice; rw [List.length_take]; omega
      omega
    · cases e; exact ⟨f1, rfl, fun z => absurd (ho.symm.trans z) (by simp)⟩

theorem k_header (F : FailStop P H) {s s' : State σ} (h : H s.input) (ho : s.status = .ok)
    (e : readHeader P s = .ok s') : H s'.input ∧ (s'.status = .eof → P.status s'.input ≠ .error) ∧
      (P.status s.input = .error → s'.status = .error ∧ P.status s'.input = .error) := by
  unfold readHeader at e
  obtain ⟨⟨i, n, b⟩, e1, e⟩ := bind_eq_ok e
  dsimp only at e
  obtain ⟨f1, f2, f3⟩ := F.read h e1
  have fd := fun z => F.dead h z e1
  split at e
  · cases e
    refine ⟨f1, fun z => ?_, fun z => ⟨f3 z, f3 z⟩⟩
    dsimp only at z ⊢; rw [z]; simp
  · rename_i hn
    have hx : P.status s.input ≠ .error := fun z => by have := (fd z).1; omega
    split at e
    · cases e; exact ⟨f1, (fun z => by cases z), fun z => absurd z hx⟩
    · obtain ⟨size, _, e⟩ := bind_eq_ok e
      obtain ⟨mtime, _, e⟩ := bind_eq_ok e
      obtain ⟨k, _, e⟩ := bind_eq_ok e
      obtain ⟨a, _, c⟩ := k_name F (by exact f1) (by exact ho) e
      exact ⟨a, c, fun z => absurd z hx⟩

theorem k_skipEntry (F : FailStop P H) : ∀ (fuel : Nat) (e e' : SubInputStream σ), skipEntry P fuel e = .ok e' →
    Keeps P H e.parent e'.parent := by
  intro fuel
  induction fuel with
  | zero => intro e e' h; cases h
  | succ fuel ih =>
    intro e e' h
    unfold skipEntry at h
    split at h
    · obtain ⟨⟨e1, r⟩, h1, h⟩ := bind_eq_ok h
      exact (SubInputStream.k_skip F h1).trans (ih _ _ h)
    · cases h; exact Keeps.refl _

theorem k_leave (F : FailStop P H) {fuel : Nat} {s s' : State σ} (e : leave P fuel s = .ok s') :
    Keeps P H s.toProvider.current s'.input ∧ s'.status = s.status := by
  unfold leave at e
  unfold Provider.current
  cases hh : s.entry with
  | none => rw [hh] at e; cases e; exact ⟨Keeps.refl _, rfl⟩
  | some x =>
    rw [hh] at e
    obtain ⟨x1, e1, e⟩ := bind_eq_ok e
    dsimp only at e
    split at e
    · obtain ⟨⟨i, r2⟩, e2, e⟩ := bind_eq_ok e
      cases e
      exact ⟨(k_skipEntry F _ _ _ e1).trans (F.k_skip e2), rfl⟩
    · cases e
      exact ⟨k_skipEntry F _ _ _ e1, rfl⟩

theorem watch (F : FailStop P H) (fuel : Nat) :
    Watch (ops P fuel) (fun s => s.toProvider.current) (fun e => e.parent) P H where
  atEntry {p e} h := by
    change p.entry = some e at h
    simp only [Provider.current, h]
  set p e := ⟨rfl, rfl⟩
  read h := SubInputStream.k_read F h
  skip h := SubInputStream.k_skip F h
  reset h := SubInputStream.k_reset F h
  idle {p p'} h e := by
    change p.status ≠ .ok at h
    change nextEntry P fuel p = .ok p' at e
    unfold nextEntry at e
    rw [if_pos h] at e; cases e
    exact ⟨rfl, fun _ => rfl, rfl⟩
  next {p p'} h ho e := by
    change p.status = .ok at ho
    change nextEntry P fuel p = .ok p' at e
    change H p'.toProvider.current ∧ (p'.status = .eof → p'.entry = none ∧ P.status p'.toProvider.current ≠ .error) ∧
      (P.status p.toProvider.current = .error →
        p'.status = .error ∧ p'.entry = none ∧ P.status p'.toProvider.current = .error)
    unfold nextEntry at e
    rw [if_neg (fun z => z ho)] at e
    obtain ⟨s, e1, e⟩ := bind_eq_ok e
    obtain ⟨a1, a3⟩ := k_leave F e1
    obtain ⟨h1, h2⟩ := a1 h
    obtain ⟨t, e2, e⟩ := bind_eq_ok e
    obtain ⟨b1, b3, b4⟩ := k_header F h1 (a3.trans ho) e2
    obtain ⟨x, e3, e⟩ := bind_eq_ok e
    obtain ⟨_, e3⟩ := assert_eq_ok e3
    cases e3
    by_cases c1 : t.status ≠ .ok
    · rw [if_pos c1] at e; cases e
      exact ⟨b1, fun z => ⟨rfl, b3 z⟩, fun z => ⟨(b4 (h2 z)).1, rfl, (b4 (h2 z)).2⟩⟩
    · rw [if_neg c1] at e
      have c1 := Classical.not_not.1 c1
      have hx : P.status p.toProvider.current ≠ .error := fun z => by
        have := (b4 (h2 z)).1
        rw [c1] at this; cases this
      cases e
      exact ⟨b1, fun z => absurd (c1.symm.trans z) (by simp), fun z => absurd z hx⟩

end Cpio

/-! ## ar -/

namespace Ar

theorem k_align (F : FailStop P H) {i j : σ} (e : align P i = .ok j) : Keeps P H i j := by
  unfold align at e
  split at e
  · obtain ⟨⟨a, r⟩, e1, e⟩ := bind_eq_ok e
    cases e; exact F.k_skip e1
  · cases e; exact Keeps.refl _

theorem k_header (F : FailStop P H) : ∀ (fuel : Nat) (s s' : State σ), H s.input → s.status = .ok →
    readHeader P fuel s = .ok s' → H s'.input ∧ s'.entry = s.entry ∧ (s'.status = .eof → P.status s'.input ≠ .error) ∧
      (P.status s.input = .error → s'.status = .error ∧ P.status s'.input = .error) := by
  intro fuel
  induction fuel with
  | zero => intro s s' _ _ e; cases e
  | succ fuel ih =>
    intro s s' h ho e
    unfold readHeader at e
    obtain ⟨i0, e0, e⟩ := bind_eq_ok e
    obtain ⟨h0, k0⟩ := k_align F e0 h
    obtain ⟨⟨i, n, b⟩, e1, e⟩ := bind_eq_ok e
    dsimp only at e
    obtain ⟨f1, f2, f3⟩ := F.read h0 e1
    by_cases c1 : P.status i = .error
    · rw [if_pos c1] at e
      cases e; exact ⟨f1, rfl, (fun z => by cases z), fun z => ⟨rfl, f3 (k0 z)⟩⟩
    · rw [if_neg c1] at e
      have hx : P.status s.input ≠ .error := fun z => c1 (f3 (k0 z))
      suffices g : H s'.input ∧ s'.entry = s.entry ∧ (s'.status = .eof → P.status s'.input ≠ .error) from
        ⟨g.1, g.2.1, g.2.2, fun z => absurd z hx⟩
      have ne : ∀ {Q : Prop}, s.status = .eof → Q := fun z => absurd (ho.symm.trans z) (by simp)
      by_cases c2 : n ≤ 1
      · rw [if_pos c2] at e
        cases e; exact ⟨f1, rfl, fun _ => c1⟩
      · rw [if_neg c2] at e
        by_cases c3 : n ≠ 60
        · rw [if_pos c3] at e
          cases e; exact ⟨f1, rfl, fun z => by cases z⟩
        · rw [if_neg c3] at e
          obtain ⟨len, _, e⟩ := bind_eq_ok e
          obtain ⟨size, _, e⟩ := bind_eq_ok e
          by_cases c4 : size < 0
          · rw [if_pos c4] at e
            cases e; exact ⟨f1, rfl, fun z => by cases z⟩
          · rw [if_neg c4] at e
            obtain ⟨mtime, _, e⟩ := bind_eq_ok e
            by_cases c5 : len = 0
            · rw [if_pos c5] at e
              obtain ⟨b1, _, e⟩ := bind_eq_ok e
              by_cases c6 : b1 = 47
              · rw [if_pos c6] at e
                obtain ⟨⟨j, m, d⟩, e2, e⟩ := bind_eq_ok e
                dsimp only at e
                have g1 := (F.read (by exact f1) e2).1
                by_cases c7 : m ≠ size
                · rw [if_pos c7] at e
                  cases e; exact ⟨g1, rfl, fun z => by cases z⟩
                · rw [if_neg c7] at e
                  obtain ⟨t, e3, e⟩ := bind_eq_ok e
                  obtain ⟨a, b, c, _⟩ := ih _ _ (by exact g1) (by exact ho) e3
                  cases e
                  exact ⟨a, b, c⟩
              · rw [if_neg c6] at e
                by_cases c7 : b1 = 32
                · rw [if_pos c7] at e
                  obtain ⟨⟨j, m⟩, e2, e⟩ := bind_eq_ok e
                  dsimp only at e
                  have g1 := (F.skip (by exact f1) e2).1
                  obtain ⟨t, e3, e⟩ := bind_eq_ok e
                  obtain ⟨a, b, c, _⟩ := ih _ _ (by exact g1) (by exact ho) e3
                  cases e
                  exact ⟨a, b, c⟩
                · rw [if_neg c7] at e
                  obtain ⟨p, _, e⟩ := bind_eq_ok e
                  split at e
                  · cases e; exact ⟨f1, rfl, fun z => by cases z⟩
                  · cases e; exact ⟨f1, rfl, ne⟩
            · rw [if_neg c5] at e
              cases e; exact ⟨f1, rfl, ne⟩

theorem k_leave (F : FailStop P H) {s s' : State σ} (e : leave P s = .ok s') :
    Keeps P H s.toProvider.current s'.input ∧ s'.entry = none ∧ s'.status = s.status := by
  unfold leave at e
  unfold Provider.current
  cases hh : s.entry with
  | none => rw [hh] at e; cases e; exact ⟨Keeps.refl _, hh, rfl⟩
  | some x =>
    rw [hh] at e
    obtain ⟨⟨x1, r⟩, e1, e⟩ := bind_eq_ok e
    cases e
    exact ⟨SubInputStream.k_skip F e1, rfl, rfl⟩

theorem watch (F : FailStop P H) (fuel : Nat) :
    Watch (ops P fuel) (fun s => s.toProvider.current) (fun e => e.parent) P H where
  atEntry {p e} h := by
    change p.entry = some e at h
    simp only [Provider.current, h]
  set p e := ⟨rfl, rfl⟩
  read h := SubInputStream.k_read F h
  skip h := SubInputStream.k_skip F h
  reset h := SubInputStream.k_reset F h
  idle {p p'} h e := by
    change p.status ≠ .ok at h
    change nextEntry P fuel p = .ok p' at e
    unfold nextEntry at e
    rw [if_pos h] at e; cases e
    exact ⟨rfl, id, rfl⟩
  next {p p'} h ho e := by
    change p.status = .ok at ho
    change nextEntry P fuel p = .ok p' at e
    change H p'.toProvider.current ∧ (p'.status = .eof → p'.entry = none ∧ P.status p'.toProvider.current ≠ .error) ∧
      (P.status p.toProvider.current = .error →
        p'.status = .error ∧ p'.entry = none ∧ P.status p'.toProvider.current = .error)
    unfold nextEntry at e
    rw [if_neg (fun z => z ho)] at e
    obtain ⟨s, e1, e⟩ := bind_eq_ok e
    obtain ⟨a1, a2, a3⟩ := k_leave F e1
    obtain ⟨h1, h2⟩ := a1 h
    obtain ⟨t, e2, e⟩ := bind_eq_ok e
    obtain ⟨b1, b2, b3, b4⟩ := k_header F _ _ _ h1 (a3.trans ho) e2
    have hn : t.entry = none := b2.trans a2
    have hc : t.toProvider.current = t.input := by simp only [Provider.current, hn]
    by_cases c1 : t.status ≠ .ok
    · rw [if_pos c1] at e; cases e
      rw [hc]
      exact ⟨b1, fun z => ⟨hn, b3 z⟩, fun z => ⟨(b4 (h2 z)).1, hn, (b4 (h2 z)).2⟩⟩
    · rw [if_neg c1] at e
      have c1 := Classical.not_not.1 c1
      have hx : P.status p.toProvider.current ≠ .error := fun z => by
        have := (b4 (h2 z)).1
        rw [c1] at this; cases this
      obtain ⟨x, e3, e⟩ := bind_eq_ok e
      obtain ⟨_, e3⟩ := assert_eq_ok e3
      cases e3; cases e
      exact ⟨b1, fun z => absurd (c1.symm.trans z) (by simp), fun z => absurd z hx⟩

/-- The constructor. -/
theorem k_new (F : FailStop P H) {input : σ} {p : State σ} (h : H input) (e : new P input = .ok p) :
    H p.toProvider.current ∧ p.entry = none ∧ p.status ≠ .eof := by
  unfold new at e
  obtain ⟨⟨i, n, b⟩, e1, e⟩ := bind_eq_ok e
  have f1 := (F.read h e1).1
  dsimp only at e
  split at e
  · cases e
    exact ⟨f1, rfl, by simp⟩
  · obtain ⟨ok, _, e⟩ := bind_eq_ok e
    cases e
    refine ⟨f1, rfl, ?_⟩
    cases ok <;> simp

end Ar

/-! ## SD files -/

namespace Sdf

theorem k_drain (F : FailStop P H) : ∀ (fuel : Nat) (e e' : SubInputStream σ), drain P fuel e = .ok e' →
    Keeps P H e.parent e'.parent := by
  intro fuel
  induction fuel with
  | zero => intro e e' h; cases h
  | succ fuel ih =>
    intro e e' h
    unfold drain at h
    split at h
    · obtain ⟨⟨e1, r, d⟩, h1, h⟩ := bind_eq_ok h
      exact (SubInputStream.k_read F h1).trans (ih _ _ h)
    · cases h; exact Keeps.refl _

theorem k_eat (F : FailStop P H) : ∀ (fuel : Nat) (i j : σ) (d : List UInt8), eat P fuel i d = .ok j → Keeps P H i j := by
  intro fuel
  induction fuel with
  | zero => intro i j d h; cases h
  | succ fuel ih =>
    intro i j d h
    unfold eat at h
    split at h
    · obtain ⟨c, _, h⟩ := bind_eq_ok h
      split at h
      · obtain ⟨⟨a, n, d1⟩, h1, h⟩ := bind_eq_ok h
        exact (F.k_read h1).trans (ih _ _ _ h)
      · cases h; exact Keeps.refl _
    · cases h; exact Keeps.refl _

theorem k_eatDelimiter (F : FailStop P H) {fuel : Nat} {i j : σ} (h : eatDelimiter P fuel i = .ok j) : Keeps P H i j := by
  unfold eatDelimiter at h
  split at h
  · obtain ⟨⟨a, n, d1⟩, h1, h⟩ := bind_eq_ok h
    dsimp only at h
    split at h
    · obtain ⟨⟨b, n2, d2⟩, h2, h⟩ := bind_eq_ok h
      exact ((F.k_read h1).trans (F.k_read h2)).trans (k_eat F _ _ _ _ h)
    · cases h; exact F.k_read h1
  · cases h; exact Keeps.refl _

theorem k_leave (F : FailStop P H) {fuel : Nat} {s s' : State σ} (e : leave P fuel s = .ok s') :
    Keeps P H s.toProvider.current s'.input ∧ s'.entry = none ∧ (s'.status = s.status ∨ s'.status = .error) := by
  unfold leave at e
  unfold Provider.current
  cases hh : s.entry with
  | none => rw [hh] at e; cases e; exact ⟨Keeps.refl _, hh, Or.inl rfl⟩
  | some x =>
    rw [hh] at e
    obtain ⟨⟨x0, r⟩, e0, e⟩ := bind_eq_ok e
    obtain ⟨x1, e1, e⟩ := bind_eq_ok e
    dsimp only at e
    obtain ⟨⟨i, r1⟩, e2, e⟩ := bind_eq_ok e
    obtain ⟨j, e3, e⟩ := bind_eq_ok e
    cases e
    refine ⟨(((SubInputStream.k_reset F e0).trans (k_drain F _ _ _ e1)).trans (F.k_reset e2)).trans (k_eatDelimiter F e3), rfl, ?_⟩
    dsimp only
    split
    · exact Or.inr rfl
    · exact Or.inl rfl

theorem k_scan (F : FailStop P H) : ∀ (fuel : Nat) (i j : σ) (t len : Int), scan P fuel i t = .ok (j, len) → Keeps P H i j := by
  intro fuel
  induction fuel with
  | zero => intro i j t len h; cases h
  | succ fuel ih =>
    intro i j t len h
    unfold scan at h
    split at h
    · obtain ⟨⟨a, n, d⟩, h1, h⟩ := bind_eq_ok h
      dsimp only at h
      split at h
      · obtain ⟨r, _, h⟩ := bind_eq_ok h
        cases r with
        | none => exact (F.k_read h1).trans (ih _ _ _ _ h)
        | some p => cases h; exact F.k_read h1
      · exact (F.k_read h1).trans (ih _ _ _ _ h)
    · cases h; exact Keeps.refl _

theorem k_next (F : FailStop P H) {fuel : Nat} {s s' : State σ} (h : H s.input) (hs : s.status ≠ .eof)
    (e : next P fuel s = .ok s') :
    H s'.toProvider.current ∧ (s'.status = .eof → s'.entry = none ∧ P.status s'.toProvider.current ≠ .error) ∧
      (P.status s.input = .error → s'.status = .error ∧ s'.entry = none ∧ P.status s'.toProvider.current = .error) := by
  unfold next at e
  dsimp only at e
  obtain ⟨⟨i, len⟩, e1, e⟩ := bind_eq_ok e
  dsimp only at e
  obtain ⟨h1, k1⟩ := k_scan F _ _ _ _ _ e1 h
  by_cases c1 : P.status i = .error
  · rw [if_pos c1] at e
    cases e
    exact ⟨h1, (fun z => by cases z), fun z => ⟨rfl, rfl, k1 z⟩⟩
  · rw [if_neg c1] at e
    have hx : P.status s.input ≠ .error := fun z => c1 (k1 z)
    obtain ⟨⟨j, r⟩, e2, e⟩ := bind_eq_ok e
    obtain ⟨h2, k2⟩ := F.reset h1 e2
    have hj : P.status j ≠ .error := fun z => c1 (k2.2 z)
    dsimp only at e
    split at e
    · obtain ⟨x, e3, e⟩ := bind_eq_ok e
      obtain ⟨_, e3⟩ := assert_eq_ok e3
      cases e3; cases e
      exact ⟨h2, fun z => absurd z hs, fun z => absurd z hx⟩
    · cases e
      exact ⟨h2, fun _ => ⟨rfl, hj⟩, fun z => absurd z hx⟩

theorem k_rewind (F : FailStop P H) {s s' : State σ} (e : rewind P s = .ok s') :
    Keeps P H s.toProvider.current s'.toProvider.current ∧ s'.status = s.status := by
  unfold rewind at e
  cases hh : s.entry with
  | none =>
    rw [hh] at e
    obtain ⟨⟨i, r⟩, e1, e⟩ := bind_eq_ok e
    cases e
    simp only [Provider.current, hh]
    exact ⟨F.k_reset e1, trivial⟩
  | some x =>
    rw [hh] at e
    obtain ⟨⟨i, r⟩, e1, e⟩ := bind_eq_ok e
    cases e
    simp only [Provider.current, hh]
    exact ⟨F.k_reset e1, trivial⟩

theorem watch (F : FailStop P H) (fuel : Nat) :
    Watch (ops P fuel) (fun s => s.toProvider.current) (fun e => e.parent) P H where
  atEntry {p e} h := by
    change p.entry = some e at h
    simp only [Provider.current, h]
  set p e := ⟨rfl, rfl⟩
  read h := SubInputStream.k_read F h
  skip h := SubInputStream.k_skip F h
  reset h := SubInputStream.k_reset F h
  idle {p p'} h e := by
    change p.status ≠ .ok at h
    change nextEntry P fuel p = .ok p' at e
    unfold nextEntry at e
    rw [if_pos h] at e; cases e
    exact ⟨rfl, id, rfl⟩
  next {p p'} h ho e := by
    change p.status = .ok at ho
    change nextEntry P fuel p = .ok p' at e
    unfold nextEntry at e
    rw [if_neg (fun z => z ho)] at e
    obtain ⟨s, e1, e⟩ := bind_eq_ok e
    obtain ⟨t, e2, e⟩ := bind_eq_ok e
    obtain ⟨a1, a2⟩ := k_rewind F e1
    obtain ⟨h1, h2⟩ := a1 h
    obtain ⟨b1, b2, b3⟩ := k_leave F e2
    obtain ⟨g1, g2⟩ := b1 h1
    have hs : t.status ≠ .eof := by
      rcases b3 with b3 | b3 <;> rw [b3]
      · rw [a2, ho]; simp
      · simp
    obtain ⟨c1, c2, c3⟩ := k_next F g1 hs e
    exact ⟨c1, c2, fun z => c3 (g2 (h2 z))⟩

end Sdf


/-! ## Buffered streams: what a producer keeps, the stream keeps -/

namespace BufferedStream

variable {φ α : Type} {Pr : Producer φ α} {R : φ → φ → Prop}

theorem rel_write (tr : ∀ {a b c : φ}, R a b → R b c → R a c) (rf : ∀ a, R a a)
    (hf : ∀ {f f' : φ} {k : Int} {r : Fill α}, Pr.fill f k = .ok (f', r) → R f f') {a b : Int} :
    ∀ (fuel : Nat) (s s' : BufferedStream φ α) (m w r : Int), writeLoop Pr a b fuel s m w = .ok (s', r) → R s.prod s'.prod := by
  intro fuel
  induction fuel with
  | zero => intro s s' m w r e; cases e
  | succ fuel ih =>
    intro s s' m w r e
    unfold writeLoop at e
    split at e
    · obtain ⟨⟨b1, sp⟩, e1, e⟩ := bind_eq_ok e
      dsimp only at e
      obtain ⟨⟨f, r1⟩, e2, e⟩ := bind_eq_ok e
      dsimp only at e
      obtain ⟨b2, e3, e⟩ := bind_eq_ok e
      obtain ⟨_, e⟩ := assert_eq_ok e
      have k := hf e2
      split at e
      · exact tr k (ih _ _ _ _ _ e)
      · exact tr k (ih _ _ _ _ _ e)
    · cases e; exact rf _

theorem rel_read (tr : ∀ {a b c : φ}, R a b → R b c → R a c) (rf : ∀ a, R a a)
    (hf : ∀ {f f' : φ} {k : Int} {r : Fill α}, Pr.fill f k = .ok (f', r) → R f f')
    {s s' : BufferedStream φ α} {mn mx n : Int} {d : List α} (e : read Pr s mn mx = .ok (s', n, d)) : R s.prod s'.prod := by
  unfold read at e
  split at e
  · cases e; exact rf _
  · split at e
    · cases e; exact rf _
    · dsimp only at e
      generalize (if mn > mx then 0 else mx) = mx at e
      obtain ⟨t, e1, e⟩ := bind_eq_ok e
      have k : R s.prod t.prod := by
        unfold ensure at e1
        split at e1
        · unfold writeToBuffer at e1
          obtain ⟨⟨u, w⟩, e2, e1⟩ := bind_eq_ok e1
          have := rel_write (R := R) tr rf hf _ _ _ _ _ _ e2
          dsimp only at e1
          split at e1 <;> cases e1 <;> exact this
        · cases e1; exact rf _
      split at e
      · cases e; exact k
      · obtain ⟨⟨b, w, d1⟩, e2, e⟩ := bind_eq_ok e
        dsimp only at e
        split at e
        · cases e; exact k
        · split at e
          · cases e; exact k
          · cases e; exact k

theorem rel_reset (rf : ∀ a, R a a) {s s' : BufferedStream φ α} {q r : Int} (e : reset s q = .ok (s', r)) :
    R s.prod s'.prod := by
  unfold reset at e
  obtain ⟨_, e⟩ := assert_eq_ok e
  split at e
  · cases e; exact rf _
  · dsimp only at e
    split at e <;> cases e <;> exact rf _

theorem rel_skip (tr : ∀ {a b c : φ}, R a b → R b c → R a c) (rf : ∀ a, R a a)
    (hf : ∀ {f f' : φ} {k : Int} {r : Fill α}, Pr.fill f k = .ok (f', r) → R f f')
    {s s' : BufferedStream φ α} {k r : Int} (e : skip Pr s k = .ok (s', r)) : R s.prod s'.prod := by
  unfold skip at e
  generalize k.toNat + 1 = fuel at e
  have : ∀ (fuel : Nat) (s s' : BufferedStream φ α) (k t r : Int), skipLoop Pr fuel s k t = .ok (s', r) → R s.prod s'.prod := by
    intro fuel
    induction fuel with
    | zero => intro s s' k t r e; cases e
    | succ fuel ih =>
      intro s s' k t r e
      unfold skipLoop at e
      split at e
      · dsimp only at e
        obtain ⟨⟨u, w, d⟩, e1, e⟩ := bind_eq_ok e
        have k1 := rel_read (R := R) tr rf hf e1
        dsimp only at e
        split at e
        · cases e; exact k1
        · exact tr k1 (ih _ _ _ _ _ e)
      · cases e; exact rf _
  exact this _ _ _ _ _ _ e

/-- A buffered stream tells failures of its producer, whatever the producer does. -/
theorem failStop (Pr : Producer φ UInt8) : FailStop (BufferedStream.ops Pr) (fun _ => True) where
  read {s s' mn mx n d} _ e := by
    change read Pr s mn mx = .ok (s', n, d) at e
    change True ∧ (0 ≤ n → s'.status ≠ .error) ∧ (s.status = .error → s'.status = .error)
    refine ⟨trivial, ?_⟩
    unfold read at e
    by_cases c1 : s.status = .error
    · rw [if_pos c1] at e; cases e
      exact ⟨fun z => by omega, fun _ => c1⟩
    · rw [if_neg c1] at e
      refine ⟨fun hn => ?_, fun z => absurd z c1⟩
      by_cases c2 : s.status = .eof
      · rw [if_pos c2] at e; cases e; exact c1
      · rw [if_neg c2] at e
        dsimp only at e
        generalize (if mn > mx then 0 else mx) = mx at e
        obtain ⟨t, e1, e⟩ := bind_eq_ok e
        by_cases c3 : t.status = .error
        · rw [if_pos c3] at e; cases e; omega
        · rw [if_neg c3] at e
          obtain ⟨⟨b, w, d1⟩, e2, e⟩ := bind_eq_ok e
          dsimp only at e
          split at e
          · cases e; omega
          · split at e
            · cases e; simp
            · cases e; exact c3
  skip {s s' k r} _ e := by
    change skip Pr s k = .ok (s', r) at e
    change True ∧ (s.status = .error → s'.status = .error)
    refine ⟨trivial, fun c => ?_⟩
    unfold skip at e
    rw [skipLoop] at e
    split at e
    · dsimp only at e
      obtain ⟨⟨u, w, d⟩, e1, e⟩ := bind_eq_ok e
      unfold read at e1
      rw [if_pos c] at e1
      cases e1
      dsimp only at e
      rw [if_pos (by omega)] at e
      cases e; exact c
    · cases e; exact c
  reset {s s' q r} _ e := by
    change reset s q = .ok (s', r) at e
    change True ∧ (s.status = .error ↔ s'.status = .error)
    refine ⟨trivial, ?_⟩
    unfold reset at e
    obtain ⟨_, e⟩ := assert_eq_ok e
    by_cases c : s.status = .error
    · rw [if_pos c] at e; cases e; exact Iff.rfl
    · rw [if_neg c] at e
      dsimp only at e
      split at e <;> cases e
      · exact ⟨fun z => absurd z c, fun z => by cases z⟩
      · exact Iff.rfl

end BufferedStream

namespace StringStream

theorem failStop : FailStop (StringStream.ops (α := UInt8)) (fun s => s.status ≠ .error) := by
  have rd : ∀ (s : StringStream UInt8) (mn mx : Int), s.status ≠ .error → (s.read mn mx).1.status ≠ .error := by
    intro s mn mx h
    unfold StringStream.read
    dsimp only
    split
    · simp
    · dsimp only
      generalize (if mx > (s.data.length : Int) - s.pos ∨ mx < 1 then (s.data.length : Int) - s.pos else mx) = k
      split
      · simp
      · exact h
  constructor
  · intro s s' mn mx n d h e
    change Res.ok (s.read mn mx) = .ok (s', n, d) at e
    injection e with e
    have : s' = (s.read mn mx).1 := by rw [e]
    have g := rd s mn mx h
    rw [← this] at g
    exact ⟨g, fun _ => g, fun z => absurd z h⟩
  · intro s s' k r h e
    change Res.ok (s.skip k) = .ok (s', r) at e
    injection e with e
    have : s' = (s.skip k).1 := by rw [e]
    have g : (s.skip k).1.status ≠ .error := by
      unfold StringStream.skip
      split
      · exact h
      · exact rd s _ _ h
    rw [← this] at g
    exact ⟨g, fun z => absurd z h⟩
  · intro s s' q r h e
    change Res.ok (s.reset q) = .ok (s', r) at e
    injection e with e
    have : s' = (s.reset q).1 := by rw [e]
    have g : (s.reset q).1.status ≠ .error := by
      unfold StringStream.reset
      split
      · simp
      · split <;> simp
    rw [← this] at g
    exact ⟨g, fun z => absurd z h, fun z => absurd z g⟩

end StringStream

/-! ## zip -/

namespace Unpack

variable {ζ : Type} {D : Decompressor ζ} {σ' : Type} {S : StreamOps σ' UInt8} {R : σ' → σ' → Prop}

/-- What the calls of the input keep, the decompressor keeps. -/
theorem rel_fill (tr : ∀ {a b c : σ'}, R a b → R b c → R a c) (rf : ∀ a, R a a)
    (hr : ∀ {s s' : σ'} {mn mx n : Int} {d : List UInt8}, S.read s mn mx = .ok (s', n, d) → R s s')
    (hq : ∀ {s s' : σ'} {q r : Int}, S.reset s q = .ok (s', r) → R s s') {keep : Bool}
    {s s' : State σ' ζ} {k : Int} {r : Fill UInt8} (e : fill S D keep s k = .ok (s', r)) : R s.input s'.input := by
  have dec : ∀ {s s' : State σ' ζ}, decompress S D keep s k = .ok (s', r) → R s.input s'.input := by
    intro s s' e
    unfold decompress at e
    generalize D.run s.z s.availIn k = res at e
    obtain ⟨z, kk, out, code⟩ := res
    dsimp only at e
    cases code with
    | more => cases e; exact rf _
    | failed => cases e; exact rf _
    | ended =>
      dsimp only at e
      split at e
      · obtain ⟨⟨i, w⟩, e1, e⟩ := bind_eq_ok e
        cases e; exact hq e1
      · cases e; exact rf _
  unfold fill at e
  split at e
  · cases e; exact rf _
  · split at e
    · obtain ⟨t, e1, e⟩ := bind_eq_ok e
      have k1 : R s.input t.input := by
        unfold readFromStream at e1
        obtain ⟨⟨i, n, d⟩, e2, e1⟩ := bind_eq_ok e1
        dsimp only at e1
        split at e1 <;> cases e1 <;> exact hr e2
      split at e
      · cases e; exact k1
      · exact tr k1 (dec e)
    · exact dec e

end Unpack

namespace Zip

variable {ζ : Type} {D : Decompressor ζ} {N : Nat}

theorem k_entry_read (F : FailStop P H) {e e' : Entry σ ζ} {mn mx n : Int} {d : List UInt8}
    (h : (entryOps P D N).read e mn mx = .ok (e', n, d)) : Keeps P H e.input e'.input := by
  cases e with
  | stored x =>
    obtain ⟨⟨y, r⟩, h1, h⟩ := bind_eq_ok h
    cases h
    exact SubInputStream.k_read F h1
  | deflated x =>
    obtain ⟨⟨y, r⟩, h1, h⟩ := bind_eq_ok h
    cases h
    exact SubInputStream.rel_read (R := fun a b => Keeps P H a.prod.input.parent b.prod.input.parent) (fun _ => Keeps.refl _)
      (fun z => BufferedStream.rel_read (R := fun a b => Keeps P H a.input.parent b.input.parent) Keeps.trans (fun _ => Keeps.refl _)
        (Unpack.rel_fill (R := fun (a b : SubInputStream σ) => Keeps P H a.parent b.parent) Keeps.trans (fun _ => Keeps.refl _)
          (SubInputStream.k_read F) (SubInputStream.k_reset F)) z) h1
  | streamed x =>
    obtain ⟨⟨y, r⟩, h1, h⟩ := bind_eq_ok h
    cases h
    exact BufferedStream.rel_read (R := fun a b => Keeps P H a.input b.input) Keeps.trans (fun _ => Keeps.refl _)
      (Unpack.rel_fill Keeps.trans (fun _ => Keeps.refl _) F.k_read F.k_reset) h1

theorem k_entry_skip (F : FailStop P H) {e e' : Entry σ ζ} {k r : Int}
    (h : (entryOps P D N).skip e k = .ok (e', r)) : Keeps P H e.input e'.input := by
  cases e with
  | stored x =>
    obtain ⟨⟨y, r⟩, h1, h⟩ := bind_eq_ok h
    cases h
    exact SubInputStream.k_skip F h1
  | deflated x =>
    obtain ⟨⟨y, r⟩, h1, h⟩ := bind_eq_ok h
    cases h
    exact SubInputStream.rel_skip (R := fun a b => Keeps P H a.prod.input.parent b.prod.input.parent) (fun _ => Keeps.refl _)
      (fun z => BufferedStream.rel_skip (R := fun a b => Keeps P H a.input.parent b.input.parent) Keeps.trans (fun _ => Keeps.refl _)
        (Unpack.rel_fill (R := fun (a b : SubInputStream σ) => Keeps P H a.parent b.parent) Keeps.trans (fun _ => Keeps.refl _)
          (SubInputStream.k_read F) (SubInputStream.k_reset F)) z) h1
  | streamed x =>
    obtain ⟨⟨y, r⟩, h1, h⟩ := bind_eq_ok h
    cases h
    exact BufferedStream.rel_skip (R := fun a b => Keeps P H a.input b.input) Keeps.trans (fun _ => Keeps.refl _)
      (Unpack.rel_fill Keeps.trans (fun _ => Keeps.refl _) F.k_read F.k_reset) h1

theorem k_entry_reset (F : FailStop P H) {e e' : Entry σ ζ} {q r : Int}
    (h : (entryOps P D N).reset e q = .ok (e', r)) : Keeps P H e.input e'.input := by
  cases e with
  | stored x =>
    obtain ⟨⟨y, r⟩, h1, h⟩ := bind_eq_ok h
    cases h
    exact SubInputStream.k_reset F h1
  | deflated x =>
    obtain ⟨⟨y, r⟩, h1, h⟩ := bind_eq_ok h
    cases h
    exact SubInputStream.rel_reset (R := fun a b => Keeps P H a.prod.input.parent b.prod.input.parent)
      (fun z => BufferedStream.rel_reset (R := fun a b => Keeps P H a.input.parent b.input.parent) (fun _ => Keeps.refl _) z) h1
  | streamed x =>
    obtain ⟨⟨y, r⟩, h1, h⟩ := bind_eq_ok h
    cases h
    exact BufferedStream.rel_reset (R := fun a b => Keeps P H a.input b.input) (fun _ => Keeps.refl _) h1

theorem k_skipAll (F : FailStop P H) {size : Int} : ∀ (fuel : Nat) (e e' : Entry σ ζ),
    skipAll (entryOps P D N) size fuel e = .ok e' → Keeps P H e.input e'.input := by
  intro fuel
  induction fuel with
  | zero => intro e e' h; cases h
  | succ fuel ih =>
    intro e e' h
    unfold skipAll at h
    split at h
    · obtain ⟨⟨e1, r⟩, h1, h⟩ := bind_eq_ok h
      exact (k_entry_skip F h1).trans (ih _ _ h)
    · cases h; exact Keeps.refl _

theorem k_signature (F : FailStop P H) {i j : σ} (e : skipSignature P i = .ok j) : Keeps P H i j := by
  unfold skipSignature at e
  dsimp only at e
  obtain ⟨⟨a, n, c⟩, e1, e⟩ := bind_eq_ok e
  dsimp only at e
  split at e
  · obtain ⟨sig, _, e⟩ := bind_eq_ok e
    split at e
    · obtain ⟨⟨b, r⟩, e2, e⟩ := bind_eq_ok e
      cases e; exact (F.k_read e1).trans (F.k_reset e2)
    · cases e; exact F.k_read e1
  · cases e; exact F.k_read e1

theorem k_descriptor (F : FailStop P H) {i j : σ} {ok : Bool} (e : skipDescriptor P i = .ok (j, ok)) : Keeps P H i j := by
  unfold skipDescriptor at e
  obtain ⟨⟨a, n, c⟩, e1, e⟩ := bind_eq_ok e
  dsimp only at e
  split at e
  · obtain ⟨sig, _, e⟩ := bind_eq_ok e
    split at e
    · obtain ⟨⟨b, m, d⟩, e2, e⟩ := bind_eq_ok e
      cases e; exact (F.k_read e1).trans (F.k_read e2)
    · obtain ⟨⟨b, m, d⟩, e2, e⟩ := bind_eq_ok e
      cases e; exact (F.k_read e1).trans (F.k_read e2)
  · cases e; exact F.k_read e1

/-- The state of the input. -/
def State.current (s : State σ ζ) : σ := match s.entry with | none => s.input | some e => e.input

theorem k_leave (F : FailStop P H) {fuel : Nat} {s s' : State σ ζ} {ok : Bool} (e : leave P D N fuel s = .ok (s', ok)) :
    Keeps P H s.current s'.input ∧ s'.entry = none ∧ (ok = true → s'.status = s.status) ∧ (ok = false → s'.status = .error) := by
  have other : ∀ {x : Entry σ ζ}, s.entry = some x → (do
      let (input, ok) ← leaveOther P D N fuel x (decide (0 ≤ s.info.size))
      Res.ok ({ s with entry := none, input := input, status := if ok then s.status else .error }, ok)) = .ok (s', ok) →
      Keeps P H s.current s'.input ∧ s'.entry = none ∧ (ok = true → s'.status = s.status) ∧ (ok = false → s'.status = .error) := by
    intro x hx e
    obtain ⟨⟨i, b⟩, e1, e⟩ := bind_eq_ok e
    cases e
    have k : Keeps P H x.input i := by
      unfold leaveOther at e1
      dsimp only at e1
      obtain ⟨y, e2, e1⟩ := bind_eq_ok e1
      have k2 := k_skipAll F _ _ _ e2
      split at e1
      · cases e1; exact k2
      · exact k2.trans (k_descriptor F e1)
    simp only [State.current, hx]
    refine ⟨k, trivial, fun z => ?_, fun z => ?_⟩
    · rw [if_pos z]
    · rw [if_neg (by simp [z])]
  unfold leave at e
  cases hh : s.entry with
  | none =>
    rw [hh] at e; cases e
    refine ⟨?_, hh, fun _ => rfl, fun z => by cases z⟩
    simp only [State.current, hh]
    exact Keeps.refl _
  | some x =>
    rw [hh] at e
    cases x with
    | stored x => exact other hh e
    | streamed x => exact other hh e
    | deflated x =>
      dsimp only at e
      obtain ⟨⟨z, r⟩, e1, e⟩ := bind_eq_ok e
      obtain ⟨i, e2, e⟩ := bind_eq_ok e
      cases e
      refine ⟨?_, rfl, fun _ => rfl, fun z => by cases z⟩
      simp only [State.current, hh]
      exact (SubInputStream.k_skip F e1).trans (k_signature F e2)

theorem k_fileName (F : FailStop P H) {s s' : State σ ζ} {len : Int} (h : H s.input) (e : readFileName P s len = .ok s') :
    H s'.input ∧ s'.entry = s.entry ∧ s'.status = s.status := by
  unfold readFileName at e
  obtain ⟨⟨i, n, b⟩, e1, e⟩ := bind_eq_ok e
  have f1 := (F.read h e1).1
  dsimp only at e
  split at e
  · cases e; exact ⟨f1, rfl, rfl⟩
  · obtain ⟨c, _, e⟩ := bind_eq_ok e
    split at e <;> cases e <;> exact ⟨f1, rfl, rfl⟩

theorem k_names (F : FailStop P H) {s s' : State σ ζ} {a b : Int} (h : H s.input) (ho : s.status = .ok)
    (e : readNames P s a b = .ok s') : H s'.input ∧ s'.entry = s.entry ∧ s'.status ≠ .eof := by
  unfold readNames at e
  obtain ⟨t, e1, e⟩ := bind_eq_ok e
  obtain ⟨f1, f2, f3⟩ := k_fileName F h e1
  split at e
  · cases e; exact ⟨f1, f2, by simp⟩
  · obtain ⟨⟨i, n⟩, e2, e⟩ := bind_eq_ok e
    have g := (F.skip f1 e2).1
    dsimp only at e
    split at e <;> cases e
    · exact ⟨g, f2, by simp⟩
    · refine ⟨g, f2, ?_⟩
      dsimp only
      rw [f3, ho]; simp

theorem k_fields (F : FailStop P H) {mktime : TextUtils.Tm → Int} {s s' : State σ ζ} {hb : List UInt8} {l : Locals}
    (h : H s.input) (ho : s.status = .ok) (e : readFields P mktime s hb = .ok (s', l)) :
    H s'.input ∧ s'.entry = s.entry ∧ s'.status ≠ .eof := by
  unfold readFields at e
  obtain ⟨namelen, _, e⟩ := bind_eq_ok e
  obtain ⟨extralen, _, e⟩ := bind_eq_ok e
  obtain ⟨size, _, e⟩ := bind_eq_ok e
  dsimp only at e
  obtain ⟨compressed, _, e⟩ := bind_eq_ok e
  split at e
  · cases e; exact ⟨h, rfl, by simp⟩
  · obtain ⟨method, _, e⟩ := bind_eq_ok e
    obtain ⟨flags, _, e⟩ := bind_eq_ok e
    split at e
    · cases e; exact ⟨h, rfl, by simp⟩
    · obtain ⟨dost, _, e⟩ := bind_eq_ok e
      obtain ⟨t, e1, e⟩ := bind_eq_ok e
      cases e
      generalize hu : (if decide (flags &&& 8 ≠ 0) = true then
        ({ s with info := { s.info with size := -1 } } : State σ ζ) else { s with info := { s.info with size := size } }) = u at e1
      have hu1 : u.input = s.input ∧ u.entry = s.entry ∧ u.status = s.status := by
        rw [← hu]; split <;> exact ⟨rfl, rfl, rfl⟩
      obtain ⟨a1, a2, a3⟩ := k_names (s := { u with info := { u.info with mtime := mktime (TextUtils.dosFields dost) } }) F
        (by dsimp only; rw [hu1.1]; exact h) (by dsimp only; rw [hu1.2.2]; exact ho) e1
      exact ⟨a1, a2.trans hu1.2.1, a3⟩

theorem k_header (F : FailStop P H) {mktime : TextUtils.Tm → Int} {s s' : State σ ζ} {l : Locals}
    (h : H s.input) (ho : s.status = .ok) (e : readHeader P mktime s = .ok (s', l)) :
    H s'.input ∧ s'.entry = s.entry ∧ (s'.status = .eof → P.status s'.input ≠ .error) ∧
      (P.status s.input = .error → s'.status = .error ∧ P.status s'.input = .error) := by
  unfold readHeader at e
  obtain ⟨⟨i, n, hb⟩, e1, e⟩ := bind_eq_ok e
  dsimp only at e
  obtain ⟨f1, f2, f3⟩ := F.read h e1
  by_cases c1 : n ≠ 30
  · rw [if_pos c1] at e
    cases e
    exact ⟨f1, rfl, (fun z => by cases z), fun z => ⟨rfl, f3 z⟩⟩
  · rw [if_neg c1] at e
    have hx : P.status s.input ≠ .error := fun z => by have := (F.dead h z e1).1; omega
    have alive := f2 (by omega)
    obtain ⟨b0, _, e⟩ := bind_eq_ok e
    obtain ⟨b1, _, e⟩ := bind_eq_ok e
    split at e
    · cases e; exact ⟨f1, rfl, (fun z => by cases z), fun z => absurd z hx⟩
    · obtain ⟨b2, _, e⟩ := bind_eq_ok e
      obtain ⟨b3, _, e⟩ := bind_eq_ok e
      split at e
      · cases e; exact ⟨f1, rfl, fun _ => alive, fun z => absurd z hx⟩
      · obtain ⟨a1, a2, a3⟩ := k_fields F (by exact f1) (by exact ho) e
        exact ⟨a1, a2, fun z => absurd z a3, fun z => absurd z hx⟩

theorem k_next (F : FailStop P H) {mktime : TextUtils.Tm → Int} {s s' : State σ ζ} (h : H s.input) (hn : s.entry = none)
    (ho : s.status = .ok) (e : next P D mktime N s = .ok s') :
    H s'.current ∧ (s'.status = .eof → s'.entry = none ∧ P.status s'.current ≠ .error) ∧
      (P.status s.input = .error → s'.status = .error ∧ s'.entry = none ∧ P.status s'.current = .error) := by
  unfold next at e
  by_cases c1 : P.status s.input = .eof
  · rw [if_pos c1] at e; cases e
    have hc : State.current { s with status := .eof } = s.input := by simp only [State.current, hn]
    rw [hc, c1]
    exact ⟨h, fun _ => ⟨hn, by simp⟩, fun z => by cases z⟩
  · rw [if_neg c1] at e
    obtain ⟨⟨t, l⟩, e1, e⟩ := bind_eq_ok e
    obtain ⟨a1, a2, a3, a4⟩ := k_header F h ho e1
    have hn : t.entry = none := a2.trans hn
    have hc : t.current = t.input := by simp only [State.current, hn]
    dsimp only at e
    by_cases c2 : t.status ≠ .ok
    · rw [if_pos c2] at e; cases e
      rw [hc]
      exact ⟨a1, fun z => ⟨hn, a3 z⟩, fun z => ⟨(a4 z).1, hn, (a4 z).2⟩⟩
    · rw [if_neg c2] at e
      have c2 := Classical.not_not.1 c2
      have hx : P.status s.input ≠ .error := fun z => by
        have := (a4 z).1
        rw [c2] at this; cases this
      split at e
      · cases e
        have hc : State.current { t with status := .error } = t.input := by simp only [State.current, hn]
        rw [hc]
        exact ⟨a1, (fun z => by cases z), fun z => absurd z hx⟩
      · obtain ⟨x, e2, e⟩ := bind_eq_ok e
        cases e
        have hc : State.current { t with entry := some x } = x.input := rfl
        rw [hc]
        refine ⟨?_, fun z => absurd (c2.symm.trans z) (by simp), fun z => absurd z hx⟩
        have op : ∀ {α : Type} (i : α) (u : BufferedStream (Unpack.State α ζ) UInt8), Unpack.openStream D i = .ok u → u.prod.input = i := by
          intro α i u e
          unfold Unpack.openStream BufferedStream.setMinBufSize at e
          obtain ⟨⟨b, w⟩, _, e⟩ := bind_eq_ok e
          cases e; rfl
        unfold openEntry at e2
        split at e2
        · split at e2
          · obtain ⟨z, e3, e2⟩ := bind_eq_ok e2
            obtain ⟨u, e4, e2⟩ := bind_eq_ok e2
            obtain ⟨y, e5, e2⟩ := bind_eq_ok e2
            obtain ⟨_, e3⟩ := assert_eq_ok e3
            obtain ⟨_, e5⟩ := assert_eq_ok e5
            cases e3; cases e5; cases e2
            have := op _ _ e4
            simp only [Entry.input, this]
            exact a1
          · obtain ⟨u, e4, e2⟩ := bind_eq_ok e2
            cases e2
            have := op _ _ e4
            simp only [Entry.input, this]
            exact a1
        · obtain ⟨z, e3, e2⟩ := bind_eq_ok e2
          obtain ⟨_, e3⟩ := assert_eq_ok e3
          cases e3; cases e2
          exact a1

theorem watch (F : FailStop P H) (mktime : TextUtils.Tm → Int) (fuel : Nat) :
    Watch (ops P D mktime N fuel) State.current Entry.input P H where
  atEntry {p e} h := by
    change p.entry = some e at h
    simp only [State.current, h]
  set p e := ⟨rfl, rfl⟩
  read h := k_entry_read F h
  skip h := k_entry_skip F h
  reset h := k_entry_reset F h
  idle {p p'} h e := by
    change p.status ≠ .ok at h
    change nextEntry P D mktime N fuel p = .ok p' at e
    unfold nextEntry at e
    rw [if_pos h] at e; cases e
    exact ⟨rfl, fun _ => rfl, rfl⟩
  next {p p'} h ho e := by
    change p.status = .ok at ho
    change nextEntry P D mktime N fuel p = .ok p' at e
    unfold nextEntry at e
    rw [if_neg (fun z => z ho)] at e
    obtain ⟨⟨s, ok⟩, e1, e⟩ := bind_eq_ok e
    obtain ⟨a1, a2, a3, a4⟩ := k_leave F e1
    obtain ⟨h1, h2⟩ := a1 h
    dsimp only at e
    cases ok with
    | true =>
      rw [if_pos rfl] at e
      obtain ⟨c1, c2, c3⟩ := k_next F h1 a2 ((a3 rfl).trans ho) e
      exact ⟨c1, c2, fun z => c3 (h2 z)⟩
    | false =>
      rw [if_neg (by simp)] at e; cases e
      have hc : p'.current = p'.input := by simp only [State.current, a2]
      have := a4 rfl
      change H p'.current ∧ (p'.status = .eof → p'.entry = none ∧ P.status p'.current ≠ .error) ∧
        (P.status p.current = .error → p'.status = .error ∧ p'.entry = none ∧ P.status p'.current = .error)
      rw [hc, this]
      exact ⟨h1, (fun z => by cases z), fun z => ⟨rfl, a2, h2 z⟩⟩

end Zip

end Strigi
