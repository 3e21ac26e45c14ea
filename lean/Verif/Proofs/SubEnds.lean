import Verif.Proofs.SubSafe

/-!
# Looking into archives with stored entries ends
-/

namespace Strigi
namespace Walk

open Nest

/-! ## Readers whose entries are shorter than the stream on which they are opened -/

section
variable {σ : Type} {P : StreamOps σ UInt8} {lo : Int} {H : σ → Prop} {V : View σ}

/-- Before a `reset` no more bytes are delivered only if all were. -/
def Sharp {σ : Type} (H : σ → Prop) (V : View σ) : Prop := ∀ {s : σ}, H s → V.fin s → ¬ V.dead s → V.loc s = V.total

theorem sub_sharp (S : Sturdy P lo H V) (h : Sharp H V) (o z : Int) : Sharp (SubInputStream.Inside P V H o z) (SubInputStream.view V o z) := by
  rintro e ⟨u, rfl, rfl⟩ hf hd
  have hd : ¬ V.dead e.parent := hd
  obtain ⟨h1, h2, h3, h4⟩ := u.sync hd
  obtain ⟨r1, r2, _⟩ := S.range u.parent hd
  have := u.size
  simp only [SubInputStream.view] at hf ⊢
  rcases hf with hf | hf
  · have := h u.parent hf hd
    omega
  · omega

/-- An entry is shorter than the stream, and there are not more entries than bytes. -/
structure Steady {π ε : Type} (V : View σ) (A : ProviderOps π ε) (I : Nat → π → Prop) : Prop where
  next : ∀ {n p}, I n p → ∃ p', A.nextEntry p = .ok p' ∧ I (match A.entry p' with | some _ => n + 1 | none => n) p'
  entry : ∀ {n p e}, I n p → 1 ≤ n → A.entry p = some e → ∃ G W, Sturdy A.stream 1 G W ∧ G e ∧ W.total < V.total ∧ Sharp G W ∧
    (V.back → W.back) ∧ (∃ o, ∀ q d, W.gives q d → V.gives (q + o) d) ∧ ∀ e', G e' → I n (A.setEntry p e')
  bound : ∀ {n p}, I n p → n ≤ V.total

theorem tame_steady {π : Type} {A : ProviderOps π (SubInputStream σ)} {I : Nat → π → Prop} (S : Sturdy P lo H V) (hlo : lo ≤ 1)
    (T : Tame P V H A I) (hb : ∀ {n p}, I n p → n ≤ V.total) (hS : Sharp H V)
    (ho : ∀ {n p e}, I n p → A.entry p = some e → (n : Int) ≤ e.offset ∨ e.size < V.total) : Steady V A I where
  next := by
    intro n p h
    obtain ⟨p', e, i⟩ := T.next h
    refine ⟨p', e, ?_⟩
    cases hh : A.entry p' <;> rw [hh] at i <;> exact i
  bound := hb
  entry := by
    intro n p e h hn he
    have u := T.entry h he
    refine ⟨SubInputStream.Inside P V H e.offset e.size, SubInputStream.view V e.offset e.size, ?_, ⟨u, rfl, rfl⟩, ?_, sub_sharp S hS _ _, id, ⟨e.offset, fun _ _ z => z⟩,
      fun e' g => T.set h he g.1 g.2.2 g.2.1⟩
    · rw [T.stream]; exact SubInputStream.sturdy S hlo _ _
    · have h1 := ho h he
      have h2 := hb h
      simp only [SubInputStream.view]; rcases h1 with h1 | h1 <;> omega

/-- Readers with stored entries. -/
inductive Flat : Reader → Prop
  | tar (fuel : Nat) : Flat (tar fuel)
  | cpio (fuel : Nat) : Flat (cpio fuel)
  | ar (fuel : Nat) : Flat (ar fuel)
  | sdf (fuel : Nat) : Flat (sdf fuel)

theorem ok_steady {w n : Nat} (hw : 1 ≤ w) {s : Provider σ} (h : s.Ok P V H w n) : n ≤ V.total ∧ ∀ e, s.entry = some e → (n : Int) ≤ e.offset ∨ e.size < V.total := by
  have m : n ≤ w * n := Nat.le_mul_of_pos_left _ hw
  refine ⟨Nat.le_trans m h.bound, fun e he => ?_⟩
  have := (h.entry e he).2.2
  rw [← Int.natCast_mul] at this
  exact Or.inl (by omega)

theorem flat_ok {L : Reader} (hL : Flat L) {C : Facts} (hf : L.fits C) (M : Meets C P H V) (hS : Sharp H V) {s : σ} (h : H s)
    (hs : P.status s ≠ .error) : ∃ p I, L.new P s = .ok p ∧ Steady V (L.ops P) I ∧ I 0 p := by
  have S := M.sturdy
  have hT := M.total
  obtain ⟨o, hg⟩ := M.gives
  cases hL with
  | tar fuel =>
    obtain ⟨f1, f2⟩ := hf
    exact ⟨_, _, rfl, tame_steady S (by omega) (Tar.tame S (by omega) (fun p d z => f2 _ _ (hg p d z)) (fuel := fuel) (by omega))
      (fun {n p} z => (ok_steady (by omega) z.1).1) hS (fun {n p e} z he => (ok_steady (by omega) z.1).2 e he), Tar.new_ok S h⟩
  | cpio fuel =>
    obtain ⟨f1, f2⟩ := hf
    refine ⟨_, _, rfl, tame_steady S (by omega) (Cpio.tame S (by omega) (fun p b z => ?_) (fuel := fuel) (by omega))
      (fun {n p} z => (ok_steady (by omega) z.1).1) hS (fun {n p e} z he => (ok_steady (by omega) z.1).2 e he), Cpio.new_ok S h⟩
    intro hl hm
    obtain ⟨size, ns, k1, k2, k3, k4, k5⟩ := f2 _ _ (hg p b z) hl hm
    refine ⟨size, ns, k1, k2, k3, k4, fun b' z' => k5 b' ?_⟩
    have := hg _ _ z'
    rwa [show p + 110 + o = p + o + 110 by omega] at this
  | ar fuel =>
    obtain ⟨f1, f2⟩ := hf
    obtain ⟨p, e, i⟩ := Ar.new_total S (by omega) h
    exact ⟨p, _, e, tame_steady S (by omega) (Ar.tame S (by omega) (Or.inr fun p b z => f2 _ _ (hg p b z)) (fuel := fuel) (by omega))
      (fun {n p} z => (ok_steady (by omega) z).1) hS (fun {n p e} z he => (ok_steady (by omega) z).2 e he), i⟩
  | sdf fuel =>
    obtain ⟨f1, f2, f3⟩ := hf
    obtain ⟨hd, hp⟩ := S.sync h hs
    obtain ⟨r1, _, _, r4⟩ := S.range h hd
    exact ⟨_, _, rfl, tame_steady S (by omega) (Sdf.tame (sharp := True) S (by omega) (f3.elim (fun z => Or.inr (M.whole z)) (fun z => Or.inl (M.back z)))
      (S.below r1 r4) (fun _ => hS) (by omega) fuel (by omega)) (fun {n p} z => by have := z.count trivial; omega) hS
      (fun {n p e} z he => by obtain ⟨_, _, _, _, a, _⟩ := z.some e he; exact Or.inr (by omega)), Sdf.new_ok h⟩

theorem flat_stored {L : Reader} (hL : Flat L) {σ : Type} (e : L.Entry σ) : L.stored e := by
  cases hL <;> exact trivial

theorem flat_out {L : Reader} (hL : Flat L) {σ : Type} (e : L.Entry σ) (n : Nat) : L.out e n = n := by
  cases hL <;> rfl

end

variable {K : Kit} {B : Bounds K} {T : Nat} {σ₀ : Type} {P₀ : StreamOps σ₀ UInt8} {s₀ : σ₀} {M : Nat}
variable {n : Nat} {C : Facts} {σ : Type} {P : StreamOps σ UInt8} {H : σ → Prop} {V : View σ}

/-- Reading to the end ends. -/
theorem toEnd_ends {s₁ : σ} : ∀ (m : Nat) (s : σ), 1 ≤ m → (¬ V.dead s → (V.total : Int) < m + V.loc s) → Used C P s₁ s →
    Here K B T P₀ s₀ n C P H V s → Calm False (readToEnd P m s) fun r => Used C P s₁ r
  | 0, _, h0, _, _, _ => by omega
  | m + 1, s, _, hm, u, h => by
    unfold readToEnd
    obtain ⟨s1, k, d, e, h1, _, _, _, _, gd, _, gl⟩ := h.meets.sturdy.read h.holds 1 0 (by omega) (by omega)
    have u1 : Used C P s s1 := .read .rest (by omega) (by omega) e
    rw [e, Res.bind_ok]
    dsimp only
    by_cases hk : k > 0
    · rw [if_pos hk]
      obtain ⟨g1, _, _, g4⟩ := gd (by omega)
      obtain ⟨g5, _⟩ := h.meets.sturdy.sync h1 g1
      have r := h.meets.sturdy.range h1 g5
      have := hm (gl g5).1
      exact toEnd_ends m s1 (by omega) (fun _ => by omega) (used_trans u u1) (h.use u1)
    · rw [if_neg hk]; exact Calm.ok (used_trans u u1)

theorem measure_ends {s : σ} (h : Here K B T P₀ s₀ n C P H V s) (N : Nat) (size : Int) (hN : V.total < N) : Calm False (measure P N size s) fun r => Used C P s r.1 := by
  unfold measure
  by_cases hs : size < 0
  · rw [if_pos hs]
    refine Calm.bind (toEnd_ends N s (by omega) (fun hd => ?_) .rest h) fun t ht => Calm.ok ht
    have := h.meets.sturdy.range h.holds hd
    omega
  · rw [if_neg hs]; exact Calm.ok .rest

/-- A use of a stream of less than `d` bytes that returns, on `c` more levels. -/
def Ends (K : Kit) (B : Bounds K) (T : Nat) {σ₀ : Type} (P₀ : StreamOps σ₀ UInt8) (s₀ : σ₀) (M c d : Nat) {α : Type} (u : Use α) : Prop :=
  ∀ (n : Nat) (C : Facts) (σ : Type) (P : StreamOps σ UInt8) (H : σ → Prop) (V : View σ) (s : σ), n + c ≤ M → V.total < d → Sharp H V →
    Here K B T P₀ s₀ n C P H V s → Calm False (u σ P s) fun r => Used C P s r.1

theorem entries_ends {c d : Nat} (hn : n + 1 + c ≤ M) {inner : Use Contents} (hi : Ends K B T P₀ s₀ M c d inner) {L : Reader} (hL : Flat L) {s : σ}
    (h : Here K B T P₀ s₀ n C P H V s) (hd : V.total < d + 1) (hN : V.total < K.N) (hC : Chosen K B T P₀ s₀ n C P s L) {I : Nat → L.State σ → Prop}
    (S : Steady V (L.ops P) I) :
    ∀ (m i : Nat) (p : L.State σ), 1 ≤ m → ((L.ops P).entry p ≠ none → 1 ≤ i ∧ V.total + 1 < i + m) → I i p → Session L C P s p →
      Calm False (entries K inner L P m p) fun r => Session L C P s r.1
  | 0, _, _, h0, _, _, _ => by omega
  | m + 1, i, p, _, hm, hI, v => by
    unfold entries
    cases he : (L.ops P).entry p with
    | none => exact Calm.ok v
    | some e =>
      dsimp only
      obtain ⟨i1, i2⟩ := hm (by rw [he]; simp)
      obtain ⟨G, W, SW, hG, ht, hS, hb, ⟨o, hg⟩, hset⟩ := S.entry hI i1 he
      obtain ⟨u, hu⟩ := h.meets.gives
      have hs := flat_stored hL e
      have MW : Meets (L.entryFacts C P e) (L.ops P).stream G W := by
        refine ⟨SW, ?_, ⟨o + u, fun p d z => Or.inl ⟨hs, ?_⟩⟩, fun z => absurd hs z.1, fun z => hb (h.meets.back z.2)⟩
        · show _ ≤ L.out e C.size
          rw [flat_out hL]
          have := h.meets.total
          omega
        · rw [← Int.add_assoc]
          exact hu _ _ (hg p d z)
      obtain ⟨s', i', op, us⟩ := hC
      have h' : Here K B T P₀ s₀ (n + 1) (L.entryFacts C P e) (L.ops P).stream G W e := ⟨.entry i' op us v he .rest, MW, hG⟩
      refine Calm.bind (hi _ _ _ _ G W e hn (by omega) hS h') fun x hx => ?_
      refine Calm.bind (measure_ends (h'.use hx) K.N _ (by omega)) fun y hy => ?_
      have v1 := Session.entry v he (used_trans hx hy)
      have I1 := hset _ (used_ok (used_trans hx hy) MW hG)
      obtain ⟨p', e', I2⟩ := S.next I1
      rw [e', Res.bind_ok]
      have bd := S.bound hI
      cases he' : (L.ops P).entry p' with
      | none =>
        rw [he'] at I2
        exact Calm.bind (entries_ends hn hi hL h hd hN ⟨s', i', op, us⟩ S m i p' (by omega) (fun z => absurd he' z) I2 (.next v1 e')) fun r hr => Calm.ok hr
      | some x =>
        rw [he'] at I2
        exact Calm.bind (entries_ends hn hi hL h hd hN ⟨s', i', op, us⟩ S m (i + 1) p' (by omega) (fun _ => ⟨by omega, by omega⟩) I2 (.next v1 e')) fun r hr => Calm.ok hr

/-- No compressed data is found. -/
def Unpacked (K : Kit) (B : Bounds K) (T : Nat) {σ₀ : Type} (P₀ : StreamOps σ₀ UInt8) (s₀ : σ₀) : Prop :=
  ∀ (n : Nat) (C : Facts) (σ : Type) (P : StreamOps σ UInt8) (s : σ), Inside K B T P₀ s₀ n C P s →
    ¬ Recognised P s gzipMagic ∧ ¬ Recognised P s BZ2.checkHeader ∧ ¬ Recognised P s Lzma.checkHeader

theorem tryGzip_ends (hu : Unpacked K B T P₀ s₀) {c d : Nat} {α : Type} {k : Bool → Use α} (hk : Ends K B T P₀ s₀ M c d (k false)) :
    Ends K B T P₀ s₀ M c d (tryGzip K k) := by
  intro n C σ P H V s hn hd hS h
  unfold tryGzip
  refine look h (by omega) (by omega) fun s1 m d t r er u ht hm hst => ?_
  dsimp only
  obtain ⟨b, e, hb⟩ := gzipMagic_calm hm
  rw [e, Res.bind_ok]
  cases b with
  | true => exact absurd ⟨_, s1, m, d, by omega, by omega, er, e⟩ (hu _ _ _ _ _ h.inside).1
  | false =>
    rw [if_neg (by simp)]
    exact (hk n C σ P H V t hn hd hS ht).imp fun r z => used_trans u z

theorem tryBz2_ends (hu : Unpacked K B T P₀ s₀) {c d : Nat} {α : Type} {k : Bool → Use α} (hk : Ends K B T P₀ s₀ M c d (k false)) :
    Ends K B T P₀ s₀ M c d (tryBz2 K k) := by
  intro n C σ P H V s hn hd hS h
  unfold tryBz2
  refine look h (by omega) (by omega) fun s1 m d t r er u ht hm hst => ?_
  dsimp only
  obtain ⟨b, e, hb⟩ := bz2_calm hm
  rw [e, Res.bind_ok]
  cases b with
  | true => exact absurd ⟨_, s1, m, d, by omega, by omega, er, e⟩ (hu _ _ _ _ _ h.inside).2.1
  | false =>
    rw [if_neg (by simp)]
    exact (hk n C σ P H V t hn hd hS ht).imp fun r z => used_trans u z

theorem tryLzma_ends (hu : Unpacked K B T P₀ s₀) {c d : Nat} {α : Type} {k : Bool → Use α} (hk : Ends K B T P₀ s₀ M c d (k false)) :
    Ends K B T P₀ s₀ M c d (tryLzma K k) := by
  intro n C σ P H V s hn hd hS h
  unfold tryLzma
  refine look h (by omega) (by omega) fun s1 m d t r er u ht hm hst => ?_
  dsimp only
  obtain ⟨b, e, hb⟩ := lzma_calm hm
  rw [e, Res.bind_ok]
  cases b with
  | true => exact absurd ⟨_, s1, m, d, by omega, by omega, er, e⟩ (hu _ _ _ _ _ h.inside).2.2
  | false =>
    rw [if_neg (by simp)]
    exact (hk n C σ P H V t hn hd hS ht).imp fun r z => used_trans u z

theorem unpack_ends (hu : Unpacked K B T P₀ s₀) {c d : Nat} {α : Type} {k : Use α} (hk : Ends K B T P₀ s₀ M c d k) :
    ∀ m, Ends K B T P₀ s₀ M c d (unpack K k m)
  | 0 => hk
  | m + 1 => by
    refine tryBz2_ends hu (tryGzip_ends hu (tryLzma_ends hu ?_))
    intro n C σ P H V s hn hd hS h
    exact hk n C σ P H V s hn hd hS h

theorem walk_ends (hk : K.Sober) (hf : Fits K B T P₀ s₀ M) (hu : Unpacked K B T P₀ s₀) (hL : ∀ F ∈ K.subs, Flat F.reader)
    (hN : ∀ (n : Nat) (C : Facts) (σ : Type) (P : StreamOps σ UInt8) (s : σ), Inside K B T P₀ s₀ n C P s → C.size < K.N) :
    ∀ d : Nat, Ends K B T P₀ s₀ M (100 * d) d (walk K d)
  | 0 => fun _ _ _ _ _ _ _ _ hd => by omega
  | d + 1 => by
    have ih := walk_ends hk hf hu hL hN d
    have key : Ends K B T P₀ s₀ M (100 * d + 1) (d + 1) (fun (σ : Type) (P : StreamOps σ UInt8) (s : σ) => do
        let r ← P.read s 1024 0
        let s ← P.reset r.1 0
        choose P Contents.nil (fun F p => do
          let x ← entries K (walk K d) F.reader P K.N p
          .ok (F.reader.under x.1, x.2)) K.subs s.1 r.2.2 r.2.1) := by
      intro n C σ P H V s hn hd hS h
      have hN' : V.total < K.N := Nat.lt_of_le_of_lt h.meets.total (hN _ _ _ _ _ h.inside)
      refine look h (by omega) (by omega) fun s1 m d' t r er u ht hm hst => ?_
      refine choose_calm hk hf (by omega) ?_ K.subs (fun F hF => hF) t d' m u ht hm hst ⟨s, 1024, s1, h.inside, u, by omega, by omega, er⟩
      rintro F hF s2 p u2 h2 ch v ⟨hs2, p0, e0, e1⟩
      have fit : F.reader.fits C := by
        obtain ⟨s', i, o, _⟩ := ch
        exact hf n C σ P s' _ (by omega) i o
      obtain ⟨p0', I, e0', S, hI⟩ := flat_ok (hL F hF) fit h2.meets hS h2.holds hs2
      rw [e0] at e0'; cases e0'
      obtain ⟨p', e1', hI'⟩ := S.next hI
      rw [e1] at e1'; cases e1'
      refine Calm.bind (p := fun r => Session F.reader C P s2 r.1) ?_ fun x hx => Calm.ok (used_trans u2 (.inside .rest hx))
      cases he : (F.reader.ops P).entry p with
      | none =>
        rw [he] at hI'
        exact entries_ends (by omega) ih (hL F hF) h2 hd hN' ch S K.N _ p (by omega) (fun z => absurd he z) hI' v
      | some x =>
        rw [he] at hI'
        exact entries_ends (by omega) ih (hL F hF) h2 hd hN' ch S K.N 1 p (by omega) (fun _ => ⟨by omega, by omega⟩) hI' v
    intro n C σ P H V s hn hd hS h
    exact unpack_ends hu key 33 n C σ P H V s (by omega) hd hS h

/-- A file. -/
theorem file_sharp {c : List UInt8} {lo : Int} {H : σ → Prop} (R : Robust P c lo H) (hlo : lo ≤ 1) {input : σ} (h : H input) :
    ∃ G V, Meets (fileFacts P c.length input) P G V ∧ G input ∧ Sharp G V := by
  refine ⟨_, _, ⟨R.sturdy.restrict hlo (lim := fun _ => True) (fun _ _ => trivial) input (B := GoesBack P input) ?_, Nat.le_refl _, ⟨0, fun p d z => ?_⟩, fun _ _ => trivial, id⟩,
    ⟨h, Or.inr .rest⟩, fun _ hf hd => hf.resolve_left hd⟩
  · intro hb s s' q r _ h2 h3 h4 h5 h6
    exact hb s s' q r h2 h3 h4 h5 h6
  · rw [Int.add_zero]; exact z

end Walk
end Strigi
