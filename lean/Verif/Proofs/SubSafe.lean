import Verif.WalkSafeSpec
import Verif.Proofs.Nest
import Verif.Props.Magic
import Verif.Props.Sdf

/-!
# Looking into a file whose bytes may be anything
-/

namespace Strigi
namespace Walk

open Nest

theorem used_trans {C : Facts} {σ : Type} {P : StreamOps σ UInt8} {s s1 : σ} (a : Used C P s s1) :
    ∀ {s2 : σ}, Used C P s1 s2 → Used C P s s2
  | _, .rest => a
  | _, .read u h1 h2 e => .read (used_trans a u) h1 h2 e
  | _, .skip u h1 e => .skip (used_trans a u) h1 e
  | _, .reset u h1 h2 e => .reset (used_trans a u) h1 h2 e
  | _, .inside u v => .inside (used_trans a u) v

/-- A call that does not fail, and ends unless `may`; if it returns, what it returns is fine. -/
def Calm (may : Prop) {α : Type} (x : Res α) (q : α → Prop) : Prop := (∀ f, x ≠ .fault f) ∧ (x = .diverge → may) ∧ ∀ r, x = .ok r → q r

variable {may : Prop}

theorem Calm.ok {α : Type} {a : α} {q : α → Prop} (h : q a) : Calm may (.ok a) q :=
  ⟨fun f => (by simp), fun e => (by cases e), fun r e => by cases e; exact h⟩

theorem Calm.diverge {α : Type} {q : α → Prop} (h : may) : Calm may (.diverge : Res α) q := ⟨fun f => (by simp), fun _ => h, fun r e => (by cases e)⟩

theorem Calm.bind {α β : Type} {x : Res α} {f : α → Res β} {p : α → Prop} {q : β → Prop} (h : Calm may x p) (g : ∀ a, p a → Calm may (f a) q) :
    Calm may (x >>= f) q := by
  cases x with
  | ok a => exact g a (h.2.2 a rfl)
  | fault e => exact absurd rfl (h.1 e)
  | diverge => exact Calm.diverge (h.2.1 rfl)

theorem Calm.imp {α : Type} {x : Res α} {p q : α → Prop} (h : Calm may x p) (g : ∀ a, p a → q a) : Calm may x q :=
  ⟨h.1, h.2.1, fun r e => g r (h.2.2 r e)⟩

theorem Calm.returns {α : Type} {x : Res α} {q : α → Prop} (h : Calm False x q) : ∃ r, x = .ok r := by
  cases x with
  | ok a => exact ⟨a, rfl⟩
  | fault e => exact absurd rfl (h.1 e)
  | diverge => exact (h.2.1 rfl).elim

variable {K : Kit} {B : Bounds K} {T : Nat} {σ₀ : Type} {P₀ : StreamOps σ₀ UInt8} {s₀ : σ₀} {M : Nat}

/-- What is known of a stream that appears. -/
structure Here (K : Kit) (B : Bounds K) (T : Nat) {σ₀ : Type} (P₀ : StreamOps σ₀ UInt8) (s₀ : σ₀) (n : Nat) (C : Facts) {σ : Type}
    (P : StreamOps σ UInt8) (H : σ → Prop) (V : View σ) (s : σ) : Prop where
  inside : Inside K B T P₀ s₀ n C P s
  meets : Meets C P H V
  holds : H s

theorem inside_used {n : Nat} {C : Facts} {σ : Type} {P : StreamOps σ UInt8} {s s' : σ} (i : Inside K B T P₀ s₀ n C P s)
    (u : Used C P s s') : Inside K B T P₀ s₀ n C P s' := by
  cases i with
  | file v => exact .file (used_trans v u)
  | entry a b c d e v => exact .entry a b c d e (used_trans v u)

variable {n : Nat} {C : Facts} {σ : Type} {P : StreamOps σ UInt8} {H : σ → Prop} {V : View σ}

theorem Here.use {s s' : σ} (h : Here K B T P₀ s₀ n C P H V s) (u : Used C P s s') : Here K B T P₀ s₀ n C P H V s' :=
  ⟨inside_used h.inside u, h.meets, used_ok u h.meets h.holds⟩

/-- A use of a stream that does not fail, on `c` more levels. -/
def Harmless (may : Prop) (K : Kit) (B : Bounds K) (T : Nat) {σ₀ : Type} (P₀ : StreamOps σ₀ UInt8) (s₀ : σ₀) (M c : Nat) {α : Type} (u : Use α) : Prop :=
  ∀ (n : Nat) (C : Facts) (σ : Type) (P : StreamOps σ UInt8) (H : σ → Prop) (V : View σ) (s : σ), n + c ≤ M →
    Here K B T P₀ s₀ n C P H V s → Calm may (u σ P s) fun r => Used C P s r.1

/-- To the start. -/
theorem back_start {s : σ} (h : Here K B T P₀ s₀ n C P H V s) : ∃ t r, P.reset s 0 = .ok (t, r) ∧ Used C P s t ∧
    (P.status s ≠ .error → P.status t ≠ .error) := by
  obtain ⟨t, r, e, _⟩ := reset_back h.meets.sturdy h.holds (Int.le_refl 0) (Or.inl rfl)
  refine ⟨t, r, e, .reset .rest (Int.le_refl 0) (Or.inl rfl) e, fun hs => ?_⟩
  have hd := (h.meets.sturdy.sync h.holds hs).1
  obtain ⟨g1, _, _, g4⟩ := h.meets.sturdy.range h.holds hd
  obtain ⟨t', r', e', _, _, k⟩ := h.meets.sturdy.reset h.holds 0 (Int.le_refl 0) (Or.inl (h.meets.sturdy.below g1 g4))
  rw [e] at e'; cases e'
  exact (k hd).1

/-- The first bytes are looked at. -/
theorem look {s : σ} (h : Here K B T P₀ s₀ n C P H V s) {mn : Int} (h1 : 1 ≤ mn) (h2 : mn < 2 ^ 31) {α : Type} {f : σ × Int × List UInt8 → σ × Int → Res α} {q : α → Prop}
    (g : ∀ s1 k d t r, P.read s mn 0 = .ok (s1, k, d) → Used C P s t → Here K B T P₀ s₀ n C P H V t → (k < 0 ∨ k = d.length) → (0 ≤ k → P.status t ≠ .error) → Calm may (f (s1, k, d) (t, r)) q) :
    Calm may (do let r ← P.read s mn 0; let s ← P.reset r.1 0; f r s) q := by
  obtain ⟨s1, k, d, e, _, ger, _, _, _, gd, _⟩ := h.meets.sturdy.read h.holds mn 0 h1 h2
  have u1 : Used C P s s1 := .read .rest h1 h2 e
  obtain ⟨t, r, e2, u2, hs⟩ := back_start (h.use u1)
  rw [e, Res.bind_ok]
  dsimp only
  rw [e2, Res.bind_ok]
  refine g s1 k d t r e (used_trans u1 u2) (h.use (used_trans u1 u2)) ?_ (fun k0 => hs (gd k0).1)
  by_cases k0 : 0 ≤ k
  · exact Or.inr (gd k0).2.1.symm
  · exact Or.inl (by omega)

theorem opens_known (hk : K.Sober) {s : σ} {L : Reader} (h : K.Opens B P s L) : Known L := by
  cases h with
  | format hF => exact (hk _ hF).1
  | gzip => exact .gzip ..
  | bz2 => exact .bz2 ..
  | lzma => exact .lzma ..

/-- The reader is opened on what was read earlier. -/
def Chosen (K : Kit) (B : Bounds K) (T : Nat) {σ₀ : Type} (P₀ : StreamOps σ₀ UInt8) (s₀ : σ₀) (n : Nat) (C : Facts) (P : StreamOps σ UInt8)
    (s : σ) (L : Reader) : Prop := ∃ s', Inside K B T P₀ s₀ n C P s' ∧ K.Opens B P s' L ∧ Used C P s' s

/-- A reader is opened. -/
theorem opened (hk : K.Sober) (hf : Fits K B T P₀ s₀ M) {L : Reader} {s : σ} (h : Here K B T P₀ s₀ n C P H V s) (hL : Chosen K B T P₀ s₀ n C P s L) (hn : n < M)
    (hs : P.status s ≠ .error) : ∃ p, L.new P s = .ok p ∧ Session L C P s p := by
  obtain ⟨s', i, o, u⟩ := hL
  have fit := hf n C σ P s' L hn i o
  obtain ⟨p, I, e, _⟩ := reader_ok (opens_known hk o) fit h.meets h.holds hs
  exact ⟨p, e, .start (opens_known hk o) fit hs e⟩

/-- An entry of it. -/
theorem at_entry {L : Reader} {s : σ} (h : Here K B T P₀ s₀ n C P H V s) (hL : Chosen K B T P₀ s₀ n C P s L) {p : L.State σ} (v : Session L C P s p) {e : L.Entry σ}
    (he : (L.ops P).entry p = some e) : ∃ G W, Here K B T P₀ s₀ (n + 1) (L.entryFacts C P e) (L.ops P).stream G W e := by
  obtain ⟨s', i', o, u⟩ := hL
  obtain ⟨I, m, N, i⟩ := session_ok v h.meets h.holds
  obtain ⟨G, W, M', hG, _⟩ := meets_entry rfl h.meets N i he
  exact ⟨G, W, .entry i' o u v he .rest, M', hG⟩

theorem gzipMagic_calm {d : List UInt8} {k : Int} (h : k < 0 ∨ k = d.length) : ∃ b, gzipMagic d k = .ok b ∧ (b = true → 0 < k) := by
  unfold gzipMagic
  by_cases h2 : k ≥ 2
  · rw [if_pos h2]
    match d, h with
    | [], h => simp at h; omega
    | [a], h => simp at h; omega
    | a :: b :: l, h =>
      have e0 : aget (a :: b :: l) 0 = .ok a := rfl
      have e1 : aget (a :: b :: l) 1 = .ok b := rfl
      rw [e0, Res.bind_ok]
      by_cases ha : a ≠ 0x1f
      · rw [if_pos ha]; exact ⟨_, rfl, fun _ => by omega⟩
      · rw [if_neg ha, e1, Res.bind_ok]; exact ⟨_, rfl, fun _ => by omega⟩
  · rw [if_neg h2]; exact ⟨_, rfl, fun z => by cases z⟩

/-- The common end of the three attempts. -/
theorem attempt {c : Nat} (hn : n + (c + 1) ≤ M) {α : Type} {k : Bool → Use α} (hu : ∀ b, Harmless may K B T P₀ s₀ M c (k b))
    {s₁ s : σ} (hs : Here K B T P₀ s₀ n C P H V s) (u₁ : Used C P s₁ s)
    {yes : Bool} {φ : Type} {A : StreamOps (BufferedStream φ UInt8) UInt8} {new : Res (BufferedStream φ UInt8)} {un : φ → σ}
    (step : yes = true → ∃ b D G W, new = .ok b ∧ Here K B T P₀ s₀ (n + 1) D A G W b ∧ ∀ x, Used D A b x → Used C P s (un x.prod)) :
    Calm may (if yes then do
        let b ← new
        if b.status = .ok then do
          let x ← k true _ A b
          .ok (un x.1.prod, x.2)
        else do
          let s ← P.reset (un b.prod) 0
          k false _ P s.1
      else k false _ P s) fun r => Used C P s₁ r.1 := by
  cases yes with
  | false =>
    rw [if_neg (by simp)]
    have := hu false n C σ P H V s (by omega) hs
    exact this.imp fun r z => used_trans u₁ z
  | true =>
    rw [if_pos rfl]
    obtain ⟨b, D, G, W, e, h', st⟩ := step rfl
    rw [e, Res.bind_ok]
    by_cases hb : b.status = .ok
    · rw [if_pos hb]
      exact Calm.bind (hu true (n + 1) D _ A G W b (by omega) h') fun x hx => Calm.ok (used_trans u₁ (st _ hx))
    · rw [if_neg hb]
      have u := st b .rest
      obtain ⟨t, r, e2, u2, _⟩ := back_start (hs.use u)
      rw [e2, Res.bind_ok]
      have := hu false n C σ P H V t (by omega) (hs.use (used_trans u u2))
      exact this.imp fun r z => used_trans u₁ (used_trans u (used_trans u2 z))

theorem tryGzip_harmless (hk : K.Sober) (hf : Fits K B T P₀ s₀ M) {c : Nat} {α : Type} {k : Bool → Use α} (hu : ∀ b, Harmless may K B T P₀ s₀ M c (k b)) :
    Harmless may K B T P₀ s₀ M (c + 1) (tryGzip K k) := by
  intro n C σ P H V s hn h
  unfold tryGzip
  refine look h (by omega) (by omega) fun s1 m d t r er u ht hm hst => ?_
  dsimp only
  obtain ⟨b, e, hb⟩ := gzipMagic_calm hm
  rw [e, Res.bind_ok]
  refine attempt hn hu ht u (un := Unpack.State.input) fun z => ?_
  subst z
  have ch : Chosen K B T P₀ s₀ n C P t _ := ⟨s, h.inside, .gzip ⟨_, s1, m, d, by omega, by omega, er, e⟩, u⟩
  obtain ⟨p, e, v⟩ := opened hk hf ht ch (by omega) (hst (by have := hb rfl; omega))
  obtain ⟨G, W, h'⟩ := at_entry ht ch v (e := p) rfl
  exact ⟨p, _, G, W, e, h', fun x hx => .inside .rest (.entry v rfl hx)⟩

/-- From what is known of the checks. -/
theorem check_calm {check : List UInt8 → Int → Res Bool} {d : List UInt8} {k : Int} {X : Prop} (h : k < 0 ∨ k = d.length)
    (hc : ∃ b, check d d.length = .ok b ∧ (b = true ↔ X)) (hn : ∀ k, k ≤ 0 → check d k = .ok false) : ∃ b, check d k = .ok b ∧ (b = true → 0 < k) := by
  by_cases hk : k ≤ 0
  · exact ⟨false, hn k hk, fun z => by cases z⟩
  · obtain ⟨b, e, _⟩ := hc
    have hd : k = d.length := h.resolve_left (by omega)
    rw [← hd] at e
    exact ⟨b, e, fun _ => by omega⟩

theorem bz2_calm {d : List UInt8} {k : Int} (h : k < 0 ∨ k = d.length) : ∃ b, BZ2.checkHeader d k = .ok b ∧ (b = true → 0 < k) :=
  check_calm h (Props.C59_bz2 d) fun k hk => by unfold BZ2.checkHeader; rw [if_pos (by omega)]

theorem tryBz2_harmless (hk : K.Sober) (hf : Fits K B T P₀ s₀ M) {c : Nat} {α : Type} {k : Bool → Use α} (hu : ∀ b, Harmless may K B T P₀ s₀ M c (k b)) :
    Harmless may K B T P₀ s₀ M (c + 1) (tryBz2 K k) := by
  intro n C σ P H V s hn h
  unfold tryBz2
  refine look h (by omega) (by omega) fun s1 m d t r er u ht hm hst => ?_
  dsimp only
  obtain ⟨b, e, hb⟩ := bz2_calm hm
  rw [e, Res.bind_ok]
  refine attempt hn hu ht u (un := Unpack.State.input) fun z => ?_
  subst z
  have ch : Chosen K B T P₀ s₀ n C P t _ := ⟨s, h.inside, .bz2 ⟨_, s1, m, d, by omega, by omega, er, e⟩, u⟩
  obtain ⟨p, e, v⟩ := opened hk hf ht ch (by omega) (hst (by have := hb rfl; omega))
  obtain ⟨G, W, h'⟩ := at_entry ht ch v (e := p) rfl
  exact ⟨p, _, G, W, e, h', fun x hx => .inside .rest (.entry v rfl hx)⟩

theorem lzma_calm {d : List UInt8} {k : Int} (h : k < 0 ∨ k = d.length) : ∃ b, Lzma.checkHeader d k = .ok b ∧ (b = true → 0 < k) :=
  check_calm h (Props.C59_lzma d) fun k hk => by unfold Lzma.checkHeader; rw [if_pos (by omega)]

theorem tryLzma_harmless (hk : K.Sober) (hf : Fits K B T P₀ s₀ M) {c : Nat} {α : Type} {k : Bool → Use α} (hu : ∀ b, Harmless may K B T P₀ s₀ M c (k b)) :
    Harmless may K B T P₀ s₀ M (c + 1) (tryLzma K k) := by
  intro n C σ P H V s hn h
  unfold tryLzma
  refine look h (by omega) (by omega) fun s1 m d t r er u ht hm hst => ?_
  dsimp only
  obtain ⟨b, e, hb⟩ := lzma_calm hm
  rw [e, Res.bind_ok]
  refine attempt hn hu ht u (un := LzmaStream.State.input) fun z => ?_
  subst z
  have ch : Chosen K B T P₀ s₀ n C P t _ := ⟨s, h.inside, .lzma ⟨_, s1, m, d, by omega, by omega, er, e⟩, u⟩
  obtain ⟨p, e, v⟩ := opened hk hf ht ch (by omega) (hst (by have := hb rfl; omega))
  obtain ⟨G, W, h'⟩ := at_entry ht ch v (e := p) rfl
  exact ⟨p, _, G, W, e, h', fun x hx => .inside .rest (.entry v rfl hx)⟩

theorem Harmless.mono {c c' : Nat} (h : c ≤ c') {α : Type} {u : Use α} (hu : Harmless may K B T P₀ s₀ M c u) : Harmless may K B T P₀ s₀ M c' u :=
  fun n C σ P H V s hn => hu n C σ P H V s (by omega)

theorem unpack_harmless (hk : K.Sober) (hf : Fits K B T P₀ s₀ M) {c : Nat} {α : Type} {k : Use α} (hu : Harmless may K B T P₀ s₀ M c k) :
    ∀ m, Harmless may K B T P₀ s₀ M (c + 3 * m) (unpack K k m)
  | 0 => hu
  | m + 1 => by
    have ih := unpack_harmless hk hf hu m
    refine tryBz2_harmless hk hf fun f1 => tryGzip_harmless hk hf fun f2 => tryLzma_harmless (c := c + 3 * m) hk hf fun f3 => ?_
    intro n C σ P H V s hn h
    by_cases hf : f1 || f2 || f3
    · rw [if_pos hf]; exact ih n C σ P H V s hn h
    · rw [if_neg hf]; exact hu n C σ P H V s (by omega) h

theorem choose_calm (hk : K.Sober) (hf : Fits K B T P₀ s₀ M) (hn : n < M) {α : Type} {none' : α} {k : (F : Format) → F.reader.State σ → Res (σ × α)}
    {s₁ : σ} (hkk : ∀ F ∈ K.subs, ∀ s p, Used C P s₁ s → Here K B T P₀ s₀ n C P H V s → Chosen K B T P₀ s₀ n C P s F.reader → Session F.reader C P s p →
      (P.status s ≠ .error ∧ ∃ p₀, F.reader.new P s = .ok p₀ ∧ (F.reader.ops P).nextEntry p₀ = .ok p) → Calm may (k F p) fun r => Used C P s₁ r.1) :
    ∀ l : List Format, (∀ F ∈ l, F ∈ K.subs) → ∀ (s : σ) (d : List UInt8) (m : Int), Used C P s₁ s → Here K B T P₀ s₀ n C P H V s →
      (m < 0 ∨ m = d.length) → (0 ≤ m → P.status s ≠ .error) →
      (∃ s' mn s1, Inside K B T P₀ s₀ n C P s' ∧ Used C P s' s ∧ 1 ≤ mn ∧ mn < 2 ^ 31 ∧ P.read s' mn 0 = .ok (s1, m, d)) →
      Calm may (choose P none' k l s d m) fun r => Used C P s₁ r.1
  | [], _, s, d, m, u, _, _, _, _ => Calm.ok u
  | F :: l, hl, s, d, m, u, h, hm, hst, hr => by
    have hF := hl F (by simp)
    have ih := choose_calm (none' := none') hk hf hn hkk l (fun G hG => hl G (by simp [hG]))
    unfold choose
    obtain ⟨b, e, hb⟩ := (hk F hF).2 d m hm
    rw [e, Res.bind_ok]
    cases b with
    | false => rw [if_neg (by simp)]; exact ih s d m u h hm hst hr
    | true =>
      rw [if_pos rfl]
      obtain ⟨s', mn, s1, i', u', m1, m2, er⟩ := hr
      have ch : Chosen K B T P₀ s₀ n C P s F.reader := ⟨s', i', .format hF ⟨mn, s1, m, d, m1, m2, er, e⟩, u'⟩
      have hst0 : P.status s ≠ .error := hst (by have := hb rfl; omega)
      obtain ⟨p, en, v⟩ := opened hk hf h ch hn hst0
      obtain ⟨I, i, N, hI⟩ := session_ok v h.meets h.holds
      obtain ⟨p', e', _⟩ := N.next hI
      have v' := Session.next v e'
      rw [en, Res.bind_ok, e', Res.bind_ok]
      cases he : (F.reader.ops P).entry p' with
      | some x => exact hkk F hF s p' u h ch v' ⟨hst0, p, en, e'⟩
      | none =>
        dsimp only
        have u1 : Used C P s (F.reader.under p') := .inside .rest v'
        obtain ⟨t, r, e2, u2, _⟩ := back_start (h.use u1)
        rw [e2, Res.bind_ok]
        dsimp only
        refine look ((h.use u1).use u2) (by omega) (by omega) fun s1 m' d' t' r' er' u3 ht hm' hst' => ?_
        exact ih t' d' m' (used_trans u (used_trans u1 (used_trans u2 u3))) ht hm' hst' ⟨t, 1, s1, ((h.use u1).use u2).inside, u3, by omega, by omega, er'⟩

theorem toEnd_calm {s₁ : σ} : ∀ (m : Nat) (s : σ), Used C P s₁ s → Here K B T P₀ s₀ n C P H V s → Calm True (readToEnd P m s) fun r => Used C P s₁ r
  | 0, _, _, _ => Calm.diverge trivial
  | m + 1, s, u, h => by
    unfold readToEnd
    obtain ⟨s1, k, d, e, _⟩ := h.meets.sturdy.read h.holds 1 0 (by omega) (by omega)
    have u1 : Used C P s s1 := .read .rest (by omega) (by omega) e
    rw [e, Res.bind_ok]
    dsimp only
    by_cases hk : k > 0
    · rw [if_pos hk]; exact toEnd_calm m s1 (used_trans u u1) (h.use u1)
    · rw [if_neg hk]; exact Calm.ok (used_trans u u1)

theorem measure_calm {s : σ} (h : Here K B T P₀ s₀ n C P H V s) (N : Nat) (size : Int) : Calm True (measure P N size s) fun r => Used C P s r.1 := by
  unfold measure
  by_cases hs : size < 0
  · rw [if_pos hs]
    exact Calm.bind (toEnd_calm N s .rest h) fun t ht => Calm.ok ht
  · rw [if_neg hs]; exact Calm.ok .rest

theorem entries_calm {c : Nat} (hn : n + 1 + c ≤ M) {inner : Use Contents} (hi : Harmless True K B T P₀ s₀ M c inner) {L : Reader} {s : σ}
    (h : Here K B T P₀ s₀ n C P H V s) (hL : Chosen K B T P₀ s₀ n C P s L) : ∀ (m : Nat) (p : L.State σ), Session L C P s p → Calm True (entries K inner L P m p) fun r => Session L C P s r.1
  | 0, _, _ => Calm.diverge trivial
  | m + 1, p, v => by
    unfold entries
    cases he : (L.ops P).entry p with
    | none => exact Calm.ok v
    | some e =>
      dsimp only
      obtain ⟨G, W, h'⟩ := at_entry h hL v he
      refine Calm.bind (hi _ _ _ _ G W e hn h') fun x hx => ?_
      refine Calm.bind (measure_calm (h'.use hx) K.N _) fun y hy => ?_
      have v1 := Session.entry v he (used_trans hx hy)
      obtain ⟨I, i, N, hI⟩ := session_ok v1 h.meets h.holds
      obtain ⟨p', e', _⟩ := N.next hI
      rw [e', Res.bind_ok]
      exact Calm.bind (entries_calm hn hi h hL m p' (.next v1 e')) fun r hr => Calm.ok hr

theorem walk_harmless (hk : K.Sober) (hf : Fits K B T P₀ s₀ M) : ∀ d : Nat, Harmless True K B T P₀ s₀ M (100 * d) (walk K d)
  | 0 => fun _ _ _ _ _ _ _ _ _ => Calm.diverge trivial
  | d + 1 => by
    have ih := walk_harmless hk hf d
    have key : Harmless True K B T P₀ s₀ M (100 * d + 1) (fun (σ : Type) (P : StreamOps σ UInt8) (s : σ) => do
        let r ← P.read s 1024 0
        let s ← P.reset r.1 0
        choose P Contents.nil (fun F p => do
          let x ← entries K (walk K d) F.reader P K.N p
          .ok (F.reader.under x.1, x.2)) K.subs s.1 r.2.2 r.2.1) := by
      intro n C σ P H V s hn h
      refine look h (by omega) (by omega) fun s1 m d' t r er u ht hm hst => ?_
      refine choose_calm hk hf (by omega) ?_ K.subs (fun F hF => hF) t d' m u ht hm hst ⟨s, 1024, s1, h.inside, u, by omega, by omega, er⟩
      intro F hF s2 p u2 h2 ch v _
      exact Calm.bind (entries_calm (by omega) ih h2 ch K.N p v) fun x hx => Calm.ok (used_trans u2 (.inside .rest hx))
    exact (unpack_harmless hk hf key 33).mono (by omega)

end Walk
end Strigi
