import Verif.Proofs.Robust
import Verif.Proofs.Kmp
import Verif.Proofs.Tar
import Verif.Proofs.Cpio
import Verif.Model.Ar
import Verif.Model.Tar
import Verif.Model.Cpio

/-!
# Archive readers on arbitrary bytes
-/

namespace Strigi

namespace CLib

theorem skipSpace_total : ∀ (m : List UInt8), 0 ∈ m → ∃ m', skipSpace m = .ok m' ∧ 0 ∈ m' := by
  intro m
  induction m with
  | nil => intro h; cases h
  | cons b m ih =>
    intro h
    unfold skipSpace
    by_cases hb : isSpace b = true
    · rw [if_pos hb]
      apply ih
      rcases List.mem_cons.1 h with h | h
      · subst h; exact absurd hb (by decide)
      · exact h
    · rw [if_neg hb]
      exact ⟨_, rfl, h⟩

theorem digits_total (base : Nat) : ∀ (m : List UInt8) (v : Nat) (any : Bool), 0 ∈ m → ∃ r, digits base m v any = .ok r := by
  intro m
  induction m with
  | nil => intro _ _ h; cases h
  | cons b m ih =>
    intro v any h
    unfold digits
    cases hd : digit base b with
    | none => exact ⟨_, rfl⟩
    | some k =>
      simp only
      apply ih
      rcases List.mem_cons.1 h with h | h
      · subst h; simp [digit] at hd
      · exact h

theorem number_total (base : Nat) {m : List UInt8} (h : 0 ∈ m) : ∃ r, number base m = .ok r := by
  obtain ⟨m', e, h'⟩ := skipSpace_total m h
  unfold number
  rw [e, Res.bind_ok]
  cases m' with
  | nil => cases h'
  | cons b l =>
    simp only
    have key : ∀ x : Bool × List UInt8, 0 ∈ x.2 → ∃ r : Option Int, (match x with
        | (neg, m) => do
          let __discr ← digits base m 0 false
          match __discr with
          | (v, any) => Res.ok (if any = true then some (if neg = true then -(v : Int) else v) else none)) = .ok r := by
      rintro ⟨neg, m⟩ hm
      obtain ⟨⟨v, any⟩, e⟩ := digits_total base m 0 false hm
      simp only
      rw [e, Res.bind_ok]
      exact ⟨_, rfl⟩
    refine key _ ?_
    by_cases h1 : b = 45
    · rw [if_pos h1]
      rcases List.mem_cons.1 h' with z | z
      · subst z; cases h1
      · exact z
    · rw [if_neg h1]
      by_cases h2 : b = 43
      · rw [if_pos h2]
        rcases List.mem_cons.1 h' with z | z
        · subst z; cases h2
        · exact z
      · rw [if_neg h2]; exact h'

theorem narrow32_range (x : Int) : -(2 ^ 31) ≤ narrow32 x ∧ narrow32 x < 2 ^ 31 := by
  unfold narrow32
  have h1 := Int.le_bmod (x := x) (m := 2 ^ 32) (by decide)
  have h2 := Int.bmod_lt (x := x) (m := 2 ^ 32) (by decide)
  omega

theorem atoi_total {m : List UInt8} (h : 0 ∈ m) : ∃ v, atoi m = .ok v ∧ -(2 ^ 31) ≤ v ∧ v < 2 ^ 31 := by
  obtain ⟨r, e⟩ := number_total 10 h
  unfold atoi
  rw [e, Res.bind_ok]
  cases r with
  | none => exact ⟨0, rfl, by omega, by omega⟩
  | some v => exact ⟨_, rfl, narrow32_range _⟩

theorem scanOctal_total {m : List UInt8} (h : 0 ∈ m) : scanOctal m = .ok none ∨
    ∃ v, scanOctal m = .ok (some v) ∧ -(2 ^ 31) ≤ v ∧ v < 2 ^ 31 := by
  obtain ⟨r, e⟩ := number_total 8 h
  unfold scanOctal
  rw [e, Res.bind_ok]
  cases r with
  | none => exact Or.inl rfl
  | some v =>
    simp only
    split
    · exact Or.inr ⟨_, rfl, narrow32_range _⟩
    · exact Or.inr ⟨_, rfl, narrow32_range _⟩

end CLib

theorem aget_total {α : Type} {l : List α} {i : Int} (h0 : 0 ≤ i) (h1 : i < l.length) : ∃ a, aget l i = .ok a := by
  have hn : i.toNat < l.length := by omega
  exact ⟨l[i.toNat], by unfold aget; rw [if_pos h0, List.getElem?_eq_getElem hn]⟩

variable {σ : Type} {P : StreamOps σ UInt8} {lo : Int} {H : σ → Prop} {V : View σ}

/-- What holds for a provider whatever the input and the client: there were `n` entries, with headers of `w` bytes. -/
structure Provider.Ok (P : StreamOps σ UInt8) (V : View σ) (H : σ → Prop) (w n : Nat) (s : Provider σ) : Prop where
  entry : ∀ e, s.entry = some e → SubInputStream.Usable P V H e ∧ s.status = .ok ∧ (w : Int) * n ≤ e.offset
  input : s.entry = none → H s.input ∧ (s.status = .ok → P.status s.input ≠ .error → (w : Int) * n ≤ P.position s.input)
  bound : w * n ≤ V.total

theorem Provider.Ok.set {w n : Nat} {s : Provider σ} {e e' : SubInputStream σ} (h : s.Ok P V H w n) (he : s.entry = some e)
    (u : SubInputStream.Usable P V H e') (ho : e'.offset = e.offset) : Provider.Ok P V H w n { s with entry := some e' } :=
  ⟨fun x z => (by cases z; rw [ho]; exact ⟨u, (h.entry e he).2⟩), fun z => (by cases z), h.bound⟩

/-- No entry was found. -/
theorem Provider.Ok.none {w n : Nat} {s s' : Provider σ} (h : s.Ok P V H w n) (he : s'.entry = .none) (hi : H s'.input)
    (hp : s'.status = .ok → P.status s'.input ≠ .error → (w : Int) * n ≤ P.position s'.input) : s'.Ok P V H w n :=
  ⟨fun e z => (by rw [he] at z; cases z), fun _ => ⟨hi, hp⟩, h.bound⟩

/-- The next entry was found, behind another header. -/
theorem Provider.Ok.some {w n : Nat} {s : Provider σ} {e : SubInputStream σ} (R : Sturdy P lo H V) (he : s.entry = .some e)
    (hs : s.status = .ok) (u : SubInputStream.Usable P V H e) (hp : P.status e.parent ≠ .error)
    (ho : (w : Int) * n + w ≤ e.offset) : s.Ok P V H w (n + 1) := by
  have h1 : (w : Int) * ((n + 1 : Nat) : Int) = (w : Int) * n + w := by
    rw [Int.natCast_add, Int.mul_add]; simp
  refine ⟨fun x z => ?_, fun z => (by rw [he] at z; cases z), ?_⟩
  · rw [he] at z; cases z
    exact ⟨u, hs, by omega⟩
  · have r := R.pos_range u.parent hp
    have := u.pos R hp
    have h2 : ((w * (n + 1) : Nat) : Int) = (w : Int) * ((n + 1 : Nat) : Int) := Int.natCast_mul _ _
    omega

/-! ### `ar` -/

namespace Ar

theorem nameLen_total {b : List UInt8} : ∀ (n : Nat) (len : Int), 0 ≤ len → len + n ≤ b.length →
    ∃ r, nameLen b n len = .ok r ∧ 0 ≤ r := by
  intro n
  induction n with
  | zero => intro len h0 _; exact ⟨len, rfl, h0⟩
  | succ n ih =>
    intro len h0 h1
    unfold nameLen
    obtain ⟨a, e⟩ := aget_total (l := b) (i := len) h0 (by omega)
    rw [e, Res.bind_ok]
    split
    · exact ⟨_, rfl, h0⟩
    · exact ih (len + 1) (by omega) (by omega)

theorem align_total (R : Sturdy P lo H V) {s : σ} (h : H s) : ∃ s', align P s = .ok s' ∧ H s' ∧
    (P.status s' ≠ .error → P.status s ≠ .error ∧ P.position s ≤ P.position s') := by
  unfold align
  split
  · obtain ⟨s', r, e, hH, g, _⟩ := R.leap h (k := 1) (by omega)
    rw [e, Res.bind_ok]
    exact ⟨s', rfl, hH, fun z => ⟨(g z).1, by have := (g z).2.2; omega⟩⟩
  · exact ⟨s, rfl, h, fun z => ⟨z, Int.le_refl _⟩⟩

theorem mem_bc (b : List UInt8) (k : Nat) (h : k ≤ b.length) : (0 : UInt8) ∈ (b ++ [0]).drop k := by
  rw [List.drop_append_of_le_length h]
  simp

theorem nameLen_first {b : List UInt8} (hb : b.length = 60) (h : nameLen b 16 0 = .ok 0) :
    b[0]? = some 32 ∨ b[0]? = some 47 ∨ b[0]? = some 0 := by
  cases b with
  | nil => simp at hb
  | cons x b =>
    unfold nameLen at h
    rw [show aget (x :: b) 0 = .ok x from rfl, Res.bind_ok] at h
    by_cases hx : x = 32 ∨ x = 47 ∨ x = 0
    · simpa using hx
    · rw [if_neg hx] at h
      have : ∀ (n : Nat) (k r : Int), nameLen (x :: b) n k = .ok r → k ≤ r := by
        intro n
        induction n with
        | zero => intro k r z; cases z; omega
        | succ n ih =>
          intro k r z
          unfold nameLen at z
          cases ha : aget (x :: b) k with
          | ok a =>
            rw [ha, Res.bind_ok] at z
            split at z
            · cases z; omega
            · have := ih _ _ z; omega
          | fault _ => rw [ha] at z; cases z
          | diverge => rw [ha] at z; cases z
      have := this _ _ _ h
      omega

/-- What an input may not contain if it cannot be asked for no bytes at all: a name table of size zero. -/
def Named (V : View σ) : Prop :=
  ∀ p b, V.gives p b → b.length = 60 → b[0]? = some 32 ∨ b[0]? = some 47 ∨ b[0]? = some 0 → b[1]? = some 47 →
    CLib.atoi ((b ++ [0]).drop 48) ≠ .ok 0

theorem readHeader_total (R : Sturdy P lo H V) (hlo : lo ≤ 1) (hz : lo ≤ 0 ∨ Named V) : ∀ (fuel : Nat) (s : State σ), H s.input → s.status = .ok →
    s.entry = none → 0 < fuel → (P.status s.input ≠ .error → (V.total : Int) - P.position s.input < fuel) →
    ∃ s', readHeader P fuel s = .ok s' ∧ H s'.input ∧ s'.entry = none ∧
      (s'.status = .ok → P.status s'.input ≠ .error ∧ 0 ≤ s'.info.size ∧ s'.info.size < 2 ^ 31 ∧
        P.status s.input ≠ .error ∧ P.position s.input + 60 ≤ P.position s'.input) := by
  intro fuel
  induction fuel with
  | zero => intro s _ _ _ h; omega
  | succ fuel ih =>
    intro s hin hst hent _ hfu
    unfold readHeader
    obtain ⟨i1, e1, hH1, m1⟩ := align_total R hin
    rw [e1, Res.bind_ok]
    obtain ⟨i2, n, b, e2, hH2, hl2, hsh2, hdat2, hmono2⟩ := R.fetch hH1 (mn := 60) (mx := 60) (by omega) (by omega)
    rw [e2, Res.bind_ok]
    dsimp only
    by_cases c1 : P.status i2 = .error
    · rw [if_pos c1]
      exact ⟨_, rfl, hH2, hent, fun z => by cases z⟩
    rw [if_neg c1]
    by_cases c2 : n ≤ 1
    · rw [if_pos c2]
      exact ⟨_, rfl, hH2, hent, fun z => by cases z⟩
    rw [if_neg c2]
    by_cases c3 : n ≠ 60
    · rw [if_pos c3]
      exact ⟨_, rfl, hH2, hent, fun z => by cases z⟩
    rw [if_neg c3]
    have c3 : n = 60 := by omega
    subst c3
    obtain ⟨hb, hs1, _, hgiv, p0, p1, p2⟩ := R.read_exact hH1 (by omega) (by omega) (by omega) e2
    obtain ⟨len, el, hlen⟩ := nameLen_total (b := b) 16 0 (by omega) (by omega)
    rw [el, Res.bind_ok]
    obtain ⟨size, es, hs0, hs2⟩ := CLib.atoi_total (mem_bc b 48 (by omega))
    rw [es, Res.bind_ok]
    by_cases c4 : size < 0
    · rw [if_pos c4]
      exact ⟨_, rfl, hH2, hent, fun z => by cases z⟩
    rw [if_neg c4]
    obtain ⟨mtime, em, _⟩ := CLib.atoi_total (mem_bc b 16 (by omega))
    rw [em, Res.bind_ok]
    have hm1 := m1 hs1
    by_cases c5 : len ≠ 0
    · rw [if_neg (by omega)]
      exact ⟨_, rfl, hH2, hent, fun _ => ⟨c1, by simp only; omega, hs2, hm1.1, by simp only; omega⟩⟩
    have c5' : len = 0 := by omega
    rw [if_pos c5']
    obtain ⟨b1, eb⟩ := aget_total (l := b) (i := 1) (by omega) (by omega)
    rw [eb, Res.bind_ok]
    have hfu1 := hfu hm1.1
    by_cases c6 : b1 = 47
    · rw [if_pos c6]
      have hlos : lo ≤ size := by
        rcases hz with hz | hz
        · omega
        · have hne := hz _ _ hgiv (by omega) (nameLen_first (by omega) (by rw [el, c5'])) (by
            rw [← c6]
            unfold aget at eb
            rw [if_pos (by omega)] at eb
            cases hq : b[(1 : Int).toNat]? with
            | none => rw [hq] at eb; cases eb
            | some v => rw [hq] at eb; cases eb; exact hq)
          have : size ≠ 0 := fun z => hne (by rw [es, z])
          omega
      obtain ⟨i3, n3, d3, e3, hH3, _, _, hdat3, hmono3⟩ := R.fetch hH2 (mn := size) (mx := size) hlos hs2
      rw [e3, Res.bind_ok]
      dsimp only
      by_cases c7 : n3 ≠ size
      · rw [if_pos c7]
        exact ⟨_, rfl, hH3, hent, fun z => by cases z⟩
      rw [if_neg c7]
      have hp3 : P.status i3 ≠ .error → P.position i2 ≤ P.position i3 := by
        intro z
        exact (hmono3 z).2
      have r2 := R.pos_range hH2 c1
      obtain ⟨s', e', g1, g2, g3⟩ := ih ⟨⟨s.status, i3, s.entry, { s.info with size := size, mtime := mtime }⟩, slice d3 0 size⟩ hH3 hst hent (by omega) (fun z => by
        have := hp3 z
        simp only
        omega)
      rw [e', Res.bind_ok]
      refine ⟨_, rfl, g1, g2, fun z => ?_⟩
      obtain ⟨k1, k2, k3, k4, k5⟩ := g3 z
      have := hp3 k4
      dsimp only at k5 ⊢
      exact ⟨k1, k2, k3, hm1.1, by omega⟩
    rw [if_neg c6]
    by_cases c7 : b1 = 32
    · rw [if_pos c7]
      obtain ⟨i3, r3, e3, hH3, g, _⟩ := R.leap hH2 (k := size) (by omega)
      rw [e3, Res.bind_ok]
      dsimp only
      have r2 := R.pos_range hH2 c1
      obtain ⟨s', e', g1, g2, g3⟩ := ih ⟨⟨s.status, i3, s.entry, { s.info with size := size, mtime := mtime }⟩, s.names⟩ hH3 hst hent (by omega) (fun z => by
        have := g z
        simp only
        omega)
      rw [e', Res.bind_ok]
      refine ⟨_, rfl, g1, g2, fun z => ?_⟩
      obtain ⟨k1, k2, k3, k4, k5⟩ := g3 z
      have := g k4
      dsimp only at k5 ⊢
      exact ⟨k1, k2, k3, hm1.1, by omega⟩
    rw [if_neg c7]
    obtain ⟨pp, ep, _⟩ := CLib.atoi_total (mem_bc b 1 (by omega))
    rw [ep, Res.bind_ok]
    split
    · exact ⟨_, rfl, hH2, hent, fun z => by cases z⟩
    · exact ⟨_, rfl, hH2, hent, fun _ => ⟨c1, by simp only; omega, hs2, hm1.1, by simp only; omega⟩⟩

theorem tame (R : Sturdy P lo H V) (hlo : lo ≤ 1) (hz : lo ≤ 0 ∨ Named V) {fuel : Nat} (hf : V.total < fuel) :
    Tame P V H (ops P fuel) (fun n s => s.toProvider.Ok P V H 60 n) where
  stream := rfl
  entry h he := (h.entry _ he).1
  set h he u _ ho := h.set he u ho
  next := by
    intro n s h
    simp only [ops]
    unfold nextEntry
    by_cases hs : s.status ≠ .ok
    · rw [if_pos hs]
      have he : s.entry = none := by
        cases he : s.entry with
        | none => rfl
        | some e => exact absurd (h.entry e he).2.1 hs
      refine ⟨s, rfl, ?_⟩
      rw [he]; exact h
    rw [if_neg hs]
    have hs := Classical.not_not.1 hs
    have hl : ∃ s', leave P s = .ok s' ∧ s'.entry = none ∧ s'.status = .ok ∧ H s'.input ∧
        (P.status s'.input ≠ .error → ((60 : Nat) : Int) * n ≤ P.position s'.input) := by
      unfold leave
      cases he : s.entry with
      | none => exact ⟨s, rfl, he, hs, (h.input he).1, (h.input he).2 hs⟩
      | some e =>
        obtain ⟨u, _, ho⟩ := h.entry e he
        obtain ⟨e', r, e1, u', _, z2, _⟩ := SubInputStream.sub_skip R u u.size
        simp only
        rw [e1, Res.bind_ok]
        exact ⟨_, rfl, rfl, hs, u'.parent, fun z => by have := (u'.pos R z).1; dsimp only; omega⟩
    obtain ⟨s1, e1, a1, a2, a3, a4⟩ := hl
    rw [e1, Res.bind_ok]
    obtain ⟨s2, e2, b1, b2, b3⟩ := readHeader_total R hlo hz fuel s1 a3 a2 a1 (by omega)
      (fun z => by have := R.pos_range a3 z; omega)
    rw [e2, Res.bind_ok]
    by_cases c1 : s2.status ≠ .ok
    · rw [if_pos c1]
      refine ⟨s2, rfl, ?_⟩
      rw [b2]
      exact h.none b2 b1 (fun z => absurd z c1)
    rw [if_neg c1]
    have c1 := Classical.not_not.1 c1
    obtain ⟨g1, g2, g3, g4, g5⟩ := b3 c1
    obtain ⟨e, ee, u, _, ho, _⟩ := SubInputStream.usable_new R b1 g1 g2 g3
    rw [ee, Res.bind_ok]
    have he : e.status = .ok := by
      unfold SubInputStream.new at ee
      rw [Res.assert_of (by simp; omega), Res.bind_ok] at ee
      cases ee; rfl
    exact ⟨_, rfl, Provider.Ok.some R rfl c1 u (u.exact (by rw [he]; simp)).1 (by have := a4 g4; omega)⟩

/-- The constructor. -/
theorem new_total (R : Sturdy P lo H V) (hlo : lo ≤ 8) {s : σ} (h : H s) : ∃ p, new P s = .ok p ∧ p.toProvider.Ok P V H 60 0 := by
  unfold new
  obtain ⟨i, n, b, e, hH, _⟩ := R.fetch h (mn := 8) (mx := 8) (by omega) (by omega)
  rw [e, Res.bind_ok]
  dsimp only
  by_cases hn : n = 8
  · subst hn
    obtain ⟨hb, _⟩ := R.read_exact h (by omega) hlo (by omega) e
    rw [if_neg (by omega)]
    unfold checkHeader
    rw [if_neg (by omega)]
    unfold memEq
    rw [if_pos (by simp [magic]; omega), Res.bind_ok]
    exact ⟨_, rfl, ⟨fun _ z => (by cases z), fun _ => ⟨hH, fun _ z => by have := R.pos_range hH z; simp only; omega⟩, by omega⟩⟩
  · rw [if_pos hn, Res.bind_ok]
    exact ⟨_, rfl, ⟨fun _ z => (by cases z), fun _ => ⟨hH, fun _ z => by have := R.pos_range hH z; simp only; omega⟩, by omega⟩⟩

end Ar

/-! ### `tar` -/

namespace Tar

/-- "././@LongLink" -/
def longLink : List UInt8 := [46, 47, 46, 47, 64, 76, 111, 110, 103, 76, 105, 110, 107]

/-- What the functions of the header leave behind. -/
def After (P : StreamOps σ UInt8) (H : σ → Prop) (p : Int) (s' : State σ) : Prop :=
  H s'.input ∧ s'.entry = none ∧ (s'.status = .ok → P.status s'.input ≠ .error ∧ s'.info.size < 2 ^ 31 ∧
    (0 ≤ s'.info.size → 0 ≤ s'.padding) ∧ p + 512 ≤ P.position s'.input)

theorem readHeader_total (R : Sturdy P lo H V) (hlo : lo ≤ 512) {s : State σ} (h : H s.input) (hst : s.status = .ok) :
    ∃ i st d, readHeader P s = .ok ({ s with input := i, status := st }, d) ∧ H i ∧
      (st = .ok → (d.length : Int) = 512 ∧ P.status s.input ≠ .error ∧ P.status i ≠ .error ∧ 0 ≤ P.position s.input ∧
        V.gives (P.position s.input) d ∧ P.position s.input + 512 ≤ V.total ∧ P.position i = P.position s.input + 512) := by
  unfold readHeader
  obtain ⟨i, n, d, e, hH, _⟩ := R.fetch h (mn := 512) (mx := 512) hlo (by omega)
  rw [e, Res.bind_ok]
  dsimp only
  split
  · exact ⟨i, .eof, d, rfl, hH, fun z => by cases z⟩
  · split
    · exact ⟨i, .error, d, rfl, hH, fun z => by cases z⟩
    · rename_i hn
      have hn : n = 512 := by omega
      subst hn
      obtain ⟨g1, g2, g3, g4, g5, g6, g7⟩ := R.read_exact h (by omega) hlo (by omega) e
      exact ⟨i, s.status, d, rfl, hH, fun _ => ⟨g1, g2, g3, g5, g4, g6, g7⟩⟩

theorem zeroBlocks_total (R : Sturdy P lo H V) (hlo : lo ≤ 512) : ∀ (fuel : Nat) (n : Int) (s : State σ), H s.input → s.status = .ok →
    s.entry = none → 0 < fuel → (P.status s.input ≠ .error → (V.total : Int) - P.position s.input < fuel) →
    ∃ s', zeroBlocks P fuel n s = .ok s' ∧ H s'.input ∧ s'.entry = none ∧ s'.status ≠ .ok := by
  intro fuel
  induction fuel with
  | zero => intro n s _ _ _ h; omega
  | succ fuel ih =>
    intro n s h hst hent _ hfu
    unfold zeroBlocks
    obtain ⟨i, st, d, e, hH, g⟩ := readHeader_total R hlo h hst
    dsimp only
    rw [e, Res.bind_ok]
    dsimp only
    split
    · exact ⟨_, rfl, hH, hent, by simp⟩
    · by_cases c1 : st ≠ .ok
      · rw [if_pos c1]
        exact ⟨_, rfl, hH, hent, c1⟩
      · rw [if_neg c1]
        have c1 := Classical.not_not.1 c1
        obtain ⟨_, g1, g2, g3, _, g4, g5⟩ := g c1
        split
        · exact ih (n + 1) { s with input := i, status := st } hH c1 hent (by have := hfu g1; omega)
            (fun _ => by have := hfu g1; dsimp only; omega)
        · exact ⟨_, rfl, hH, hent, by simp⟩

theorem checkHeader_total {h : List UInt8} (hl : h.length = 512) : ∃ r, checkHeader h 257 = .ok r ∧
    (r = true → h[256]? = some 0 ∧ h[107]? = some 0) := by
  have g : ∀ i : Nat, i < 512 → ∃ a, aget h (i : Int) = .ok a ∧ h[i]? = some a := by
    intro i hi
    have hn : i < h.length := by omega
    refine ⟨h[i], ?_, by rw [List.getElem?_eq_getElem hn]⟩
    unfold aget
    rw [if_pos (by omega)]
    rw [show ((i : Int)).toNat = i by omega, List.getElem?_eq_getElem hn]
  unfold checkHeader
  rw [if_neg (by omega)]
  split
  · exact ⟨_, rfl, fun z => by cases z⟩
  split
  · exact ⟨_, rfl, fun z => by cases z⟩
  obtain ⟨a, e, ha⟩ := g 107 (by omega)
  rw [show (107 : Int) = ((107 : Nat) : Int) by rfl, e, Res.bind_ok]
  split
  · exact ⟨_, rfl, fun z => by cases z⟩
  rename_i ha0
  obtain ⟨a2, e2, _⟩ := g 115 (by omega)
  rw [show (115 : Int) = ((115 : Nat) : Int) by rfl, e2, Res.bind_ok]
  split
  · exact ⟨_, rfl, fun z => by cases z⟩
  obtain ⟨a3, e3, _⟩ := g 123 (by omega)
  rw [show (123 : Int) = ((123 : Nat) : Int) by rfl, e3, Res.bind_ok]
  split
  · exact ⟨_, rfl, fun z => by cases z⟩
  obtain ⟨a4, e4, _⟩ := g 135 (by omega)
  rw [show (135 : Int) = ((135 : Nat) : Int) by rfl, e4, Res.bind_ok]
  split
  · exact ⟨_, rfl, fun z => by cases z⟩
  obtain ⟨a5, e5, _⟩ := g 147 (by omega)
  rw [show (147 : Int) = ((147 : Nat) : Int) by rfl, e5, Res.bind_ok]
  split
  · exact ⟨_, rfl, fun z => by cases z⟩
  obtain ⟨a6, e6, ha6⟩ := g 256 (by omega)
  rw [show (256 : Int) = ((256 : Nat) : Int) by rfl, e6, Res.bind_ok]
  refine ⟨_, rfl, fun z => ?_⟩
  have z1 : a6 = 0 := by simpa using z
  have z2 : a = 0 := Classical.not_not.1 ha0
  exact ⟨by rw [ha6, z1], by rw [ha, z2]⟩

theorem octal_total {s : State σ} {b : List UInt8} {k : Nat} (h : b[256]? = some 0) (hk : k ≤ 256) :
    ∃ st v, readOctalField s b (k : Int) = .ok ({ s with status := st }, v) ∧ v < 2 ^ 31 ∧ (st = s.status ∨ st = .error) := by
  have hm : (0 : UInt8) ∈ b.drop (k : Int).toNat := by
    rw [show ((k : Int)).toNat = k by omega]
    have : (b.drop k)[256 - k]? = some 0 := by rw [List.getElem?_drop, show k + (256 - k) = 256 by omega]; exact h
    exact List.mem_of_getElem? this
  unfold readOctalField
  rcases CLib.scanOctal_total hm with e | ⟨v, e, _, hv⟩
  · rw [e, Res.bind_ok]
    exact ⟨_, _, rfl, by omega, Or.inr rfl⟩
  · rw [e, Res.bind_ok]
    exact ⟨s.status, _, rfl, hv, Or.inl rfl⟩

theorem finish_total {s : State σ} {hb : List UInt8} (hl : hb.length = 512) (hz : hb[256]? = some 0) (h : H s.input)
    (hent : s.entry = none) (hst : s.status = .ok) (hp : P.status s.input ≠ .error) (hn : s.info.filename ≠ [])
    {p : Int} (hpos : p + 512 ≤ P.position s.input) : ∃ s', finish s hb = .ok s' ∧ After P H p s' := by
  unfold finish
  obtain ⟨st1, v1, e1, h1, hs1⟩ := octal_total (s := s) (k := 124) hz (by omega)
  rw [show (124 : Int) = ((124 : Nat) : Int) by rfl, e1, Res.bind_ok]
  dsimp only
  by_cases c1 : st1 ≠ .ok
  · rw [if_pos c1]
    exact ⟨_, rfl, h, hent, fun z => absurd z c1⟩
  rw [if_neg c1]
  obtain ⟨st2, v2, e2, h2, hs2⟩ := octal_total (s := (⟨⟨st1, s.input, s.entry, { s.info with size := v1 }⟩, s.padding⟩ : State σ)) (k := 136) hz (by omega)
  rw [show (136 : Int) = ((136 : Nat) : Int) by rfl, e2, Res.bind_ok]
  dsimp only
  by_cases c2 : st2 ≠ .ok
  · rw [if_pos c2]
    exact ⟨_, rfl, h, hent, fun z => absurd z c2⟩
  rw [if_neg c2]
  have hlen : 0 < s.info.filename.length := List.length_pos_iff.2 hn
  obtain ⟨a, ea⟩ := aget_total (l := s.info.filename) (i := (s.info.filename.length : Int) - 1) (by omega) (by omega)
  rw [ea, Res.bind_ok]
  obtain ⟨t, et⟩ := aget_total (l := hb) (i := 156) (by omega) (by omega)
  rw [et, Res.bind_ok]
  refine ⟨_, rfl, h, hent, fun _ => ⟨hp, h1, fun z => ?_, hpos⟩⟩
  dsimp only at z ⊢
  rw [Int.tmod_eq_emod_of_nonneg z]
  split <;> omega

theorem parseHeader_total (R : Sturdy P lo H V) (hlo : lo ≤ 512) (hc : ∀ p d, V.gives p d → d.take 13 ≠ longLink) :
    ∀ (fuel : Nat) (s : State σ), H s.input → s.status = .ok →
    s.entry = none → 0 < fuel → (P.status s.input ≠ .error → (V.total : Int) - P.position s.input < fuel) →
    ∃ s', parseHeader P fuel s = .ok s' ∧ After P H (P.position s.input) s' ∧ (s'.status = .ok → P.status s.input ≠ .error) := by
  intro fuel
  induction fuel with
  | zero => intro s _ _ _ h; omega
  | succ fuel ih =>
    intro s h hst hent _ hfu
    unfold parseHeader
    obtain ⟨i, st, hb, e, hH, g⟩ := readHeader_total R hlo h hst
    rw [e, Res.bind_ok]
    dsimp only
    by_cases c1 : st ≠ .ok
    · rw [if_pos c1]
      exact ⟨_, rfl, ⟨hH, hent, fun z => by cases z⟩, fun z => by cases z⟩
    rw [if_neg c1]
    have c1 := Classical.not_not.1 c1
    obtain ⟨g0, g1, g2, g3, g4, g5, g6⟩ := g c1
    have hfu1 := hfu g1
    split
    · obtain ⟨s', e', k1, k2, k3⟩ := zeroBlocks_total R hlo fuel 0 { s with input := i, status := st } hH c1 hent (by omega)
        (fun _ => by dsimp only; omega)
      exact ⟨s', e', ⟨k1, k2, fun z => absurd z k3⟩, fun z => absurd z k3⟩
    obtain ⟨r, er, hr⟩ := checkHeader_total (h := hb) (by omega)
    rw [er, Res.bind_ok]
    by_cases c2 : r = false
    · rw [if_pos c2]
      exact ⟨_, rfl, ⟨hH, hent, fun z => by cases z⟩, fun z => by cases z⟩
    rw [if_neg c2]
    obtain ⟨h256, _⟩ := hr (by simpa using c2)
    obtain ⟨len, el⟩ := strlen_ok hb (List.mem_of_getElem? h256)
    rw [el, Res.bind_ok]
    by_cases c3 : len = 0
    · rw [if_pos c3]
      exact ⟨_, rfl, ⟨hH, hent, fun z => by cases z⟩, fun z => by cases z⟩
    rw [if_neg c3]
    have hL : ∃ l : Nat, l = (if len > 100 then 100 else len) := ⟨_, rfl⟩
    obtain ⟨l, hl⟩ := hL
    rw [← hl]
    have hl0 : 0 < l := by split at hl <;> omega
    rw [if_neg (by
      rintro ⟨_, z⟩
      exact hc _ _ g4 z)]
    have hne : ∀ (k : Int) (m : Int), 0 ≤ k → 0 < m → k < 512 → slice hb k m ≠ [] := by
      intro k m hk hm hk2 z
      have := congrArg List.length z
      simp only [slice, List.length_take, List.length_drop, List.length_nil] at this
      omega
    split
    · rename_i c4
      by_cases c5 : l = 2
      · rw [if_pos c5]
        obtain ⟨s', e', ⟨k1, k2, k3⟩, _⟩ := ih { s with input := i, status := st, info := { s.info with filename := [] } } hH c1 hent (by omega) (fun _ => by dsimp only; omega)
        refine ⟨s', e', ⟨k1, k2, fun z => ?_⟩, fun _ => g1⟩
        obtain ⟨x1, x2, x3, x4⟩ := k3 z
        dsimp only at x4
        exact ⟨x1, x2, x3, by omega⟩
      · rw [if_neg c5]
        obtain ⟨s', e', k⟩ := finish_total (P := P) (s := { s with input := i, status := st, info := { s.info with filename := slice hb 2 (l - 2) } }) (p := P.position s.input)
          (by omega) h256 hH hent c1 g2 (hne _ _ (by omega) (by omega) (by omega)) (by dsimp only; omega)
        exact ⟨s', e', k, fun _ => g1⟩
    · obtain ⟨s', e', k⟩ := finish_total (P := P) (s := { s with input := i, status := st, info := { s.info with filename := slice hb 0 l } }) (p := P.position s.input)
        (by omega) h256 hH hent c1 g2 (hne _ _ (by omega) (by omega) (by omega)) (by dsimp only; omega)
      exact ⟨s', e', k, fun _ => g1⟩

theorem tame (R : Sturdy P lo H V) (hlo : lo ≤ 1) (hc : ∀ p d, V.gives p d → d.take 13 ≠ longLink) {fuel : Nat}
    (hf : V.total < fuel) :
    Tame P V H (ops P fuel) (fun n s => s.toProvider.Ok P V H 512 n ∧ (s.entry ≠ none → 0 ≤ s.padding)) where
  stream := rfl
  entry h he := (h.1.entry _ he).1
  set h he u _ ho := ⟨h.1.set he u ho, fun _ => h.2 (by simp only [ops] at he; rw [he]; simp)⟩
  next := by
    intro n s h
    simp only [ops]
    unfold nextEntry
    by_cases hs : s.status ≠ .ok
    · rw [if_pos hs]
      have he : s.entry = none := by
        cases he : s.entry with
        | none => rfl
        | some e => exact absurd (h.1.entry e he).2.1 hs
      refine ⟨s, rfl, ?_⟩
      rw [he]; exact ⟨h.1, fun z => absurd rfl z⟩
    rw [if_neg hs]
    have hs := Classical.not_not.1 hs
    have hl : ∃ s', leave P s = .ok s' ∧ s'.entry = none ∧ s'.status = .ok ∧ H s'.input ∧
        (P.status s'.input ≠ .error → ((512 : Nat) : Int) * n ≤ P.position s'.input) := by
      unfold leave
      cases he : s.entry with
      | none => exact ⟨s, rfl, he, hs, (h.1.input he).1, (h.1.input he).2 hs⟩
      | some e =>
        obtain ⟨u, _, ho⟩ := h.1.entry e he
        obtain ⟨e', r, e1, u', _, z2, _⟩ := SubInputStream.sub_skip R u u.size
        simp only
        rw [e1, Res.bind_ok]
        dsimp only
        obtain ⟨i, r2, e2, hH, d2, _⟩ := R.leap u'.parent (k := s.padding) (h.2 (by rw [he]; simp))
        rw [e2, Res.bind_ok]
        refine ⟨_, rfl, rfl, hs, hH, fun z => ?_⟩
        have k1 := (u'.pos R (d2 z).1).1
        have k2 := (d2 z).2.2
        dsimp only
        omega
    obtain ⟨s1, e1, a1, a2, a3, a4⟩ := hl
    rw [e1, Res.bind_ok]
    obtain ⟨s2, e2, ⟨b1, b2, b3⟩, b4⟩ := parseHeader_total R (by omega) hc fuel s1 a3 a2 a1 (by omega)
      (fun z => by have := R.pos_range a3 z; omega)
    rw [e2, Res.bind_ok]
    by_cases c1 : s2.status ≠ .ok
    · rw [if_pos c1]
      refine ⟨s2, rfl, ?_⟩
      rw [b2]
      exact ⟨h.1.none b2 b1 (fun z => absurd z c1), fun z => absurd rfl z⟩
    rw [if_neg c1]
    have c1 := Classical.not_not.1 c1
    obtain ⟨g1, g2, g3, g4⟩ := b3 c1
    have ha := a4 (b4 c1)
    by_cases c2 : s2.info.size ≥ 0
    · rw [if_pos c2]
      obtain ⟨e, ee, u, _, ho, _⟩ := SubInputStream.usable_new R b1 g1 c2 g2
      rw [ee, Res.bind_ok]
      have he : e.status = .ok := by
        unfold SubInputStream.new at ee
        rw [Res.assert_of (by simp; omega), Res.bind_ok] at ee
        cases ee; rfl
      exact ⟨_, rfl, Provider.Ok.some R rfl c1 u (u.exact (by rw [he]; simp)).1 (by omega), fun _ => g3 c2⟩
    · rw [if_neg c2]
      refine ⟨s2, rfl, ?_⟩
      rw [b2]
      exact ⟨h.1.none b2 b1 (fun _ _ => by omega), fun z => absurd rfl z⟩

theorem new_ok (R : Sturdy P lo H V) {s : σ} (h : H s) : (new s).toProvider.Ok P V H 512 0 ∧ ((new s).entry ≠ none → 0 ≤ (new s).padding) :=
  ⟨⟨fun _ z => (by cases z), fun _ => ⟨h, fun _ z => by have := R.pos_range h z; simp only [new]; omega⟩, by omega⟩, fun z => absurd rfl z⟩

end Tar

/-! ### `cpio` -/

namespace Cpio

def Ok (P : StreamOps σ UInt8) (V : View σ) (H : σ → Prop) (n : Nat) (s : State σ) : Prop :=
  s.toProvider.Ok P V H 110 n ∧ (s.entry ≠ none → 0 ≤ s.padding) ∧ -1 ≤ s.info.size

theorem hexLoop_total {b : List UInt8} : ∀ (n : Nat) (off val : Int), 0 ≤ off → off + n ≤ b.length → ∃ v, hexLoop b n off val = .ok v := by
  intro n
  induction n with
  | zero => intro off val _ _; exact ⟨val, rfl⟩
  | succ n ih =>
    intro off val h0 h1
    unfold hexLoop
    obtain ⟨a, e⟩ := aget_total (l := b) (i := off) h0 (by omega)
    dsimp only
    rw [e, Res.bind_ok]
    exact ih _ _ (by omega) (by omega)

theorem nameLen_total {b : List UInt8} {base : Int} (hb : 0 ≤ base) : ∀ (n : Nat) (len : Int), 0 ≤ len →
    (base + len + n ≤ b.length ∨ ∃ k : Nat, (base + len).toNat ≤ k ∧ b[k]? = some 0) → ∃ r, nameLen b base n len = .ok r ∧ 0 ≤ r := by
  intro n
  induction n with
  | zero => intro len h _; exact ⟨len, rfl, h⟩
  | succ n ih =>
    intro len h hc
    unfold nameLen
    have hin : base + len < b.length := by
      rcases hc with hc | ⟨k, k1, k2⟩
      · omega
      · have := (List.getElem?_eq_some_iff.1 k2).1
        omega
    have ea : aget b (base + len) = .ok b[(base + len).toNat] := by
      unfold aget
      rw [if_pos (by omega), List.getElem?_eq_getElem (by omega)]
    rw [ea, Res.bind_ok]
    split
    · rename_i hne
      refine ih (len + 1) (by omega) ?_
      rcases hc with hc | ⟨k, k1, k2⟩
      · left; omega
      · right
        refine ⟨k, ?_, k2⟩
        have : k ≠ (base + len).toNat := by
          intro z
          subst z
          rw [List.getElem?_eq_getElem (by omega)] at k2
          exact hne (by simpa using k2)
        omega
    · exact ⟨len, rfl, h⟩

theorem skipEntry_total (R : Sturdy P lo H V) : ∀ (fuel : Nat) (e : SubInputStream σ), SubInputStream.Usable P V H e → 0 < fuel →
    (e.status = .ok → (V.total : Int) - P.position e.parent + 1 < fuel) →
    ∃ e', skipEntry P fuel e = .ok e' ∧ SubInputStream.Usable P V H e' ∧ e'.offset = e.offset := by
  intro fuel
  induction fuel with
  | zero => intro e _ h; omega
  | succ fuel ih =>
    intro e u _ hf
    unfold skipEntry
    by_cases hs : e.status = .ok
    · rw [if_pos hs]
      have hf1 := hf hs
      obtain ⟨x1, x2⟩ := u.ok R (by rw [hs]; simp)
      have r1 := R.pos_range u.parent x1
      obtain ⟨e', r, e1, u', z1, z2, _, _, _, _, _, z3⟩ := SubInputStream.sub_skip R u u.size
      rw [e1, Res.bind_ok]
      dsimp only
      refine (fun hh => by obtain ⟨x, y1, y2, y3⟩ := ih e' u' (by omega) hh; exact ⟨x, y1, y2, by rw [y3, z2]⟩) ?_
      intro hs'
      obtain ⟨y1, y2⟩ := u'.ok R (by rw [hs']; simp)
      have r2 := R.pos_range u'.parent y1
      by_cases h0 : e.size = 0
      · exfalso
        have hsy := u.pos R x1
        have : e.size = e.pos := by have := u.le; omega
        unfold SubInputStream.skip at e1
        rw [if_pos this] at e1
        cases e1
        cases hs'
      · have := u.size
        rcases z3 hs (by omega) with z | z
        · exact absurd hs' z
        · omega
    · rw [if_neg hs]
      exact ⟨e, rfl, u, rfl⟩

theorem padTo4_range (r : Int) (h0 : -3 ≤ r) (h1 : r ≤ 3) : 0 ≤ padTo4 r ∧ padTo4 r ≤ 7 := by
  unfold padTo4; split <;> omega

theorem padTo4_small (n : Int) (h : 0 ≤ n) : 0 ≤ padTo4 (n.tmod 4) ∧ padTo4 (n.tmod 4) ≤ 3 := by
  rw [Int.tmod_eq_emod_of_nonneg h]
  unfold padTo4; split <;> omega

/-- The field in the middle of a header. -/
theorem field_at {b : List UInt8} {k n : Nat} (hb : k + 8 ≤ b.length) (h : CpioSpec.Field ((b.drop k).take 8) n) (hn : n < 2 ^ 31) :
    readHexField b (k : Int) = .ok (n : Int) := by
  refine readHexField_spec (pre := b.take k) (f := (b.drop k).take 8) (post := b.drop (k + 8)) h hn ?_ ?_
  · conv => lhs; rw [← List.take_append_drop k b]
    congr 1
    conv => lhs; rw [← List.take_append_drop 8 (b.drop k)]
    rw [List.drop_drop]
  · simp; omega

theorem nameBase_total {b : List UInt8} {n : Int} (h : n ≤ b.length) : ∃ r, nameBase b n = .ok r ∧
    (r = 0 ∨ (r = 2 ∧ b.take 2 = [46, 47] ∧ 3 < n)) := by
  unfold nameBase
  by_cases hn : n - 1 > 2
  · rw [if_pos hn]
    cases b with
    | nil => simp at h; omega
    | cons x b =>
      cases b with
      | nil => simp at h; omega
      | cons y b =>
        have e0 : aget (x :: y :: b) 0 = .ok x := rfl
        have e1 : aget (x :: y :: b) 1 = .ok y := rfl
        rw [e0, Res.bind_ok]
        by_cases hx : x = 46
        · rw [if_pos hx, e1, Res.bind_ok]
          by_cases hy : y = 47
          · rw [if_pos hy]
            exact ⟨2, rfl, Or.inr ⟨rfl, by simp [hx, hy], by omega⟩⟩
          · rw [if_neg hy]
            exact ⟨0, rfl, Or.inl rfl⟩
        · rw [if_neg hx]
          exact ⟨0, rfl, Or.inl rfl⟩
  · rw [if_neg hn]
    exact ⟨0, rfl, Or.inl rfl⟩

theorem readName_total (R : Sturdy P lo H V) (hlo : lo ≤ 1) {s : State σ} {ns : Nat} (h : H s.input) (hst : s.status = .ok)
    (hent : s.entry = none) (h0 : 0 ≤ s.info.size) (h1 : s.info.size < 2 ^ 31) (h2 : 0 ≤ s.padding) (h3 : P.status s.input ≠ .error)
    (hns : ns + 3 < 2 ^ 31)
    (hname : ∀ b, V.gives (P.position s.input) b → ns ≤ b.length → b.take 2 = [46, 47] → 0 ∈ (b.take ns).drop 2) :
    ∃ s', readName P s ns = .ok s' ∧ H s'.input ∧ s'.entry = none ∧
      -1 ≤ s'.info.size ∧ (s'.status = .ok → P.status s'.input ≠ .error ∧ 0 ≤ s'.info.size ∧ s'.info.size < 2 ^ 31 ∧ 0 ≤ s'.padding ∧
        P.position s.input ≤ P.position s'.input) := by
  unfold readName
  have hp := padTo4_small ((ns : Int) + 2) (by omega)
  have hnz : ns = 0 → padTo4 (((ns : Int) + 2).tmod 4) = 2 := by intro z; subst z; rfl
  dsimp only
  generalize padTo4 (((ns : Int) + 2).tmod 4) = pad at *
  have ht : 1 ≤ (ns : Int) + pad := by
    by_cases z : ns = 0
    · have := hnz z; omega
    · omega
  obtain ⟨i, n, b, e, hH, hd, _, hdat, hneg⟩ := R.read h ((ns : Int) + pad) ((ns : Int) + pad) (by omega) (by omega)
  rw [e, Res.bind_ok]
  dsimp only
  by_cases c1 : n ≠ (ns : Int) + pad
  · rw [if_pos c1]
    exact ⟨_, rfl, hH, hent, by dsimp only; omega, fun z => by cases z⟩
  rw [if_neg c1]
  have c1 : n = (ns : Int) + pad := by omega
  subst c1
  obtain ⟨g1, g2, g3, g4, g5, g6, g7⟩ := R.read_exact h ht (by omega) (by omega) e
  obtain ⟨base, eb, hb⟩ := nameBase_total (b := b) (n := ns) (by omega)
  rw [eb, Res.bind_ok]
  have hnl : ∃ r, nameLen b base ((ns : Int)).toNat 0 = .ok r ∧ 0 ≤ r := by
    rw [show ((ns : Int)).toNat = ns by omega]
    rcases hb with hb | ⟨hb, hb2, hb3⟩
    · subst hb
      exact nameLen_total (by omega) ns 0 (by omega) (Or.inl (by omega))
    · subst hb
      refine nameLen_total (by omega) ns 0 (by omega) (Or.inr ?_)
      have hz := hname b g4 (by omega) hb2
      obtain ⟨k, hk⟩ := List.mem_iff_getElem?.1 hz
      refine ⟨2 + k, by omega, ?_⟩
      rw [List.getElem?_drop] at hk
      have hk2 : 2 + k < ns := by
        have := (List.getElem?_eq_some_iff.1 hk).1
        simp only [List.length_take] at this
        omega
      rw [List.getElem?_take_of_lt hk2] at hk
      exact hk
  obtain ⟨len, elen, _⟩ := hnl
  rw [elen, Res.bind_ok]
  split
  · exact ⟨_, rfl, hH, hent, by dsimp only; omega, fun z => by cases z⟩
  · exact ⟨_, rfl, hH, hent, by dsimp only; omega, fun _ => ⟨g3, h0, h1, h2, by dsimp only; omega⟩⟩

/-- A bound on what the input may deliver: after the magic number of a header the two fields that are read are well formed
and not too large, and a name that begins with "./" is terminated. -/
def SaneV (V : View σ) : Prop :=
  ∀ p b, V.gives p b → b.length = 110 → b.take 6 = magic → ∃ size ns : Nat,
    CpioSpec.Field ((b.drop 54).take 8) size ∧ size < 2 ^ 31 ∧ CpioSpec.Field ((b.drop 94).take 8) ns ∧ ns + 3 < 2 ^ 31 ∧
    ∀ b', V.gives (p + 110) b' → ns ≤ b'.length → b'.take 2 = [46, 47] → 0 ∈ (b'.take ns).drop 2

theorem readHeader_total (R : Sturdy P lo H V) (hlo : lo ≤ 1) (hc : SaneV V) {s : State σ} (h : H s.input) (hst : s.status = .ok)
    (hent : s.entry = none) (hsz : -1 ≤ s.info.size) : ∃ s', readHeader P s = .ok s' ∧ H s'.input ∧ s'.entry = none ∧
      -1 ≤ s'.info.size ∧ (s'.status = .ok → P.status s'.input ≠ .error ∧ 0 ≤ s'.info.size ∧ s'.info.size < 2 ^ 31 ∧ 0 ≤ s'.padding ∧
        P.status s.input ≠ .error ∧ P.position s.input + 110 ≤ P.position s'.input) := by
  unfold readHeader
  obtain ⟨i, n, b, e, hH, hlim, hsh, hdat, hneg⟩ := R.fetch h (mn := 110) (mx := 110) (by omega) (by omega)
  rw [e, Res.bind_ok]
  dsimp only
  by_cases c1 : n ≠ 110
  · rw [if_pos c1]
    have h1 := hlim (by omega) (by omega)
    have : P.status i ≠ .ok := (hsh (by omega) (by omega) (by omega)).1
    exact ⟨_, rfl, hH, hent, hsz, fun z => absurd z this⟩
  rw [if_neg c1]
  have c1 : n = 110 := by omega
  subst c1
  obtain ⟨g1, g2, g3, g4, g5, g6, g7⟩ := R.read_exact h (by omega) (by omega) (by omega) e
  by_cases c2 : b.take 6 ≠ magic
  · rw [if_pos c2]
    exact ⟨_, rfl, hH, hent, hsz, fun z => by cases z⟩
  rw [if_neg c2]
  have c2 := Classical.not_not.1 c2
  obtain ⟨size, ns, f1, f2, f3, f4, f5⟩ := hc (P.position s.input) b g4 (by omega) c2
  rw [show (54 : Int) = ((54 : Nat) : Int) by rfl, field_at (by omega) f1 f2, Res.bind_ok]
  obtain ⟨mt, em⟩ := hexLoop_total (b := b) 8 46 0 (by omega) (by omega)
  unfold readHexField
  rw [em, Res.bind_ok]
  have e94 := field_at (b := b) (k := 94) (by omega) f3 (by omega)
  unfold readHexField at e94
  rw [show (94 : Int) = ((94 : Nat) : Int) by rfl, e94, Res.bind_ok]
  have hp := padTo4_small (size : Int) (by omega)
  obtain ⟨s', e', k1, k2, k3, k4⟩ := readName_total R hlo (s := ⟨⟨s.status, i, s.entry, { s.info with size := size, mtime := mt }⟩, padTo4 ((size : Int).tmod 4)⟩)
    hH hst hent (by dsimp only; omega) (by dsimp only; omega) hp.1 g3 f4 (by
    dsimp only
    rw [g7]
    exact f5)
  refine ⟨s', e', k1, k2, k3, fun z => ?_⟩
  obtain ⟨x1, x2, x3, x4, x5⟩ := k4 z
  dsimp only at x5
  exact ⟨x1, x2, x3, x4, g2, by omega⟩

theorem tame (R : Sturdy P lo H V) (hlo : lo ≤ 1) (hc : SaneV V) {fuel : Nat}
    (hf : V.total + 1 < fuel) : Tame P V H (ops P fuel) (Ok P V H) where
  stream := rfl
  entry h he := (h.1.entry _ he).1
  set h he u _ ho := ⟨h.1.set he u ho, fun _ => h.2.1 (by simp only [ops] at he; rw [he]; simp), h.2.2⟩
  next := by
    intro n s h
    simp only [ops]
    unfold nextEntry
    by_cases hs : s.status ≠ .ok
    · rw [if_pos hs]
      refine ⟨_, rfl, ⟨h.1.none rfl ?_ (fun z => absurd z hs), fun z => absurd rfl z, h.2.2⟩⟩
      cases he : s.entry with
      | none => exact (h.1.input he).1
      | some e => exact (h.1.entry e he).1.parent
    rw [if_neg hs]
    have hs := Classical.not_not.1 hs
    have hl : ∃ s', leave P fuel s = .ok s' ∧ s'.entry = none ∧ s'.status = .ok ∧ H s'.input ∧ -1 ≤ s'.info.size ∧
        (P.status s'.input ≠ .error → ((110 : Nat) : Int) * n ≤ P.position s'.input) := by
      unfold leave
      cases he : s.entry with
      | none => exact ⟨s, rfl, he, hs, (h.1.input he).1, h.2.2, (h.1.input he).2 hs⟩
      | some e =>
        obtain ⟨u, _, ho⟩ := h.1.entry e he
        obtain ⟨e', e1, u', ho'⟩ := skipEntry_total R fuel e u (by omega) (fun z => by
          have := R.pos_range u.parent (u.ok R (by rw [z]; simp)).1
          omega)
        simp only
        rw [e1, Res.bind_ok]
        split
        · obtain ⟨i, r2, e2, hH, d2, _⟩ := R.leap u'.parent (k := s.padding) (h.2.1 (by rw [he]; simp))
          rw [e2, Res.bind_ok]
          refine ⟨_, rfl, rfl, hs, hH, h.2.2, fun z => ?_⟩
          have k1 := (u'.pos R (d2 z).1).1
          have k2 := (d2 z).2.2
          dsimp only
          omega
        · exact ⟨_, rfl, rfl, hs, u'.parent, h.2.2, fun z => by have := (u'.pos R z).1; dsimp only; omega⟩
    obtain ⟨s1, e1, a1, a2, a3, a4, a5⟩ := hl
    rw [e1, Res.bind_ok]
    obtain ⟨s2, e2, b1, b2, b4, b3⟩ := readHeader_total R hlo hc a3 a2 a1 a4
    rw [e2, Res.bind_ok]
    by_cases c1 : s2.status ≠ .ok
    · unfold SubInputStream.new
      rw [Res.assert_of (by simpa using b4), Res.bind_ok, Res.bind_ok, if_pos c1]
      exact ⟨_, rfl, ⟨h.1.none rfl b1 (fun z => absurd z c1), fun z => absurd rfl z, b4⟩⟩
    · have c1' := Classical.not_not.1 c1
      obtain ⟨g1, g2, g3, g4, g5, g6⟩ := b3 c1'
      obtain ⟨e, ee, u, _, ho, _⟩ := SubInputStream.usable_new R b1 g1 g2 g3
      rw [ee, Res.bind_ok, if_neg c1]
      have he : e.status = .ok := by
        unfold SubInputStream.new at ee
        rw [Res.assert_of (by simp; omega), Res.bind_ok] at ee
        cases ee; rfl
      exact ⟨_, rfl, Provider.Ok.some R rfl c1' u (u.exact (by rw [he]; simp)).1 (by have := a5 g5; omega), fun _ => g4, b4⟩

theorem new_ok (R : Sturdy P lo H V) {s : σ} (h : H s) : Ok P V H 0 (new s) :=
  ⟨⟨fun _ z => (by cases z), fun _ => ⟨h, fun _ z => by have := R.pos_range h z; simp only [new]; omega⟩, by omega⟩,
    fun z => absurd rfl z, by simp [new]⟩

end Cpio

end Strigi
