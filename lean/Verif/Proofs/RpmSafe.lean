import Verif.Props.Rpm
import Verif.Proofs.Nest

/-!
# `RpmInputStream` on arbitrary bytes
-/

namespace Strigi

theorem Growing.mono {σ : Type} {P : StreamOps σ UInt8} {T T' : Nat} {G : List UInt8 → σ → Prop} (h : Growing P T G) (hT : T ≤ T') : Growing P T' G where
  range h' hs := by
    have := h.range h' hs
    omega
  read := h.read
  skip := h.skip
  reset := h.reset

namespace Rpm

open Props LzmaDec

variable {σ ζg ζb : Type} {P : StreamOps σ UInt8} {C : Codecs ζg ζb Dec} {N : Nat} {lo : Int} {H : σ → Prop} {V : View σ}
  {g g' : Nat} {w : ζg → Nat} {w' : ζb → Nat}

/-- The states of the payload stream. -/
def Runs (P : StreamOps σ UInt8) (H : σ → Prop) (V : View σ) (g g' : Nat) (w : ζg → Nat) (w' : ζb → Nat) (N T B : Nat) (c : List UInt8) : Payload σ ζg ζb Dec → Prop
  | .gz s => Unpack.Runs P H V 0 g w N B c s
  | .bz s => Unpack.Runs P H V 0 g' w' N B c s
  | .lz s => LzmaStream.Runs H V N T c s

theorem payload_growing (R : Sturdy P lo H V) (hl : lo ≤ 1) (hC : C.lz = decoder) (hg : Tidy C.gz g w) (hb : Tidy C.bz g' w') {T B : Nat} (hB : Lzma.most T ≤ B) :
    Growing (payloadOps P C N) B (Runs P H V g g' w w' N T B) := by
  have G1 := Unpack.runs_growing R hl hg true (Int.le_refl 0) N B
  have G2 := Unpack.runs_growing R hl hb false (Int.le_refl 0) N B
  have G3 := (LzmaStream.runs_growing R hl N T).mono hB
  rw [← hC] at G3
  constructor
  · intro c s h hs
    cases s with
    | gz s => exact G1.range h hs
    | bz s => exact G2.range h hs
    | lz s => exact G3.range h hs
  · intro c s h mn mx hmn
    cases s with
    | gz s =>
      obtain ⟨s', n, d, c', e, p, h', k⟩ := G1.read h mn mx hmn
      exact ⟨.gz s', n, d, c', by show (GZip.ops P C.gz N).read s mn mx >>= _ = _; rw [show (GZip.ops P C.gz N).read s mn mx = _ from e]; rfl, p, h', k⟩
    | bz s =>
      obtain ⟨s', n, d, c', e, p, h', k⟩ := G2.read h mn mx hmn
      exact ⟨.bz s', n, d, c', by show (BZ2.ops P C.bz N).read s mn mx >>= _ = _; rw [show (BZ2.ops P C.bz N).read s mn mx = _ from e]; rfl, p, h', k⟩
    | lz s =>
      obtain ⟨s', n, d, c', e, p, h', k⟩ := G3.read h mn mx hmn
      exact ⟨.lz s', n, d, c', by show (LzmaStream.ops P C.lz N).read s mn mx >>= _ = _; rw [e]; rfl, p, h', k⟩
  · intro c s h k hk
    cases s with
    | gz s =>
      obtain ⟨s', r, c', e, p, h', q⟩ := G1.skip h k hk
      exact ⟨.gz s', r, c', by show (GZip.ops P C.gz N).skip s k >>= _ = _; rw [show (GZip.ops P C.gz N).skip s k = _ from e]; rfl, p, h', q⟩
    | bz s =>
      obtain ⟨s', r, c', e, p, h', q⟩ := G2.skip h k hk
      exact ⟨.bz s', r, c', by show (BZ2.ops P C.bz N).skip s k >>= _ = _; rw [show (BZ2.ops P C.bz N).skip s k = _ from e]; rfl, p, h', q⟩
    | lz s =>
      obtain ⟨s', r, c', e, p, h', q⟩ := G3.skip h k hk
      exact ⟨.lz s', r, c', by show (LzmaStream.ops P C.lz N).skip s k >>= _ = _; rw [e]; rfl, p, h', q⟩
  · intro c s h q hq
    cases s with
    | gz s =>
      obtain ⟨s', r, e, h', k1, k2⟩ := G1.reset h q hq
      exact ⟨.gz s', r, by show (GZip.ops P C.gz N).reset s q >>= _ = _; rw [show (GZip.ops P C.gz N).reset s q = _ from e]; rfl, h', k1,
        fun z => ⟨(k2 z).1, (k2 z).2.1, (k2 z).2.2.imp id (fun y => ⟨y.1, by rw [y.2]⟩)⟩⟩
    | bz s =>
      obtain ⟨s', r, e, h', k1, k2⟩ := G2.reset h q hq
      exact ⟨.bz s', r, by show (BZ2.ops P C.bz N).reset s q >>= _ = _; rw [show (BZ2.ops P C.bz N).reset s q = _ from e]; rfl, h', k1,
        fun z => ⟨(k2 z).1, (k2 z).2.1, (k2 z).2.2.imp id (fun y => ⟨y.1, by rw [y.2]⟩)⟩⟩
    | lz s =>
      obtain ⟨s', r, e, h', k1, k2⟩ := G3.reset h q hq
      exact ⟨.lz s', r, by show (LzmaStream.ops P C.lz N).reset s q >>= _ = _; rw [e]; rfl, h', k1,
        fun z => ⟨(k2 z).1, (k2 z).2.1, (k2 z).2.2.imp id (fun y => ⟨y.1, by rw [y.2]⟩)⟩⟩

/-- What the constructor leaves behind. -/
def Made (P : StreamOps σ UInt8) (H : σ → Prop) (V : View σ) (g g' : Nat) (w : ζg → Nat) (w' : ζb → Nat) (N T B : Nat) (s : State σ ζg ζb Dec) : Prop :=
  s = rejected ∨ ∃ u, s = ⟨.ok, some (Cpio.new u), {}⟩ ∧ Runs P H V g g' w w' N T B [] u

theorem start_made {T B : Nat} {u : Payload σ ζg ζb Dec} (h : Runs P H V g g' w w' N T B [] u) : Made P H V g g' w w' N T B (start P C N u) := by
  unfold start
  split
  · exact Or.inl rfl
  · exact Or.inr ⟨u, rfl, h⟩

theorem payload_made (R : Sturdy P lo H V) (hl : lo ≤ 1) (hC : C.lz = decoder) {T B : Nat} (hT : V.total ≤ T) (hN : T + Lzma.most T + 1 < N)
    (hN1 : 2 * (w C.gz.init + (g + 1) * T) < N) (hN2 : 2 * (w' C.bz.init + (g' + 1) * T) < N)
    (hB1 : w C.gz.init + g * T ≤ B) (hB2 : w' C.bz.init + g' * T ≤ B) {i : σ} (hi : H i) (hs : P.status i ≠ .error) :
    ∃ s, payload P C N i = .ok s ∧ Made P H V g g' w w' N T B s := by
  have m1 := Nat.mul_le_mul_left (g + 1) hT
  have m2 := Nat.mul_le_mul_left g hT
  have m3 := Nat.mul_le_mul_left (g' + 1) hT
  have m4 := Nat.mul_le_mul_left g' hT
  unfold payload
  dsimp only
  obtain ⟨s1, n, d, e1, h1, _, _, g3, _⟩ := R.fetch hi (mn := 16) (mx := 16) (by omega) (by omega)
  rw [e1, Res.bind_ok]
  dsimp only
  by_cases hn : n ≠ 16
  · rw [if_pos hn]; exact ⟨_, rfl, Or.inl rfl⟩
  rw [if_neg hn]
  have hn := Classical.not_not.1 hn
  obtain ⟨k1, k2, k3, k4, k5⟩ := g3 (by omega)
  obtain ⟨x1, x2⟩ := R.sync h1 k2
  obtain ⟨y1, y2⟩ := R.sync hi hs
  obtain ⟨r1, _, _, r4⟩ := R.range hi y1
  obtain ⟨s2, r, e2, h2, _, q2⟩ := R.reset h1 (P.position i) (by rw [y2]; exact r1) (Or.inl (by rw [y2]; exact r4))
  have hs2 := (q2 x1).1
  rw [e2, Res.bind_ok]
  have hd : d.length = 16 := by omega
  obtain ⟨⟨rb, eb, _⟩, ⟨rl, el, _⟩, ⟨rg, eg, _⟩⟩ := checks16 hd
  rw [eb, Res.bind_ok, el, Res.bind_ok, eg, Res.bind_ok]
  cases rb with
  | true =>
    simp only [if_true]
    obtain ⟨s, e, h⟩ := BZ2.new_any (D := C.bz) (g := g') (w := w') (N := N) (T := B) R hl h2 hs2 (by omega) (by omega)
    rw [e]
    exact ⟨_, rfl, start_made h⟩
  | false =>
    simp only [Bool.false_eq_true, if_false]
    cases rl with
    | true =>
      simp only [if_true]
      obtain ⟨s, e, h⟩ := LzmaStream.new_any (N := N) (T := T) R hl h2 C.z0 hT hN
      rw [hC, e]
      exact ⟨_, rfl, start_made h⟩
    | false =>
      simp only [Bool.false_eq_true, if_false]
      cases rg with
      | false => exact ⟨_, rfl, Or.inl rfl⟩
      | true =>
        simp only [if_true]
        obtain ⟨s, e, h⟩ := GZip.new_any (D := C.gz) (g := g) (w := w) (N := N) (T := B) R hl h2 hs2 true (by omega) (by omega)
        rw [e]
        exact ⟨_, rfl, start_made h⟩

/-- Sixteen bytes that were read: the magic with sane numbers, or no magic. -/
theorem isHead_cases {n : Int} {d : List UInt8} (hd : 0 ≤ n → (d.length : Int) = n) :
    isHead n d = .ok false ∨ (isHead n d = .ok true ∧ n = 16 ∧ IsIntro d) := by
  by_cases hn : n ≠ 16
  · left; unfold isHead; rw [if_pos hn]
  have hn := Classical.not_not.1 hn
  subst hn
  have h16 : d.length = 16 := by have := hd (by omega); omega
  by_cases hm : ([0x8e, 0xad, 0xe8, 0x01] : List UInt8) <+: d
  · exact Or.inr ⟨isHead_intro ⟨h16, hm⟩, rfl, h16, hm⟩
  · left
    obtain ⟨r, er, hr⟩ := memEq_spec (l := d) (m := headmagic) (by rw [h16]; decide)
    have : r = false := by cases r with | false => rfl | true => exact absurd (hr.mp rfl) hm
    subst this
    unfold isHead
    rw [if_neg (by simp), er]

theorem new_made (R : Sturdy P lo H V) (hl : lo ≤ 1) (hC : C.lz = decoder) (hv : ∀ p b, V.gives p b → IsIntro b → Sane b)
    {T B : Nat} (hT : V.total ≤ T) (hN : T + Lzma.most T + 1 < N)
    (hN1 : 2 * (w C.gz.init + (g + 1) * T) < N) (hN2 : 2 * (w' C.bz.init + (g' + 1) * T) < N)
    (hB1 : w C.gz.init + g * T ≤ B) (hB2 : w' C.bz.init + g' * T ≤ B) {input : σ} (hi : H input) :
    ∃ s, Rpm.new P C N input = .ok s ∧ Made P H V g g' w w' N T B s := by
  have rej : ∃ s, (Res.ok (rejected : State σ ζg ζb Dec)) = .ok s ∧ Made P H V g g' w w' N T B s := ⟨_, rfl, Or.inl rfl⟩
  unfold Rpm.new
  obtain ⟨s1, n1, d1, e1, h1, _, _, a1, _⟩ := R.fetch hi (mn := 96) (mx := 96) (by omega) (by omega)
  rw [e1, Res.bind_ok]
  dsimp only
  by_cases hn : n1 ≠ 96
  · rw [if_pos hn]; exact rej
  rw [if_neg hn]
  unfold signature
  obtain ⟨s2, n2, d2, e2, h2, _, _, a2, _⟩ := R.fetch h1 (mn := 16) (mx := 16) (by omega) (by omega)
  rw [e2, Res.bind_ok]
  dsimp only
  rcases isHead_cases (fun z => (a2 z).2.2.1) with eh | ⟨eh, z16, hI⟩
  · rw [eh, Res.bind_ok, if_neg (by simp)]; exact rej
  rw [eh, Res.bind_ok, if_pos rfl]
  obtain ⟨g1, g2, g3, g4⟩ := hv _ _ (a2 (by omega)).2.2.2.1 hI
  rw [blockSizes_intro hI, Ole.ck_ok (by omega) (by omega), Res.bind_ok, Ole.ck_ok (by omega) (by omega), Res.bind_ok, Res.bind_ok]
  simp only
  obtain ⟨m, hmm⟩ : ∃ m : Nat, blockCount d2 * 16 + blockStore d2 = m := ⟨(blockCount d2 * 16 + blockStore d2).toNat, by omega⟩
  have hp : (8 - m % 8) % 8 < 8 := Nat.mod_lt _ (by omega)
  generalize hq : (8 - m % 8) % 8 = p at hp
  have hp2 : (m + p) % 8 = 0 := by omega
  rw [hmm, pad8_spec hp hp2 (by omega), Res.bind_ok]
  obtain ⟨s3, n3, d3, e3, h3, _, _, a3, _⟩ := R.fetch h2 (mn := ((m + p : Nat) : Int)) (mx := ((m + p : Nat) : Int)) (by omega) (by omega)
  rw [e3, Res.bind_ok]
  dsimp only
  by_cases hn3 : n3 ≠ ((m + p : Nat) : Int)
  · rw [if_pos hn3]; exact rej
  rw [if_neg hn3]
  unfold header
  obtain ⟨s4, n4, d4, e4, h4, _, _, a4, _⟩ := R.fetch h3 (mn := 16) (mx := 16) (by omega) (by omega)
  rw [e4, Res.bind_ok]
  dsimp only
  rcases isHead_cases (fun z => (a4 z).2.2.1) with eh | ⟨eh, z16', hI'⟩
  · rw [eh, Res.bind_ok, if_neg (by simp)]; exact rej
  rw [eh, Res.bind_ok, if_pos rfl]
  obtain ⟨f1, f2, f3, f4⟩ := hv _ _ (a4 (by omega)).2.2.2.1 hI'
  rw [blockSizes_intro hI', Ole.ck_ok (by omega) (by omega), Res.bind_ok, Ole.ck_ok (by omega) (by omega), Res.bind_ok, Res.bind_ok]
  simp only
  obtain ⟨s5, n5, d5, e5, h5, _, _, a5, _⟩ := R.fetch h4 (mn := blockCount d4 * 16 + blockStore d4) (mx := blockCount d4 * 16 + blockStore d4) (by omega) (by omega)
  rw [e5, Res.bind_ok]
  dsimp only
  by_cases hn5 : n5 ≠ blockCount d4 * 16 + blockStore d4
  · rw [if_pos hn5]; exact rej
  rw [if_neg hn5]
  have hn5 := Classical.not_not.1 hn5
  obtain ⟨b1, b2, b3, _⟩ := a5 (by omega)
  obtain ⟨r, er⟩ := checkIndex_total (b := d5) (n := blockCount d4) (s := blockStore d4) (by omega) f2 (blockCount d4).toNat 0 (by omega)
  rw [er, Res.bind_ok]
  cases r with
  | false => rw [if_neg (by simp)]; exact rej
  | true =>
    rw [if_pos rfl]
    exact payload_made R hl hC hT hN hN1 hN2 hB1 hB2 h5 b2

/-- The states of the provider. -/
def Ok (Q : StreamOps (Payload σ ζg ζb Dec) UInt8) (W : View (Payload σ ζg ζb Dec)) (G : Payload σ ζg ζb Dec → Prop) (n : Nat) (s : State σ ζg ζb Dec) : Prop :=
  (s = rejected ∧ n = 0) ∨ ∃ k, s.cpio = some k ∧ s.status = k.status ∧ Cpio.Ok Q W G n k

theorem tame {W : View (Payload σ ζg ζb Dec)} {G : Payload σ ζg ζb Dec → Prop} {fuel : Nat}
    (T : Tame (payloadOps P C N) W G (Cpio.ops (payloadOps P C N) fuel) (Cpio.Ok (payloadOps P C N) W G)) :
    Tame (payloadOps P C N) W G (Rpm.ops P C N fuel) (Ok (payloadOps P C N) W G) where
  stream := rfl
  entry := by
    intro n s e h he
    rcases h with ⟨rfl, _⟩ | ⟨k, hk, _, h⟩
    · cases he
    · simp only [Rpm.ops, hk] at he
      exact T.entry h he
  set := by
    intro n s e e' h he u h1 h2
    rcases h with ⟨rfl, _⟩ | ⟨k, hk, hs, h⟩
    · cases he
    · simp only [Rpm.ops, hk] at he
      exact Or.inr ⟨{ k with entry := some e' }, by simp only [Rpm.ops, hk, Option.map], hs, T.set h he u h1 h2⟩
  next := by
    intro n s h
    show ∃ p', nextEntry P C N fuel s = .ok p' ∧ _
    rcases h with ⟨rfl, rfl⟩ | ⟨k, hk, hs, h⟩
    · exact ⟨rejected, rfl, Or.inl ⟨rfl, rfl⟩⟩
    · unfold nextEntry
      by_cases hst : s.status ≠ .ok
      · rw [if_pos hst]
        have he : k.entry = none := by
          cases he : k.entry with
          | none => rfl
          | some e => exact absurd (h.1.entry e he).2.1 (by rw [← hs]; exact hst)
        refine ⟨s, rfl, ?_⟩
        simp only [Rpm.ops, hk, he]
        exact Or.inr ⟨k, hk, hs, h⟩
      · rw [if_neg hst, hk]
        obtain ⟨k', e, h'⟩ := T.next h
        simp only [show Cpio.nextEntry (payloadOps P C N) fuel k = .ok k' from e, Res.bind_ok]
        exact ⟨_, rfl, Or.inr ⟨k', rfl, rfl, h'⟩⟩

end Rpm
end Strigi
