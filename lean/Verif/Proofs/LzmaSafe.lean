import Verif.Proofs.LzmaBound
import Verif.Proofs.UnpackSafe
import Verif.Props.LzmaDec
import Verif.Props.Lzma

/-!
# `LZMAInputStream` with the bundled decoder: arbitrary data, over any input that may be used in any way
-/

namespace Strigi
namespace LzmaDec

open Lzma BufferedStream LzmaStream

variable {σ : Type} {S : StreamOps σ UInt8} {K : σ → Prop} {rem : σ → Nat} {lo : Int} {P : Params}

/-- States from which `fillBuffer` may be called. -/
structure Prepared (K : σ → Prop) (rem : σ → Nat) (z0 : Dec) (N T : Nat) (f : LzmaStream.State σ Dec) (m b : Nat) : Prop where
  input : K f.input
  fuel : m < N
  alive : f.failed = false
  run : f.msize = f.done ∨ ∃ X Y, LzmaCalls decoder z0 f.z X Y ∧ f.done = Y.length ∧ X.length + f.availIn.length + rem f.input ≤ T ∧
    (f.msize = -1 ∨ (Y.length : Int) < f.msize) ∧ f.availIn.length + rem f.input + (most T - Y.length) + 1 ≤ m ∧ most T - Y.length ≤ b

/-- The result of `fillBuffer`, as `Emits` wants it. -/
def Fills (K : σ → Prop) (I : LzmaStream.State σ Dec → Nat → Nat → Prop) (m b : Nat) (space : Int) (res : Res (LzmaStream.State σ Dec × Fill UInt8)) : Prop :=
  ∃ f' r, res = .ok (f', r) ∧ K f'.input ∧ (r.data.length : Int) ≤ space ∧
    ((r.error = false ∧ r.n = r.data.length ∧ ∃ m' b', m' < m ∧ b' + r.data.length ≤ b ∧ I f' m' b') ∨ r.n < 0)

theorem safe_decompress {b : List UInt8} (hb : props b P) {z0 : Dec} (hz0 : decoder.init b = .ok z0) {N T m bud : Nat} {s : LzmaStream.State σ Dec}
    {X Y : List UInt8} {space : Int} (hsp : 0 < space) (hK : K s.input) (hN : m < N) (hf : s.failed = false) (hX : LzmaCalls decoder z0 s.z X Y)
    (hdone : s.done = Y.length) (hT : X.length + s.availIn.length + rem s.input ≤ T) (hlt : s.msize = -1 ∨ (Y.length : Int) < s.msize)
    (hm : s.availIn.length + rem s.input + (most T - Y.length) + 1 ≤ m) (hbud : most T - Y.length ≤ bud) :
    Fills K (Prepared K rem z0 N T) m bud space (decompress decoder s space) := by
  obtain ⟨z0', hz, run⟩ := Props.C116_decoder hb
  rw [hz0] at hz
  cases hz
  have hPd := Props.props_ok hb
  obtain ⟨fin, hfin⟩ : ∃ fin, decide (s.msize ≠ -1 ∧ space > s.msize - s.done) = fin := ⟨_, rfl⟩
  obtain ⟨sp, hspe⟩ : ∃ sp : Int, (if fin = true then s.msize - s.done else space) = sp := ⟨_, rfl⟩
  have hsp2 : 0 < sp ∧ sp ≤ space ∧ (s.msize = -1 ∨ sp ≤ s.msize - Y.length) := by
    rw [hdone] at hfin hspe
    by_cases hc : s.msize ≠ -1 ∧ space > s.msize - Y.length
    · rw [decide_eq_true hc] at hfin
      subst hfin
      rw [if_pos rfl] at hspe
      omega
    · rw [decide_eq_false hc] at hfin
      subst hfin
      rw [if_neg (by decide)] at hspe
      omega
  unfold decompress
  simp only
  rw [hfin, hspe]
  obtain ⟨z', k, out, code, e, hk, hout, ⟨y, hy1, hy2⟩, hmore, hmark, _⟩ := run hX s.availIn sp fin hsp2.1
  rw [e]
  simp only [Res.bind_ok]
  have hkl : (s.availIn.take k).length = k := by rw [List.length_take]; omega
  have hlen : Y.length + out.length ≤ most T := by
    have h1 := hy2.length_le
    have h2 := startsWith_length hPd.1 hPd.2.1 hy1
    rw [List.length_append] at h1 h2
    have h3 : most (X.length + s.availIn.length) ≤ most T := most_mono (by omega)
    omega
  unfold finish
  cases code with
  | failed => exact ⟨_, _, rfl, hK, by simp only; omega, Or.inr (by simp)⟩
  | mark =>
    simp only
    split
    · exact ⟨_, _, rfl, hK, by simp only; omega, Or.inr (by simp)⟩
    · exact ⟨_, _, rfl, hK, by simp only; omega, Or.inl ⟨rfl, rfl, 0, 0, by omega, by simp only; omega, ⟨hK, by omega, hf, Or.inl rfl⟩⟩⟩
  | more =>
    simp only
    split
    · exact ⟨_, _, rfl, hK, by simp only; omega, Or.inr (by simp)⟩
    · rename_i hprog
      have hdec : k ≠ 0 ∨ out.length ≠ 0 := by
        by_cases h0 : k = 0
        · right
          intro h1
          exact hprog ⟨h0, List.eq_nil_of_length_eq_zero h1⟩
        · exact Or.inl h0
      have hdl : (s.availIn.drop k).length = s.availIn.length - k := List.length_drop
      refine ⟨_, _, rfl, hK, by simp only; omega, Or.inl ⟨rfl, rfl, (s.availIn.drop k).length + rem s.input + (most T - (Y.length + out.length)) + 1,
        most T - (Y.length + out.length), by omega, by simp only; omega, ⟨hK, by omega, hf, ?_⟩⟩⟩
      by_cases hful : ((Y.length + out.length : Nat) : Int) = s.msize
      · exact Or.inl (by simp only; omega)
      · refine Or.inr ⟨X ++ s.availIn.take k, Y ++ out, .call hX hsp2.1 e, ?_, ?_, ?_, ?_, ?_⟩
        · rw [List.length_append]; simp only; omega
        · rw [List.length_append, hkl]; simp only; omega
        · rw [List.length_append]; simp only; omega
        · rw [List.length_append]
        · rw [List.length_append]

theorem safe_fill (A : Unpack.Source S K rem lo) {b : List UInt8} (hb : props b P) {z0 : Dec} (hz0 : decoder.init b = .ok z0) {N T m bud : Nat}
    {s : LzmaStream.State σ Dec} {space : Int} (hsp : 0 < space) (h : Prepared K rem z0 N T s m bud) :
    Fills K (Prepared K rem z0 N T) m bud space (fill S decoder s space) := by
  unfold fill
  rw [if_neg (by simp [h.alive])]
  rcases h.run with h1 | ⟨X, Y, hX, hdone, hT, hlt, hm, hbud⟩
  · rw [if_pos h1]
    exact ⟨_, _, rfl, h.input, by simp; omega, Or.inr (by simp)⟩
  · rw [if_neg (by omega)]
    by_cases hz : s.availIn = []
    · rw [if_pos hz]
      unfold readFromStream
      obtain ⟨i, n, d, er, hK', hn1⟩ := A.read h.input
      rw [er]
      simp only [Res.bind_ok]
      by_cases hn : n < 1
      · rw [if_pos hn]
        simp only [Res.bind_ok, if_true]
        exact ⟨_, _, rfl, hK', by simp; omega, Or.inr (by simp)⟩
      · rw [if_neg hn]
        simp only [Res.bind_ok]
        rw [if_neg (by simp [h.alive])]
        obtain ⟨a1, _⟩ := hn1 (by omega)
        have hlen : ((slice d 0 n).length : Int) ≤ n := by
          unfold slice; rw [List.length_take]; omega
        rw [hz] at hT hm
        exact safe_decompress (s := { s with input := i, availIn := slice d 0 n }) hb hz0 hsp hK' h.fuel h.alive hX hdone
          (by simp only [List.length_nil] at hT ⊢; omega) hlt (by simp only [List.length_nil] at hm ⊢; omega) hbud
    · rw [if_neg hz]
      exact safe_decompress hb hz0 hsp h.input h.fuel h.alive hX hdone hT hlt hm hbud

theorem safe_emits (A : Unpack.Source S K rem lo) {b : List UInt8} (hb : props b P) {z0 : Dec} (hz0 : decoder.init b = .ok z0) (N T : Nat) :
    BufferedStream.Emits (producer S decoder N) (fun f => K f.input) (Prepared K rem z0 N T) where
  weak h := h.input
  fuel h := h.fuel
  step := by
    intro f m b h space hs
    obtain ⟨f', r, e, h1, h2, h3⟩ := safe_fill A hb hz0 hs h
    refine ⟨f', r, e, h1, h2, ?_⟩
    rcases h3 with h3 | h3
    · exact Or.inl h3
    · exact Or.inr (Or.inl h3)

/-- The states of the stream: with the parameters of the header, or rejected. -/
def Lives (K : σ → Prop) (rem : σ → Nat) (N T : Nat) (c : List UInt8) (s : BufferedStream (LzmaStream.State σ Dec) UInt8) : Prop :=
  ∃ b P z0, props b P ∧ decoder.init b = .ok z0 ∧ BufferedStream.Live (fun f => K f.input) (Prepared K rem z0 N T) (most T) c s

/-- A stream that changes no property of the kind `Growing` with an additional parameter. -/
theorem growing_lives (A : Unpack.Source S K rem lo) (N T : Nat) : Growing (LzmaStream.ops S decoder N) (most T) (Lives K rem N T) where
  range := by
    rintro c s ⟨b, P, z0, hb, hz, h⟩
    exact (BufferedStream.growing (safe_emits A hb hz N T) (most T)).range h
  read := by
    rintro c s ⟨b, P, z0, hb, hz, h⟩ mn mx hmn
    obtain ⟨s', n, d, c', e, p, h', g⟩ := (BufferedStream.growing (safe_emits A hb hz N T) (most T)).read h mn mx hmn
    exact ⟨s', n, d, c', e, p, ⟨b, P, z0, hb, hz, h'⟩, g⟩
  skip := by
    rintro c s ⟨b, P, z0, hb, hz, h⟩ k hk
    obtain ⟨s', r, c', e, p, h', g⟩ := (BufferedStream.growing (safe_emits A hb hz N T) (most T)).skip h k hk
    exact ⟨s', r, c', e, p, ⟨b, P, z0, hb, hz, h'⟩, g⟩
  reset := by
    rintro c s ⟨b, P, z0, hb, hz, h⟩ q hq
    obtain ⟨s', r, e, h', g⟩ := (BufferedStream.growing (safe_emits A hb hz N T) (most T)).reset h q hq
    exact ⟨s', r, e, ⟨b, P, z0, hb, hz, h'⟩, g⟩

theorem magic_props {d : List UInt8} (h : Props.LzmaMagic d) : ∃ P, props (d.take 5) P := by
  obtain ⟨dic, size, rest, rfl, h3, h8, _⟩ := h
  obtain ⟨b1, b2, b3, rfl⟩ : ∃ b1 b2 b3, dic = [b1, b2, b3] := by
    rcases dic with _ | ⟨b1, _ | ⟨b2, _ | ⟨b3, _ | ⟨b4, dic⟩⟩⟩⟩ <;> simp at h3
    exact ⟨b1, b2, b3, rfl⟩
  exact ⟨{ lc := 3, lp := 0, pb := 2, dicSize := max 4096 (0 + 256 * (b1.toNat + 256 * (b2.toNat + 256 * b3.toNat))) },
    0x5d, 0, b1, b2, b3, rfl, (by simp only; omega), (by simp only; omega), (by simp only; omega), rfl, rfl⟩

end LzmaDec

open LzmaDec Lzma

variable {σ : Type} {P : StreamOps σ UInt8} {l : Int} {H : σ → Prop} {V : View σ}

/-- The states of an `LZMAInputStream` on such an input. -/
abbrev LzmaStream.Runs (H : σ → Prop) (V : View σ) (N T : Nat) : List UInt8 → BufferedStream (LzmaStream.State σ Dec) UInt8 → Prop :=
  Lives (fun s => H s ∧ (¬ V.dead s → 0 ≤ V.loc s)) V.rem N T

theorem LzmaStream.runs_growing (R : Sturdy P l H V) (hl : l ≤ 1) (N T : Nat) : Growing (LzmaStream.ops P decoder N) (most T) (LzmaStream.Runs H V N T) :=
  growing_lives (Unpack.Source.of_sturdy R hl (Int.le_refl 0)) N T

theorem LzmaStream.runs_under {N T : Nat} {c : List UInt8} {s : BufferedStream (LzmaStream.State σ Dec) UInt8} (h : LzmaStream.Runs H V N T c s) :
    H s.prod.input := by
  obtain ⟨_, _, _, _, _, h⟩ := h
  exact h.weak.1

theorem LzmaStream.new_any (R : Sturdy P l H V) (hl : l ≤ 1) {input : σ} (hi : H input) (z : Dec) {N T : Nat} (hT : V.total ≤ T) (hN : T + most T + 1 < N) :
    ∃ s, LzmaStream.new P decoder z input = .ok s ∧ LzmaStream.Runs H V N T [] s := by
  obtain ⟨s1, n, d, e1, h1, _, _, g3, g4⟩ := R.fetch hi (mn := 13) (mx := 13) (by omega) (by omega)
  have hK : H s1 ∧ (¬ V.dead s1 → 0 ≤ V.loc s1) := ⟨h1, fun z => (R.range h1 z).1⟩
  have hpr : props [0x5d, 0, 0, 0, 0] { lc := 3, lp := 0, pb := 2, dicSize := 4096 } :=
    ⟨0x5d, 0, 0, 0, 0, rfl, by decide, by decide, by decide, by decide, rfl⟩
  have rejected : LzmaStream.Runs H V N T [] { BufferedStream.new ({ input := s1, z := z, availIn := [], msize := 0, done := 0, failed := true, marked := false } :
      LzmaStream.State σ Dec) with status := .error } :=
    ⟨_, _, _, hpr, (Props.props_ok hpr).2.2, ⟨hK, fun z => absurd rfl z, fun z => absurd rfl z, fun z => by cases z⟩⟩
  unfold LzmaStream.new
  rw [e1]
  simp only [Res.bind_ok]
  by_cases hn : n = 13
  · rw [if_pos hn]
    obtain ⟨k1, k2, k3, _⟩ := g3 (by omega)
    have hd : d.length = 13 := by omega
    obtain ⟨b, eb, hb⟩ := Props.C59_lzma d
    rw [hd, show ((13 : Nat) : Int) = 13 from rfl] at eb
    rw [eb, Res.bind_ok]
    cases b with
    | false => exact ⟨_, rfl, rejected⟩
    | true =>
      simp only [if_true]
      have hm := hb.mp rfl
      obtain ⟨Q, hQ⟩ := magic_props hm
      obtain ⟨hP, hdi, hz⟩ := Props.props_ok hQ
      rw [hz, Res.bind_ok, Props.lzma_size hd, Res.bind_ok]
      have hsz : Text.signed 64 (Text.leValue (d.drop 5)) = -1 ∨ 0 < Text.signed 64 (Text.leValue (d.drop 5)) := by
        obtain ⟨dic, size, rest, rfl, h3, h8, _, h⟩ := hm
        have hr : rest = [] := by
          apply List.eq_nil_of_length_eq_zero
          simp only [List.length_cons, List.length_append, h3, h8] at hd
          omega
        have : (0x5d :: 0 :: (dic ++ size ++ rest)).drop 5 = size := by
          subst hr
          simp only [List.drop_succ_cons, List.append_nil]
          rw [show 3 = dic.length from h3.symm, List.drop_left]
        rw [this]
        omega
      have hrem := View.rem_le R h1
      obtain ⟨s, e, L, _⟩ := BufferedStream.live_new (α := UInt8) (J := fun f : LzmaStream.State σ Dec => H f.input ∧ (¬ V.dead f.input → 0 ≤ V.loc f.input))
        (I := Prepared (fun s => H s ∧ (¬ V.dead s → 0 ≤ V.loc s)) V.rem (LzmaDec.init Q) N T) (m := T + most T + 1) (b := most T) (T := most T)
        (f := { input := s1, z := LzmaDec.init Q, availIn := [], msize := Text.signed 64 (Text.leValue (d.drop 5)), done := 0, failed := false, marked := false })
        hK ⟨hK, hN, rfl, Or.inr ⟨[], [], .start, rfl, by simp only [List.length_nil]; omega, by simp only [List.length_nil]; omega,
          by simp only [List.length_nil]; omega, by simp only [List.length_nil]; omega⟩⟩ (Nat.le_refl _) (Text.signed 64 (Text.leValue (d.drop 5))) (n := 262144) (by omega)
      exact ⟨s, e, ⟨_, _, _, hQ, hz, L⟩⟩
  · rw [if_neg hn, Res.bind_ok]
    exact ⟨_, rfl, rejected⟩

end Strigi
