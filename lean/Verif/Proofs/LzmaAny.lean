import Verif.Proofs.LzmaAll
import Verif.Props.LzmaDec

/-!
# `LZMAInputStream` with the bundled decoder on arbitrary data
-/

namespace Strigi
namespace LzmaDec

open Lzma BufferedStream LzmaStream

variable {σ : Type} {S : StreamOps σ UInt8} {c : List UInt8} {F : Failure} {H : σ → Int → Int → Prop} {P : Params}

/-- What is delivered: `content`, if the data is `d`, which stands for `all`, and the header says `n`. -/
structure Delivers (P : Params) (d all content : List UInt8) (n : Int) : Prop where
  max : ∀ y, StartsWith P d y → y <+: all
  pre : ∀ p, p <+: all → (n = -1 ∨ (p.length : Int) ≤ n) → p <+: content
  mark : ∀ x y, x <+: d → MarkedStream P x y → (n = -1 ∨ (y.length : Int) ≤ n) → y = content
  full : ∀ p, p <+: all → (p.length : Int) = n → p = content
  size : n = -1 ∨ 0 < n

/-- The relation between the state and what is still to be delivered. -/
def Live (S : StreamOps σ UInt8) (H : σ → Int → Int → Prop) (c : List UInt8) (z0 : Dec) (d all content : List UInt8) (n : Int) (N : Nat)
    (s : LzmaStream.State σ Dec) (rest : List UInt8) (m : Nat) : Prop :=
  m < N ∧ s.failed = false ∧ 0 ≤ s.done ∧
  ((s.msize = s.done ∧ rest = []) ∨
    ∃ X Y q, LzmaCalls decoder z0 s.z X Y ∧ d = X ++ c.drop q.toNat ∧ Y ++ rest = content ∧ s.done = Y.length ∧ s.msize = n ∧
      (n = -1 ∨ (Y.length : Int) < n) ∧ Y <+: all ∧ (∃ lo hi, lo ≤ q ∧ H s.input lo hi) ∧ q + s.availIn.length = S.position s.input ∧
      s.availIn <+: c.drop q.toNat ∧ m = (c.drop q.toNat).length + (all.length - Y.length) + 1)

/-- The result of `fillBuffer`, as `Produces` wants it. -/
def Filled (L : LzmaStream.State σ Dec → List UInt8 → Nat → Prop) (rest : List UInt8) (m : Nat) (space : Int)
    (res : Res (LzmaStream.State σ Dec × Fill UInt8)) : Prop :=
  ∃ f' r, res = .ok (f', r) ∧
      ((r.error = false ∧ r.n = r.data.length ∧ r.n ≤ space ∧ ∃ rest' m', rest = r.data ++ rest' ∧ m' < m ∧ L f' rest' m') ∨
        (r.error = false ∧ r.n < 0 ∧ r.data = [] ∧ rest = []) ∨
        (r.error = true ∧ r.n < 0 ∧ (r.data.length : Int) ≤ space))

theorem any_decompress {b : List UInt8} (hb : props b P) {z0 : Dec} (hz0 : decoder.init b = .ok z0) {d all content : List UInt8} {n : Int}
    (G : Delivers P d all content n) (C : Contract S c F H) {N m : Nat} {s : LzmaStream.State σ Dec} {rest X Y : List UInt8} {q space : Int} (hsp : 0 < space)
    (hN : m < N) (hf : s.failed = false) (hX : LzmaCalls decoder z0 s.z X Y) (hd : d = X ++ c.drop q.toNat) (hrest : Y ++ rest = content)
    (hdone : s.done = Y.length) (hms : s.msize = n) (hlt : n = -1 ∨ (Y.length : Int) < n) (hY : Y <+: all)
    (hH : ∃ lo hi, lo ≤ q ∧ H s.input lo hi) (hq : q + s.availIn.length = S.position s.input) (ha : s.availIn <+: c.drop q.toNat)
    (hm : m = (c.drop q.toNat).length + (all.length - Y.length) + 1) :
    Filled (Live S H c z0 d all content n N) rest m space (decompress decoder s space) := by
  obtain ⟨z0', hz, run⟩ := Props.C116_decoder hb
  rw [hz0] at hz
  cases hz
  have hPd := Props.props_ok hb
  obtain ⟨lo, hi, hlo, hH⟩ := hH
  have hrg := C.range hH
  have hq0 : 0 ≤ q := by omega
  obtain ⟨fin, hfin⟩ : ∃ fin, decide (s.msize ≠ -1 ∧ space > s.msize - s.done) = fin := ⟨_, rfl⟩
  obtain ⟨sp, hspe⟩ : ∃ sp : Int, (if fin = true then s.msize - s.done else space) = sp := ⟨_, rfl⟩
  have hsp2 : 0 < sp ∧ sp ≤ space ∧ (n = -1 ∨ sp ≤ n - Y.length) := by
    rw [hms] at hfin hspe
    rw [hdone] at hfin hspe
    by_cases hc : n ≠ -1 ∧ space > n - Y.length
    · rw [decide_eq_true hc] at hfin
      subst hfin
      rw [if_pos rfl] at hspe
      omega
    · rw [decide_eq_false hc] at hfin
      subst hfin
      rw [if_neg (by decide)] at hspe
      omega
  unfold decompress
  simp only
  rw [hfin, hspe]
  obtain ⟨z', k, out, code, e, hk, hout, ⟨y, hy1, hy2⟩, hmore, hmark, _⟩ := run hX s.availIn sp fin hsp2.1
  rw [e]
  simp only [Res.bind_ok]
  have hXin : X ++ s.availIn <+: d := by rw [hd]; exact (List.prefix_append_right_inj X).mpr ha
  have hkl : (s.availIn.take k).length = k := by rw [List.length_take]; omega
  have hrem : c.drop q.toNat = s.availIn.take k ++ c.drop (q + k).toNat := by
    have h1 : (q + k).toNat = q.toNat + k := by omega
    obtain ⟨u, hu⟩ := ha
    rw [h1, ← List.drop_drop, ← hu]
    rw [List.drop_append_of_le_length hk, ← List.append_assoc, List.take_append_drop]
  have hpre : Y ++ out <+: all := by
    obtain ⟨u, hu⟩ := hXin
    exact hy2.trans (G.max _ (by rw [← hu]; exact startsWith_append hPd.1 hPd.2.1 hy1 u))
  have hlen : n = -1 ∨ ((Y ++ out).length : Int) ≤ n := by rw [List.length_append]; omega
  have hall := hpre.length_le
  rw [List.length_append] at hall hlen
  unfold finish
  cases code with
  | failed => exact ⟨_, _, rfl, Or.inr (Or.inr ⟨rfl, by simp, by simp only; omega⟩)⟩
  | mark =>
    simp only
    split
    · exact ⟨_, _, rfl, Or.inr (Or.inr ⟨rfl, by simp, by simp only; omega⟩)⟩
    · have hc := G.mark _ _ (by
        refine List.IsPrefix.trans ?_ hXin
        exact (List.prefix_append_right_inj X).mpr (List.take_prefix _ _)) (hmark rfl) (by rw [List.length_append]; exact hlen)
      have hr : rest = out := by
        rw [← hrest] at hc
        exact (List.append_cancel_left hc).symm
      exact ⟨_, _, rfl, Or.inl ⟨rfl, rfl, by simp only; omega, [], 0, by rw [hr]; simp, by omega, by omega, hf, by simp only; omega, Or.inl ⟨rfl, rfl⟩⟩⟩
  | more =>
    simp only
    split
    · exact ⟨_, _, rfl, Or.inr (Or.inr ⟨rfl, by simp, by simp only; omega⟩)⟩
    · rename_i hprog
      obtain ⟨rest', hr'⟩ := G.pre _ hpre (by rw [List.length_append]; exact hlen)
      have hr : rest = out ++ rest' := by
        rw [← hrest, List.append_assoc] at hr'
        exact (List.append_cancel_left hr').symm
      have hdec : k ≠ 0 ∨ out.length ≠ 0 := by
        by_cases h0 : k = 0
        · right
          intro h1
          exact hprog ⟨h0, List.eq_nil_of_length_eq_zero h1⟩
        · exact Or.inl h0
      have hl : (c.drop q.toNat).length = k + (c.drop (q + k).toNat).length := by
        rw [hrem, List.length_append, hkl]
      by_cases hful : ((Y ++ out).length : Int) = n
      · have hcc := G.full _ hpre hful
        have : rest' = [] := by
          rw [← hcc] at hr'
          simpa using hr'
        subst this
        rw [List.length_append] at hful
        exact ⟨_, _, rfl, Or.inl ⟨rfl, rfl, by simp only; omega, [], 0, hr, by omega, by omega, hf, by simp only; omega, Or.inl ⟨by simp only; omega, rfl⟩⟩⟩
      · rw [List.length_append] at hful
        refine ⟨_, _, rfl, Or.inl ⟨rfl, rfl, by simp only; omega, rest', (c.drop (q + k).toNat).length + (all.length - (Y ++ out).length) + 1, hr, ?_, ?_, hf, by simp only; omega,
          Or.inr ⟨X ++ s.availIn.take k, Y ++ out, q + k, ?_, ?_, hr', ?_, hms, ?_, hpre, ⟨lo, hi, by omega, hH⟩, ?_, ?_, rfl⟩⟩⟩
        · rw [List.length_append]; omega
        · rw [List.length_append]; omega
        · exact .call hX hsp2.1 e
        · rw [hd, hrem, List.append_assoc]
        · rw [List.length_append]; simp only; omega
        · rw [List.length_append]; omega
        · simp only [List.length_drop]; omega
        · obtain ⟨u, hu⟩ := ha
          refine ⟨u, ?_⟩
          have h1 : (q + k).toNat = q.toNat + k := by omega
          rw [h1, ← List.drop_drop, ← hu, List.drop_append_of_le_length hk]

theorem any_fill {b : List UInt8} (hb : props b P) {z0 : Dec} (hz0 : decoder.init b = .ok z0) {d all content : List UInt8} {n : Int}
    (G : Delivers P d all content n) (C : Contract S c F H) {N m : Nat} {s : LzmaStream.State σ Dec} {rest : List UInt8} {space : Int} (hsp : 0 < space)
    (h : Live S H c z0 d all content n N s rest m) : Filled (Live S H c z0 d all content n N) rest m space (fill S decoder s space) := by
  obtain ⟨hN, hf, hd0, h⟩ := h
  unfold fill
  rw [if_neg (by simp [hf])]
  rcases h with ⟨h1, h2⟩ | ⟨X, Y, q, hX, hd, hrest, hdone, hms, hlt, hY, hH, hq, ha, hm⟩
  · rw [if_pos h1]
    exact ⟨_, _, rfl, Or.inr (Or.inl ⟨rfl, by simp, rfl, h2⟩)⟩
  · have := G.size
    rw [if_neg (by omega)]
    by_cases hz : s.availIn = []
    · rw [if_pos hz]
      obtain ⟨lo, hi, hlo, hH⟩ := hH
      have hrg := C.range hH
      have hqp : q = S.position s.input := by rw [hz] at hq; simpa using hq
      subst hqp
      obtain ⟨i, n', d', er, hro, hk⟩ := C.read hH (min := 1) (max := 0) (by omega) (Or.inl rfl)
      unfold readFromStream
      rw [er]
      simp only [Res.bind_ok]
      cases hro with
      | data pos items inside adv limit enough st =>
        rw [if_neg (by omega)]
        simp only [Res.bind_ok]
        rw [if_neg (by simp [hf])]
        have hdl : (d'.length : Int) = n' := by
          rw [items]; exact slice_length (by omega) (by omega) (by omega)
        have hd' : slice d' 0 n' = d' := by
          rw [← hdl]; simp [slice]
        rw [hd']
        exact any_decompress (s := { s with input := i, availIn := d' }) hb hz0 G C (q := S.position s.input) hsp hN hf hX hd hrest hdone hms hlt hY
          ⟨_, _, Int.le_refl _, hk st⟩ (by simp only; omega) (by simp only; rw [items]; exact List.take_prefix _ _) hm
      | ended none nodata atEnd stay st =>
        rw [if_pos (by omega)]
        simp only [Res.bind_ok, if_true]
        exact ⟨_, _, rfl, Or.inr (Or.inr ⟨rfl, by simp, by simp; omega⟩)⟩
      | failed allowed code st =>
        rw [if_pos (by omega)]
        simp only [Res.bind_ok, if_true]
        exact ⟨_, _, rfl, Or.inr (Or.inr ⟨rfl, by simp, by simp; omega⟩)⟩
    · rw [if_neg hz]
      exact any_decompress hb hz0 G C hsp hN hf hX hd hrest hdone hms hlt hY hH hq ha hm

theorem any_opened {b : List UInt8} (hb : props b P) {z0 : Dec} (hz0 : decoder.init b = .ok z0) {d all content : List UInt8} {n : Int}
    (G : Delivers P d all content n) (C : Contract S c F H) {N : Nat} {input : σ} {lo hi : Int} (hH : H input lo hi) (hd : d = c.drop (S.position input).toNat)
    (hN : d.length + all.length + 1 < N) :
    ∃ s, BufferedStream.setMinBufSize (BufferedStream.new
        ({ input := input, z := z0, availIn := [], msize := n, done := 0, failed := false, marked := false } : LzmaStream.State σ Dec) n) 262144 = .ok s ∧
        s.pos = 0 ∧ IsStream (ops S decoder N) content Failure.always True s := by
  have hP : Produces (producer S decoder N) True (Live S H c z0 d all content n N) := by
    refine ⟨fun h => h.1, fun h _ hsp => ?_⟩
    obtain ⟨f', r, e, h⟩ := any_fill hb hz0 G C hsp h
    refine ⟨f', r, e, ?_⟩
    rcases h with h | h | h
    · exact Or.inl h
    · exact Or.inr (Or.inl h)
    · exact Or.inr (Or.inr (Or.inl ⟨trivial, h⟩))
  have hrg := C.range hH
  have h0 : Live S H c z0 d all content n N
      { input := input, z := z0, availIn := [], msize := n, done := 0, failed := false, marked := false } content (d.length + all.length + 1) := by
    have := G.size
    exact ⟨hN, rfl, by simp, Or.inr ⟨[], [], S.position input, .start, hd, rfl, rfl, rfl, by simp; omega, List.nil_prefix, ⟨lo, hi, hrg.2.1, hH⟩, by simp,
      List.nil_prefix, by rw [hd]; simp⟩⟩
  have hF : BufferedStream.fails True content n = Failure.always := by simp [BufferedStream.fails, Failure.always]
  have C1 := BufferedStream.contract hP content n
  rw [hF] at C1
  have S1 := BufferedStream.softReset (Live S H c z0 d all content n N) (producer S decoder N) content n
  have C2 := C1.withSize (fun s => if s.prod.marked then s.prod.done else s.size) (fun _ => Or.inr (Or.inr trivial))
  obtain ⟨s, e, hp, hh⟩ := BufferedStream.setMinBufSize_healthy h0 n 262144
  exact ⟨s, e, hp, C2.isStream (fun _ => S1.withSize _) (by show BufferedStream.Healthy _ _ _ s s.pos s.pos; rw [hp]; exact hh)⟩

end LzmaDec
end Strigi
