import Verif.Model.LzmaStream
import Verif.Proofs.Decompress

namespace Strigi

/-- The size of a stream may be reported in another way. -/
theorem Contract.withSize {σ α : Type} {ops : StreamOps σ α} {c : List α} {F : Failure} {H : σ → Int → Int → Prop}
    (C : Contract ops c F H) (f : σ → Int) (hf : ∀ {s lo hi}, H s lo hi → f s = -1 ∨ f s = c.length ∨ F.onRead) :
    Contract { ops with size := f } c F H where
  range h := C.range h
  status h := C.status h
  narrow h h1 h2 h3 h4 := C.narrow h h1 h2 h3 h4
  size h := hf h
  read h _ _ h1 h2 := C.read h h1 h2
  skip h _ h1 h2 := C.skip h h1 h2
  reset h _ h1 h2 := C.reset h h1 h2

theorem SoftReset.withSize {σ α : Type} {ops : StreamOps σ α} {c : List α} {H : σ → Int → Int → Prop}
    (S : SoftReset ops c H) (f : σ → Int) : SoftReset { ops with size := f } c H where
  reset h _ h1 h2 := S.reset h h1 h2

namespace LzmaStream

open BufferedStream Unpack

variable {σ ζ : Type} {P : StreamOps σ UInt8} {c : List UInt8} {F : Failure} {H : σ → Int → Int → Prop}
  {D : LzmaDecoder ζ} {R : ζ → List UInt8 → List UInt8 → Prop} {bad : Prop}

/-- What one call of the decoder does, for both kinds of data: `size` is `m_size`. -/
def Decodes (D : LzmaDecoder ζ) (bad : Prop) (R : ζ → List UInt8 → List UInt8 → Prop) (sized : Bool) : Prop :=
  ∀ {z x y}, R z x y → ∀ {inp : List UInt8}, (inp <+: x ∨ x <+: inp) → inp ≠ [] → ∀ {space : Int}, 0 < space →
    let fin := decide (sized = true ∧ space > y.length)
    ∃ z' k out code, D.run z inp (if fin then y.length else space) fin = .ok (z', k, out, code) ∧
      k ≤ inp.length ∧ (out.length : Int) ≤ space ∧
      ∃ y', y = out ++ y' ∧
        ((sized = false ∧ code = .mark ∧ x = inp.take k ∧ y' = []) ∨ (sized = true ∧ y' = [] ∧ code ≠ .failed ∧ out ≠ []) ∨
          (code = .more ∧ (k ≠ 0 ∨ out ≠ []) ∧ ∃ x', x = inp.take k ++ x' ∧ R z' x' y') ∨
          (bad ∧ code = .failed))

theorem LzmaMarked.decodes (h : LzmaMarked D bad R) : Decodes D bad R false := by
  intro z x y hR inp hin hne space hsp fin
  obtain ⟨z', k, out, code, e, hk, ho, y', hy, hc⟩ := h.run hR hin hsp
  refine ⟨z', k, out, code, by simpa [fin] using e, hk, ho, y', hy, ?_⟩
  have := List.length_pos_iff.mpr hne
  rcases hc with hc | ⟨h1, x', h2, h3, h4⟩ | hc
  · exact Or.inl ⟨rfl, hc⟩
  · refine Or.inr (Or.inr (Or.inl ⟨h1, ?_, x', h2, h3⟩))
    rcases h4 with h4 | h4
    · right; intro z; rw [z] at h4; simp at h4; omega
    · left; omega
  · exact Or.inr (Or.inr (Or.inr hc))

theorem LzmaSized.decodes (h : LzmaSized D bad R) : Decodes D bad R true := by
  intro z x y hR inp hin hne space hsp fin
  have hy0 := List.length_pos_iff.mpr (h.rest hR)
  have hl : 0 < (if fin then (y.length : Int) else space) ∧ (if fin then (y.length : Int) else space) ≤ y.length ∧
      (fin = true → (if fin then (y.length : Int) else space) = y.length) ∧ (if fin then (y.length : Int) else space) ≤ space := by
    by_cases hf : space > y.length
    · have : fin = true := by simp [fin, hf]
      rw [this]; simp only [if_true]
      exact ⟨by omega, by omega, fun _ => trivial, by omega⟩
    · have : fin = false := by simp [fin]; omega
      rw [this]; simp only [Bool.false_eq_true, if_false]
      exact ⟨hsp, by omega, fun z => z.elim, by omega⟩
  obtain ⟨z', k, out, code, e, hk, ho, y', hy, hc⟩ := h.run hR hin hl.1 hl.2.1 hl.2.2.1
  refine ⟨z', k, out, code, e, hk, by omega, y', hy, ?_⟩
  have := List.length_pos_iff.mpr hne
  rcases hc with ⟨hc1, hc2⟩ | ⟨h1, x', h2, h3, h4⟩ | hc
  · refine Or.inr (Or.inl ⟨rfl, hc1, hc2, ?_⟩)
    intro z
    rw [hc1, z] at hy
    exact h.rest hR hy
  · refine Or.inr (Or.inr (Or.inl ⟨h1, ?_, x', h2, h3⟩))
    rcases h4 with h4 | h4
    · right; intro z; rw [z] at h4; simp at h4; omega
    · left; omega
  · exact Or.inr (Or.inr (Or.inr hc))

/-- The relation between the state and what is still to be delivered.  If the decoder may need no more input although it
has not delivered everything (not `prompt`), the input has to go on. -/
def Rest (P : StreamOps σ UInt8) (H : σ → Int → Int → Prop) (R : ζ → List UInt8 → List UInt8 → Prop) (sized : Bool)
    (prompt : Prop) (c : List UInt8) (trunc : Prop) (t : List UInt8) (total : Int) (N : Nat) (s : State σ ζ)
    (rest : List UInt8) (m : Nat) : Prop :=
  m < N ∧ s.failed = false ∧ (s.marked = true → s.done = total) ∧ 0 ≤ s.done ∧
  ((s.msize = s.done ∧ rest = []) ∨
    ∃ x y q, R s.z x y ∧ rest = y ++ t ∧ s.marked = false ∧ s.done + rest.length = total ∧
      (s.msize = if sized then s.done + y.length else -1) ∧
      (∃ lo hi, lo ≤ q ∧ H s.input lo hi) ∧ q + s.availIn.length = P.position s.input ∧
      s.availIn <+: c.drop q.toNat ∧ Fits trunc t x (c.drop q.toNat) ∧
      (prompt ∨ x.length ≠ (c.drop q.toNat).length) ∧ m = x.length + y.length + 1)

theorem decompress_step {sized : Bool} (hD : Decodes D bad R sized) (C : Contract P c F H) {prompt trunc : Prop}
    {t : List UInt8} {total : Int} {N m : Nat} {s : State σ ζ} {rest x y : List UInt8} {q space : Int} (hsp : 0 < space)
    (hN : m < N) (hf : s.failed = false) (hmk : s.marked = false) (hdone : 0 ≤ s.done)
    (hR : R s.z x y) (hrest : rest = y ++ t) (htot : s.done + rest.length = total)
    (hms : s.msize = if sized then s.done + y.length else -1)
    (hH : ∃ lo hi, lo ≤ q ∧ H s.input lo hi) (hq : q + s.availIn.length = P.position s.input)
    (ha : s.availIn <+: c.drop q.toNat) (hx : Fits trunc t x (c.drop q.toNat)) (hne : s.availIn ≠ [])
    (ht : sized = true → t = [])
    (hpr : prompt ∨ x.length ≠ (c.drop q.toNat).length) (hm : m = x.length + y.length + 1) :
    ∃ f' r, decompress D s space = .ok (f', r) ∧
      ((r.error = false ∧ r.n = r.data.length ∧ r.n ≤ space ∧
          ∃ rest' m', rest = r.data ++ rest' ∧ m' < m ∧ Rest P H R sized prompt c trunc t total N f' rest' m') ∨
        (bad ∧ r.error = true ∧ r.n < 0 ∧ (r.data.length : Int) ≤ space)) := by
  obtain ⟨lo, hi, hlo, hH⟩ := hH
  have hrg := C.range hH
  have hq0 : 0 ≤ q := by omega
  obtain ⟨z', k, out, code, e, hk, hout, y', hy, hc⟩ := hD hR (hx.compatible ha) hne hsp
  have hfin : decide (s.msize ≠ -1 ∧ space > s.msize - s.done) = decide (sized = true ∧ space > y.length) := by
    cases sized with
    | true =>
      simp only [if_true] at hms
      rw [hms]
      congr 1
      simp only [true_and, eq_iff_iff]
      constructor
      · rintro ⟨_, h⟩; omega
      · intro h; exact ⟨by omega, by omega⟩
    | false =>
      simp only [Bool.false_eq_true, if_false] at hms
      rw [hms]; simp
  have htodo : (if decide (sized = true ∧ space > y.length) then s.msize - s.done else space) =
      if decide (sized = true ∧ space > y.length) then (y.length : Int) else space := by
    by_cases hz : sized = true ∧ space > y.length
    · simp only [hz, decide_true, if_true]
      rw [hz.1, if_pos rfl] at hms
      simp only [and_self, decide_true, if_true]
      omega
    · simp only [hz, decide_false, Bool.false_eq_true, if_false]
  unfold decompress
  simp only
  rw [hfin, htodo, e]
  simp only [Res.bind_ok]
  have hkl : (s.availIn.take k).length = k := by rw [List.length_take]; omega
  have hrem : c.drop q.toNat = s.availIn.take k ++ c.drop (q + k).toNat := by
    have h1 : (q + k).toNat = q.toNat + k := by omega
    obtain ⟨u, hu⟩ := ha
    rw [h1, ← List.drop_drop, ← hu]
    rw [List.drop_append_of_le_length hk, ← List.append_assoc, List.take_append_drop]
  have hrl : y.length = out.length + y'.length := by rw [hy, List.length_append]
  have hrr : rest.length = y.length + t.length := by rw [hrest, List.length_append]
  rcases hc with ⟨hs, rfl, hxk, rfl⟩ | ⟨hs, rfl, hcode, hone⟩ | ⟨rfl, hprog, x', hx', hR'⟩ | ⟨hb, rfl⟩
  · -- the mark
    have hxl : x.length = k := by rw [hxk, List.length_take]; omega
    have htn : t = [] := by
      rcases hx with hx | ⟨_, hx1, hx2⟩
      · exact hx.2
      · have := ha.length_le; omega
    subst htn
    rw [List.append_nil] at hrest hy
    rw [← hrest] at hy
    simp only [List.length_nil] at hrl hrr
    unfold finish
    rw [hs] at hms
    simp only [Bool.false_eq_true, if_false] at hms
    simp only
    rw [if_neg (by rw [hms]; simp)]
    refine ⟨_, _, rfl, Or.inl ⟨rfl, rfl, hout, [], 0, by rw [hy]; simp, by omega, by omega, hf, ?_, by simp only; omega, Or.inl ⟨rfl, rfl⟩⟩⟩
    intro _
    simp only
    omega
  · -- the last byte of data of known size
    have htn := ht hs
    subst htn
    rw [List.append_nil] at hrest hy
    rw [hs, if_pos rfl] at hms
    simp only [List.length_nil] at hrl hrr
    have hol := List.length_pos_iff.mpr hone
    cases code with
    | failed => exact absurd rfl hcode
    | more =>
      unfold finish
      simp only
      rw [if_neg (fun z => hone z.2)]
      refine ⟨_, _, rfl, Or.inl ⟨rfl, rfl, hout, [], 0, by rw [hrest, hy]; simp, by omega, by omega, hf, ?_, by simp only; omega, Or.inl ⟨by simp only; omega, rfl⟩⟩⟩
      intro z
      simp only [hmk] at z; cases z
    | mark =>
      unfold finish
      simp only
      rw [if_neg (fun z => hone z.2.1)]
      refine ⟨_, _, rfl, Or.inl ⟨rfl, rfl, hout, [], 0, by rw [hrest, hy]; simp, by omega, by omega, hf, ?_, by simp only; omega, Or.inl ⟨rfl, rfl⟩⟩⟩
      intro _
      simp only
      omega
  · -- more
    have hxl : x.length = k + x'.length := by rw [hx', List.length_append, hkl]
    unfold finish
    simp only
    rw [if_neg (by rcases hprog with h | h <;> simp [h])]
    refine ⟨_, _, rfl, Or.inl ⟨rfl, rfl, hout, y' ++ t, x'.length + y'.length + 1, by rw [hrest, hy, List.append_assoc], ?_, ?_, hf, ?_, ?_, Or.inr
      ⟨x', y', q + k, hR', rfl, hmk, ?_, ?_, ⟨lo, hi, by omega, hH⟩, ?_, ?_, ?_, ?_, rfl⟩⟩⟩
    · rcases hprog with h | h
      · omega
      · have := List.length_pos_iff.mpr h; omega
    · rcases hprog with h | h
      · omega
      · have := List.length_pos_iff.mpr h; omega
    · intro z; simp only [hmk] at z; cases z
    · simp only; omega
    · simp only [List.length_append]; omega
    · simp only
      cases sized with
      | true => simp only [if_true] at hms ⊢; omega
      | false => simpa using hms
    · simp only [List.length_drop]; omega
    · obtain ⟨u, hu⟩ := ha
      refine ⟨u, ?_⟩
      have h1 : (q + k).toNat = q.toNat + k := by omega
      rw [h1, ← List.drop_drop, ← hu, List.drop_append_of_le_length hk]
    · exact (hx' ▸ hx).advance hrem hx'
    · rcases hpr with h | h
      · exact Or.inl h
      · right
        rw [hrem, List.length_append, hkl] at h
        omega
  · unfold finish
    exact ⟨_, _, rfl, Or.inr ⟨hb, rfl, by simp, hout⟩⟩

theorem fill_step {sized : Bool} (hD : Decodes D bad R sized) (C : Contract P c F H) {prompt trunc : Prop}
    (hp : prompt → ∀ {z x y}, R z x y → x ≠ []) {t : List UInt8} (ht : sized = true → t = []) (hy0 : sized = true → ∀ {z x y}, R z x y → y ≠ []) {total : Int}
    {N m : Nat} {s : State σ ζ} {rest : List UInt8} {space : Int} (hsp : 0 < space)
    (h : Rest P H R sized prompt c trunc t total N s rest m) :
    ∃ f' r, fill P D s space = .ok (f', r) ∧
      ((r.error = false ∧ r.n = r.data.length ∧ r.n ≤ space ∧
          ∃ rest' m', rest = r.data ++ rest' ∧ m' < m ∧ Rest P H R sized prompt c trunc t total N f' rest' m') ∨
        (r.error = false ∧ r.n < 0 ∧ r.data = [] ∧ rest = [] ∧ f' = s) ∨
        ((F.onRead ∨ bad ∨ trunc) ∧ r.error = true ∧ r.n < 0 ∧ (r.data.length : Int) ≤ space)) := by
  obtain ⟨hN, hf, hmd, hd0, h⟩ := h
  unfold fill
  rw [if_neg (by simp [hf])]
  rcases h with ⟨h1, h2⟩ | ⟨x, y, q, hR, hrest, hmk, htot, hms, hH, hq, ha, hx, hpr, hm⟩
  · rw [if_pos h1]
    exact ⟨_, _, rfl, Or.inr (Or.inl ⟨rfl, by simp, rfl, h2, rfl⟩)⟩
  · have hmd2 : ¬ s.msize = s.done := by
      cases hsz : sized with
      | true =>
        rw [hsz, if_pos rfl] at hms
        have := List.length_pos_iff.mpr (hy0 hsz hR)
        omega
      | false =>
        rw [hsz, if_neg (by simp)] at hms
        omega
    rw [if_neg hmd2]
    by_cases hz : s.availIn = []
    · rw [if_pos hz]
      obtain ⟨lo, hi, hlo, hH⟩ := hH
      have hrg := C.range hH
      have hqp : q = P.position s.input := by rw [hz] at hq; simpa using hq
      subst hqp
      obtain ⟨i, n, d, er, hro, hk⟩ := C.read hH (min := 1) (max := 0) (by omega) (Or.inl rfl)
      unfold readFromStream
      rw [er]
      simp only [Res.bind_ok]
      cases hro with
      | data pos items inside adv limit enough st =>
        rw [if_neg (by omega)]
        simp only [Res.bind_ok]
        rw [if_neg (by simp [hf])]
        have hdl : (d.length : Int) = n := by
          rw [items]; exact slice_length (by omega) (by omega) (by omega)
        have hd : slice d 0 n = d := by
          rw [← hdl]; simp [slice]
        rw [hd]
        obtain ⟨f', r, e, h⟩ := decompress_step (prompt := prompt) (s := { s with input := i, availIn := d }) hD C (q := P.position s.input) (x := x) hsp hN hf hmk hd0 hR hrest htot hms ⟨_, _, Int.le_refl _, hk st⟩
          (by simp only; omega) (by simp only; rw [items]; exact List.take_prefix _ _) hx (by intro z; simp only at z; rw [z] at hdl; simp at hdl; omega) ht hpr hm
        rcases h with h | h
        · exact ⟨f', r, e, Or.inl h⟩
        · exact ⟨f', r, e, Or.inr (Or.inr ⟨Or.inr (Or.inl h.1), h.2⟩)⟩
      | ended none nodata atEnd stay st =>
        rw [if_pos (by omega)]
        simp only [Res.bind_ok, if_true]
        refine ⟨_, _, rfl, Or.inr (Or.inr ⟨Or.inr (Or.inr ?_), rfl, by simp, by simp; omega⟩)⟩
        rcases hx with hx | hx
        · exfalso
          have hl := hx.1.length_le
          rcases hpr with h | h
          · have := List.length_pos_iff.mpr (hp h hR)
            rw [List.length_drop] at hl
            omega
          · rw [List.length_drop] at h hl
            omega
        · exact hx.1
      | failed allowed code st =>
        rw [if_pos (by omega)]
        simp only [Res.bind_ok, if_true]
        exact ⟨_, _, rfl, Or.inr (Or.inr ⟨Or.inl allowed, rfl, by simp, by simp; omega⟩)⟩
    · rw [if_neg hz]
      obtain ⟨f', r, e, h⟩ := decompress_step (prompt := prompt) hD C hsp hN hf hmk hd0 hR hrest htot hms hH hq ha hx hz ht hpr hm
      rcases h with h | h
      · exact ⟨f', r, e, Or.inl h⟩
      · exact ⟨f', r, e, Or.inr (Or.inr ⟨Or.inr (Or.inl h.1), h.2⟩)⟩

theorem opened {sized : Bool} (hD : Decodes D bad R sized) (C : Contract P c F H) {prompt trunc : Prop}
    (hp : prompt → ∀ {z x y}, R z x y → x ≠ []) {t : List UInt8} (ht : sized = true → t = []) (hy0 : sized = true → ∀ {z x y}, R z x y → y ≠ [])
    {N : Nat} {x y : List UInt8} {input : σ} {z : ζ} {lo hi : Int}
    (hH : H input lo hi) (hx : Fits trunc t x (c.drop (P.position input).toNat)) (hR : R z x y)
    (hpr : prompt ∨ x.length ≠ (c.drop (P.position input).toNat).length) (hN : x.length + y.length + 1 < N)
    {size : Int} (hsz : size = if sized then (y.length : Int) else -1) :
    let J := BufferedStream.Tracks (fun s => ∃ rest m, Rest P H R sized prompt c trunc t (y ++ t).length N s rest m)
        (fun s => s.marked = true → s.done = (y ++ t).length)
    let HB := fun s lo hi =>
      BufferedStream.Healthy (Rest P H R sized prompt c trunc t (y ++ t).length N) (y ++ t) size s lo hi ∧ J s
    Contract (ops P D N) (y ++ t) ⟨F.onRead ∨ bad ∨ trunc, F.onRead ∨ bad ∨ trunc⟩ HB ∧
      SoftReset (ops P D N) (y ++ t) HB ∧
      ∃ s, BufferedStream.setMinBufSize (BufferedStream.new
        ({ input := input, z := z, availIn := [], msize := size, done := 0, failed := false, marked := false } : State σ ζ) size) 262144 = .ok s ∧
        s.pos = 0 ∧ HB s 0 0 := by
  intro J HB
  have hP : Produces (producer P D N) (F.onRead ∨ bad ∨ trunc) (Rest P H R sized prompt c trunc t (y ++ t).length N) := by
    refine ⟨fun h => h.1, fun h _ hsp => ?_⟩
    obtain ⟨f', r, e, h⟩ := fill_step hD C hp ht hy0 hsp h
    refine ⟨f', r, e, ?_⟩
    rcases h with h | h | h
    · exact Or.inl h
    · exact Or.inr (Or.inl ⟨h.1, h.2.1, h.2.2.1, h.2.2.2.1⟩)
    · exact Or.inr (Or.inr (Or.inl h))
  have hT : BufferedStream.Tracked (producer P D N) (fun s => ∃ rest m, Rest P H R sized prompt c trunc t (y ++ t).length N s rest m)
        (fun s => s.marked = true → s.done = (y ++ t).length) := by
    constructor
    · rintro f space f' r ⟨rest, m, hR⟩ hsp e he hn
      obtain ⟨f2, r2, e2, h⟩ := fill_step hD C hp ht hy0 hsp hR
      simp only [producer] at e
      rw [e] at e2; cases e2
      rcases h with ⟨_, _, _, rest', m', _, _, h⟩ | ⟨_, h, _⟩ | ⟨_, h, _⟩
      · exact ⟨rest', m', h⟩
      · omega
      · rw [h] at he; cases he
    · rintro f space f' r ⟨rest, m, hR⟩ hsp e he hn
      obtain ⟨f2, r2, e2, h⟩ := fill_step hD C hp ht hy0 hsp hR
      simp only [producer] at e
      rw [e] at e2; cases e2
      rcases h with ⟨_, h, _, rest', m', _, _, _⟩ | ⟨_, _, _, _, h⟩ | ⟨_, h, _⟩
      · omega
      · rw [h]; exact hR.2.2.1
      · rw [h] at he; cases he
  have h0 : Rest P H R sized prompt c trunc t (y ++ t).length N
      { input := input, z := z, availIn := [], msize := size, done := 0, failed := false, marked := false } (y ++ t) (x.length + y.length + 1) := by
    have hrg := C.range hH
    refine ⟨hN, rfl, (fun h => by cases h), by simp, Or.inr ⟨x, y, P.position input, hR, rfl, rfl, by simp, ?_, ⟨lo, hi, hrg.2.1, hH⟩, by simp, by simp, hx, hpr, rfl⟩⟩
    simp only [hsz, Int.zero_add]
  have hF : BufferedStream.fails (F.onRead ∨ bad ∨ trunc) (y ++ t) size =
      ⟨F.onRead ∨ bad ∨ trunc, F.onRead ∨ bad ∨ trunc⟩ := by
    cases sized with
    | false => simp only [Bool.false_eq_true, if_false] at hsz; simp [BufferedStream.fails, hsz]
    | true => simp only [if_true] at hsz; rw [hsz, ht rfl]; simp [BufferedStream.fails]
  have C1 := (BufferedStream.contract hP (y ++ t) size).and (J := J)
      (fun s mn mx s' n d hj e => BufferedStream.read_tracks hT hj e)
      (fun s n s' r hj e => BufferedStream.skipLoop_tracks hT _ hj e)
      (fun s q s' r hj e => BufferedStream.reset_tracks hj e)
  have S1 := (BufferedStream.softReset (Rest P H R sized prompt c trunc t (y ++ t).length N) (producer P D N) (y ++ t) size).and (J := J)
    (fun s q s' r hj e => BufferedStream.reset_tracks hj e)
  rw [hF] at C1
  refine ⟨C1.withSize _ ?_, S1.withSize _, ?_⟩
  · intro s lo hi h
    split
    · rename_i hm
      right; left
      obtain ⟨⟨hI, _⟩, hj⟩ := h
      rcases hj with hj | ⟨_, _, _, hj⟩ | ⟨_, hj⟩
      · exact absurd hj hI.st
      · exact hj.2.2.1 hm
      · exact hj hm
    · exact C1.size h
  · obtain ⟨s, e, hp, hh⟩ := BufferedStream.setMinBufSize_healthy h0 size 262144
    refine ⟨s, e, hp, hh, ?_⟩
    unfold BufferedStream.setMinBufSize at e
    obtain ⟨⟨b, sp⟩, _, e⟩ := bind_eq_ok e
    cases e
    exact Or.inr (Or.inl ⟨rfl, _, _, h0⟩)

end LzmaStream
end Strigi
