import Verif.Model.Decompress
import Verif.Proofs.BufferedStream
import Verif.Proofs.FileStreams

namespace Strigi

/-- An invariant that every successful call preserves can be added to a contract. -/
theorem Contract.and {σ α : Type} {ops : StreamOps σ α} {c : List α} {F : Failure} {H : σ → Int → Int → Prop}
    (C : Contract ops c F H) {J : σ → Prop}
    (hr : ∀ s mn mx s' n d, J s → ops.read s mn mx = .ok (s', n, d) → J s')
    (hk : ∀ s n s' r, J s → ops.skip s n = .ok (s', r) → J s')
    (hq : ∀ s q s' r, J s → ops.reset s q = .ok (s', r) → J s') :
    Contract ops c F (fun s lo hi => H s lo hi ∧ J s) where
  range h := C.range h.1
  status h := C.status h.1
  narrow h h1 h2 h3 h4 := ⟨C.narrow h.1 h1 h2 h3 h4, h.2⟩
  size h := C.size h.1
  read h _ _ h1 h2 := by
    obtain ⟨s', n, d, e, r, k⟩ := C.read h.1 h1 h2
    exact ⟨s', n, d, e, r, fun z => ⟨k z, hr _ _ _ _ _ _ h.2 e⟩⟩
  skip h _ h1 h2 := by
    obtain ⟨s', r, e, p, k⟩ := C.skip h.1 h1 h2
    exact ⟨s', r, e, p, fun z => ⟨k z, hk _ _ _ _ h.2 e⟩⟩
  reset h _ h1 h2 := by
    obtain ⟨s', e, p, st, k1, k2⟩ := C.reset h.1 h1 h2
    exact ⟨s', e, p, st, fun z => ⟨k1 z, hq _ _ _ _ h.2 e⟩, k2, hq _ _ _ _ h.2 e⟩

theorem SoftReset.and {σ α : Type} {ops : StreamOps σ α} {c : List α} {H : σ → Int → Int → Prop}
    (S : SoftReset ops c H) {J : σ → Prop} (hq : ∀ s q s' r, J s → ops.reset s q = .ok (s', r) → J s') :
    SoftReset ops c (fun s lo hi => H s lo hi ∧ J s) where
  reset h _ h1 h2 := by
    obtain ⟨s', r, e, p, o, st, k⟩ := S.reset h.1 h1 h2
    exact ⟨s', r, e, p, o, st, k, hq _ _ _ _ h.2 e⟩

namespace BufferedStream

variable {φ α : Type}

/-- Facts about the state of the producer: `I` while it delivers, `E` after its end. -/
def Tracks (I E : φ → Prop) (s : BufferedStream φ α) : Prop :=
  s.status = .error ∨ (s.finished = false ∧ I s.prod) ∨ (s.finished = true ∧ E s.prod)

structure Tracked (P : Producer φ α) (I E : φ → Prop) : Prop where
  next : ∀ {f space f' r}, I f → 0 < space → P.fill f space = .ok (f', r) → r.error = false → 0 ≤ r.n → I f'
  last : ∀ {f space f' r}, I f → 0 < space → P.fill f space = .ok (f', r) → r.error = false → r.n < 0 → E f'

variable {P : Producer φ α} {I E : φ → Prop}

theorem bind_eq_ok {α β : Type} {x : Res α} {f : α → Res β} {b : β} (h : (x >>= f) = .ok b) :
    ∃ a, x = .ok a ∧ f a = .ok b := by
  cases x with
  | ok a => exact ⟨a, rfl, h⟩
  | fault _ => cases h
  | diverge => cases h

theorem assert_eq_ok {β : Type} {b : Bool} {f : Unit → Res β} {x : β} (h : (Res.assert b >>= f) = .ok x) :
    b = true ∧ f () = .ok x := by
  cases b with
  | true => exact ⟨rfl, h⟩
  | false => cases h

theorem setSize_avail {b b' : StreamBuffer α} {n : Int} (h : b.setSize n = .ok b') : b'.avail = b.avail := by
  unfold StreamBuffer.setSize at h
  obtain ⟨_, h⟩ := assert_eq_ok h
  obtain ⟨_, h⟩ := assert_eq_ok h
  obtain ⟨_, h⟩ := assert_eq_ok h
  obtain ⟨_, h⟩ := assert_eq_ok h
  cases h; rfl

theorem makeSpace_ok {b b' : StreamBuffer α} {n sp : Int} (h : b.makeSpace n = .ok (b', sp)) :
    n ≤ sp ∧ 0 ≤ b.avail ∧ b'.avail = b.avail := by
  unfold StreamBuffer.makeSpace at h
  obtain ⟨_, h⟩ := assert_eq_ok h
  obtain ⟨_, h⟩ := assert_eq_ok h
  obtain ⟨h0, h⟩ := assert_eq_ok h
  obtain ⟨_, h⟩ := assert_eq_ok h
  have h0 : 0 ≤ b.avail := by simpa using h0
  simp only at h
  split at h
  · cases h; exact ⟨by omega, h0, rfl⟩
  · generalize hg : (if b.avail ≠ 0 then
        if b.offset ≠ 0 then
          ({ b with mem := slice b.mem b.offset b.avail ++ b.mem.drop b.avail.toNat, offset := 0 },
            b.size - b.offset - b.avail + b.offset)
        else (b, b.size - b.offset - b.avail)
      else ({ b with offset := 0 }, b.size)) = g at h
    obtain ⟨b1, sp1⟩ := g
    have ha : b1.avail = b.avail := by
      split at hg
      · split at hg
        · cases hg; rfl
        · cases hg; rfl
      · cases hg; rfl
    simp only at h
    split at h
    · cases h; exact ⟨by omega, h0, ha⟩
    · split at h
      · obtain ⟨b2, e, h⟩ := bind_eq_ok h
        cases h
        exact ⟨by omega, h0, by rw [setSize_avail e, ha]⟩
      · obtain ⟨b2, e, h⟩ := bind_eq_ok h
        cases h
        exact ⟨by omega, h0, by rw [setSize_avail e, ha]⟩

theorem store_avail {b b' : StreamBuffer α} {i : Int} {d : List α} (h : b.store i d = .ok b') :
    b'.avail = b.avail := by
  unfold StreamBuffer.store at h
  split at h
  · cases h; rfl
  · cases h

theorem writeLoop_tracks (T : Tracked P I E) (nt mx : Int) :
    ∀ (fuel : Nat) (s : BufferedStream φ α) (missing nw : Int) (s' : BufferedStream φ α) (nw' : Int),
      writeLoop P nt mx fuel s missing nw = .ok (s', nw') → missing = nt - s.buf.avail →
      (s.status = .error ∨ (0 ≤ nw ∧ I s.prod) ∨ (nw < 0 ∧ E s.prod)) → s'.finished = s.finished ∧
      (s'.status = .error ∨ (0 ≤ nw' ∧ I s'.prod) ∨ (nw' < 0 ∧ E s'.prod)) := by
  intro fuel
  induction fuel with
  | zero => intro s missing nw s' nw' h; simp [writeLoop] at h
  | succ fuel ih =>
    intro s missing nw s' nw' h hmis hI
    unfold writeLoop at h
    by_cases hc : missing > 0 ∧ nw ≥ 0
    · rw [if_pos hc] at h
      obtain ⟨⟨b, space⟩, e1, h⟩ := bind_eq_ok h
      obtain ⟨a1, a2, a3⟩ := makeSpace_ok e1
      simp only at h
      have hsp : 0 < (if mx ≥ nt ∧ space > mx then mx else space) := by split <;> omega
      generalize (if mx ≥ nt ∧ space > mx then mx else space) = sp at h hsp
      obtain ⟨⟨f, r⟩, e2, h⟩ := bind_eq_ok h
      obtain ⟨b2, e3, h⟩ := bind_eq_ok h
      obtain ⟨u, e4, h⟩ := bind_eq_ok h
      have key : (if r.error then Status.error else s.status) = .error ∨ (0 ≤ r.n ∧ I f) ∨ (r.n < 0 ∧ E f) := by
        by_cases he : r.error = true
        · left; rw [if_pos he]
        · have he : r.error = false := by simpa using he
          rcases hI with hI | hI | hI
          · left; rw [he]; simpa using hI
          · right
            by_cases hn : 0 ≤ r.n
            · exact Or.inl ⟨hn, T.next hI.2 hsp e2 he hn⟩
            · exact Or.inr ⟨by omega, T.last hI.2 hsp e2 he (by omega)⟩
          · omega
      simp only at h
      split at h
      · have := ih _ _ _ _ _ h rfl key
        exact this
      · have := ih _ _ _ _ _ h (by have := store_avail e3; simp only at this ⊢; omega) key
        exact this
    · rw [if_neg hc] at h
      cases h
      exact ⟨rfl, hI⟩

theorem ensure_tracks (T : Tracked P I E) {s s' : BufferedStream φ α} {mn mx : Int} (hI : Tracks I E s)
    (h : ensure P s mn mx = .ok s') : Tracks I E s' := by
  unfold ensure at h
  split at h
  · rename_i hc
    have hf : s.finished = false := by simpa using hc.1
    unfold writeToBuffer at h
    obtain ⟨⟨s1, nw⟩, e, h⟩ := bind_eq_ok h
    have := writeLoop_tracks T _ _ _ _ _ _ _ _ e rfl (by
      rcases hI with hI | hI | hI
      · exact Or.inl hI
      · exact Or.inr (Or.inl ⟨Int.le_refl _, hI.2⟩)
      · rw [hf] at hI; cases hI.1)
    simp only at h
    obtain ⟨h1, h2⟩ := this
    split at h
    · cases h
      rcases h2 with h2 | h2 | h2
      · exact Or.inl h2
      · omega
      · exact Or.inr (Or.inr ⟨rfl, h2.2⟩)
    · cases h
      rcases h2 with h2 | h2 | h2
      · exact Or.inl h2
      · exact Or.inr (Or.inl ⟨by rw [h1, hf], h2.2⟩)
      · omega
  · cases h; exact hI

theorem read_tracks (T : Tracked P I E) {s s' : BufferedStream φ α} {mn mx n : Int} {d : List α}
    (hI : Tracks I E s) (h : read P s mn mx = .ok (s', n, d)) : Tracks I E s' := by
  unfold read at h
  split at h
  · cases h; exact hI
  · split at h
    · cases h; exact hI
    · obtain ⟨s1, e1, h⟩ := bind_eq_ok h
      have h1 := ensure_tracks T hI e1
      split at h
      · cases h; exact h1
      · rename_i hne
        have h1 := h1.resolve_left hne
        obtain ⟨⟨b, k, d'⟩, e2, h⟩ := bind_eq_ok h
        simp only at h
        split at h
        · cases h; exact Or.inl rfl
        · split at h
          · cases h; exact Or.inr h1
          · cases h; exact Or.inr h1

theorem skipLoop_tracks (T : Tracked P I E) :
    ∀ (fuel : Nat) {s s' : BufferedStream φ α} {n sk r : Int},
      Tracks I E s → skipLoop P fuel s n sk = .ok (s', r) → Tracks I E s' := by
  intro fuel
  induction fuel with
  | zero => intro s s' n sk r _ h; simp [skipLoop] at h
  | succ fuel ih =>
    intro s s' n sk r hI h
    unfold skipLoop at h
    split at h
    · obtain ⟨⟨s1, k, d⟩, e, h⟩ := bind_eq_ok h
      have h1 := read_tracks T hI e
      simp only at h
      split at h
      · cases h; exact h1
      · exact ih h1 h
    · cases h; exact hI

theorem reset_tracks {s s' : BufferedStream φ α} {q r : Int} (hI : Tracks I E s)
    (h : reset s q = .ok (s', r)) : Tracks I E s' := by
  unfold reset at h
  obtain ⟨u, _, h⟩ := bind_eq_ok h
  split at h
  · cases h; exact hI
  · rename_i hne
    have h1 := hI.resolve_left hne
    simp only at h
    split at h
    · cases h; exact Or.inr h1
    · cases h; exact Or.inr h1

end BufferedStream

namespace Unpack

open BufferedStream

variable {σ ζ : Type} {P : StreamOps σ UInt8} {c : List UInt8} {F : Failure} {H : σ → Int → Int → Prop}
  {D : Decompressor ζ} {R : ζ → List UInt8 → List UInt8 → Prop} {bad : Prop} {keep : Bool}

/-- The input still offers `rem`, the decompressor needs `x`: either `x` is there and nothing (`t`) follows
the output, or the input ends too early. -/
def Fits (trunc : Prop) (t x rem : List UInt8) : Prop :=
  (x <+: rem ∧ t = []) ∨ (trunc ∧ rem <+: x ∧ rem.length < x.length)

theorem Fits.compatible {trunc : Prop} {t x rem a : List UInt8} (h : Fits trunc t x rem) (ha : a <+: rem) :
    a <+: x ∨ x <+: a := by
  rcases h with h | h
  · exact List.prefix_or_prefix_of_prefix ha h.1
  · exact Or.inl (ha.trans h.2.1)

theorem Fits.advance {trunc : Prop} {t x x' a rem rem' : List UInt8} (h : Fits trunc t (a ++ x') rem)
    (hr : rem = a ++ rem') (hx : x = a ++ x') : Fits trunc t x' rem' := by
  subst hr hx
  rcases h with h | h
  · exact Or.inl ⟨(List.prefix_append_right_inj a).mp h.1, h.2⟩
  · refine Or.inr ⟨h.1, (List.prefix_append_right_inj a).mp h.2.1, ?_⟩
    have := h.2.2
    simp only [List.length_append] at this; omega

/-- The relation between the state and what is still to be delivered; `stop` is where the compressed data
ends: the bytes from position `q` on are not used yet, the input can be taken back to it. -/
def Rest (P : StreamOps σ UInt8) (H : σ → Int → Int → Prop) (R : ζ → List UInt8 → List UInt8 → Prop)
    (c : List UInt8) (stop : Int) (trunc : Prop) (t : List UInt8) (N : Nat) (s : State σ ζ) (rest : List UInt8) (m : Nat) : Prop :=
  m < N ∧ s.failed = false ∧
  if s.isOpen then
    ∃ x y q, R s.z x y ∧ rest = y ++ t ∧ (∃ lo hi, lo ≤ q ∧ H s.input lo hi) ∧ q + s.availIn.length = P.position s.input ∧
      s.availIn <+: c.drop q.toNat ∧ Fits trunc t x (c.drop q.toNat) ∧ stop = q + x.length ∧
      (s.availOut ≠ 0 → s.availIn = [] ∧ x ≠ []) ∧
      m = 2 * (x.length + y.length) + (if s.availOut = 0 then 1 else 0) + 1
  else rest = [] ∧ P.position s.input = stop ∧ ∃ lo hi, H s.input lo hi

/-- The result of `fillBuffer`, as `Produces` wants it. -/
def Step (P : StreamOps σ UInt8) (D : Decompressor ζ) (keep : Bool) (mf : Prop)
    (Q : State σ ζ → List UInt8 → Nat → Prop) (rest : List UInt8) (m : Nat) (space : Int)
    (res : Res (State σ ζ × Fill UInt8)) : Prop :=
  ∃ f' r, res = .ok (f', r) ∧
      ((r.error = false ∧ r.n = r.data.length ∧ r.n ≤ space ∧
          ∃ rest' m', rest = r.data ++ rest' ∧ m' < m ∧ Q f' rest' m') ∨
        (r.error = false ∧ r.n < 0 ∧ r.data = [] ∧ rest = []) ∨
        (mf ∧ r.error = true ∧ r.n < 0 ∧ (r.data.length : Int) ≤ space) ∨
        (mf ∧ r.error = true ∧ r.n = r.data.length ∧ r.n ≤ space ∧ 0 < m ∧
          (∃ rest', rest = r.data ++ rest') ∧
          (r.n < space → ∀ space' : Int, 0 < space' →
            ∃ f'' r', fill P D keep f' space' = .ok (f'', r') ∧ r'.n < 0 ∧ r'.data = [])))

theorem decompress_step (C : Contract P c F H) (hD : Unpacks D bad R) {stop : Int} {trunc : Prop}
    {t : List UInt8} {N m : Nat} {s : State σ ζ} {rest x y : List UInt8} {q space : Int} (hsp : 0 < space) (hN : m < N)
    (hf : s.failed = false) (ho : s.isOpen = true) (hR : R s.z x y) (hrest : rest = y ++ t)
    (hH : ∃ lo hi, lo ≤ q ∧ H s.input lo hi) (hq : q + s.availIn.length = P.position s.input)
    (ha : s.availIn <+: c.drop q.toNat) (hx : Fits trunc t x (c.drop q.toNat)) (hstop : stop = q + x.length)
    (hm : 2 * (x.length + y.length) + (if s.availIn = [] then 1 else 0) < m) :
    Step P D keep bad (Rest P H R c stop trunc t N) rest m space (decompress P D keep s space) := by
  obtain ⟨z', k, out, code, e, hk, hout, y', hy, hc⟩ := hD hR (hx.compatible ha) hsp
  obtain ⟨lo, hi, hlo, hH⟩ := hH
  have hrg := C.range hH
  unfold decompress
  rw [e]
  simp only
  have hq0 : 0 ≤ q := by omega
  have hkl : (s.availIn.take k).length = k := by rw [List.length_take]; omega
  have hrem : c.drop q.toNat = s.availIn.take k ++ c.drop (q + k).toNat := by
    have h1 : (q + k).toNat = q.toNat + k := by omega
    obtain ⟨u, hu⟩ := ha
    rw [h1, ← List.drop_drop, ← hu]
    rw [List.drop_append_of_le_length hk, ← List.append_assoc, List.take_append_drop]
  rcases hc with ⟨rfl, hxk, rfl⟩ | ⟨rfl, x', hx', hR', hend⟩ | ⟨hb, rfl⟩
  · -- the end
    simp only
    have hxl : x.length = k := by rw [hxk, List.length_take]; omega
    have ht : t = [] := by
      rcases hx with hx | ⟨_, hx1, hx2⟩
      · exact hx.2
      · have := ha.length_le; omega
    subst ht
    rw [List.append_nil] at hrest hy
    rw [← hrest] at hy
    have hy : rest = out ++ [] := by rw [hy]; simp
    by_cases hz : s.availIn.drop k = []
    · rw [if_neg (by simpa using hz)]
      have hl : s.availIn.length = k := by
        have := congrArg List.length hz
        simp only [List.length_drop, List.length_nil] at this; omega
      refine ⟨_, _, rfl, Or.inl ⟨rfl, rfl, hout, [], 0, hy, by omega, by omega, hf, ?_⟩⟩
      simp only [Bool.false_eq_true, if_false, true_and]
      exact ⟨by omega, _, _, hH⟩
    · rw [if_pos (by simpa using hz)]
      have hlen : ((s.availIn.drop k).length : Int) = s.availIn.length - k := by
        rw [List.length_drop]; omega
      have hpos : P.position s.input - ((s.availIn.drop k).length : Int) = stop := by omega
      rw [hpos]
      obtain ⟨i, er, hp, _, _, hH'⟩ := C.reset hH (q := stop) (by omega) (by omega)
      rw [er]
      simp only [Res.bind_ok]
      refine ⟨_, _, rfl, Or.inl ⟨rfl, rfl, hout, [], 0, hy, by omega, by omega, hf, ?_⟩⟩
      simp only [Bool.false_eq_true, if_false, true_and]
      exact ⟨hp, _, _, hH'⟩
  · -- more
    simp only
    have hxl : x.length = k + x'.length := by rw [hx', List.length_append, hkl]
    have hrl : y.length = out.length + y'.length := by rw [hy, List.length_append]
    refine ⟨_, _, rfl, Or.inl ⟨rfl, rfl, hout, y' ++ t,
      2 * (x'.length + y'.length) + (if space - (out.length : Int) = 0 then 1 else 0) + 1,
      by rw [hrest, hy, List.append_assoc], ?_, ?_, hf, ?_⟩⟩
    · rcases hend with h1 | ⟨h1, h2⟩
      · rw [if_pos (by omega)]; split at hm <;> omega
      · split
        · split at hm <;> omega
        · split at hm
          · omega
          · rename_i hz
            have := List.length_pos_iff.mpr hz
            omega
    · rcases hend with h1 | ⟨h1, h2⟩
      · rw [if_pos (by omega)]; split at hm <;> omega
      · split
        · split at hm <;> omega
        · split at hm
          · omega
          · rename_i hz
            have := List.length_pos_iff.mpr hz
            omega
    · simp only [ho, if_true]
      refine ⟨x', y', q + k, hR', rfl, ⟨lo, hi, by omega, hH⟩, ?_, ?_, ?_, by omega, ?_, rfl⟩
      · rw [List.length_drop]; omega
      · obtain ⟨u, hu⟩ := ha
        refine ⟨u, ?_⟩
        have h1 : (q + k).toNat = q.toNat + k := by omega
        rw [h1, ← List.drop_drop, ← hu, List.drop_append_of_le_length hk]
      · exact (hx' ▸ hx).advance hrem hx'
      · intro hne
        rcases hend with h1 | ⟨h1, h2⟩
        · omega
        · exact ⟨by rw [h1]; simp, h2⟩
  · -- broken
    simp only
    cases keep with
    | false => exact ⟨_, _, rfl, Or.inr (Or.inr (Or.inl ⟨hb, rfl, by simp, hout⟩))⟩
    | true =>
      refine ⟨_, _, rfl, Or.inr (Or.inr (Or.inr ⟨hb, rfl, rfl, hout, by omega,
        ⟨y' ++ t, by rw [hrest, hy, List.append_assoc]⟩, ?_⟩))⟩
      intro hlt space' hsp'
      simp only [if_true] at hlt
      unfold fill
      rw [if_neg (by simp [ho]), if_pos (by simp only; omega)]
      obtain ⟨i, n, d, er, _, _⟩ := C.read hH (min := 1) (max := 0) (by omega) (Or.inl rfl)
      unfold readFromStream
      simp only
      rw [er]
      simp only [Res.bind_ok]
      split
      · simp only [Res.bind_ok, if_true]
        exact ⟨_, _, rfl, by simp, rfl⟩
      · simp only [Res.bind_ok, if_true]
        exact ⟨_, _, rfl, by simp, rfl⟩

theorem fill_step (C : Contract P c F H) (hD : Unpacks D bad R) {stop : Int} {trunc : Prop}
    {t : List UInt8} {N m : Nat}
    {s : State σ ζ} {rest : List UInt8} {space : Int} (hsp : 0 < space)
    (h : Rest P H R c stop trunc t N s rest m) :
    Step P D keep (F.onRead ∨ bad ∨ trunc) (Rest P H R c stop trunc t N) rest m space (fill P D keep s space) := by
  have weaken : ∀ {res}, Step P D keep bad (Rest P H R c stop trunc t N) rest m space res →
      Step P D keep (F.onRead ∨ bad ∨ trunc) (Rest P H R c stop trunc t N) rest m space res := by
    rintro res ⟨f', r, e, h1 | h1 | ⟨h1, h2⟩ | ⟨h1, h2⟩⟩
    · exact ⟨f', r, e, Or.inl h1⟩
    · exact ⟨f', r, e, Or.inr (Or.inl h1)⟩
    · exact ⟨f', r, e, Or.inr (Or.inr (Or.inl ⟨Or.inr (Or.inl h1), h2⟩))⟩
    · exact ⟨f', r, e, Or.inr (Or.inr (Or.inr ⟨Or.inr (Or.inl h1), h2⟩))⟩
  obtain ⟨hN, hf, h⟩ := h
  unfold fill
  by_cases ho : s.isOpen = true
  · rw [if_neg (by simp [ho])]
    rw [if_pos ho] at h
    obtain ⟨x, y, q, hR, hrest, hH, hq, ha, hx, hstop, hav, hm⟩ := h
    by_cases hz : s.availOut ≠ 0
    · rw [if_pos hz]
      obtain ⟨h1, h2⟩ := hav hz
      obtain ⟨lo, hi, hlo, hH⟩ := hH
      have hrg := C.range hH
      have hqp : q = P.position s.input := by rw [h1] at hq; simpa using hq
      subst hqp
      obtain ⟨i, n, d, er, hro, hk⟩ := C.read hH (min := 1) (max := 0) (by omega) (Or.inl rfl)
      unfold readFromStream
      rw [er]
      simp only [Res.bind_ok]
      have hxpos := List.length_pos_iff.mpr h2
      cases hro with
      | data pos items inside adv limit enough st =>
        rw [if_neg (by omega)]
        simp only [Res.bind_ok]
        rw [if_neg (by simp [hf])]
        have hdl : (d.length : Int) = n := by
          rw [items]; exact slice_length (by omega) (by omega) (by omega)
        have hd : slice d 0 n = d := by
          rw [← hdl]; simp [slice]
        rw [hd]
        refine weaken (decompress_step C hD (q := P.position s.input) (x := x) hsp hN hf ho hR hrest ⟨_, _, Int.le_refl _, hk st⟩ ?_ ?_ hx hstop ?_)
        · simp only; omega
        · simp only
          rw [items]
          exact List.take_prefix _ _
        · simp only
          rw [if_neg (by intro z; rw [z] at hdl; simp at hdl; omega)]
          omega
      | ended none nodata atEnd stay st =>
        rw [if_pos (by omega)]
        simp only [Res.bind_ok, if_true]
        refine ⟨_, _, rfl, Or.inr (Or.inr (Or.inl ⟨Or.inr (Or.inr ?_), rfl, by simp, by simp; omega⟩))⟩
        rcases hx with hx | hx
        · have := hx.1.length_le
          rw [List.length_drop] at this
          omega
        · exact hx.1
      | failed allowed code st =>
        rw [if_pos (by omega)]
        simp only [Res.bind_ok, if_true]
        exact ⟨_, _, rfl, Or.inr (Or.inr (Or.inl ⟨Or.inl allowed, rfl, by simp, by simp; omega⟩))⟩
    · rw [if_neg hz]
      have hz : s.availOut = 0 := by omega
      rw [if_pos hz] at hm
      refine weaken (decompress_step C hD hsp hN hf ho hR hrest hH hq ha hx hstop ?_)
      split <;> omega
  · have ho' : s.isOpen = false := by simpa using ho
    rw [if_pos ho']
    rw [if_neg ho] at h
    exact ⟨_, _, rfl, Or.inr (Or.inl ⟨rfl, by simp, rfl, h.1⟩)⟩

theorem produces (C : Contract P c F H) (hD : Unpacks D bad R) (stop : Int) (trunc : Prop)
    (t : List UInt8) (N : Nat) :
    Produces (producer P D keep N) (F.onRead ∨ bad ∨ trunc) (Rest P H R c stop trunc t N) where
  fuel h := h.1
  step h _ hsp := fill_step C hD hsp h

/-- The input after the end of the compressed data. -/
def AtStop (P : StreamOps σ UInt8) (H : σ → Int → Int → Prop) (stop : Int) (s : State σ ζ) : Prop :=
  P.position s.input = stop ∧ ∃ lo hi, H s.input lo hi

theorem tracked (C : Contract P c F H) (hD : Unpacks D bad R) (stop : Int) (trunc : Prop)
    (t : List UInt8) (N : Nat) :
    BufferedStream.Tracked (producer P D keep N)
      (fun s => ∃ rest m, Rest P H R c stop trunc t N s rest m) (AtStop P H stop) where
  next := by
    rintro f space f' r ⟨rest, m, hR⟩ hsp e he hn
    obtain ⟨f2, r2, e2, h⟩ := fill_step (keep := keep) C hD hsp hR
    simp only [producer] at e
    rw [e] at e2; cases e2
    rcases h with ⟨_, _, _, rest', m', _, _, h⟩ | ⟨_, h, _⟩ | ⟨_, h, _⟩ | ⟨_, h, _⟩
    · exact ⟨rest', m', h⟩
    · omega
    · rw [h] at he; cases he
    · rw [h] at he; cases he
  last := by
    rintro f space f' r ⟨rest, m, hR⟩ hsp e he hn
    simp only [producer] at e
    unfold fill at e
    by_cases ho : f.isOpen = true
    · exfalso
      obtain ⟨f2, r2, e2, h⟩ := fill_step (keep := keep) C hD hsp hR
      unfold fill at e2
      rw [if_neg (by simp [ho])] at e e2
      have key : ∀ (s : State σ ζ) (f' : State σ ζ) (r : Fill UInt8), decompress P D keep s space = .ok (f', r) →
          r.error = false → 0 ≤ r.n := by
        intro s f' r e he
        unfold decompress at e
        rcases hrun : D.run s.z s.availIn space with ⟨z', k, out, code⟩
        rw [hrun] at e
        simp only at e
        cases code with
        | more => cases e; simp
        | failed => cases e; cases he
        | ended =>
          simp only at e
          split at e
          · obtain ⟨a, _, e⟩ := bind_eq_ok e
            cases e; simp
          · cases e; simp
      split at e
      · obtain ⟨s1, e1, e⟩ := bind_eq_ok e
        split at e
        · cases e; cases he
        · have := key _ _ _ e he; omega
      · have := key _ _ _ e he; omega
    · have ho' : f.isOpen = false := by simpa using ho
      rw [if_pos ho'] at e
      cases e
      have := hR.2.2
      rw [if_neg ho] at this
      exact this.2

/-- The stream over an input that stands at the compressed data `x`. -/
theorem opened (C : Contract P c F H) (hD : Unpacks D bad R) (trunc : Prop) (t : List UInt8) {N : Nat}
    {x y : List UInt8} {input : σ} {lo hi : Int}
    (hH : H input lo hi) (hx : Fits trunc t x (c.drop (P.position input).toNat)) (hR : R D.init x y)
    (hne : x ≠ []) (hN : 2 * (x.length + y.length) + 1 < N) :
    let J := BufferedStream.Tracks (fun s => ∃ rest m, Rest P H R c (P.position input + x.length) trunc t N s rest m)
        (AtStop P H (P.position input + x.length))
    let HB := fun s lo hi =>
      BufferedStream.Healthy (Rest P H R c (P.position input + x.length) trunc t N) (y ++ t) (-1) s lo hi ∧ J s
    Contract (BufferedStream.ops (producer P D keep N)) (y ++ t)
        ⟨F.onRead ∨ bad ∨ trunc, F.onRead ∨ bad ∨ trunc⟩ HB ∧
      SoftReset (BufferedStream.ops (producer P D keep N)) (y ++ t) HB ∧
      ∃ s, openStream D input = .ok s ∧ s.pos = 0 ∧ HB s 0 0 := by
  intro J HB
  have hP := produces (keep := keep) C hD (P.position input + x.length) trunc t N
  have hT := tracked (keep := keep) C hD (P.position input + x.length) trunc t N
  have h0 : Rest P H R c (P.position input + x.length) trunc t N (start D input) (y ++ t)
      (2 * (x.length + y.length) + 1) := by
    refine ⟨hN, rfl, ?_⟩
    have hrg := C.range hH
    simp only [start, if_true]
    refine ⟨x, y, P.position input, hR, rfl, ⟨lo, hi, hrg.2.1, hH⟩, by simp, by simp, hx, rfl,
      fun _ => ⟨trivial, hne⟩, by simp⟩
  refine ⟨?_, ?_, ?_⟩
  · have := (BufferedStream.contract hP (y ++ t) (-1)).and (J := J)
      (fun s mn mx s' n d hj e => BufferedStream.read_tracks hT hj e)
      (fun s n s' r hj e => BufferedStream.skipLoop_tracks hT _ hj e)
      (fun s q s' r hj e => BufferedStream.reset_tracks hj e)
    have hF : BufferedStream.fails (F.onRead ∨ bad ∨ trunc) (y ++ t) (-1) =
        ⟨F.onRead ∨ bad ∨ trunc, F.onRead ∨ bad ∨ trunc⟩ := by
      simp [BufferedStream.fails]
    rw [hF] at this
    exact this
  · exact (BufferedStream.softReset _ _ (y ++ t) (-1)).and (fun s q s' r hj e => BufferedStream.reset_tracks hj e)
  · obtain ⟨s, e, hp, hh⟩ := BufferedStream.setMinBufSize_healthy h0 (-1) 262144
    refine ⟨s, e, hp, hh, ?_⟩
    unfold BufferedStream.setMinBufSize at e
    obtain ⟨⟨b, sp⟩, _, e⟩ := bind_eq_ok e
    cases e
    exact Or.inr (Or.inl ⟨rfl, _, _, h0⟩)

end Unpack
end Strigi
