import Verif.Model.Iconv
import Verif.Contract
import Verif.ProducerSpec

namespace Strigi

namespace Charset

variable {τ α : Type} {cs : Charset τ α}

/-- `rest` is what a reader of the bytes `l` in the state `st` still has to deliver; if the bytes do not denote a text
(`bad`), what follows the place where they break is arbitrary. -/
def Delivers (cs : Charset τ α) (bad : Prop) (st : τ) (l : List UInt8) (rest : List α) : Prop :=
  (∃ last, cs.Denotes st l rest last) ∨ (bad ∧ ∃ o t, rest = o ++ t ∧ cs.Breaks st l o)

theorem Delivers.nil {bad : Prop} {st : τ} {rest : List α} (h : cs.Delivers bad st [] rest) : rest = [] := by
  rcases h with ⟨_, h⟩ | ⟨_, o, t, _, h⟩
  · cases h with
    | nil => rfl
    | cons h _ _ => exact absurd rfl h
  · cases h with
    | here h _ => exact absurd rfl h
    | cons h _ _ => exact absurd rfl h

theorem Delivers.char {bad : Prop} {st : τ} {l : List UInt8} {rest : List α} {k : Nat} {out : List α} {st' : τ} (hl : l ≠ [])
    (h : cs.Delivers bad st l rest) (hn : cs.next st l = .char k out st') :
    ∃ rest', rest = out ++ rest' ∧ cs.Delivers bad st' (l.drop k) rest' := by
  rcases h with ⟨last, h⟩ | ⟨hb, o, t, rfl, h⟩
  · cases h with
    | nil => exact absurd rfl hl
    | cons h0 h1 h2 =>
      rw [hn] at h1; cases h1
      exact ⟨_, rfl, Or.inl ⟨_, h2⟩⟩
  · cases h with
    | here h0 h1 => rw [hn] at h1; rcases h1 with h1 | h1 <;> cases h1
    | cons h0 h1 h2 =>
      rw [hn] at h1; cases h1
      exact ⟨_, List.append_assoc _ _ _, Or.inr ⟨hb, _, _, rfl, h2⟩⟩

theorem Delivers.stuck {bad : Prop} {st : τ} {l : List UInt8} {rest : List α} (hl : l ≠ [])
    (h : cs.Delivers bad st l rest) (hn : cs.next st l = .incomplete ∨ cs.next st l = .invalid) : bad := by
  rcases h with ⟨_, h⟩ | ⟨hb, _⟩
  · cases h with
    | nil => exact absurd rfl hl
    | cons h0 h1 h2 => rw [h1] at hn; rcases hn with h | h <;> cases h
  · exact hb

/-- A call to `iconv` with the beginning `inp` of the bytes to come. -/
theorem iconv_spec (L : cs.Lawful) (S : cs.Single) {bad : Prop} :
    ∀ (fuel : Nat) (st : τ) (inp more : List UInt8) (space : Nat) (rest : List α), inp.length ≤ fuel →
      cs.Delivers bad st (inp ++ more) rest →
      ∃ left out st' code, cs.iconv fuel st inp space = (left, out, st', code) ∧ out.length ≤ space ∧
        left.length ≤ inp.length ∧
        (∃ rest', rest = out ++ rest' ∧ cs.Delivers bad st' (left ++ more) rest') ∧
        (code = .done → left = []) ∧
        (code = .inval → left ≠ [] ∧ cs.next st' left = .incomplete) ∧
        (code = .ilseq → bad) ∧
        (code = .tooBig → out.length = space ∧ left ≠ [] ∧ (0 < space → left.length < inp.length)) := by
  intro fuel
  induction fuel with
  | zero =>
    intro st inp more space rest hf hd
    have : inp = [] := List.length_eq_zero_iff.1 (by omega)
    subst this
    exact ⟨[], [], st, .done, by simp [iconv], by simp, by simp, ⟨rest, rfl, hd⟩, by simp, by simp, by simp, by simp⟩
  | succ fuel ih =>
    intro st inp more space rest hf hd
    by_cases hi : inp = []
    · subst hi
      exact ⟨[], [], st, .done, by simp [iconv], by simp, by simp, ⟨rest, rfl, hd⟩, by simp, by simp, by simp, by simp⟩
    · have hne : inp ++ more ≠ [] := by simp [hi]
      obtain ⟨b, l, rfl⟩ := List.exists_cons_of_ne_nil hi
      rw [iconv]
      case x_4 => simp
      cases hn : cs.next st (b :: l) with
      | incomplete =>
        exact ⟨_, _, _, _, rfl, by simp, by simp, ⟨rest, rfl, hd⟩, by simp, by simp [hn], by simp, by simp⟩
      | invalid =>
        refine ⟨_, _, _, _, rfl, by simp, by simp, ⟨rest, rfl, hd⟩, by simp, by simp, fun _ => ?_, by simp⟩
        exact hd.stuck hne (Or.inr (L.invalid hi hn more))
      | char k o st1 =>
        obtain ⟨h1, h2, h3⟩ := L.char hi hn
        have hS := S hn
        by_cases hs : o.length > space
        · simp only [if_pos hs]
          refine ⟨_, _, _, _, rfl, by simp, by simp, ⟨rest, rfl, hd⟩, by simp, by simp, by simp, fun _ => ?_⟩
          refine ⟨?_, by simp, fun z => ?_⟩
          · simp; omega
          · omega
        · simp only [if_neg hs]
          obtain ⟨rest', rfl, hd'⟩ := hd.char hne (h3 more)
          rw [List.drop_append_of_le_length h2] at hd'
          have hlen : ((b :: l).drop k).length ≤ fuel := by rw [List.length_drop]; omega
          obtain ⟨left, out, st', code, e, g1, g2, ⟨rest'', g3, g4⟩, g5, g6, g7, g8⟩ :=
            ih st1 _ more (space - o.length) rest' hlen hd'
          rw [e]
          rw [List.length_drop] at g2
          refine ⟨_, _, _, _, rfl, by simp; omega, by simp only; omega, ⟨rest'', by rw [g3, List.append_assoc], g4⟩, g5, g6, g7, ?_⟩
          intro z
          obtain ⟨z1, z2, z3⟩ := g8 z
          exact ⟨by simp; omega, z2, fun _ => by simp only; omega⟩

end Charset

namespace Iconv

variable {σ τ α : Type} {P : StreamOps σ UInt8} {c : List UInt8} {F : Failure} {H : σ → Int → Int → Prop}
  {cs : Charset τ α}

/-- The input bytes that the parent has still to deliver. -/
def ahead (P : StreamOps σ UInt8) (c : List UInt8) (s : State σ τ) : List UInt8 := c.drop (P.position s.input).toNat

/-- The invariant: what is still to be delivered, and within how many calls. -/
structure Rest (P : StreamOps σ UInt8) (H : σ → Int → Int → Prop) (cs : Charset τ α) (N : Nat) (bad : Prop)
    (c : List UInt8) (s : State σ τ) (rest : List α) (m : Nat) : Prop where
  isOpen : s.isOpen = true
  inp : ∃ lo hi, H s.input lo hi
  fits : s.offset + s.chars.length ≤ bufSize
  start : s.offset = 0 → s.chars = [] ∨ cs.next s.conv s.chars = .incomplete
  rest : cs.Delivers bad s.conv (s.chars ++ ahead P c s) rest
  meas : 2 * (2 * (ahead P c s).length + s.chars.length) + (if s.offset = 0 then 0 else 1) < m
  fuel : m < N

theorem decode_spec (L : cs.Lawful) (S : cs.Single) {bad : Prop} {N m : Nat} {s : State σ τ} {rest : List α}
    {space : Int} (hsp : 0 < space) (ho : s.isOpen = true) (hi : ∃ lo hi, H s.input lo hi)
    (hf : s.offset + s.chars.length ≤ bufSize) (hr : cs.Delivers bad s.conv (s.chars ++ ahead P c s) rest)
    (hm : 2 * (2 * (ahead P c s).length + s.chars.length) + (if s.offset = 0 then 0 else 1) < m) (hN : m < N)
    (hgo : s.offset = 0 → 2 * (2 * (ahead P c s).length + s.chars.length) + 1 < m) :
    ∃ f' r, decode cs s space = (f', r) ∧
      ((r.error = false ∧ r.n = r.data.length ∧ r.n ≤ space ∧
          ∃ rest' m', rest = r.data ++ rest' ∧ m' < m ∧ Rest P H cs N bad c f' rest' m') ∨
        (bad ∧ r.error = true ∧ r.n < 0 ∧ (r.data.length : Int) ≤ space)) := by
  obtain ⟨left, out, st', code, e, g1, g2, ⟨rest', g3, g4⟩, g5, g6, g7, g8⟩ :=
    Charset.iconv_spec L S (2 * s.chars.length + 2) s.conv s.chars (ahead P c s) space.toNat rest (by omega) hr
  unfold decode
  rw [e]
  cases code with
  | done =>
    have := g5 rfl
    subst this
    refine ⟨_, _, rfl, Or.inl ⟨rfl, rfl, by simp only; omega, rest', m - 1, g3, ?_, ?_⟩⟩
    · omega
    · refine ⟨ho, hi, by simp [bufSize], fun _ => Or.inl rfl, g4, ?_, by omega⟩
      show 2 * (2 * (ahead P c s).length + 0) + _ < _
      simp only [if_true]
      split at hm
      · rename_i h0; have := hgo h0; omega
      · omega
  | inval =>
    obtain ⟨k1, k2⟩ := g6 rfl
    refine ⟨_, _, rfl, Or.inl ⟨rfl, rfl, by simp only; omega, rest', m - 1, g3, ?_, ?_⟩⟩
    · omega
    · refine ⟨ho, hi, by simp only; omega, fun _ => Or.inr k2, g4, ?_, by omega⟩
      show 2 * (2 * (ahead P c s).length + left.length) + _ < _
      simp only [if_true]
      split at hm
      · rename_i h0; have := hgo h0; omega
      · omega
  | ilseq =>
    exact ⟨_, _, rfl, Or.inr ⟨g7 rfl, rfl, by simp, by simp only; omega⟩⟩
  | tooBig =>
    obtain ⟨k1, k2, k3⟩ := g8 rfl
    have k3 := k3 (by omega)
    refine ⟨_, _, rfl, Or.inl ⟨rfl, by simp only; omega, by simp, rest', m - 1, g3, ?_, ?_⟩⟩
    · omega
    · refine ⟨ho, hi, by simp only; omega, fun z => ?_, g4, ?_, by omega⟩
      · simp only at z; omega
      · show 2 * (2 * (ahead P c s).length + left.length) + _ < _
        rw [if_neg (show ¬ s.offset + (s.chars.length - left.length) = 0 by omega)]
        split at hm
        · rename_i h0; have := hgo h0; omega
        · omega

theorem produces (C : Contract P c F H) (L : cs.Lawful) (S : cs.Single) (N : Nat) (bad : Prop) :
    Produces (producer P cs N) (F.onRead ∨ bad) (Rest P H cs N bad c) where
  fuel h := h.fuel
  step := by
    intro s rest m h space hsp
    simp only [producer, fill]
    by_cases h0 : s.offset = 0
    · rw [if_pos ⟨h.isOpen, h0⟩]
      obtain ⟨lo, hi, hH⟩ := h.inp
      have hrg := C.range hH
      have hlt : s.chars.length < 262 := by
        by_cases hc : s.chars = []
        · rw [hc]; simp
        · exact L.incomplete hc ((h.start h0).resolve_left hc)
      obtain ⟨p, n, d, e, r, w⟩ := C.read hH (min := 1) (max := bufSize - s.chars.length) (Int.le_refl _)
        (Or.inr (by simp only [bufSize]; omega))
      rw [e]
      simp only [Res.bind_ok]
      cases r with
      | data pos items inside adv limit enough st =>
        have hlim := limit (by simp only [bufSize]; omega)
        rw [if_neg (by omega), if_neg (by omega), if_neg (by omega)]
        have hdl := slice_length (c := c) (by omega) (Int.le_of_lt pos) inside
        rw [← items] at hdl
        have hrem : d ++ c.drop (P.position p).toNat = c.drop (P.position s.input).toNat := by
          rw [adv, items]; unfold slice
          rw [show (P.position s.input + n).toNat = (P.position s.input).toNat + n.toNat by omega,
            ← List.drop_drop, List.take_append_drop]
        have hlen := congrArg List.length hrem
        rw [List.length_append] at hlen
        have hm := h.meas
        rw [if_pos h0] at hm
        have hrest := h.rest
        unfold ahead at hrest hm
        rw [← hrem, ← List.append_assoc] at hrest
        obtain ⟨f', r, e', k⟩ := decode_spec (P := P) (H := H) (c := c) (N := N) (m := m) (rest := rest) (s := { s with input := p, chars := s.chars ++ d })
          L S hsp h.isOpen ⟨_, _, w st⟩ (by simp only [List.length_append, bufSize] at hlim ⊢; omega) hrest
          (by simp only [ahead, List.length_append]; rw [if_pos h0]; omega) h.fuel
          (by intro _; simp only [ahead, List.length_append]; omega)
        refine ⟨f', r, by rw [e'], ?_⟩
        rcases k with k | k
        · exact Or.inl k
        · exact Or.inr (Or.inr (Or.inl ⟨Or.inr k.1, k.2⟩))
      | ended none nodata atEnd stay st =>
        rw [if_neg (by omega), if_pos (by omega)]
        refine ⟨_, _, rfl, ?_⟩
        have hrest := h.rest
        unfold ahead at hrest
        rw [atEnd] at hrest
        simp only [Int.toNat_natCast, List.drop_length, List.append_nil] at hrest
        by_cases hc : s.chars = []
        · rw [hc] at hrest
          exact Or.inr (Or.inl ⟨by simp [hc], by simp, rfl, hrest.nil⟩)
        · refine Or.inr (Or.inr (Or.inl ⟨Or.inr ?_, by simp [hc], by simp, by simp only [List.length_nil]; omega⟩))
          exact hrest.stuck hc (Or.inl ((h.start h0).resolve_left hc))
      | failed allowed code st =>
        rw [if_pos code]
        exact ⟨_, _, rfl, Or.inr (Or.inr (Or.inl ⟨Or.inl allowed, rfl, by simp only; omega, by simp only [List.length_nil]; omega⟩))⟩
    · rw [if_neg (by simp [h0])]
      obtain ⟨f', r, e', k⟩ := decode_spec L S hsp h.isOpen h.inp h.fits h.rest h.meas h.fuel (fun z => absurd z h0)
      refine ⟨f', r, by rw [e'], ?_⟩
      rcases k with k | k
      · exact Or.inl k
      · exact Or.inr (Or.inr (Or.inl ⟨Or.inr k.1, k.2⟩))

theorem rest_new {p : σ} {lo hi : Int} (h : H p lo hi) {bad : Prop} {out : List α} {N : Nat}
    (hN : 4 * c.length + 2 < N) (hd : cs.Delivers bad cs.init (c.drop (P.position p).toNat) out) :
    Rest P H cs N bad c (State.new cs p) out (4 * c.length + 1) := by
  refine ⟨rfl, ⟨lo, hi, h⟩, by simp [State.new, bufSize], fun _ => Or.inl rfl, by simpa [State.new, ahead] using hd, ?_, by omega⟩
  simp [State.new, ahead]
  omega

end Iconv
end Strigi
