import Verif.Proofs.LzmaToDic

/-!
# `LzmaDec_DecodeToBuf`
-/

namespace Strigi
namespace LzmaDec

open Lzma

/-- Where the decoder is in the format, and the bytes that it has consumed but not used yet: within the first five bytes, or before a
symbol. -/
inductive Phase
  | begin (t : List UInt8)
  | live (s : State) (t : List UInt8)

/-- The data so far, the last byte first. -/
def Phase.past : Phase → List UInt8
  | .begin _ => []
  | .live s _ => s.past

/-- The bytes consumed are not sufficient to go on. -/
def Phase.Hungry (P : Params) : Phase → Prop
  | .begin t => t.length < 5
  | .live s t => s.step P t = .more

/-- The progress that the format allows with the bytes `b`, where symbols are read only when there are less than `n` bytes. -/
inductive Adv (P : Params) (n : Nat) : Phase → List UInt8 → Phase → Prop
  | wait {t b} : (t ++ b).length < 5 → Adv P n (.begin t) b (.begin (t ++ b))
  | start {t b hdr u t' code s'} : t ++ b = hdr ++ (u ++ t') → header hdr code → Within P n (State.start code) u s' → Adv P n (.begin t) b (.live s' t')
  | live {s t b u s' t'} : t ++ b = u ++ t' → Within P n s u s' → Adv P n (.live s t) b (.live s' t')

theorem Adv.trans {P : Params} {n : Nat} {f g h : Phase} {a b : List UInt8} (h1 : Adv P n f a g) (h2 : Adv P n g b h) : Adv P n f (a ++ b) h := by
  cases h1 with
  | @wait t a hl =>
    cases h2 with
    | wait hl2 => rw [List.append_assoc] at hl2 ⊢; exact .wait hl2
    | start e hh hr => rw [List.append_assoc] at e; exact .start e hh hr
  | @start t a hdr u t' code s' e hh hr =>
    cases h2 with
    | @live s t b u' s'' t'' e2 hr2 =>
      refine .start (u := u ++ u') (hdr := hdr) ?_ hh (hr.trans hr2)
      rw [← List.append_assoc, e, List.append_assoc, List.append_assoc, e2, List.append_assoc]
  | @live s t a u s' t' e hr =>
    cases h2 with
    | @live s t b u' s'' t'' e2 hr2 =>
      refine .live (u := u ++ u') ?_ (hr.trans hr2)
      rw [← List.append_assoc, e, List.append_assoc, e2, List.append_assoc]

theorem Adv.mono {P : Params} {n m : Nat} {f g : Phase} {a : List UInt8} (h : Adv P n f a g) (hm : n ≤ m) : Adv P m f a g := by
  cases h with
  | wait hl => exact .wait hl
  | start e hh hr => exact .start e hh (hr.mono hm)
  | live e hr => exact .live e (hr.mono hm)

theorem Wrong.mono {P : Params} {n m : Nat} {fin finish : Bool} {s : State} {h v : List UInt8} (W : Wrong P n fin s h v) (hm : n ≤ m) (hf : fin = true → finish = true ∧ n = m) : Wrong P m finish s h v := by
  have may : May n fin s → May m finish s := by
    rintro (h | ⟨h1, h2, h3⟩)
    · left; omega
    · obtain ⟨e1, e2⟩ := hf h1
      exact Or.inr ⟨e1, by omega, h3⟩
  rcases W with ⟨h1, h2⟩ | ⟨h1, h2⟩ | ⟨h1, h2⟩
  · exact Or.inl ⟨may h1, h2⟩
  · exact Or.inr (Or.inl ⟨may h1, h2⟩)
  · obtain ⟨e1, rfl⟩ := hf h1
    exact Or.inr (Or.inr ⟨e1, h2⟩)

/-- The decoder is in the phase, and `h` has been written. -/
def Holds (P : Params) (z : Dec) : Phase → List UInt8 → Prop
  | .begin t, h => z = waiting P t ∧ t.length < 5 ∧ h = []
  | .live s t, h => Resting P z s h ∧ z.temp = t

/-- The size of the dictionary. -/
structure DicOk (P : Params) : Prop where
  low : 1 ≤ P.dicSize
  high : P.dicSize < 2 ^ 32

/-- What `LzmaDec_DecodeToDic` can do. -/
inductive ToDic (P : Params) (limit n : Nat) (finish : Bool) (p : Dec) (f : Phase) (h : List UInt8) (src : List UInt8) : Res DicResult → Prop
  | pause {p' k f' new st} : k ≤ src.length → Adv P n f (src.take k) f' → Holds P p' f' (new ++ h) → p'.dicPos = p.dicPos + new.length → Tail p' (new ++ h) → p'.dicPos ≤ limit →
      st ≠ .finishedWithMark → (p'.dicPos = limit ∨ (k = src.length ∧ f'.Hungry P ∧ new ++ h = f'.past)) → ToDic P limit n finish p f h src (.ok (p', k, some st))
  | mark {p' k s' v new} : k ≤ src.length → Adv P n f (src.take k) (.live s' v) → (∀ t, s'.step P (v ++ t) = .ended 0 t) → s'.past = new ++ h → p'.remainLen = 274 → p'.code = 0 → p'.dicPos = p.dicPos + new.length →
      Tail p' (new ++ h) → p'.dicPos ≤ limit → ToDic P limit n finish p f h src (.ok (p', k, some .finishedWithMark))
  | bad {p' k s' v m new} : k ≤ src.length → Adv P n f src (.live s' v) → Wrong P n finish s' (new ++ h) v → s'.past = m ++ (new ++ h) → p'.dicPos = p.dicPos + new.length →
      Tail p' (new ++ h) → p'.dicPos ≤ limit → ToDic P limit n finish p f h src (.ok (p', k, none))
  | header {p' k t} : k ≤ src.length → f = .begin t → 5 ≤ (t ++ src).length → (t ++ src).head? ≠ some 0 → p'.dicPos = p.dicPos → ToDic P limit n finish p f h src (.ok (p', k, none))

theorem toDic_of {P : Params} {limit n : Nat} {finish : Bool} {p : Dec} {f : Phase} {h src src0 : List UInt8} {s : State} {k0 : Nat} {r : Res DicResult} (D : DicOut P limit n finish p h s src k0 r)
    (h0 : k0 ≤ src0.length) (hs : src0.drop k0 = src) (hA : Adv P n f (src0.take k0) (.live s p.temp)) : ToDic P limit n finish p f h src0 r := by
  have hl : src.length = src0.length - k0 := by rw [← hs, List.length_drop]
  have ht : ∀ k, src0.take (k0 + k) = src0.take k0 ++ src.take k := fun k => by rw [← hs]; exact List.take_add
  have hall : src0 = src0.take k0 ++ src := by rw [← hs, List.take_append_drop]
  cases D with
  | @pause p' k u s' h' st a b c d e g i j l =>
    obtain ⟨new, en, hn⟩ := e.new
    subst en
    refine .pause (f' := .live s' p'.temp) (new := new) (by omega) ?_ ⟨d, rfl⟩ hn d.paused.core.dict.tail g i (j.imp id fun j => ⟨by omega, j.2.1, ?_⟩)
    · rw [ht]
      exact hA.trans (.live b c)
    · have := d.paused.core.past
      rw [j.2.2] at this
      exact this.symm
  | @mark p' k u v s' a b c d e g i j l m =>
    obtain ⟨new, en, hn⟩ := j.new
    refine .mark (s' := s') (v := v) (new := new) (by omega) ?_ d en g e.code hn (by rw [← en]; exact e.dict.tail) l
    rw [ht]
    exact hA.trans (.live b c)
  | @bad p' k u v s' h' a b c d e g i j l =>
    obtain ⟨new, en, hn⟩ := g
    obtain ⟨m, em⟩ := e
    subst en
    refine .bad (s' := s') (v := v) (m := m) (new := new) (by omega) ?_ d em hn i j
    rw [hall]
    exact hA.trans (.live b c)

theorem decodeToDic_all {P : Params} (hP : POk P) (hd : DicOk P) {limit n : Nat} {finish : Bool} (h2 : limit ≤ P.dicSize) {p : Dec} {f : Phase} {h src : List UInt8} (H : Holds P p f h) (h1 : p.dicPos < limit) (hn : h.length + limit = n + p.dicPos) :
    ToDic P limit n finish p f h src (decodeToDic p limit src finish) := by
  cases f with
  | live s t =>
    obtain ⟨R, rfl⟩ := H
    exact toDic_of (decodeToDic_ok hP h2 R h1 hn) (by omega) rfl (.live (u := []) (by simp) .nil)
  | begin t =>
    obtain ⟨rfl, ht, rfl⟩ := H
    by_cases hs : t.length + src.length < 5
    · rw [toDic_short hs]
      refine .pause (f' := .begin (t ++ src)) (new := []) (Nat.le_refl _) ?_ ⟨rfl, by rw [List.length_append]; omega, rfl⟩ rfl ⟨by show 0 ≤ _; omega, fun d d1 d2 d3 => by simp at d3; omega⟩ ?_ (by decide)
        (Or.inr ⟨rfl, by show (t ++ src).length < 5; rw [List.length_append]; omega, rfl⟩)
      · rw [List.take_length]
        exact .wait (by rw [List.length_append]; omega)
      · show 0 ≤ limit
        omega
    · by_cases h0 : (t ++ src).head? = some 0
      · obtain ⟨hdr, w, code, e, hh⟩ : ∃ hdr w code, t ++ src = hdr ++ w ∧ Lzma.header hdr code := by
          have hl : 5 ≤ (t ++ src).length := by rw [List.length_append]; omega
          rcases hx : t ++ src with _ | ⟨z, _ | ⟨a, _ | ⟨b, _ | ⟨c, _ | ⟨d, w⟩⟩⟩⟩⟩ <;> rw [hx] at hl h0 <;> simp only [List.length_cons, List.length_nil] at hl <;> try omega
          simp only [List.head?_cons, Option.some.injEq] at h0
          subst h0
          exact ⟨[0, a, b, c, d], w, _, rfl, a, b, c, d, rfl, rfl⟩
        obtain ⟨hc, h5⟩ := header_code hh
        have hlen := congrArg List.length e
        rw [List.length_append, List.length_append, h5] at hlen
        have hpos : 0 < limit := h1
        rw [toDic_header hh ht e hpos]
        have hR := started_ok hd.low hd.high hc
        have D := dicLoop_ok hP (n := n) h2 (limit + 3) (finish := finish) (src := w) (used := 5 - t.length) hR (by show 0 ≤ limit; omega) (fun z => absurd rfl z) hn (by show limit - 0 + 2 ≤ _; omega)
        have hfull : t ++ src.take (5 - t.length) = hdr := by
          have := congrArg (List.take 5) e
          rw [List.take_append, List.take_of_length_le (by omega), ← h5, List.take_left, h5] at this
          exact this
        have hdrop : src.drop (5 - t.length) = w := by
          have := congrArg (List.drop 5) e
          rw [List.drop_append, List.drop_of_length_le (by omega), ← h5, List.drop_left, h5] at this
          exact this
        have T := toDic_of (f := .begin t) (src0 := src) D (by omega) hdrop (.start (hdr := hdr) (u := []) (t' := []) (by rw [hfull]; simp) hh .nil)
        generalize dicLoop limit finish (limit + 3) (started P code) w (5 - t.length) = res at T
        cases T with
        | pause a b c d e g i j => exact .pause a b c d e g i j
        | mark a b c d e g i j l => exact .mark a b c d e g i j l
        | bad a b c d e g i => exact .bad a b c d e g i
        | header a b c d e => exact .header a b c d e
      · rw [toDic_wrong ht (by omega) h0]
        exact .header (by omega) rfl (by rw [List.length_append]; omega) h0 rfl

/-- Copying from the dictionary. -/
theorem dicCopy_ok {p : Dec} {h : List UInt8} (T : Tail p h) : ∀ n, n ≤ h.length → n ≤ p.dicPos → dicCopy p (p.dicPos - n) n = .ok (h.take n).reverse := by
  intro n
  induction n with
  | zero => intro _ _; rfl
  | succ n ih =>
    intro h1 h2
    rw [dicCopy]
    have hg : dicGet p ((p.dicPos - (n + 1) : Nat) : Int) = .ok h[n] := by
      unfold dicGet
      have := T.1
      rw [if_pos (by omega), show ((p.dicPos - (n + 1) : Nat) : Int).toNat = p.dicPos - (n + 1) by omega, T.2 (n + 1) (by omega) h2 h1, show n + 1 - 1 = n by omega, List.getElem?_eq_getElem (by omega)]
    rw [hg, Res.bind_ok, show p.dicPos - (n + 1) + 1 = p.dicPos - n by omega, ih (by omega) (by omega), Res.bind_ok]
    rw [List.take_succ_eq_append_getElem (by omega), List.reverse_append]
    rfl

/-- The window starts again at the beginning of the dictionary. -/
theorem Window.wrap {dic : Nat → Option UInt8} {size : Nat} {h : List UInt8} (W : Window dic size size h) : Window dic 0 size h := by
  refine ⟨by omega, fun d h1 h2 h3 => ?_⟩
  have := W.back d h1 h2 h3
  rw [if_neg (by omega)] at this
  rw [if_pos (by omega), Nat.zero_add]
  exact this

theorem Resting.wrap {P : Params} {p : Dec} {s : State} {h : List UInt8} (R : Resting P p s h) (hp : p.dicPos = p.dicBufSize) : Resting P { p with dicPos := 0 } s h := by
  have C := R.paused.core
  have D := C.dict
  have hsz : p.prop.dicSize = P.dicSize := by rw [C.prop]
  have hD : Dict { p with dicPos := 0 } h := by
    refine ⟨D.size, D.low, D.high, Window.wrap (by have := D.win; rw [hp, D.size] at this; exact this), D.count, Or.inr ?_⟩
    rcases D.check with ⟨c1, c2, c3⟩ | c
    · have := R.strict c1
      have := D.size
      omega
    · exact c
  exact ⟨⟨⟨hD, C.past, C.back, C.state, C.rep0, C.rep1, C.rep2, C.rep3, C.prop, C.nprobs, C.stored, C.wf⟩, R.paused.rem, R.paused.range, R.paused.code⟩, R.strict, R.flush, R.init, R.hungry⟩

theorem Holds.wrap {P : Params} (hd : DicOk P) {p : Dec} {f : Phase} {h : List UInt8} (H : Holds P p f h) :
    Holds P (if p.dicPos = p.dicBufSize then { p with dicPos := 0 } else p) f h ∧ (if p.dicPos = p.dicBufSize then { p with dicPos := 0 } else p : Dec).dicPos < P.dicSize ∧
      (if p.dicPos = p.dicBufSize then { p with dicPos := 0 } else p : Dec).dicBufSize = P.dicSize := by
  cases f with
  | begin t =>
    obtain ⟨rfl, ht, rfl⟩ := H
    have : ¬ (waiting P t).dicPos = (waiting P t).dicBufSize := by
      show ¬ 0 = P.dicSize
      have := hd.low
      omega
    rw [if_neg this]
    exact ⟨⟨rfl, ht, rfl⟩, hd.low, rfl⟩
  | live s t =>
    obtain ⟨R, ht⟩ := H
    have C := R.paused.core
    have hsz : p.dicBufSize = P.dicSize := by rw [← C.prop]; exact C.dict.size
    have hle := C.dict.win.le
    rw [C.prop] at hle
    split
    · rename_i hp
      exact ⟨⟨R.wrap hp, ht⟩, hd.low, hsz⟩
    · exact ⟨⟨R, ht⟩, by omega, hsz⟩

/-- What `LzmaDec_DecodeToBuf` can do: `new` are the bytes it writes, the last one first. -/
inductive BufOut (P : Params) (finish : Bool) (f : Phase) (h src : List UInt8) (outSize used : Nat) (out : List UInt8) : Res (Dec × Nat × List UInt8 × Option LStatus) → Prop
  | pause {z' k f' new st} : k ≤ src.length → Adv P (h.length + outSize) f (src.take k) f' → Holds P z' f' (new ++ h) → new.length ≤ outSize → st ≠ .finishedWithMark →
      (new.length = outSize ∨ (k = src.length ∧ f'.Hungry P ∧ new ++ h = f'.past)) → BufOut P finish f h src outSize used out (.ok (z', used + k, out ++ new.reverse, some st))
  | mark {z' k s' v new} : k ≤ src.length → Adv P (h.length + outSize) f (src.take k) (.live s' v) → (∀ t, s'.step P (v ++ t) = .ended 0 t) → s'.past = new ++ h → new.length ≤ outSize →
      BufOut P finish f h src outSize used out (.ok (z', used + k, out ++ new.reverse, some .finishedWithMark))
  | bad {z' k s' v m new} : k ≤ src.length → Adv P (h.length + outSize) f src (.live s' v) → Wrong P (h.length + outSize) finish s' (new ++ h) v → s'.past = m ++ (new ++ h) → new.length ≤ outSize →
      BufOut P finish f h src outSize used out (.ok (z', used + k, out ++ new.reverse, none))
  | header {z' k t} : k ≤ src.length → f = .begin t → 5 ≤ (t ++ src).length → (t ++ src).head? ≠ some 0 → BufOut P finish f h src outSize used out (.ok (z', used + k, out, none))

/-- After the end mark. -/
theorem bufLoop_over {finish : Bool} {p : Dec} {src out : List UInt8} {n outSize used : Nat} (hr : p.remainLen = 274) (hc : p.code = 0) :
    ∃ p', bufLoop finish (n + 1) p src outSize used out = .ok (p', used, out, some .finishedWithMark) := by
  rw [bufLoop]
  obtain ⟨q, hq⟩ : ∃ q, (if p.dicPos = p.dicBufSize then { p with dicPos := 0 } else p) = q := ⟨_, rfl⟩
  have h1 : q.remainLen = 274 := by rw [← hq]; split <;> exact hr
  have h2 : q.code = 0 := by rw [← hq]; split <;> exact hc
  rw [hq]
  dsimp only
  have e : (if outSize > q.dicBufSize - q.dicPos then decodeToDic q q.dicBufSize src false else decodeToDic q (q.dicPos + outSize) src finish) = .ok (q, 0, some .finishedWithMark) := by
    split
    · rw [decodeToDic_over h1, if_pos h2]
    · rw [decodeToDic_over h1, if_pos h2]
  rw [e, Res.bind_ok]
  dsimp only
  rw [Nat.sub_self]
  refine ⟨q, ?_⟩
  rw [dicCopy, Res.bind_ok, if_pos (Or.inl rfl)]
  simp

theorem bufLoop_ok {P : Params} (hP : POk P) (hd : DicOk P) {finish : Bool} : ∀ n {p : Dec} {f : Phase} {h src out : List UInt8} {outSize used : Nat}, Holds P p f h → 1 ≤ outSize → outSize < n →
    BufOut P finish f h src outSize used out (bufLoop finish n p src outSize used out) := by
  intro n
  induction n with
  | zero => intros; omega
  | succ n ih =>
    intro p f h src out outSize used H h1 hn
    rw [bufLoop]
    obtain ⟨HQ, hpos, hsz⟩ := H.wrap hd
    generalize (if p.dicPos = p.dicBufSize then { p with dicPos := 0 } else p : Dec) = q at HQ hpos hsz
    dsimp only
    obtain ⟨limit, fin, e, hl1, hl2, hl3, hl4⟩ : ∃ limit fin, (if outSize > q.dicBufSize - q.dicPos then decodeToDic q q.dicBufSize src false else decodeToDic q (q.dicPos + outSize) src finish) = decodeToDic q limit src fin ∧
        q.dicPos < limit ∧ limit ≤ P.dicSize ∧ limit ≤ q.dicPos + outSize ∧ (fin = true → finish = true ∧ limit = q.dicPos + outSize) := by
      split
      · exact ⟨_, _, rfl, by omega, by omega, by omega, fun z => by cases z⟩
      · exact ⟨_, _, rfl, by omega, by omega, by omega, fun z => ⟨z, rfl⟩⟩
    rw [e]
    have T := decodeToDic_all hP hd (limit := limit) (finish := fin) (src := src) (n := h.length + (limit - q.dicPos)) hl2 HQ hl1 (by omega)
    have hnn : h.length + (limit - q.dicPos) ≤ h.length + outSize := by omega
    generalize decodeToDic q limit src fin = res at T
    have copy : ∀ {p' : Dec} {new : List UInt8}, p'.dicPos = q.dicPos + new.length → Tail p' (new ++ h) → dicCopy p' q.dicPos (p'.dicPos - q.dicPos) = .ok new.reverse := by
      intro p' new e1 e2
      have := dicCopy_ok e2 new.length (by rw [List.length_append]; omega) (by omega)
      rw [List.take_left, show p'.dicPos - new.length = q.dicPos by omega] at this
      rw [show p'.dicPos - q.dicPos = new.length by omega, this]
    cases T with
    | @pause p' k f' new st a b c d e g i j =>
      rw [Res.bind_ok]
      dsimp only
      rw [copy d e, Res.bind_ok, show p'.dicPos - q.dicPos = new.length by omega]
      by_cases hc : new.length = 0 ∨ outSize - new.length = 0
      · rw [if_pos hc]
        refine .pause a (b.mono hnn) c (by omega) i ?_
        rcases j with j | j
        · left; omega
        · exact Or.inr j
      · rw [if_neg hc]
        have I := ih (src := src.drop k) (used := used + k) (out := out ++ new.reverse) c (show 1 ≤ outSize - new.length by omega) (by omega)
        have hdl : (src.drop k).length = src.length - k := List.length_drop
        have htk : ∀ k', src.take (k + k') = src.take k ++ (src.drop k).take k' := fun k' => List.take_add
        have b := b.mono hnn
        have hno : (new ++ h).length + (outSize - new.length) = h.length + outSize := by rw [List.length_append]; omega
        generalize bufLoop finish n p' (src.drop k) (outSize - new.length) (used + k) (out ++ new.reverse) = res2 at I
        cases I with
        | @pause z' k' f'' new' st' a' b' c' d' e' g' =>
          rw [Nat.add_assoc, List.append_assoc, ← List.reverse_append]
          rw [← List.append_assoc] at c' g'
          rw [hno] at b'
          refine .pause (by omega) (by rw [htk]; exact b.trans b') c' (by rw [List.length_append]; omega) e' (g'.imp (fun z => ?_) fun z => ⟨by omega, z.2⟩)
          rw [List.length_append]; omega
        | @mark z' k' s' v new' a' b' c' d' e' =>
          rw [Nat.add_assoc, List.append_assoc, ← List.reverse_append]
          rw [← List.append_assoc] at d'
          rw [hno] at b'
          exact .mark (by omega) (by rw [htk]; exact b.trans b') c' d' (by rw [List.length_append]; omega)
        | @bad z' k' s' v m new' a' b' c' d' e' =>
          rw [Nat.add_assoc, List.append_assoc, ← List.reverse_append]
          rw [← List.append_assoc, hno] at c'
          rw [← List.append_assoc new'] at d'
          rw [hno] at b'
          refine .bad (m := m) (s' := s') (v := v) (by omega) ?_ c' d' (by rw [List.length_append]; omega)
          · have := b.trans b'
            rw [List.take_append_drop] at this
            exact this
        | @header z' k' t a' b' c' d' =>
          exfalso
          subst b'
          obtain ⟨_, _, hnil⟩ := c
          have := congrArg List.length hnil
          rw [List.length_append, List.length_nil] at this
          omega
    | @mark p' k s' v new a b c d e g i j l =>
      rw [Res.bind_ok]
      dsimp only
      rw [copy i j, Res.bind_ok, show p'.dicPos - q.dicPos = new.length by omega]
      by_cases hc : new.length = 0 ∨ outSize - new.length = 0
      · rw [if_pos hc]
        exact .mark a (b.mono hnn) c d (by omega)
      · rw [if_neg hc]
        obtain ⟨n, rfl⟩ : ∃ n', n = n' + 1 := ⟨n - 1, by omega⟩
        obtain ⟨z', ez⟩ := bufLoop_over (finish := finish) (src := src.drop k) (out := out ++ new.reverse) (n := n) (outSize := outSize - new.length) (used := used + k) e g
        rw [ez]
        exact .mark a (b.mono hnn) c d (by omega)
    | @bad p' k s' v m new a b c d e g i =>
      rw [Res.bind_ok]
      dsimp only
      rw [copy e g, Res.bind_ok]
      refine .bad (m := m) (s' := s') (v := v) a (b.mono hnn) (c.mono hnn fun z => ?_) d (by omega)
      obtain ⟨f1, f2⟩ := hl4 z
      exact ⟨f1, by omega⟩
    | @header p' k t a b c d e =>
      rw [Res.bind_ok]
      dsimp only
      rw [e, Nat.sub_self, dicCopy, Res.bind_ok, List.append_nil]
      exact .header a b c d

/-- `LzmaDec_DecodeToBuf`. -/
theorem decodeToBuf_ok {P : Params} (hP : POk P) (hd : DicOk P) {finish : Bool} {p : Dec} {f : Phase} {h src : List UInt8} {outSize : Nat} (H : Holds P p f h) (h1 : 1 ≤ outSize) :
    BufOut P finish f h src outSize 0 [] (decodeToBuf p outSize src finish) := bufLoop_ok hP hd _ H h1 (Nat.lt_succ_self _)

end LzmaDec
end Strigi
