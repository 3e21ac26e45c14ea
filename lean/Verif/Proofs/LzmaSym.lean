import Verif.Proofs.LzmaMatch

/-!
# A symbol: the decoder reads what the format says
-/

namespace Strigi
namespace LzmaDec

open Lzma

/-- An array of `size` bytes that is written cyclically, with the next byte at `pos`, holds the last bytes of `h` (the last byte first). -/
structure Window (dic : Nat → Option UInt8) (pos size : Nat) (h : List UInt8) : Prop where
  le : pos ≤ size
  back : ∀ d, 1 ≤ d → d ≤ size → d ≤ h.length → dic (if pos < d then pos + size - d else pos - d) = h[d - 1]?

/-- The dictionary holds the last bytes of `h`. -/
structure Dict (p : Dec) (h : List UInt8) : Prop where
  size : p.dicBufSize = p.prop.dicSize
  low : 1 ≤ p.prop.dicSize
  high : p.prop.dicSize < 2 ^ 32
  win : Window p.dic p.dicPos p.prop.dicSize h
  count : p.processedPos = h.length % 2 ^ 32
  check : (p.checkDicSize = 0 ∧ h.length ≤ p.prop.dicSize ∧ p.dicPos = h.length) ∨ (p.checkDicSize = p.prop.dicSize ∧ p.prop.dicSize ≤ h.length)
/-- The byte `d` bytes ago. -/
theorem Dict.get {p : Dec} {h : List UInt8} (H : Dict p h) {d : Nat} (h1 : 1 ≤ d) (h2 : d ≤ p.prop.dicSize) (h3 : d ≤ h.length) :
    dicGet p (backIndex p d) = .ok (h.getD (d - 1) 0) := by
  have hb := H.win.back d h1 h2 h3
  have e : h[d - 1]? = some (h.getD (d - 1) 0) := by
    rw [List.getD_eq_getElem?_getD, List.getElem?_eq_getElem (by omega)]
    rfl
  rw [e] at hb
  have hp := H.win.le
  have hs := H.size
  unfold dicGet backIndex
  by_cases hd : p.dicPos < d
  · rw [if_pos hd] at hb ⊢
    rw [if_pos (by omega), show ((p.dicPos : Int) - d + (p.dicBufSize : Nat)).toNat = p.dicPos + p.prop.dicSize - d by omega, hb]
  · rw [if_neg hd] at hb ⊢
    rw [if_pos (by omega), show ((p.dicPos : Int) - d + (0 : Nat)).toNat = p.dicPos - d by omega, hb]

/-- The last byte. -/
theorem Dict.last {p : Dec} {h : List UInt8} (H : Dict p h) (hne : h ≠ []) :
    dicGet p ((if p.dicPos = 0 then p.dicBufSize else p.dicPos) - 1 : Int) = .ok (h.headD 0) := by
  have hl : 1 ≤ h.length := by
    rcases h with _ | ⟨b, t⟩
    · exact absurd rfl hne
    · simp
  have := H.get (Nat.le_refl 1) H.low hl
  have e : backIndex p 1 = ((if p.dicPos = 0 then p.dicBufSize else p.dicPos) - 1 : Int) := by
    unfold backIndex
    by_cases h0 : p.dicPos = 0
    · rw [if_pos (by omega)]; simp [h0]; omega
    · rw [if_neg (by omega)]; simp [h0]
  rw [e] at this
  rw [this]
  rcases h with _ | ⟨b, t⟩
  · exact absurd rfl hne
  · rfl

theorem Dict.empty {p : Dec} {h : List UInt8} (H : Dict p h) : (p.checkDicSize = 0 ∧ p.processedPos = 0) ↔ h = [] := by
  have h1 := H.low
  have h2 := H.high
  have h3 := H.count
  constructor
  · rintro ⟨a, b⟩
    rcases H.check with ⟨c1, c2, c3⟩ | ⟨c1, c2⟩
    · rw [b] at h3
      rw [Nat.mod_eq_of_lt (by omega)] at h3
      exact List.eq_nil_of_length_eq_zero h3.symm
    · omega
  · rintro rfl
    rcases H.check with ⟨c1, c2, c3⟩ | ⟨c1, c2⟩
    · exact ⟨c1, by rw [h3]; rfl⟩
    · simp at c2
      omega

theorem Dict.far {p : Dec} {h : List UInt8} (H : Dict p h) (d : Nat) :
    (if p.checkDicSize = 0 then d ≥ p.processedPos else d ≥ p.checkDicSize) ↔ ¬ (d + 1 ≤ h.length ∧ d + 1 ≤ p.prop.dicSize) := by
  have h1 := H.low
  have h2 := H.high
  have h3 := H.count
  rcases H.check with ⟨c1, c2, c3⟩ | ⟨c1, c2⟩
  · rw [Nat.mod_eq_of_lt (by omega)] at h3
    rw [if_pos c1]
    omega
  · rw [if_neg (by omega)]
    omega

/-- The parameters of the properties are in the ranges that the header allows. -/
structure POk (P : Params) : Prop where
  lc : P.lc ≤ 8
  lp : P.lp ≤ 4
  pb : P.pb ≤ 4

/-- The states that the format allows. -/
structure Wf (P : Params) (s : State) : Prop where
  state : s.state < 12
  rep0 : 1 ≤ s.rep0 ∧ s.rep0 ≤ P.dicSize ∧ s.rep0 ≤ max 1 s.past.length
  rep1 : 1 ≤ s.rep1 ∧ s.rep1 ≤ P.dicSize ∧ s.rep1 ≤ max 1 s.past.length
  rep2 : 1 ≤ s.rep2 ∧ s.rep2 ≤ P.dicSize ∧ s.rep2 ≤ max 1 s.past.length
  rep3 : 1 ≤ s.rep3 ∧ s.rep3 ≤ P.dicSize ∧ s.rep3 ≤ max 1 s.past.length
  past : 7 ≤ s.state → s.past ≠ []
  probs : Between s.probs
  coder : Coder.Normal ⟨s.range, s.code, []⟩

/-- The decoder agrees with a state of the format, except for the range coder and the probabilities. -/
structure Agrees (p : Dec) (s : State) : Prop where
  dict : Dict p s.past
  state : p.state = s.state
  rep0 : p.rep0 = s.rep0
  rep1 : p.rep1 = s.rep1
  rep2 : p.rep2 = s.rep2
  rep3 : p.rep3 = s.rep3

theorem masked {n k a : Nat} (h : a = n % 2 ^ 32) (hk : k ≤ 32) : a &&& (2 ^ k - 1) = n % 2 ^ k := by
  rw [Nat.and_two_pow_sub_one_eq_mod, h, Nat.mod_mod_of_dvd]
  exact Nat.pow_dvd_pow 2 hk

/-- What remains to be done after a symbol. -/
def SymRel (P : Params) (s : State) : Symbol → Res Act → Prop
  | .literal b, r => r = .ok (.literal (b + 256))
  | .copy len dist, r =>
    if dist = 2 ^ 32 - 1 then r = .ok (.finished (len + kMatchSpecLenStart))
    else if dist + 1 ≤ s.past.length ∧ dist + 1 ≤ P.dicSize then r = .ok (.copy (if s.state < 7 then 7 else 10) (dist + 1) s.rep0 s.rep1 s.rep2 (len + 2))
    else r = .ok .bad
  | .shortRep, r => if s.past = [] then r = .ok .bad else r = .ok .short
  | .rep i len, r =>
    if s.past = [] then r = .ok .bad
    else match i with
      | 0 => r = .ok (.copy (if s.state < 7 then 8 else 11) s.rep0 s.rep1 s.rep2 s.rep3 (len + 2))
      | 1 => r = .ok (.copy (if s.state < 7 then 8 else 11) s.rep1 s.rep0 s.rep2 s.rep3 (len + 2))
      | 2 => r = .ok (.copy (if s.state < 7 then 8 else 11) s.rep2 s.rep0 s.rep1 s.rep3 (len + 2))
      | _ => r = .ok (.copy (if s.state < 7 then 8 else 11) s.rep3 s.rep0 s.rep1 s.rep2 (len + 2))

/-- The literal, whatever follows. -/
theorem literal_matches {γ β : Type} {rel : γ → Res β → Prop} {early : Res β → Prop} {P : Params} {p : Dec} {s : State} (H : Agrees p s) (W : Wf P s)
    (hP : p.prop = P) (hok : POk P) {f : Nat → Parse Ctx γ} {k : Nat → Prog β} (hk : ∀ v, 256 ≤ v → v < 512 → Matches rel early (f v) (k v)) :
    Matches rel early (Lzma.literal (s.past.length % 2 ^ P.lp * 2 ^ P.lc + (s.past.headD 0).toNat / 2 ^ (8 - P.lc))
      (if s.state < 7 then none else some (s.past.getD (s.rep0 - 1) 0).toNat) >>= f) (literal p k) := by
  subst hP
  have hprob : ∀ {k : Nat → Prog β}, litProb p k = k (1846 + 768 * (s.past.length % 2 ^ p.prop.lp * 2 ^ p.prop.lc + (s.past.headD 0).toNat / 2 ^ (8 - p.prop.lc))) := by
    intro k
    unfold litProb
    by_cases he : s.past = []
    · have := H.dict.empty.mpr he
      rw [if_neg (by omega), he, show Literal = 1846 from rfl]
      simp
    · have := mt H.dict.empty.mp he
      rw [if_pos (by omega), H.dict.last he]
      simp only [lift]
      rw [masked H.dict.count (by have := hok.lp; omega), Nat.shiftLeft_eq, Nat.shiftRight_eq_div_pow]
      rfl
  unfold literal
  rw [hprob, H.state]
  by_cases h7 : s.state < 7
  · rw [if_pos h7, if_pos h7]
    exact tree_matches (fun i => rfl) (fun v h1 h2 => hk v h1 (by omega)) 7 8 1 (by decide) (by decide) (by decide)
  · rw [if_neg h7, if_neg h7, H.rep0]
    have hne : s.past ≠ [] := W.past (by omega)
    have hl : 1 ≤ s.past.length := by
      rcases hq : s.past with _ | ⟨b, t⟩
      · exact absurd hq hne
      · simp
    rw [H.dict.get W.rep0.1 W.rep0.2.1 (by have := W.rep0.2.2; omega)]
    simp only [lift]
    exact matched_matches rfl hk 7 8 1 _ (by decide) (by decide) (by decide) (by decide) (by simp)

/-- A length, then the end of a repetition. -/
theorem rep_matches {P : Params} {p : Dec} {s : State} {ps i r0 r1 r2 r3 : Nat}
    (hs : ∀ len, len < 272 → SymRel P s (.rep i len) (.ok (.copy (if s.state < 7 then 8 else 11) r0 r1 r2 r3 (len + 2)))) :
    Matches (SymRel P s) (fun r => r = .ok .bad) (Lzma.length true ps >>= fun len => pure (.rep i len))
      (lengthAndDistance p RepLenCoder ps (if s.state < 7 then 8 else 11) r0 r1 r2 r3) := by
  unfold lengthAndDistance
  refine length_matches (rep := true) rfl fun v hv => ?_
  rw [if_neg (by split <;> omega)]
  exact .done (hs v hv)

theorem symbol_matches {P : Params} {p : Dec} {s : State} (H : Agrees p s) (W : Wf P s) (hP : p.prop = P) (hok : POk P) :
    Matches (SymRel P s) (fun r => r = .ok .bad) (s.parser P) (symbol p) := by
  unfold State.parser Lzma.symbol symbol
  rw [masked H.dict.count (by rw [hP]; have := hok.pb; omega)]
  rw [hP]
  refine Matches.bit' (by rw [H.state]; simp [idx, IsMatch]) fun b => ?_
  cases b
  · refine literal_matches H W hP hok fun v h1 h2 => ?_
    refine .done ?_
    show Res.ok (Act.literal v) = Res.ok (Act.literal (v - 256 + 256))
    rw [Nat.sub_add_cancel h1]
  · refine Matches.bit' (by rw [H.state]; rfl) fun b => ?_
    cases b
    · show Matches _ _ (Lzma.length false (s.past.length % 2 ^ P.pb) >>= fun len => Lzma.distance len >>= fun dist => pure (Symbol.copy len dist)) (lengthAndDistance p LenCoder (s.past.length % 2 ^ P.pb) (p.state + 12) p.rep0 p.rep1 p.rep2 p.rep3)
      unfold lengthAndDistance
      refine length_matches (rep := false) rfl fun len hlen => ?_
      rw [if_pos (by omega)]
      refine distance_matches fun d hd => ?_
      have hfar := H.dict.far d
      rw [hP] at hfar
      by_cases hend : d = 0xFFFFFFFF
      · rw [if_pos hend]
        refine .done ?_
        show SymRel P s (.copy len d) _
        simp only [SymRel]
        rw [if_pos (by rw [hend]; rfl)]; trivial
      · rw [if_neg hend]
        by_cases hf : d + 1 ≤ s.past.length ∧ d + 1 ≤ P.dicSize
        · rw [if_neg (by rw [hfar]; exact fun h => h hf)]
          refine .done ?_
          show SymRel P s (.copy len d) _
          simp only [SymRel]
          rw [if_neg (by omega), if_pos hf]
          have : u32 ((d : Int) + 1) = d + 1 := by unfold u32; omega
          rw [this, H.rep0, H.rep1, H.rep2, H.state]
          by_cases h7 : s.state < 7
          · rw [if_pos h7, if_pos (by omega)]
          · rw [if_neg h7, if_neg (by omega)]
        · rw [if_pos (hfar.mpr hf)]
          refine .done ?_
          show SymRel P s (.copy len d) _
          simp only [SymRel]
          rw [if_neg (by omega), if_neg hf]; trivial
    · dsimp only
      rw [if_neg (by decide), if_neg (by decide)]
      by_cases he : s.past = []
      · rw [if_pos (H.dict.empty.mpr he)]
        have hrep : ∀ ps i, All (fun a => SymRel P s a (.ok .bad)) (Lzma.length true ps >>= fun len => pure (.rep i len)) := by
          intro ps i
          refine (All.trivial _).bind fun len _ => ?_
          show SymRel P s (.rep i len) _
          simp only [SymRel]
          rw [if_pos he]; trivial
        refine .early rfl fun b => ?_
        cases b
        · intro b
          cases b
          · show SymRel P s .shortRep _
            simp only [SymRel]
            rw [if_pos he]; trivial
          · exact hrep _ _
        · intro b
          cases b
          · exact hrep _ _
          · intro b
            exact hrep _ _
      · rw [if_neg (mt H.dict.empty.mp he)]
        have hrep : ∀ i len, SymRel P s (.rep i len) = fun r => match i with
            | 0 => r = .ok (.copy (if s.state < 7 then 8 else 11) s.rep0 s.rep1 s.rep2 s.rep3 (len + 2))
            | 1 => r = .ok (.copy (if s.state < 7 then 8 else 11) s.rep1 s.rep0 s.rep2 s.rep3 (len + 2))
            | 2 => r = .ok (.copy (if s.state < 7 then 8 else 11) s.rep2 s.rep0 s.rep1 s.rep3 (len + 2))
            | _ => r = .ok (.copy (if s.state < 7 then 8 else 11) s.rep3 s.rep0 s.rep1 s.rep2 (len + 2)) := by
          intro i len
          funext r
          show (if s.past = [] then _ else _) = _
          rw [if_neg he]
        rw [H.state, H.rep0, H.rep1, H.rep2, H.rep3]
        refine Matches.bit' rfl fun b => ?_
        cases b
        · refine Matches.bit' rfl fun b => ?_
          cases b
          · refine .done ?_
            show SymRel P s .shortRep _
            simp only [SymRel]
            rw [if_neg he]; trivial
          · exact rep_matches fun len _ => by rw [hrep]; rfl
        · refine Matches.bit' rfl fun b => ?_
          cases b
          · exact rep_matches fun len _ => by rw [hrep]; rfl
          · refine Matches.bit' rfl fun b => ?_
            cases b
            · exact rep_matches fun len _ => by rw [hrep]; rfl
            · exact rep_matches fun len _ => by rw [hrep]; rfl

/-! ## The trial -/

/-- The kind of a symbol. -/
def DummyRel : Symbol → Res Dummy → Prop
  | .literal _, r => r = .ok .lit
  | .copy _ _, r => r = .ok .match_
  | .shortRep, r => r = .ok .rep
  | .rep _ _, r => r = .ok .rep

theorem dummySpec_matches {γ : Type} {rel : γ → Res Dummy → Prop} {early : Res Dummy → Prop} {c : Nat → Ctx} {prob : Nat} (hc : ∀ i, prob + i = idx (c i)) :
    ∀ n {f : Nat → Parse Ctx γ} i, (∀ v, Matches rel early (f v) (.done (.ok .match_))) →
      Matches rel early (reverseTree c (n + 1) i >>= f) (dummySpecLoop prob (n + 1) i) := by
  intro n
  induction n with
  | zero =>
    intro f i hf
    refine Matches.bit' (hc i) fun b => ?_
    exact hf (b.toNat + 2 * 0)
  | succ n ih =>
    intro f i hf
    refine Matches.bit' (hc i) fun b => ?_
    show Matches rel early ((reverseTree c (n + 1) (2 * i + b.toNat) >>= fun v => pure (b.toNat + 2 * v)) >>= f) (dummySpecLoop prob (n + 1) (i + i + b.toNat))
    rw [bind_assoc, show i + i + b.toNat = 2 * i + b.toNat by omega]
    exact ih (f := fun v => pure (b.toNat + 2 * v) >>= f) _ fun v => hf _

theorem dummyDirect_matches {γ : Type} {rel : γ → Res Dummy → Prop} {early : Res Dummy → Prop} {f : Nat → Parse Ctx γ} {k : Prog Dummy}
    (hk : ∀ v, Matches rel early (f v) k) : ∀ n d, Matches rel early (plainBits (n + 1) d >>= f) (dummyDirectLoop k (n + 1)) := by
  intro n
  induction n with
  | zero => intro d; exact .plain fun b => hk _
  | succ n ih => intro d; exact .plain fun b => ih _

theorem dummyLength_matches {rep : Bool} {prob ps : Nat} (hp : prob = if rep then 1332 else 818) {f : Nat → Parse Ctx Symbol}
    (hf : rep = true → ∀ len, Matches DummyRel (fun _ => False) (f len) (.done (.ok .rep)))
    (hg : rep = false → ∀ len, ∃ g, f len = Lzma.distance len >>= g ∧ ∀ v, Matches DummyRel (fun _ => False) (g v) (.done (.ok .match_))) :
    Matches DummyRel (fun _ => False) (Lzma.length rep ps >>= f) (dummyLength prob ps (if rep then 12 else 0)) := by
  unfold dummyLength
  refine length_matches hp fun len hlen => ?_
  cases rep
  · obtain ⟨g, e, hg⟩ := hg rfl len
    rw [e, if_pos (by decide)]
    unfold Lzma.distance
    rw [bind_assoc]
    refine tree_matches (c := .posSlot (min len 3)) (fun i => ?_) (fun v h1 h2 => ?_) 5 64 1 (by decide) (by decide) (by decide)
    · show 432 + _ * 64 + i = 432 + min len 3 * 64 + i
      split
      · rw [show min len 3 = len by omega]
      · rw [show min len 3 = 4 - 1 by omega]
    · have h64 : v - 64 < 64 := by omega
      show Matches DummyRel _ ((if v - 64 < 4 then _ else _) >>= g) (if v - 64 ≥ 4 then _ else _)
      generalize v - 64 = s at h64
      by_cases hs : s < 4
      · rw [if_pos hs, if_neg (show ¬ s ≥ 4 by omega)]
        exact hg s
      · rw [if_neg hs, if_pos (show s ≥ 4 by omega)]
        dsimp only
        rw [two_or]
        by_cases hs2 : s < 14
        · rw [if_pos hs2, if_pos hs2, bind_assoc, Nat.shiftLeft_eq]
          obtain ⟨n, hn⟩ : ∃ n, s / 2 - 1 = n + 1 := ⟨s / 2 - 2, by omega⟩
          have h := dummySpec_matches (rel := DummyRel) (early := fun _ => False) (c := .posSpecial s) (prob := SpecPos + (2 + s % 2) * 2 ^ (s / 2 - 1) - s - 1)
            (fun i => rfl) n (f := fun v => pure ((2 + s % 2) * 2 ^ (s / 2 - 1) + v) >>= g) 1 (fun v => hg _)
          rw [← hn] at h
          exact h
        · rw [if_neg hs2, if_neg hs2, bind_assoc]
          obtain ⟨n, hn⟩ : ∃ n, s / 2 - 1 - 4 = n + 1 := ⟨s / 2 - 6, by omega⟩
          rw [hn]
          refine dummyDirect_matches (fun v => ?_) n _
          rw [bind_assoc]
          exact dummySpec_matches (c := .align) (prob := Align) (fun i => rfl) 3 1 fun u => hg _
  · rw [if_neg (by decide)]
    exact hf rfl len

theorem dummy_matches {P : Params} {p : Dec} {s : State} (H : Agrees p s) (W : Wf P s) (hP : p.prop = P) (hok : POk P) :
    Matches DummyRel (fun _ => False) (s.parser P) (dummySymbol p) := by
  unfold State.parser Lzma.symbol dummySymbol
  rw [masked H.dict.count (by rw [hP]; have := hok.pb; omega)]
  rw [hP]
  have hrep : ∀ ps i, Matches DummyRel (fun _ => False) (Lzma.length true ps >>= fun len => pure (.rep i len)) (dummyLength RepLenCoder ps 12) := by
    intro ps i
    exact dummyLength_matches (rep := true) rfl (fun _ len => .done rfl) (fun h => by cases h)
  refine Matches.bit' (by rw [H.state]; simp [idx, IsMatch]) fun b => ?_
  cases b
  · exact literal_matches H W hP hok fun v h1 h2 => .done rfl
  · refine Matches.bit' (by rw [H.state]; rfl) fun b => ?_
    cases b
    · exact dummyLength_matches (rep := false) rfl (fun h => by cases h) fun _ len => ⟨_, rfl, fun v => .done rfl⟩
    · rw [if_neg (by decide), if_neg (by decide)]
      rw [H.state]
      refine Matches.bit' rfl fun b => ?_
      cases b
      · refine Matches.bit' rfl fun b => ?_
        cases b
        · exact .done rfl
        · exact hrep _ _
      · refine Matches.bit' rfl fun b => ?_
        cases b
        · exact hrep _ _
        · refine Matches.bit' rfl fun b => ?_
          exact hrep _ _

end LzmaDec
end Strigi
