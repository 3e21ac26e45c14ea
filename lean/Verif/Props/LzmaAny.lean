import Verif.Proofs.LzmaAny

/-!
# Properties C118, C119: `LZMAInputStream` on arbitrary data
-/

namespace Strigi.Props

open LzmaStream LzmaDec

section
variable {σ : Type} {S : StreamOps σ UInt8} {F : Failure} {soft : Prop} {c : List UInt8} {input : σ} {P : Lzma.Params}

theorem any_new {d hdr all content : List UInt8} {n : Int} (hS : IsStream S c F soft input)
    (hc : c.drop (S.position input).toNat = hdr ++ d) (hh : LzmaHeader hdr n) (hb : Lzma.props (hdr.take 5) P)
    (G : Delivers P d all content n) (z0 : Dec) (N : Nat) (hN : d.length + all.length + 1 < N) :
    ∃ s, LzmaStream.new S decoder z0 input = .ok s ∧ ((F.onRead ∧ s.status = .error) ∨
      (s.pos = 0 ∧ IsStream (LzmaStream.ops S decoder N) content Failure.always True s)) := by
  obtain ⟨hP, hd, hz⟩ := props_ok hb
  have C := Contract.of_behaves S c F soft
  have hrg := C.range hS
  obtain ⟨hl, hm, hs⟩ := hh
  have hlen := congrArg List.length hc
  rw [List.length_drop, List.length_append, hl] at hlen
  obtain ⟨i, k, b, er, hro, hk⟩ := C.read hS (min := 13) (max := 13) (by omega) (Or.inr (by omega))
  unfold LzmaStream.new
  rw [er]
  simp only [Res.bind_ok]
  cases hro with
  | ended _ _ hend _ _ => omega
  | failed a hcode _ =>
    rw [if_neg (by omega)]
    simp only [Res.bind_ok, Bool.false_eq_true, if_false]
    exact ⟨_, rfl, Or.inl ⟨a, rfl⟩⟩
  | data pos items inside adv limit enough st =>
    have hn : k = 13 := by
      have := limit (by omega)
      rcases enough with x | x <;> omega
    subst hn
    have hbh : b = hdr := by
      rw [items]
      unfold slice
      rw [hc, show (13 : Int).toNat = hdr.length from by rw [hl]; rfl, List.take_left]
    subst hbh
    obtain ⟨bb, eb, hbb⟩ := C59_lzma b
    rw [hl] at eb
    have hbb := hbb.mpr hm
    subst hbb
    rw [show ((13 : Nat) : Int) = 13 from rfl] at eb
    rw [if_pos rfl, eb]
    simp only [Res.bind_ok, if_true]
    rw [hz, lzma_size hl]
    simp only [Res.bind_ok]
    rw [← hs]
    have hdr : c.drop (S.position i).toNat = d := by
      rw [adv, show (S.position input + 13).toNat = (S.position input).toNat + b.length by rw [hl]; omega, ← List.drop_drop, hc,
        List.drop_left]
    obtain ⟨s, e, hp, hI⟩ := any_opened hb hz G C (hk st) hdr.symm hN
    exact ⟨s, e, Or.inr ⟨hp, hI⟩⟩

theorem delivers_unmarked {d all t : List UInt8} (h : Lzma.Whole P d all) (hno : ∀ x y, x <+: d → ¬ Lzma.MarkedStream P x y) :
    Delivers P d all (all ++ t) (-1) where
  max := h.2
  pre _ hp _ := hp.trans (List.prefix_append _ _)
  mark x y hx hm _ := absurd hm (hno x y hx)
  full p _ h := by omega
  size := Or.inl rfl

/-- **C118**: data of any kind after a header without size.  `y` is everything that the data stands for.  If the data does not contain an
end mark that follows it, the stream delivers only bytes of `y`, never reports `Eof`, and fails (the statement holds for every
`t`). The input stream may fail at any time. -/
theorem C118_unmarked {d y hdr : List UInt8} (hS : IsStream S c F soft input)
    (hc : c.drop (S.position input).toNat = hdr ++ d) (hh : LzmaHeader hdr (-1)) (hb : Lzma.props (hdr.take 5) P)
    (hy : Lzma.Whole P d y) (hno : ∀ x y, x <+: d → ¬ Lzma.MarkedStream P x y) (z0 : Dec) (N : Nat) (hN : d.length + y.length + 1 < N) :
    ∃ s, LzmaStream.new S decoder z0 input = .ok s ∧ ((F.onRead ∧ s.status = .error) ∨
      (s.pos = 0 ∧ ∀ t, IsStream (LzmaStream.ops S decoder N) (y ++ t) Failure.always True s)) := by
  obtain ⟨s, e, h⟩ := any_new (content := y ++ []) hS hc hh hb (delivers_unmarked hy hno) z0 N hN
  refine ⟨s, e, ?_⟩
  rcases h with h | h
  · exact Or.inl h
  · refine Or.inr ⟨h.1, fun t => ?_⟩
    obtain ⟨s', e', h'⟩ := any_new (content := y ++ t) hS hc hh hb (delivers_unmarked hy hno) z0 N hN
    rw [e] at e'
    cases e'
    rcases h' with h' | h'
    · exfalso
      have := h.2
      have hst := (Contract.of_behaves (LzmaStream.ops S decoder N) (y ++ []) Failure.always True).status this
      rw [show (LzmaStream.ops S decoder N).status s = s.status from rfl, h'.2] at hst
      simp at hst
    · exact h'.2

/-- **C118**, the existence: every data stands for something. -/
theorem C118_whole {b : List UInt8} (hb : Lzma.props b P) (d : List UInt8) : ∃ y, Lzma.Whole P d y :=
  all_exists (props_ok hb).1 (props_ok hb).2.1 d

/-- **C119**: data of any kind after a header with the size `n`.  `y` is everything that the data stands for.
If these are at least `n` bytes, the stream delivers the first `n` of them, or fails.  If there are fewer, but an end mark follows them,
the stream delivers `y` and reports `Eof` after it, or fails.  Otherwise it delivers only bytes of `y`, never reports `Eof`, and fails (the statement holds for every
`t`). -/
theorem C119_sized {d y hdr : List UInt8} {n : Nat} (hS : IsStream S c F soft input)
    (hc : c.drop (S.position input).toNat = hdr ++ d) (hh : LzmaHeader hdr n) (hb : Lzma.props (hdr.take 5) P)
    (hy : Lzma.Whole P d y) (z0 : Dec) (N : Nat) (hN : d.length + y.length + 1 < N) (content : List UInt8)
    (hcont : (n ≤ y.length ∧ content = y.take n) ∨ (y.length < n ∧ (∃ x, x <+: d ∧ Lzma.MarkedStream P x y) ∧ content = y) ∨
      (y.length < n ∧ (∀ x, x <+: d → ¬ Lzma.MarkedStream P x y) ∧ ∃ t, content = y ++ t)) :
    ∃ s, LzmaStream.new S decoder z0 input = .ok s ∧ ((F.onRead ∧ s.status = .error) ∨
      (s.pos = 0 ∧ IsStream (LzmaStream.ops S decoder N) content Failure.always True s)) := by
  obtain ⟨hP, hd, _⟩ := props_ok hb
  have hpos : 0 < n := by
    have := sized_nonempty (y := List.replicate n 0) (hdr := hdr) (by simpa using hh)
    rcases n with _ | n
    · simp at this
    · omega
  have hmk : ∀ x y', x <+: d → Lzma.MarkedStream P x y' → y' = y := by
    rintro x y' ⟨u, rfl⟩ hm
    exact all_unique (marked_all hP hd hm u) hy
  refine any_new hS hc hh hb (all := y) ⟨hy.2, ?_, ?_, ?_, Or.inr (by omega)⟩ z0 N hN
  · intro p hp hle
    rcases hcont with ⟨h1, rfl⟩ | ⟨_, _, rfl⟩ | ⟨_, _, t, rfl⟩
    · rw [List.prefix_take_iff]
      exact ⟨hp, by omega⟩
    · exact hp
    · exact hp.trans (List.prefix_append _ _)
  · intro x y' hx hm hle
    have := hmk x y' hx hm
    subst this
    rcases hcont with ⟨h1, rfl⟩ | ⟨_, _, rfl⟩ | ⟨_, h, _⟩
    · rw [List.take_of_length_le (by omega)]
    · rfl
    · exact absurd hm (h x hx)
  · intro p hp hlen
    rcases hcont with ⟨h1, rfl⟩ | ⟨h1, _⟩ | ⟨h1, _⟩
    · obtain ⟨u, rfl⟩ := hp
      rw [show n = p.length by omega, List.take_left]
    · have := hp.length_le
      omega
    · have := hp.length_le
      omega

end

/-! ## Examples -/

/-- Read as much as possible of broken data. -/
def decodeMost (P : Lzma.Params) : Nat → Lzma.State → List UInt8 → Option (List UInt8)
  | 0, _, _ => none
  | n + 1, s, x => match s.step P x with
    | .more => some s.past.reverse
    | .corrupt => some s.past.reverse
    | .next s' x' => decodeMost P n s' x'
    | .ended _ _ => none

theorem decodeMost_ok {P : Lzma.Params} (hP : POk P) {n : Nat} {s : Lzma.State} {x y : List UInt8} (W : Wf P s) (h : decodeMost P n s x = some y) :
    ∃ y', y = s.past.reverse ++ y' ∧ Lzma.Begins P s x y' ∧ (∀ y'', Lzma.Begins P s x y'' → y'' <+: y') ∧ ∀ u v w, x = u ++ v → ¬ Lzma.Marked P s u w := by
  induction n generalizing s x with
  | zero => cases h
  | succ n ih =>
    have stop : (∀ s' x', s.step P x ≠ .next s' x') → (∀ c w, s.step P x ≠ .ended c w) → y = s.past.reverse →
        ∃ y', y = s.past.reverse ++ y' ∧ Lzma.Begins P s x y' ∧ (∀ y'', Lzma.Begins P s x y'' → y'' <+: y') ∧ ∀ u v w, x = u ++ v → ¬ Lzma.Marked P s u w := by
      intro h1 h2 hy
      refine ⟨[], by rw [hy, List.append_nil], .stop, fun y'' hb => ?_, ?_⟩
      · cases hb with
        | stop => exact List.nil_prefix
        | next h _ _ => exact absurd h (h1 _ _)
      · rintro u v w rfl hm
        cases hm with
        | ended h =>
          obtain ⟨u', hu, hs⟩ := step_ended h
          rw [List.append_nil] at hu
          subst hu
          exact h2 _ _ (hs v)
        | next h _ _ => exact h1 _ _ (step_next_append h v)
    unfold decodeMost at h
    split at h
    · rename_i hs
      cases h
      exact stop (by rw [hs]; intro _ _ h; cases h) (by rw [hs]; intro _ _ h; cases h) rfl
    · rename_i hs
      cases h
      exact stop (by rw [hs]; intro _ _ h; cases h) (by rw [hs]; intro _ _ h; cases h) rfl
    · rename_i s' x' hs
      obtain ⟨W', new, e, _⟩ := step_wf W hP hs
      obtain ⟨y', rfl, h1, h2, h3⟩ := ih W' h
      refine ⟨new.reverse ++ y', by rw [e]; simp, .next hs (by rw [e, List.reverse_reverse]) h1, fun y'' hb => ?_, ?_⟩
      · cases hb with
        | stop => exact List.nil_prefix
        | @next _ s3 _ x3 n3 y3 h4 h5 h6 =>
          rw [hs] at h4
          cases h4
          rw [e] at h5
          have := List.append_cancel_right h5
          rw [this, List.reverse_reverse]
          exact (List.prefix_append_right_inj _).mpr (h2 y3 h6)
      · rintro u v w rfl hm
        cases hm with
        | ended h =>
          obtain ⟨u', hu, hs2⟩ := step_ended h
          rw [List.append_nil] at hu
          subst hu
          rw [hs2 v] at hs
          cases hs
        | next h4 h5 h6 =>
          rw [step_next_append h4 v] at hs
          cases hs
          exact h3 _ v _ rfl h6
    · cases h

/-- `abcabcabc`, compressed; then two bytes of the end mark are wrong. -/
def exBroken : List UInt8 := [0, 48, 152, 136, 166, 29, 254, 129, 160, 0, 0, 97, 100, 0, 0, 0, 0, 0, 0, 0]

theorem exBroken_whole : Lzma.Whole exParams exBroken [97, 98, 99, 97, 98, 99, 97, 98, 99] ∧
    ∀ x y, x <+: exBroken → ¬ Lzma.MarkedStream exParams x y := by
  obtain ⟨y', h1, h2, h3, h4⟩ := decodeMost_ok (n := 20) (s := Lzma.State.start 815302822) (x := exBroken.drop 5)
    (y := [97, 98, 99, 97, 98, 99, 97, 98, 99]) exParams_ok.1 (start_wf (by decide) (by decide)) (by decide +kernel)
  have h1 : [97, 98, 99, 97, 98, 99, 97, 98, 99] = y' := h1
  subst h1
  have hh : Lzma.header [0, 48, 152, 136, 166] 815302822 := ⟨48, 152, 136, 166, rfl, rfl⟩
  refine ⟨⟨Or.inr ⟨[0, 48, 152, 136, 166], _, _, rfl, hh, h2⟩, ?_⟩, ?_⟩
  · rintro y' (rfl | ⟨hdr', code', w', e, hh', hb⟩)
    · exact List.nil_prefix
    · obtain ⟨rfl, rfl, rfl⟩ := header_det hh hh' (u := exBroken.drop 5) e
      exact h3 y' hb
  · rintro x y ⟨t, ht⟩ ⟨hdr', code', w', rfl, hh', hb⟩
    obtain ⟨_, e, rfl⟩ := header_det hh hh' (u := exBroken.drop 5) (v := w' ++ t) (by rw [← List.append_assoc]; exact ht.symm)
    exact h4 w' t _ e hb

/-- Non-vacuity of C118 and C119: broken data; data that is shorter than the header says, with and without end mark. -/
example (z0 : Dec) : ∃ s, LzmaStream.new StringStream.ops decoder z0 (StringStream.new (exHeader ++ exBroken)) = .ok s ∧ ((False ∧ s.status = .error) ∨ (s.pos = 0 ∧
    ∀ t, IsStream (LzmaStream.ops StringStream.ops decoder 40) ([97, 98, 99, 97, 98, 99, 97, 98, 99] ++ t) Failure.always True s)) :=
  C118_unmarked (C01_isStream _) rfl exHeader_ok exProps exBroken_whole.1 exBroken_whole.2 z0 40 (by decide)

example (z0 : Dec) : ∃ s, LzmaStream.new StringStream.ops decoder z0 (StringStream.new (sizedHeader ++ (exMarked ++ [7]))) = .ok s ∧ ((False ∧ s.status = .error) ∨ (s.pos = 0 ∧
    IsStream (LzmaStream.ops StringStream.ops decoder 40) [97, 98, 99, 97, 98, 99, 97, 98, 99] Failure.always True s)) :=
  C119_sized (C01_isStream _) rfl sizedHeader_ok exProps' (marked_all exParams_ok.1 exParams_ok.2 exMarked_stream [7]) z0 40 (by decide) _
    (Or.inr (Or.inl ⟨by decide, ⟨_, List.prefix_append _ _, exMarked_stream⟩, rfl⟩))

example (z0 : Dec) (t : List UInt8) : ∃ s, LzmaStream.new StringStream.ops decoder z0 (StringStream.new (sizedHeader ++ exBroken)) = .ok s ∧ ((False ∧ s.status = .error) ∨ (s.pos = 0 ∧
    IsStream (LzmaStream.ops StringStream.ops decoder 40) ([97, 98, 99, 97, 98, 99, 97, 98, 99] ++ t) Failure.always True s)) :=
  C119_sized (C01_isStream _) rfl sizedHeader_ok exProps' exBroken_whole.1 z0 40 (by decide) _
    (Or.inr (Or.inr ⟨by decide, fun x => exBroken_whole.2 x _, t, rfl⟩))

end Strigi.Props
