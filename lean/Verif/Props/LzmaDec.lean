import Verif.Proofs.LzmaFinal
import Verif.Props.Lzma

/-!
# Properties C114-C117: the LZMA decoder (lib/lzma/LzmaDec.c), and `LZMAInputStream` with it
-/

namespace Strigi.Props

open LzmaStream

section
variable {σ ζ : Type} {P : StreamOps σ UInt8} {D : LzmaDecoder ζ} {R : ζ → List UInt8 → List UInt8 → Prop}
  {bad soft : Prop} {c : List UInt8} {input : σ}

/-- **C106**, damaged files of known size: if the input ends before the compressed data does, the stream never delivers anything but the
first bytes of `y`, and does not report `Eof` before all of them have been read; it fails instead. -/
theorem C106_sized_truncated {x x1 y hdr : List UInt8} (hP : IsStream P c Failure.never soft input)
    (hc : c.drop (P.position input).toNat = hdr ++ x1) (hh : LzmaHeader hdr y.length) (hx : x1 <+: x) (hlt : x1.length < x.length) {z : ζ} (z0 : ζ)
    (hz : D.init (hdr.take 5) = .ok z) (hD : LzmaSized D bad R) (hR : R z x y) (N : Nat) (hN : x.length + y.length + 1 < N) :
    ∃ s, LzmaStream.new P D z0 input = .ok s ∧ s.pos = 0 ∧ IsStream (LzmaStream.ops P D N) y Failure.always True s := by
  obtain ⟨i, hS, hp, hd, e⟩ := lzma_new hP hc hh z0 hz
  have C := Contract.of_behaves P c Failure.never soft
  obtain ⟨C', S', s, e', hp', hH⟩ := opened (sized := true) (prompt := False) (trunc := True) (t := [])
    (LzmaSized.decodes hD) C (fun h => h.elim) (fun _ => rfl) (fun _ {_ _ _} h => hD.rest h) hS (Or.inr ⟨trivial, by rw [hd]; exact hx, by rw [hd]; exact hlt⟩) hR
    (Or.inr (by rw [hd]; omega)) hN (size := y.length) rfl
  have hF : (⟨Failure.never.onRead ∨ bad ∨ True, Failure.never.onRead ∨ bad ∨ True⟩ : Failure) = Failure.always := by
    simp [Failure.always]
  rw [hF, List.append_nil] at C'
  rw [List.append_nil] at S' hH
  exact ⟨s, by rw [e]; exact e', hp', C'.isStream (fun _ => S') (by rw [show (LzmaStream.ops P D N).position s = 0 from hp']; exact hH)⟩

end

open LzmaDec

/-! ## C117: the parameters -/

/-- **C117**: the decoder accepts exactly the five bytes that describe parameters, and uses these. -/
theorem C117_props (b : List UInt8) (P : Lzma.Params) (h : b.length = 5) : propsDecode b = some P ↔ Lzma.props b P := by
  rcases b with _ | ⟨d, _ | ⟨b0, _ | ⟨b1, _ | ⟨b2, _ | ⟨b3, _ | ⟨_, _⟩⟩⟩⟩⟩⟩ <;> simp only [List.length_cons, List.length_nil] at h <;> try omega
  have hd := d.toNat_lt
  unfold propsDecode Lzma.props
  dsimp only
  obtain ⟨lc, lp, pb, dic⟩ := P
  constructor
  · intro e
    split at e
    · cases e
    · simp only [Option.some.injEq, Lzma.Params.mk.injEq] at e
      obtain ⟨e1, e2, e3, e4⟩ := e
      refine ⟨d, b0, b1, b2, b3, rfl, ?_, ?_, ?_, ?_, ?_⟩
      · dsimp only; omega
      · dsimp only; omega
      · dsimp only; omega
      · dsimp only; omega
      · dsimp only
        rw [← e4]
        split <;> omega
  · rintro ⟨d', b0', b1', b2', b3', e, h1, h2, h3, h4, h5⟩
    cases e
    dsimp only at h1 h2 h3 h4 h5
    rw [if_neg (by omega)]
    simp only [Option.some.injEq, Lzma.Params.mk.injEq]
    refine ⟨by omega, by omega, by omega, ?_⟩
    rw [h5]
    split <;> omega

theorem props_ok {b : List UInt8} {P : Lzma.Params} (h : Lzma.props b P) : POk P ∧ DicOk P ∧ decoder.init b = .ok (LzmaDec.init P) := by
  have hl : b.length = 5 := by
    obtain ⟨_, _, _, _, _, rfl, _⟩ := h
    rfl
  have e := (C117_props b P hl).mpr h
  obtain ⟨d, b0, b1, b2, b3, rfl, h1, h2, h3, h4, h5⟩ := h
  have := b0.toNat_lt
  have := b1.toNat_lt
  have := b2.toNat_lt
  have := b3.toNat_lt
  refine ⟨⟨by omega, by omega, by omega⟩, ⟨by omega, by omega⟩, ?_⟩
  unfold decoder
  dsimp only
  rw [e]

/-- The headers that `LZMAInputStream` supports describe parameters. -/
theorem header_props {hdr : List UInt8} {size : Int} (h : LzmaHeader hdr size) : ∃ P, Lzma.props (hdr.take 5) P := by
  obtain ⟨_, ⟨dic, sz, rest, rfl, h1, _, _⟩, _⟩ := h
  rcases dic with _ | ⟨b1, _ | ⟨b2, _ | ⟨b3, _ | ⟨_, _⟩⟩⟩⟩ <;> simp only [List.length_cons, List.length_nil] at h1 <;> try omega
  exact ⟨⟨3, 0, 2, _⟩, 0x5d, 0, b1, b2, b3, rfl, (show (3:Nat) < 9 by decide), (show (0:Nat) < 5 by decide), (show (2:Nat) < 5 by decide), rfl, rfl⟩

/-! ## C116: the decoder on arbitrary data -/

theorem begins_of_reads {P : Lzma.Params} (hP : POk P) {s s' : Lzma.State} {u : List UInt8} (h : Reads P s u s') (W : Wf P s) :
    ∃ new, s'.past = new.reverse ++ s.past ∧ (∀ t, Lzma.Begins P s (u ++ t) new) ∧
      (∀ t y, s'.step P t = .more → Lzma.Begins P s (u ++ t) y → y <+: new) ∧
      (∀ t, s'.step P t = .ended 0 [] → Lzma.Marked P s (u ++ t) new) := by
  induction h with
  | nil =>
    refine ⟨[], rfl, fun t => .stop, fun t y hm hb => ?_, fun t ht => .ended ht⟩
    cases hb with
    | stop => exact List.nil_prefix
    | next h _ _ =>
      rw [List.nil_append, hm] at h
      cases h
  | @cons s s1 s2 u1 v e hr ih =>
    obtain ⟨W1, n1, e1, _⟩ := step_wf W hP (e [])
    obtain ⟨new, e2, h1, h2, h3⟩ := ih W1
    refine ⟨n1.reverse ++ new, by rw [e2, e1]; simp, fun t => ?_, fun t y hm hb => ?_, fun t ht => ?_⟩
    · refine .next (s' := s1) (x' := v ++ t) ?_ (by rw [e1, List.reverse_reverse]) (h1 t)
      rw [List.append_assoc, e]
    · cases hb with
      | stop => exact List.nil_prefix
      | @next _ s3 _ x' n3 y' h4 h5 h6 =>
        rw [List.append_assoc, e] at h4
        cases h4
        have : n3 = n1.reverse := by
          rw [e1] at h5
          have := List.append_cancel_right h5
          rw [this, List.reverse_reverse]
        subst this
        exact (List.prefix_append_right_inj _).mpr (h2 t y' hm h6)
    · refine .next (s' := s1) (x' := v ++ t) ?_ (by rw [e1, List.reverse_reverse]) (h3 t ht)
      rw [List.append_assoc, e]

/-- What a phase means for the bytes consumed from the beginning on. -/
theorem phase_means {P : Lzma.Params} (hP : POk P) (hd : DicOk P) {n : Nat} {s : Lzma.State} {X t : List UInt8} (A : Adv P n (.begin []) X (.live s t)) :
    (∀ r, Lzma.StartsWith P (X ++ r) s.past.reverse) ∧ (s.step P t = .more → ∀ y, Lzma.StartsWith P X y → y <+: s.past.reverse) ∧
      (s.step P t = .ended 0 [] → Lzma.MarkedStream P X s.past.reverse) := by
  cases A with
  | @start _ _ hdr u _ code _ e hh hw =>
    have e : X = hdr ++ (u ++ t) := e
    obtain ⟨hc, h5⟩ := header_code hh
    obtain ⟨new, e1, h1, h2, h3⟩ := begins_of_reads hP hw.reads (start_wf hd.low hc)
    have e1 : s.past = new.reverse ++ [] := e1
    rw [e1, List.append_nil, List.reverse_reverse, e]
    refine ⟨fun r => Or.inr ⟨hdr, code, u ++ (t ++ r), by simp, hh, h1 _⟩, fun hm y hy => ?_, fun ht => ⟨hdr, code, u ++ t, rfl, hh, h3 t ht⟩⟩
    rcases hy with rfl | ⟨hdr', code', w, g1, g2, g3⟩
    · exact List.nil_prefix
    · obtain ⟨rfl, rfl⟩ := List.append_inj g1 (by rw [h5, (header_code g2).2])
      have : code' = code := by
        obtain ⟨p, q, r, s, z1, z2⟩ := hh
        obtain ⟨p', q', r', s', z3, z4⟩ := g2
        rw [z1] at z3
        cases z3
        rw [z2, z4]
      subst this
      exact h2 t y hm g3

theorem short_means {P : Lzma.Params} {X y : List UInt8} (h : X.length < 5) (hy : Lzma.StartsWith P X y) : y = [] := by
  rcases hy with rfl | ⟨hdr, code, w, rfl, hh, _⟩
  · rfl
  · rw [List.length_append, (header_code hh).2] at h
    omega

/-- The invariant over all calls. -/
theorem calls_inv {P : Lzma.Params} (hP : POk P) (hd : DicOk P) {z : Dec} {X Y : List UInt8} (h : LzmaCalls decoder (LzmaDec.init P) z X Y) :
    ∃ f n, Holds P z f Y.reverse ∧ Adv P n (.begin []) X f := by
  induction h with
  | start => exact ⟨.begin [], 0, ⟨rfl, by decide, rfl⟩, .wait (b := []) (by decide)⟩
  | @call z z' X Y inp out space finish k _ hsp e ih =>
    obtain ⟨f, n, H, A⟩ := ih
    have B := decodeToBuf_ok hP hd (finish := finish) (src := inp) (outSize := space.toNat) H (by omega)
    rw [run_eq] at e
    generalize decodeToBuf z space.toNat inp finish = res at B e
    cases B with
    | @pause z' k f' new st a A' c d e1 g =>
      rw [Res.bind_ok] at e
      simp only [Res.ok.injEq, Prod.mk.injEq, Nat.zero_add, List.nil_append] at e
      obtain ⟨rfl, rfl, rfl, _⟩ := e
      refine ⟨f', max n (Y.reverse.length + space.toNat), by rw [List.reverse_append, List.reverse_reverse]; exact c, (A.mono (by omega)).trans (A'.mono (by omega))⟩
    | mark => rw [Res.bind_ok] at e; simp [status] at e
    | bad => rw [Res.bind_ok] at e; simp [status] at e
    | header => rw [Res.bind_ok] at e; simp [status] at e

/-- **C116**: whatever bytes the decoder gets, in whatever pieces and with whatever space: every call returns and stays within its
buffers (otherwise the result would be a fault); it reports at most as many bytes as it got and as there is space for; all the bytes
written so far are bytes that the data so far stands for. If it asks for more, the space is full or the input is used up, and in the latter case
it has written everything that the data so far stands for, unless the space is full. If it reports the end mark,
the data so far is a complete stream that stands for the bytes written; if it reports an error in the mode `LZMA_FINISH_ANY`, the data so far is not the beginning
of any stream with end mark. -/
theorem C116_decoder {b : List UInt8} {P : Lzma.Params} (hb : Lzma.props b P) : ∃ z0, decoder.init b = .ok z0 ∧
    ∀ {z : Dec} {X Y : List UInt8}, LzmaCalls decoder z0 z X Y → ∀ (inp : List UInt8) (space : Int) (finish : Bool), 0 < space →
      ∃ z' k out code, decoder.run z inp space finish = .ok (z', k, out, code) ∧ k ≤ inp.length ∧ (out.length : Int) ≤ space ∧
        (∃ y, Lzma.StartsWith P (X ++ inp) y ∧ Y ++ out <+: y) ∧
        (code = .more → (∃ y, Lzma.StartsWith P (X ++ inp.take k) y ∧ Y ++ out <+: y) ∧
          ((out.length : Int) = space ∨ (k = inp.length ∧ ∀ y, Lzma.StartsWith P (X ++ inp) y → y <+: Y ++ out))) ∧
        (code = .mark → Lzma.MarkedStream P (X ++ inp.take k) (Y ++ out)) ∧
        (code = .failed → finish = false → ∀ x y, Lzma.MarkedStream P x y → ¬ (X ++ inp <+: x) ∧ ¬ (x <+: X ++ inp)) := by
  obtain ⟨hP, hd, hz⟩ := props_ok hb
  refine ⟨_, hz, ?_⟩
  intro z X Y hcalls inp space finish hsp
  obtain ⟨f, n, H, A⟩ := calls_inv hP hd hcalls
  have B := decodeToBuf_ok hP hd (finish := finish) (src := inp) (outSize := space.toNat) H (by omega)
  rw [run_eq]
  generalize decodeToBuf z space.toNat inp finish = res at B
  have all : ∀ {f' : Phase} {k : Nat}, Adv P (Y.reverse.length + space.toNat) f (inp.take k) f' → Adv P (max n (Y.reverse.length + space.toNat)) (.begin []) (X ++ inp.take k) f' :=
    fun A' => (A.mono (by omega)).trans (A'.mono (by omega))
  have rejoin : ∀ k, X ++ inp.take k ++ inp.drop k = X ++ inp := fun k => by rw [List.append_assoc, List.take_append_drop]
  cases B with
  | @pause z' k f' new st a A' c d e1 g =>
    rw [Res.bind_ok]
    have hst : status (some st) = .more := by
      cases st <;> first | rfl | exact absurd rfl e1
    dsimp only
    rw [hst, Nat.zero_add, List.nil_append]
    have hout : Y ++ new.reverse = (new ++ Y.reverse).reverse := by simp
    have A2 := all A'
    refine ⟨z', k, _, _, rfl, a, by rw [List.length_reverse]; omega, ?_, fun _ => ⟨?_, ?_⟩, (fun h => by cases h), (fun h => by cases h)⟩
    · cases f' with
      | begin t => exact ⟨[], Or.inl rfl, by rw [hout, c.2.2]; exact List.nil_prefix⟩
      | live s t =>
        have M := (phase_means hP hd A2).1 (inp.drop k)
        rw [rejoin] at M
        refine ⟨_, M, ?_⟩
        obtain ⟨m, em, _⟩ := repeatPast_suffix s.rep0 z'.remainLen (new ++ Y.reverse)
        rw [hout, c.1.paused.core.past, em]
        exact ⟨m.reverse, (List.reverse_append ..).symm⟩
    · cases f' with
      | begin t => exact ⟨[], Or.inl rfl, by rw [hout, c.2.2]; exact List.nil_prefix⟩
      | live s t =>
        have M := (phase_means hP hd A2).1 []
        rw [List.append_nil] at M
        refine ⟨_, M, ?_⟩
        obtain ⟨m, em, _⟩ := repeatPast_suffix s.rep0 z'.remainLen (new ++ Y.reverse)
        rw [hout, c.1.paused.core.past, em]
        exact ⟨m.reverse, (List.reverse_append ..).symm⟩
    · rcases g with g | ⟨g1, g2, g3⟩
      · left
        rw [List.length_reverse]
        omega
      · refine Or.inr ⟨g1, fun y hy => ?_⟩
        rw [hout, g3]
        rw [g1, List.take_length] at A2
        cases f' with
        | begin t =>
          have : X ++ inp = t := by
            cases A2 with
            | wait _ => rfl
          rw [this] at hy
          rw [short_means c.2.1 hy]
          exact List.nil_prefix
        | live s t => exact (phase_means hP hd A2).2.1 g2 y hy
  | @mark z' k s' v new a A' c d e1 =>
    rw [Res.bind_ok]
    dsimp only
    rw [Nat.zero_add, List.nil_append]
    have A2 := all A'
    have hout : Y ++ new.reverse = s'.past.reverse := by rw [d]; simp
    obtain ⟨M1, _, M3⟩ := phase_means hP hd A2
    refine ⟨z', k, _, _, rfl, a, by rw [List.length_reverse]; omega, ?_, (fun h => by cases h), fun _ => ?_, (fun h => by cases h)⟩
    · have := M1 (inp.drop k)
      rw [rejoin] at this
      exact ⟨_, this, by rw [hout]; exact List.prefix_rfl⟩
    · rw [hout]
      refine M3 ?_
      have := c []
      rw [List.append_nil] at this
      exact this
  | @bad z' k s' v m new a A' c d e1 =>
    rw [Res.bind_ok]
    dsimp only
    rw [Nat.zero_add, List.nil_append]
    have A2 := all (k := inp.length) (by rw [List.take_length]; exact A')
    rw [List.take_length] at A2
    refine ⟨z', k, _, _, rfl, a, by rw [List.length_reverse]; omega, ?_, (fun h => by cases h), (fun h => by cases h), fun _ hfin x y hx => ?_⟩
    · have M := (phase_means hP hd A2).1 []
      rw [List.append_nil] at M
      refine ⟨_, M, ?_⟩
      rw [d]
      simp only [List.reverse_append, List.reverse_reverse]
      exact List.prefix_append _ _
    · have key : ¬ Fit (X ++ inp) x := by
        intro hfit
        obtain ⟨hdr, code, w, rfl, hh, hm⟩ := hx
        obtain ⟨U, x1, new1, y1, e2, e3, rfl, e5, T1, hf1⟩ := Phase.advance (e := false) (y := y) hP hd A2 trivial ⟨hdr, code, w, rfl, hh, tail_of_marked hm⟩ hfit (fun h => by cases h)
        obtain ⟨p, q, hpq⟩ := hf1.common
        have hnext : ∀ {s1 r}, s'.step P x1 = .next s1 r → s'.step P v ≠ .corrupt ∧ ∀ c w, s'.step P v ≠ .ended c w := by
          intro s1 r hs
          have h2 := step_next_append hs q
          rw [← hpq] at h2
          refine ⟨fun hv => ?_, fun c w hv => ?_⟩
          · rw [step_corrupt hv p] at h2; cases h2
          · obtain ⟨u, hu, hs2⟩ := step_ended hv
            rw [hu, List.append_assoc, hs2] at h2
            cases h2
        have hend : s'.step P x1 = .ended 0 [] → s'.step P v ≠ .corrupt ∧ ∀ c w, s'.step P v = .ended c w → c = 0 := by
          intro hs
          obtain ⟨u', hu', hs'⟩ := step_ended hs
          rw [List.append_nil] at hu'
          have h2 := hs' q
          rw [← hu', ← hpq] at h2
          refine ⟨fun hv => ?_, fun c w hv => ?_⟩
          · rw [step_corrupt hv p] at h2; cases h2
          · obtain ⟨u, hu, hs2⟩ := step_ended hv
            rw [hu, List.append_assoc, hs2] at h2
            cases h2
            rfl
        rcases c with ⟨_, c⟩ | ⟨_, cc, ww, c1, c2⟩ | ⟨c, _⟩
        · cases T1 with
          | done h _ => cases h
          | ended hs => exact (hend hs).1 c
          | next hs _ _ => exact (hnext hs).1 c
        · cases T1 with
          | done h _ => cases h
          | ended hs => exact c1 ((hend hs).2 _ _ c2)
          | next hs _ _ => exact (hnext hs).2 _ _ c2
        · rw [hfin] at c; cases c
      exact ⟨fun h => key (Or.inl h), fun h => key (Or.inr h)⟩
  | @header z' k t a b c d =>
    rw [Res.bind_ok]
    dsimp only
    rw [Nat.zero_add]
    subst b
    have hX : X = t := by
      cases A with
      | wait _ => rfl
    have hY : Y = [] := by
      have := H.2.2
      simpa using this
    subst hX hY
    refine ⟨z', k, _, _, rfl, a, by simp; omega, ⟨[], Or.inl rfl, List.nil_prefix⟩, (fun h => by cases h), (fun h => by cases h), fun _ _ x y hx => ?_⟩
    obtain ⟨hdr, code, w, rfl, ⟨b1, b2, b3, b4, rfl, _⟩, _⟩ := hx
    have key : ∀ (a b : List UInt8), X ++ inp ++ a = [0, b1, b2, b3, b4] ++ w ++ b → False := by
      intro a b h
      apply d
      rcases hti : X ++ inp with _ | ⟨q, l⟩
      · rw [hti] at c; simp at c
      · rw [hti] at h
        simp only [List.cons_append, List.cons.injEq] at h
        rw [h.1]
        rfl
    exact ⟨fun ⟨r, h⟩ => key r [] (by rw [h, List.append_nil]), fun ⟨r, h⟩ => key [] r (by rw [h, List.append_nil])⟩

/-! ## C114, C115: `LZMAInputStream` with this decoder -/

section
variable {σ : Type} {S : StreamOps σ UInt8} {soft : Prop} {c : List UInt8} {input : σ} {P : Lzma.Params}

/-- **C114**: over any input stream that stands at a supported header and a complete stream with end mark, which stands for `y`,
`LZMAInputStream` is a stream over `y`; it never fails. -/
theorem C114_marked {x y rest hdr : List UInt8} (hS : IsStream S c Failure.never soft input)
    (hc : c.drop (S.position input).toNat = hdr ++ (x ++ rest)) (hh : LzmaHeader hdr (-1)) (hb : Lzma.props (hdr.take 5) P)
    (hx : Lzma.MarkedStream P x y) (z0 : Dec) (N : Nat) (hN : x.length + y.length + 1 < N) :
    ∃ s, LzmaStream.new S decoder z0 input = .ok s ∧ s.pos = 0 ∧ IsStream (LzmaStream.ops S decoder N) y Failure.never True s := by
  obtain ⟨hP, hd, hz⟩ := props_ok hb
  obtain ⟨h, code, w, h1, h2, h3⟩ := hx
  exact C106_marked hS hc hh z0 hz decoder_marked (init_ready hP hd h1 h2 (tail_of_marked h3) (fun h => by cases h)) N hN

/-- **C114**, if the input ends before the compressed data does: the stream behaves like a stream over `y` followed by anything, but fails at some point: it
never delivers a wrong byte and never reports `Eof`. -/
theorem C114_truncated {x x1 y hdr : List UInt8} (hS : IsStream S c Failure.never soft input)
    (hc : c.drop (S.position input).toNat = hdr ++ x1) (hh : LzmaHeader hdr (-1)) (hb : Lzma.props (hdr.take 5) P)
    (hx : Lzma.MarkedStream P x y) (hpre : x1 <+: x) (hlt : x1.length < x.length) (z0 : Dec) (N : Nat) (hN : x.length + y.length + 1 < N) :
    ∃ s, LzmaStream.new S decoder z0 input = .ok s ∧ s.pos = 0 ∧ ∀ t, IsStream (LzmaStream.ops S decoder N) (y ++ t) Failure.always True s := by
  obtain ⟨hP, hd, hz⟩ := props_ok hb
  obtain ⟨h, code, w, h1, h2, h3⟩ := hx
  exact C106_truncated hS hc hh hpre hlt z0 hz decoder_marked (init_ready hP hd h1 h2 (tail_of_marked h3) (fun h => by cases h)) N hN

theorem sized_nonempty {y : List UInt8} {hdr : List UInt8} (h : LzmaHeader hdr y.length) : y ≠ [] := by
  rintro rfl
  obtain ⟨hl, ⟨dic, size, rest, rfl, h1, h2, _, h4⟩, h5⟩ := h
  rcases dic with _ | ⟨b1, _ | ⟨b2, _ | ⟨b3, _ | ⟨_, _⟩⟩⟩⟩ <;> simp only [List.length_cons, List.length_nil] at h1 <;> try omega
  simp only [List.drop_succ_cons, List.drop_zero, List.cons_append, List.nil_append, List.length_nil] at h5
  have hr : size ++ rest = size := by
    have : rest = [] := by
      simp only [List.length_cons, List.length_append, List.length_nil] at hl
      exact List.eq_nil_of_length_eq_zero (by omega)
    rw [this, List.append_nil]
  rw [hr] at h5
  rcases h4 with h4 | h4 <;> omega

/-- **C115**: data of known size, with or without end mark, is delivered completely if the input goes on after it. -/
theorem C115_sized {x y rest hdr : List UInt8} (hS : IsStream S c Failure.never soft input)
    (hc : c.drop (S.position input).toNat = hdr ++ (x ++ rest)) (hh : LzmaHeader hdr y.length) (hb : Lzma.props (hdr.take 5) P)
    (hx : Lzma.SizedStream P x y) (hr : rest ≠ []) (z0 : Dec) (N : Nat) (hN : x.length + y.length + 1 < N) :
    ∃ s, LzmaStream.new S decoder z0 input = .ok s ∧ s.pos = 0 ∧ IsStream (LzmaStream.ops S decoder N) y Failure.never True s := by
  obtain ⟨hP, hd, hz⟩ := props_ok hb
  obtain ⟨h, code, w, h1, h2, h3⟩ := hx
  exact C106_sized hS hc hh z0 hz decoder_sized (init_ready hP hd h1 h2 (tail_of_sized h3) (fun _ => sized_nonempty hh)) (Or.inr hr) N hN

/-- The decoder may also be thought of as needing more than it does. -/
theorem sized_more : LzmaSized decoder False (fun z x y => ∃ x0, x0 <+: x ∧ Ready true z x0 y) where
  rest h := by
    obtain ⟨_, _, h⟩ := h
    exact decoder_sized.rest h
  run {z x y} h inp hin space hsp hle finish hfin := by
    obtain ⟨x0, ⟨r, rfl⟩, h⟩ := h
    have hin0 : Fit inp x0 := by
      obtain ⟨a, b, hab⟩ := Fit.common hin
      exact .of_common (b' := r ++ b) (by rw [hab, List.append_assoc])
    obtain ⟨z', k, out, code, e, hk, ho, y', hy, hcases⟩ := decoder_sized.run h hin0 hsp hle hfin
    refine ⟨z', k, out, code, e, hk, ho, y', hy, ?_⟩
    rcases hcases with h1 | ⟨h1, x', h2, h3, h4⟩ | h1
    · exact Or.inl h1
    · exact Or.inr (Or.inl ⟨h1, x' ++ r, by rw [h2, List.append_assoc], ⟨x', List.prefix_append _ _, h3⟩, h4⟩)
    · exact Or.inr (Or.inr h1)

/-- **C115**, if the input ends with or within the data: the stream never delivers a wrong byte and does not report `Eof` before all of
`y` has been read, but it may fail before. -/
theorem C115_truncated {x x1 y hdr : List UInt8} (hS : IsStream S c Failure.never soft input)
    (hc : c.drop (S.position input).toNat = hdr ++ x1) (hh : LzmaHeader hdr y.length) (hb : Lzma.props (hdr.take 5) P)
    (hx : Lzma.SizedStream P x y) (hpre : x1 <+: x) (z0 : Dec) (N : Nat) (hN : x.length + y.length + 2 < N) :
    ∃ s, LzmaStream.new S decoder z0 input = .ok s ∧ s.pos = 0 ∧ IsStream (LzmaStream.ops S decoder N) y Failure.always True s := by
  obtain ⟨hP, hd, hz⟩ := props_ok hb
  obtain ⟨h, code, w, h1, h2, h3⟩ := hx
  refine C106_sized_truncated (x := x ++ [0]) hS hc hh (hpre.trans (List.prefix_append _ _)) (by have := hpre.length_le; simp; omega) z0 hz sized_more
    ⟨x, List.prefix_append _ _, init_ready hP hd h1 h2 (tail_of_sized h3) (fun _ => sized_nonempty hh)⟩ N (by simp; omega)

end

/-! ## Examples: the hypotheses can be met -/

/-- Read a whole stream. -/
def decodeAll (P : Lzma.Params) (sized : Bool) : Nat → Lzma.State → List UInt8 → Option (List UInt8)
  | 0, _, _ => none
  | n + 1, s, x => match s.step P x with
    | .ended 0 [] => some s.past.reverse
    | .next s' x' => if sized = true ∧ x' = [] ∧ s'.code = 0 then some s'.past.reverse else decodeAll P sized n s' x'
    | _ => none

theorem decodeAll_tail {P : Lzma.Params} (hP : POk P) {n : Nat} {s : Lzma.State} {x y : List UInt8} (W : Wf P s) (h : decodeAll P false n s x = some y) :
    ∃ y', y = s.past.reverse ++ y' ∧ Lzma.Marked P s x y' := by
  induction n generalizing s x with
  | zero => cases h
  | succ n ih =>
    unfold decodeAll at h
    split at h
    · rename_i hs
      cases h
      exact ⟨[], (List.append_nil _).symm, .ended hs⟩
    · rename_i s' x' hs
      rw [if_neg (by simp)] at h
      obtain ⟨W', new, e, _⟩ := step_wf W hP hs
      obtain ⟨y', rfl, hm⟩ := ih W' h
      exact ⟨new.reverse ++ y', by rw [e]; simp, .next hs (by rw [e, List.reverse_reverse]) hm⟩
    · cases h

theorem decodeAll_sized {P : Lzma.Params} (hP : POk P) {n : Nat} {s : Lzma.State} {x y : List UInt8} (W : Wf P s) (h : decodeAll P true n s x = some y) :
    ∃ y', y = s.past.reverse ++ y' ∧ Lzma.Sized P s x y' := by
  induction n generalizing s x with
  | zero => cases h
  | succ n ih =>
    unfold decodeAll at h
    split at h
    · rename_i hs
      cases h
      exact ⟨[], (List.append_nil _).symm, .ended hs⟩
    · rename_i s' x' hs
      obtain ⟨W', new, e, _⟩ := step_wf W hP hs
      split at h
      · rename_i hc
        obtain ⟨_, rfl, hc⟩ := hc
        cases h
        exact ⟨new.reverse ++ [], by rw [e]; simp, .next hs (by rw [e, List.reverse_reverse]) (.done hc)⟩
      · obtain ⟨y', rfl, hm⟩ := ih W' h
        exact ⟨new.reverse ++ y', by rw [e]; simp, .next hs (by rw [e, List.reverse_reverse]) hm⟩
    · cases h

/-- The parameters of the examples. -/
def exParams : Lzma.Params := ⟨3, 0, 2, 4096⟩

theorem exParams_ok : POk exParams ∧ DicOk exParams := ⟨⟨by decide, by decide, by decide⟩, ⟨by decide, by decide⟩⟩

/-- `abcabcabc`, compressed, with end mark. -/
def exMarked : List UInt8 := [0, 48, 152, 136, 166, 29, 254, 129, 163, 255, 255, 97, 100, 0, 0]

theorem exMarked_stream : Lzma.MarkedStream exParams exMarked [97, 98, 99, 97, 98, 99, 97, 98, 99] := by
  obtain ⟨y', h1, h2⟩ := decodeAll_tail (n := 10) (s := Lzma.State.start 815302822) (x := [29, 254, 129, 163, 255, 255, 97, 100, 0, 0])
    (y := [97, 98, 99, 97, 98, 99, 97, 98, 99]) exParams_ok.1 (start_wf (by decide) (by decide)) (by decide +kernel)
  refine ⟨[0, 48, 152, 136, 166], _, _, rfl, ⟨48, 152, 136, 166, rfl, rfl⟩, ?_⟩
  rw [h1]
  exact h2

/-- `abcabcabc…`, 4097 bytes, compressed, without end mark. -/
def exSized : List UInt8 :=
  [0, 48, 152, 136, 173, 75, 55, 18, 163, 49, 133, 221, 250, 83, 4, 237, 235, 223, 66, 184, 18, 243, 31, 234, 152, 173, 253, 204, 209, 58]

def exBytes : List UInt8 := (List.range 4097).map (fun i => UInt8.ofNat (97 + i % 3))

set_option maxRecDepth 100000 in
theorem exSized_stream : Lzma.SizedStream exParams exSized exBytes := by
  obtain ⟨y', h1, h2⟩ := decodeAll_sized (n := 40) (s := Lzma.State.start 815302829) (x := exSized.drop 5)
    (y := exBytes) exParams_ok.1 (start_wf (by decide) (by decide)) (by decide +kernel)
  refine ⟨[0, 48, 152, 136, 173], _, exSized.drop 5, rfl, ⟨48, 152, 136, 173, rfl, rfl⟩, ?_⟩
  rw [h1]
  exact h2

/-- The header of a file with a dictionary of 4K and unknown size. -/
def exHeader : List UInt8 := [0x5d, 0, 0x10, 0, 0, 0xff, 0xff, 0xff, 0xff, 0xff, 0xff, 0xff, 0xff]

theorem exHeader_ok : LzmaHeader exHeader (-1) :=
  ⟨rfl, ⟨[0x10, 0, 0], List.replicate 8 0xff, [], rfl, rfl, rfl, by decide, Or.inl (by decide)⟩, by decide⟩

theorem exProps : Lzma.props (exHeader.take 5) exParams := ⟨0x5d, 0, 0x10, 0, 0, rfl, by decide, by decide, by decide, rfl, rfl⟩

theorem exProps' : Lzma.props (sizedHeader.take 5) exParams := ⟨0x5d, 0, 0, 0, 0, rfl, by decide, by decide, by decide, rfl, rfl⟩

set_option maxRecDepth 100000 in
theorem exBytes_length : exBytes.length = 4097 := by decide +kernel

/-- Non-vacuity of C114 and C115. -/
example (z0 : Dec) : ∃ s, LzmaStream.new StringStream.ops decoder z0 (StringStream.new (exHeader ++ (exMarked ++ [9, 9]))) = .ok s ∧ s.pos = 0 ∧
    IsStream (LzmaStream.ops StringStream.ops decoder 30) [97, 98, 99, 97, 98, 99, 97, 98, 99] Failure.never True s :=
  C114_marked (C01_isStream _) rfl exHeader_ok exProps exMarked_stream z0 30 (by decide)

example (z0 : Dec) : ∃ s, LzmaStream.new StringStream.ops decoder z0 (StringStream.new (exHeader ++ exMarked.take 12)) = .ok s ∧ s.pos = 0 ∧
    ∀ t, IsStream (LzmaStream.ops StringStream.ops decoder 30) ([97, 98, 99, 97, 98, 99, 97, 98, 99] ++ t) Failure.always True s :=
  C114_truncated (C01_isStream _) rfl exHeader_ok exProps exMarked_stream (List.take_prefix _ _) (by decide) z0 30 (by decide)

example (z0 : Dec) : ∃ s, LzmaStream.new StringStream.ops decoder z0 (StringStream.new (sizedHeader ++ (exSized ++ [9]))) = .ok s ∧ s.pos = 0 ∧
    IsStream (LzmaStream.ops StringStream.ops decoder 4200) exBytes Failure.never True s :=
  C115_sized (C01_isStream _) rfl (by rw [exBytes_length]; exact sizedHeader_ok) exProps' exSized_stream (by decide) z0 4200
    (by rw [exBytes_length]; decide)

example (z0 : Dec) : ∃ s, LzmaStream.new StringStream.ops decoder z0 (StringStream.new (sizedHeader ++ exSized)) = .ok s ∧ s.pos = 0 ∧
    IsStream (LzmaStream.ops StringStream.ops decoder 4200) exBytes Failure.always True s :=
  C115_truncated (C01_isStream _) rfl (by rw [exBytes_length]; exact sizedHeader_ok) exProps' exSized_stream List.prefix_rfl z0 4200
    (by rw [exBytes_length]; decide)

/-- Non-vacuity of C116 and C117. -/
example : propsDecode (exHeader.take 5) = some exParams := (C117_props _ _ rfl).mpr exProps

example : ∃ z0, decoder.init (exHeader.take 5) = .ok z0 ∧ LzmaCalls decoder z0 z0 [] [] := by
  obtain ⟨z0, h, _⟩ := C116_decoder exProps
  exact ⟨z0, h, .start⟩

end Strigi.Props
