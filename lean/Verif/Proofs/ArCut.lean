import Verif.Proofs.Ar
import Verif.Proofs.Cut

/-!
# `ar` archives of which the end is missing
-/

namespace Strigi.Ar

open ArSpec

variable {σ : Type} {P : StreamOps σ UInt8} {c : List UInt8} {soft : Prop}

/-- What reading the next header leads to; `E` is what happens at the tail. -/
def NextCut (P : StreamOps σ UInt8) (c : List UInt8) (soft : Prop) (tail last : List UInt8) (K : Nat) (E : State σ → Prop) (s' : State σ) :
    List ArchiveEntry → Prop
  | [] => E s'
  | e :: l => s'.status = .ok ∧ s'.info = e.info ∧ e.info.size = e.content.length ∧
      e.content.length < 2 ^ 31 ∧ ∃ pad rest,
        At P c soft s'.input (e.content ++ (pad ++ rest)) ∧
        (pad.length : Int) = (P.position s'.input + e.content.length) % 2 ∧
        Members tail last s'.names l rest ∧ rest.length ≤ K

theorem NextCut.type {tail last : List UInt8} {K K' : Nat} (hK : K ≤ K') {E : State σ → Prop}
    (hE : ∀ s', E s' → E { s' with info := { s'.info with type := .file } }) {s' : State σ} {l : List ArchiveEntry}
    (h : NextCut P c soft tail last K E s' l)
    (hl : ∀ e ∈ l, e.info.type = .file) :
    NextCut P c soft tail last K' E { s' with info := { s'.info with type := .file } } l := by
  cases l with
  | nil => exact hE _ h
  | cons e l =>
    obtain ⟨h1, h2, h3, h4, p, r, h5, h6, h7, h8⟩ := h
    refine ⟨h1, ?_, h3, h4, p, r, h5, h6, h7, by omega⟩
    have := hl e (by simp)
    simp only [h2]
    obtain ⟨⟨_, _, _, _⟩, _⟩ := e
    simp only at this
    subst this
    rfl

theorem Members_types {tail last table bytes : List UInt8} {l : List ArchiveEntry} (h : Members tail last table l bytes) :
    ∀ e ∈ l, e.info.type = .file := by
  induction h with
  | done => intro e he; cases he
  | entry _ _ _ _ ih =>
    intro e he
    simp only [List.mem_cons] at he
    rcases he with rfl | he
    · rfl
    · exact ih e he
  | symbols _ _ _ _ ih => exact ih
  | names _ _ _ _ _ ih => exact ih

/-- `readHeader()` finds the next entry, or the tail. -/
theorem readHeader_members {tail last table bytes : List UInt8} {l : List ArchiveEntry} {E : State σ → Prop}
    (hE : ∀ s', E s' → E { s' with info := { s'.info with type := .file } })
    (hend : ∀ (fuel : Nat) (s : State σ), tail.length < fuel → s.status = .ok → s.names = last → Aligned P c soft s.input tail →
      ∃ s', readHeader P fuel s = .ok s' ∧ E s')
    (h : Members tail last table l bytes) :
    ∀ fuel, bytes.length < fuel → ∀ s : State σ, s.names = table → s.status = .ok →
      Aligned P c soft s.input bytes →
      ∃ s', readHeader P fuel s = .ok s' ∧ NextCut P c soft tail last bytes.length E s' l := by
  induction h with
  | done => intro fuel hf s hs hst hA; exact hend fuel s hf hst hs hA
  | @entry table field name content pad head rest l mtime hname hh hpad hrest ih =>
    intro fuel hf s hs hst hA
    obtain ⟨fuel, rfl⟩ : ∃ f, fuel = f + 1 := ⟨fuel - 1, by omega⟩
    rw [show head ++ content ++ pad ++ rest = head ++ (content ++ (pad ++ rest)) by simp] at hA
    obtain ⟨input, hAi, hpos, e⟩ := step_entry hname hh hs fuel hA
    refine ⟨_, e, hst, rfl, rfl, header_size hh, pad, rest, hAi, ?_, by simp only; rw [hs]; exact hrest,
      by simp only [List.length_append]; omega⟩
    simp only; omega
  | @symbols table field content pad head rest l mtime hf hh hpad hrest ih =>
    intro fuel hfu s hs hst hA
    obtain ⟨fuel, rfl⟩ : ∃ f, fuel = f + 1 := ⟨fuel - 1, by omega⟩
    have hsz := header_size hh
    rw [show head ++ content ++ pad ++ rest = head ++ (content ++ (pad ++ rest)) by simp] at hA
    have hl := (header_parts hh).1
    obtain ⟨input, hAi, hpos, e⟩ := step_symbols hf hh s fuel hA
    obtain ⟨i2, r2, e2, hA2, hpos2, _⟩ := hAi.skip (n := (content.length : Int)) rfl (by omega)
    obtain ⟨s', e3, hN⟩ := ih fuel (by simp only [List.length_append] at hfu; omega)
      { s with input := i2, info := { s.info with size := content.length, mtime := mtime } } hs hst
      ⟨pad, hA2, Or.inl (by simp only; omega)⟩
    refine ⟨_, ?_, hN.type (by simp only [List.length_append]; omega) hE (Members_types hrest)⟩
    rw [e, e2]
    simp only [Res.bind_ok]
    rw [e3]
    simp only [Res.bind_ok]
  | @names table field content pad head rest l mtime hf hh hne hpad hrest ih =>
    intro fuel hfu s hs hst hA
    obtain ⟨fuel, rfl⟩ : ∃ f, fuel = f + 1 := ⟨fuel - 1, by omega⟩
    have hsz := header_size hh
    rw [show head ++ content ++ pad ++ rest = head ++ (content ++ (pad ++ rest)) by simp] at hA
    obtain ⟨input, hAi, hpos, e⟩ := step_names hf hh s fuel hA
    have := List.length_pos_iff.mpr hne
    obtain ⟨i2, e2, hA2, hpos2⟩ := hAi.read (n := (content.length : Int)) rfl (by omega)
    obtain ⟨s', e3, hN⟩ := ih fuel (by simp only [List.length_append] at hfu; omega)
      { s with input := i2, info := { s.info with size := content.length, mtime := mtime },
               names := content } rfl hst
      ⟨pad, hA2, Or.inl (by simp only; omega)⟩
    refine ⟨_, ?_, hN.type (by simp only [List.length_append]; omega) hE (Members_types hrest)⟩
    rw [e, e2]
    simp only [Res.bind_ok]
    have : slice content 0 (content.length : Int) = content := slice_all content
    rw [if_neg (by simp), this, e3]
    simp only [Res.bind_ok]

/-- The complete entries have been presented, and `readHeader` leads to `E`. -/
def Stands (P : StreamOps σ UInt8) (fuel : Nat) (E : State σ → Prop) (s : State σ) : Prop :=
  s.status = .ok ∧ ∃ input s', leave P s = .ok { s with entry := none, input := input } ∧
    readHeader P fuel { s with entry := none, input := input } = .ok s' ∧ E s'

theorem presentsThen {tail last : List UInt8} {E : State σ → Prop}
    (hE : ∀ s', E s' → E { s' with info := { s'.info with type := .file } })
    (hend : ∀ (fuel : Nat) (s : State σ), tail.length < fuel → s.status = .ok → s.names = last → Aligned P c soft s.input tail →
      ∃ s', readHeader P fuel s = .ok s' ∧ E s') :
    ∀ (l : List ArchiveEntry) {fuel : Nat} {table bytes : List UInt8} (s : State σ),
    Members tail last table l bytes → bytes.length < fuel → s.names = table → Ready P c soft s bytes →
    PresentsThen (ops P fuel) Failure.never soft (Stands P fuel E) s l := by
  intro l
  induction l with
  | nil =>
    intro fuel table bytes s hM hf hs hR
    obtain ⟨hst, input, el, hA⟩ := hR
    obtain ⟨s', e, hN⟩ := readHeader_members hE hend hM fuel hf { s with entry := none, input := input } hs hst hA
    exact ⟨hst, input, s', el, e, hN⟩
  | cons a l ih =>
    intro fuel table bytes s hM hf hs hR
    obtain ⟨hst, input, el, hA⟩ := hR
    obtain ⟨s', e, hN⟩ := readHeader_members hE hend hM fuel hf { s with entry := none, input := input } hs hst hA
    obtain ⟨hst', hinfo, hsz, hlt, pad, rest, hAt, hpad, hrest, hK⟩ := hN
    obtain ⟨es, en, hessz, hpos, hI, hU⟩ := hAt.sub_skip (n := (a.content.length : Int)) rfl (by omega)
    refine ⟨{ s' with entry := some es }, es, ?_, rfl, hinfo, hst', hpos, by simp only [ops, SubInputStream.ops]; omega, hI, ?_⟩
    · simp only [ops]
      rw [nextEntry, if_neg (by simp [hst]), el]
      simp only [Res.bind_ok]
      rw [e]
      simp only [Res.bind_ok]
      rw [if_neg (by simp [hst']), hinfo, hsz, en]
      simp only [Res.bind_ok]
    · intro es' lo hi hu
      obtain ⟨e2, r2, x1, x2, x3, x4⟩ := hU es' lo hi hu
      refine ih (table := s'.names) (bytes := rest) _ hrest (by omega) rfl ⟨hst', e2.parent, ?_, pad, x3, Or.inl ?_⟩
      · simp only [ops, leave]
        rw [x1]
        simp only [Res.bind_ok]
      · rw [x4]; exact hpad

theorem Stands.ends {fuel : Nat} {st : Status} (hst : st ≠ .ok) {s : State σ} (h : Stands P fuel (fun s' => s'.status = st) s) :
    EndsWith (ops P fuel) st s := by
  obtain ⟨h1, input, s', el, e, h2⟩ := h
  refine ⟨s', ?_, ?_, h2, ?_⟩
  · simp only [ops]
    rw [nextEntry, if_neg (by simp [h1]), el]
    simp only [Res.bind_ok]
    rw [e]
    simp only [Res.bind_ok]
    rw [if_pos (by rw [h2]; exact hst)]
  · exact readHeader_entry _ _ _ e
  · simp only [ops]
    rw [nextEntry, if_pos (by rw [h2]; exact hst)]

/-- A header is cut off. -/
theorem tail_header {tail : List UInt8} (h2 : 2 ≤ tail.length) (h60 : tail.length < 60) (fuel : Nat) (s : State σ)
    (hA : Aligned P c soft s.input tail) : ∃ s', readHeader P (fuel + 1) s = .ok s' ∧ s'.status = .error := by
  obtain ⟨i0, e0, hA0, _⟩ := align_spec hA
  obtain ⟨i1, k, d, e1, hA1, h1, _⟩ := hA0.read_short (n := 60) (by omega) (by omega)
  have hk := (h1 (by intro z; rw [z] at h2; simp at h2)).1
  rw [readHeader, e0]
  simp only [Res.bind_ok]
  rw [e1]
  simp only [Res.bind_ok]
  rw [if_neg hA1.status_ne, if_neg (by omega), if_pos (by omega)]
  exact ⟨_, rfl, rfl⟩

/-- The name table is cut off. -/
theorem tail_names {field head x : List UInt8} {mtime size : Nat} (hf : field = 47 :: 47 :: List.replicate 14 32)
    (hh : Header head field mtime size) (hx : x.length < size) (s : State σ) (fuel : Nat)
    (hA : Aligned P c soft s.input (head ++ x)) : ∃ s', readHeader P (fuel + 1) s = .ok s' ∧ s'.status = .error := by
  have hsz := header_size hh
  obtain ⟨i, hAi, _, e⟩ := step_names hf hh s fuel hA
  obtain ⟨i2, k, d, e2, hA2, h1, h0⟩ := hAi.read_short (n := (size : Int)) (by omega) (by omega)
  have hk : k ≠ (size : Int) := by
    by_cases hz : x = []
    · have := (h0 hz).1; omega
    · have := (h1 hz).1; omega
  rw [e, e2]
  simp only [Res.bind_ok]
  rw [if_pos hk]
  exact ⟨_, rfl, rfl⟩

/-- The symbol table is cut off. -/
theorem tail_symbols {field head x : List UInt8} {mtime size : Nat} (hf : field = 47 :: List.replicate 15 32)
    (hh : Header head field mtime size) (hx : x.length < size) (s : State σ) (fuel : Nat)
    (hA : Aligned P c soft s.input (head ++ x)) : ∃ s', readHeader P (fuel + 2) s = .ok s' ∧ s'.status = .eof := by
  have hsz := header_size hh
  obtain ⟨i, hAi, _, e⟩ := step_symbols hf hh s (fuel + 1) hA
  obtain ⟨i2, r2, e2, hA2, _⟩ := hAi.skip_short (n := (size : Int)) (by omega) (by omega)
  obtain ⟨i3, e3⟩ := readHeader_end (bytes := []) (by simp) fuel
    { s with input := i2, info := { s.info with size := size, mtime := mtime } } ⟨[], hA2, Or.inr ⟨rfl, rfl⟩⟩
  rw [e, e2]
  simp only [Res.bind_ok]
  rw [e3]
  simp only [Res.bind_ok]
  exact ⟨_, rfl, rfl⟩

/-- `readHeader` has found an entry of which only `x` is there. -/
def Found (P : StreamOps σ UInt8) (c : List UInt8) (soft : Prop) (info : EntryInfo) (x : List UInt8) (s' : State σ) : Prop :=
  s'.status = .ok ∧ s'.info = info ∧ At P c soft s'.input x

/-- The content is cut off. -/
theorem shows_part {fuel : Nat} (hf : 1 ≤ fuel) {s : State σ} {info : EntryInfo} {size : Nat} {x : List UInt8}
    (hsz : info.size = size) (hlt : size < 2 ^ 31) (hx : x.length < size)
    (h : Stands P fuel (Found P c soft info x) s) : ShowsPart (ops P fuel) soft info x .eof s := by
  obtain ⟨h1, input, s', el, e, f1, f2, hA⟩ := h
  obtain ⟨f, rfl⟩ : ∃ f, fuel = f + 1 := ⟨fuel - 1, by omega⟩
  obtain ⟨es, e1, e2, e3, e4, e5, e6⟩ := hA.sub_cut (n := (size : Int)) (by omega) (by omega)
  refine ⟨{ s' with entry := some es }, es, ?_, rfl, f2, f1, e3, by simp only [ops, SubInputStream.ops]; omega, e5,
    fun e' lo hi hu => ?_⟩
  · simp only [ops]
    rw [nextEntry, if_neg (by simp [h1]), el]
    simp only [Res.bind_ok]
    rw [e]
    simp only [Res.bind_ok]
    rw [if_neg (by simp [f1]), f2, hsz, e1]
    simp only [Res.bind_ok]
  · obtain ⟨g0, f2, f3, e7, r7, e8, r8, g1, g2, g3, g4, g5, g6⟩ := e6 e' lo hi hu
    refine ⟨f2, Stands.ends (by decide) ?_⟩
    obtain ⟨i3, e9⟩ := readHeader_end (P := P) (c := c) (soft := soft) (bytes := []) (by simp) f
      { s' with entry := none, input := e7.parent } ⟨[], g2, Or.inr ⟨rfl, rfl⟩⟩
    refine ⟨f1, e7.parent, _, ?_, e9, rfl⟩
    simp only [ops, leave]
    rw [g0, g1]
    simp only [Res.bind_ok]

/-- What is left of an archive behind the complete members, if it is cut off; `next` is the entry that follows them. -/
inductive Rest (next : Option ArchiveEntry) (table : List UInt8) : List UInt8 → Prop
  | header {x} : 2 ≤ x.length → x.length < 60 → Rest next table x
  | part {e field name head x y} {mtime : Nat} : next = some e → e.info = ⟨name, e.content.length, mtime, .file⟩ →
      ShortName field name ∨ LongName table field name →
      Header head field mtime e.content.length → e.content = x ++ y → y ≠ [] → Rest next table (head ++ x)
  | symbols {field head x size mtime} : field = 47 :: List.replicate 15 32 → Header head field mtime size → x.length < size →
      Rest next table (head ++ x)
  | names {field head x size mtime} : field = 47 :: 47 :: List.replicate 14 32 → Header head field mtime size → x.length < size →
      Rest next table (head ++ x)

theorem rest_take {α : Type} {head content pad : List α} {k : Nat} (hl : head.length = 60) (h1 : 60 ≤ k) (h2 : k < 60 + content.length) :
    (head ++ content ++ pad).take k = head ++ content.take (k - 60) ∧ (content.take (k - 60)).length < content.length ∧
      content = content.take (k - 60) ++ content.drop (k - 60) ∧ content.drop (k - 60) ≠ [] := by
  refine ⟨?_, by rw [List.length_take]; omega, (List.take_append_drop _ _).symm, ?_⟩
  · rw [List.append_assoc, List.take_append, List.take_of_length_le (by omega), List.take_append, hl,
      show k - 60 - content.length = 0 by omega, List.take_zero, List.append_nil]
  · intro z
    have := congrArg List.length z
    rw [List.length_drop, List.length_nil] at this
    omega

/-- Behind the content a cut leaves a complete member. -/
theorem pad_take {head content pad : List UInt8} {k : Nat} (hl : head.length = 60) (h1 : 60 + content.length ≤ k)
    (hp : pad.length = content.length % 2 ∨ pad = []) :
    ∃ pad', (head ++ content ++ pad).take k = head ++ content ++ pad' ++ [] ∧
      (pad'.length = content.length % 2 ∨ (pad' = [] ∧ ([] : List UInt8) = [])) := by
  refine ⟨pad.take (k - (60 + content.length)), ?_, ?_⟩
  · rw [List.take_append, List.take_of_length_le (l := head ++ content) (by rw [List.length_append]; omega), List.append_nil,
      List.length_append, hl]
  · by_cases h : pad.length ≤ k - (60 + content.length)
    · rw [List.take_of_length_le h]
      rcases hp with x | x
      · exact Or.inl x
      · exact Or.inr ⟨x, rfl⟩
    · right
      rcases hp with x | x
      · refine ⟨?_, rfl⟩
        rw [show k - (60 + content.length) = 0 by omega, List.take_zero]
      · rw [x, List.take_nil]; exact ⟨rfl, rfl⟩

/-- Where a cut falls: what is left is an archive with the first entries, or complete members and a part of one. -/
theorem cut {table : List UInt8} {l : List ArchiveEntry} {bytes : List UInt8} (h : Archive table l bytes) :
    ∀ k, k ≤ bytes.length → ∃ i ≤ l.length, Archive table (l.take i) (bytes.take k) ∨
      ∃ tail last, Rest l[i]? last tail ∧ Members tail last table (l.take i) (bytes.take k) := by
  have one : ∀ (b : List UInt8) (table : List UInt8), b.length ≤ 1 → Archive table [] b := by
    intro b table hb
    match b, hb with
    | [], _ => exact .done
    | [_], _ => exact .closing
  induction h with
  | done => intro k _; exact ⟨0, Nat.le_refl _, Or.inl (by rw [List.take_nil, List.take_nil]; exact .done)⟩
  | closing =>
    intro k hk
    exact ⟨0, Nat.le_refl _, Or.inl (by rw [List.take_nil]; exact one _ _ (by rw [List.length_take]; simp))⟩
  | @entry table field name content pad head rest l mtime hname hh hpad hrest ih =>
    intro k hk
    have hl := (header_parts hh).1
    by_cases hin : k ≤ 60 + content.length + pad.length
    · rw [List.take_append_of_le_length (l₁ := head ++ content ++ pad) (by simp only [List.length_append]; omega)]
      by_cases h60 : k < 60
      · refine ⟨0, Nat.zero_le _, ?_⟩
        have hlen : ((head ++ content ++ pad).take k).length = k := by rw [List.length_take]; simp only [List.length_append]; omega
        by_cases h2 : k < 2
        · exact Or.inl (one _ _ (by omega))
        · exact Or.inr ⟨_, table, .header (by omega) (by omega), .done⟩
      · by_cases hc : k < 60 + content.length
        · obtain ⟨e, _, e2, e3⟩ := rest_take (pad := pad) hl (by omega) hc
          refine ⟨0, Nat.zero_le _, Or.inr ⟨_, table, ?_, .done⟩⟩
          rw [e]
          exact .part (e := ⟨⟨name, content.length, mtime, .file⟩, content⟩) rfl rfl hname hh e2 e3
        · obtain ⟨pad', e, hp'⟩ := pad_take (k := k) hl (by omega) (hpad.imp_right And.left)
          refine ⟨1, by simp, Or.inl ?_⟩
          rw [e]
          exact .entry hname hh hp' .done
    · have hrl : 1 ≤ rest.length := by simp only [List.length_append] at hk; omega
      have hpad : pad.length = content.length % 2 := by
        rcases hpad with x | ⟨_, x⟩
        · exact x
        · rw [x] at hrl; simp at hrl
      obtain ⟨i, hi, hx⟩ := ih (k - (60 + content.length + pad.length)) (by simp only [List.length_append] at hk; omega)
      refine ⟨i + 1, by simp only [List.length_cons]; omega, ?_⟩
      rw [List.take_succ_cons, List.take_append, List.take_of_length_le (l := head ++ content ++ pad)
        (by simp only [List.length_append]; omega),
        show k - (head ++ content ++ pad).length = k - (60 + content.length + pad.length) by
          simp only [List.length_append]; omega]
      rcases hx with x | ⟨tail, last, x, y⟩
      · exact Or.inl (.entry hname hh (Or.inl hpad) x)
      · exact Or.inr ⟨tail, last, by simpa using x, .entry hname hh hpad y⟩
  | @symbols table field content pad head rest l mtime hf hh hpad hrest ih =>
    intro k hk
    have hl := (header_parts hh).1
    by_cases hin : k ≤ 60 + content.length + pad.length
    · rw [List.take_append_of_le_length (l₁ := head ++ content ++ pad) (by simp only [List.length_append]; omega)]
      refine ⟨0, Nat.zero_le _, ?_⟩
      rw [List.take_zero]
      by_cases h60 : k < 60
      · have hlen : ((head ++ content ++ pad).take k).length = k := by rw [List.length_take]; simp only [List.length_append]; omega
        by_cases h2 : k < 2
        · exact Or.inl (one _ _ (by omega))
        · exact Or.inr ⟨_, table, .header (by omega) (by omega), .done⟩
      · by_cases hc : k < 60 + content.length
        · obtain ⟨e, e1, _, _⟩ := rest_take (pad := pad) hl (by omega) hc
          refine Or.inr ⟨_, table, ?_, .done⟩
          rw [e]
          exact .symbols hf hh e1
        · obtain ⟨pad', e, hp'⟩ := pad_take (k := k) hl (by omega) (hpad.imp_right And.left)
          left
          rw [e]
          exact .symbols hf hh hp' .done
    · have hrl : 1 ≤ rest.length := by simp only [List.length_append] at hk; omega
      have hpad : pad.length = content.length % 2 := by
        rcases hpad with x | ⟨_, x⟩
        · exact x
        · rw [x] at hrl; simp at hrl
      obtain ⟨i, hi, hx⟩ := ih (k - (60 + content.length + pad.length)) (by simp only [List.length_append] at hk; omega)
      refine ⟨i, hi, ?_⟩
      rw [List.take_append, List.take_of_length_le (l := head ++ content ++ pad)
        (by simp only [List.length_append]; omega),
        show k - (head ++ content ++ pad).length = k - (60 + content.length + pad.length) by
          simp only [List.length_append]; omega]
      rcases hx with x | ⟨tail, last, x, y⟩
      · exact Or.inl (.symbols hf hh (Or.inl hpad) x)
      · exact Or.inr ⟨tail, last, x, .symbols hf hh hpad y⟩
  | @names table field content pad head rest l mtime hf hh hne hpad hrest ih =>
    intro k hk
    have hl := (header_parts hh).1
    by_cases hin : k ≤ 60 + content.length + pad.length
    · rw [List.take_append_of_le_length (l₁ := head ++ content ++ pad) (by simp only [List.length_append]; omega)]
      refine ⟨0, Nat.zero_le _, ?_⟩
      rw [List.take_zero]
      by_cases h60 : k < 60
      · have hlen : ((head ++ content ++ pad).take k).length = k := by rw [List.length_take]; simp only [List.length_append]; omega
        by_cases h2 : k < 2
        · exact Or.inl (one _ _ (by omega))
        · exact Or.inr ⟨_, table, .header (by omega) (by omega), .done⟩
      · by_cases hc : k < 60 + content.length
        · obtain ⟨e, e1, _, _⟩ := rest_take (pad := pad) hl (by omega) hc
          refine Or.inr ⟨_, table, ?_, .done⟩
          rw [e]
          exact .names hf hh e1
        · obtain ⟨pad', e, hp'⟩ := pad_take (k := k) hl (by omega) (hpad.imp_right And.left)
          left
          rw [e]
          exact .names hf hh hne hp' .done
    · have hrl : 1 ≤ rest.length := by simp only [List.length_append] at hk; omega
      have hpad : pad.length = content.length % 2 := by
        rcases hpad with x | ⟨_, x⟩
        · exact x
        · rw [x] at hrl; simp at hrl
      obtain ⟨i, hi, hx⟩ := ih (k - (60 + content.length + pad.length)) (by simp only [List.length_append] at hk; omega)
      refine ⟨i, hi, ?_⟩
      rw [List.take_append, List.take_of_length_le (l := head ++ content ++ pad)
        (by simp only [List.length_append]; omega),
        show k - (head ++ content ++ pad).length = k - (60 + content.length + pad.length) by
          simp only [List.length_append]; omega]
      rcases hx with x | ⟨tail, last, x, y⟩
      · exact Or.inl (.names hf hh hne (Or.inl hpad) x)
      · exact Or.inr ⟨tail, last, x, .names hf hh hne hpad y⟩

end Strigi.Ar
