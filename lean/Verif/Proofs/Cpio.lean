import Verif.Model.Cpio
import Verif.CpioSpec
import Verif.Proofs.Archive
import Verif.Proofs.Base64

namespace Strigi.Cpio

open CpioSpec

variable {σ : Type}

theorem aget_append_right {α : Type} {l₁ : List α} {a : α} {l₂ : List α} {i : Int}
    (h : i = l₁.length) : aget (l₁ ++ a :: l₂) i = .ok a := by
  subst h
  rw [aget, if_pos (by omega)]
  simp

theorem schar_small {b : UInt8} (h : b.toNat < 128) : schar b = b.toNat := by
  rw [schar, if_pos h]

theorem hexDigit_lt {b : UInt8} {d : Nat} (h : hexDigit b = some d) : d < 16 := by
  unfold hexDigit at h
  split at h
  · cases h; omega
  · split at h
    · cases h; omega
    · split at h
      · cases h; omega
      · cases h

/-- The loop of `readHexField` computes the number denoted by the digits. -/
theorem hexLoop_spec : ∀ (f pre post : List UInt8) (v n : Nat), hexNumber f = some n →
    v * 16 ^ f.length + n < 2 ^ 31 →
    hexLoop (pre ++ (f ++ post)) f.length pre.length v = .ok ((v * 16 ^ f.length + n : Nat) : Int) := by
  intro f
  induction f with
  | nil =>
    intro pre post v n h hv
    simp only [hexNumber] at h
    cases h
    simp [hexLoop]
  | cons b f ih =>
    intro pre post v n h hv
    simp only [hexNumber] at h
    cases hd : hexDigit b with
    | none => rw [hd] at h; simp at h
    | some d =>
      cases hn : hexNumber f with
      | none => rw [hd, hn] at h; simp at h
      | some w =>
        rw [hd, hn] at h
        simp only [Option.pure_def, Option.bind_eq_bind, Option.bind_some, Option.some.injEq] at h
        subst h
        simp only [List.length_cons, hexLoop]
        have hb : 0 < 16 ^ f.length := Nat.pow_pos (by omega)
        have he : v * 16 ^ (f.length + 1) + (d * 16 ^ f.length + w) =
            (v * 16 + d) * 16 ^ f.length + w := by
          rw [Nat.pow_succ, Nat.add_mul, Nat.mul_assoc, Nat.mul_comm 16, Nat.add_assoc]
        simp only [List.length_cons] at hv
        rw [he] at hv ⊢
        have hlt : v * 16 + d < 2 ^ 31 := by
          have : (v * 16 + d) * 1 ≤ (v * 16 + d) * 16 ^ f.length := Nat.mul_le_mul_left _ hb
          omega
        rw [narrow32_of_range (by omega) (by omega)]
        have ha : aget (pre ++ (b :: f ++ post)) (pre.length : Int) = .ok b :=
          aget_append_right rfl
        rw [ha]
        simp only [Res.bind_ok]
        have hc : (if schar b > 70 then (v : Int) * 16 + (schar b - 87) else
            if schar b > 57 then (v : Int) * 16 + (schar b - 55) else (v : Int) * 16 + (schar b - 48)) =
            ((v * 16 + d : Nat) : Int) := by
          unfold hexDigit at hd
          split at hd
          · cases hd
            rw [schar_small (by omega), if_neg (by omega), if_neg (by omega)]; omega
          · split at hd
            · cases hd
              rw [schar_small (by omega), if_neg (by omega), if_pos (by omega)]; omega
            · split at hd
              · cases hd
                rw [schar_small (by omega), if_pos (by omega)]; omega
              · cases hd
        rw [hc, narrow32_of_range (by omega) (by omega)]
        have := ih (pre ++ [b]) post (v * 16 + d) w hn hv
        simp only [List.append_assoc, List.cons_append, List.nil_append, List.length_append,
          List.length_cons, List.length_nil] at this
        simp only [List.cons_append]
        exact this

theorem readHexField_spec {b pre f post : List UInt8} {n : Nat} {off : Int} (hf : Field f n)
    (hn : n < 2 ^ 31) (hb : b = pre ++ (f ++ post)) (ho : off = pre.length) :
    readHexField b off = .ok (n : Int) := by
  subst hb ho
  have := hexLoop_spec f pre post 0 n hf.2 (by omega)
  rw [hf.1] at this
  simpa [readHexField] using this

/-- The scan for the end of the name. -/
theorem nameLen_spec : ∀ (name pre post : List UInt8) (k : Nat) (len base : Int), 0 ∉ name →
    name.length < k → base + len = pre.length →
    nameLen (pre ++ (name ++ 0 :: post)) base k len = .ok (len + name.length) := by
  intro name
  induction name with
  | nil =>
    intro pre post k len base _ hk hb
    obtain ⟨k, rfl⟩ : ∃ j, k = j + 1 := ⟨k - 1, by simp at hk; omega⟩
    rw [nameLen, List.nil_append, aget_append_right hb]
    simp
  | cons b name ih =>
    intro pre post k len base h0 hk hb
    obtain ⟨k, rfl⟩ : ∃ j, k = j + 1 := ⟨k - 1, by simp at hk; omega⟩
    simp only [List.mem_cons, not_or] at h0
    rw [nameLen, List.cons_append, aget_append_right hb]
    simp only [Res.bind_ok]
    rw [if_pos (fun z => h0.1 z.symm)]
    have := ih (pre ++ [b]) post k (len + 1) base h0.2 (by simp at hk; omega) (by simp; omega)
    simp only [List.append_assoc, List.cons_append, List.nil_append] at this
    rw [this]
    simp only [List.length_cons]
    congr 1; omega

theorem padTo4_pads {len n : Nat} (h : Pads len n) {r : Int} (hr : r = ((len : Int)).tmod 4) :
    padTo4 r = n := by
  have h1 := h.1; have h2 := h.2
  rw [Int.tmod_eq_emod_of_nonneg (by omega)] at hr
  unfold padTo4
  split <;> omega

/-- What is chosen as the start of the name. -/
theorem base_spec (name post : List UInt8) :
    nameBase (name ++ 0 :: post) ((name.length + 1 : Nat) : Int) =
      .ok ((name.length - (shownName name).length : Nat) : Int) ∧
      name.drop (name.length - (shownName name).length) = shownName name := by
  rcases name with _ | ⟨a, _ | ⟨b, _ | ⟨d, l⟩⟩⟩
  · simp [shownName, nameBase]
  · simp [shownName, nameBase]
  · simp [shownName, nameBase]
  · have e0 : aget (a :: b :: d :: l ++ 0 :: post) 0 = .ok a := by simp [aget]
    have e1 : aget (a :: b :: d :: l ++ 0 :: post) 1 = .ok b := by simp [aget]
    rw [nameBase, if_pos (by simp only [List.length_cons]; omega), e0, e1]
    simp only [Res.bind_ok]
    by_cases ha : a = 46
    · by_cases hb : b = 47
      · subst ha hb
        have hs : shownName (46 :: 47 :: d :: l) = d :: l := by simp [shownName]
        rw [hs, if_pos rfl, if_pos rfl]
        have : (46 :: 47 :: d :: l).length - (d :: l).length = 2 := by simp only [List.length_cons]; omega
        rw [this]
        exact ⟨rfl, rfl⟩
      · have hs : shownName (a :: b :: d :: l) = a :: b :: d :: l := by
          unfold shownName; split
          · rename_i heq; simp only [List.cons.injEq] at heq; exact absurd heq.2.1 hb
          · rfl
        rw [hs, if_pos ha, if_neg hb]; simp
    · have hs : shownName (a :: b :: d :: l) = a :: b :: d :: l := by
        unfold shownName; split
        · rename_i heq; simp only [List.cons.injEq] at heq; exact absurd heq.1 ha
        · rfl
      rw [hs, if_neg ha]; simp

theorem shown_split (name : List UInt8) :
    ∃ pre, name = pre ++ shownName name ∧ pre.length = name.length - (shownName name).length := by
  refine ⟨name.take (name.length - (shownName name).length), ?_, ?_⟩
  · have := (base_spec name []).2
    conv => lhs; rw [← List.take_append_drop (name.length - (shownName name).length) name, this]
  · rw [List.length_take]; omega

variable {P : StreamOps σ UInt8} {c : List UInt8} {soft : Prop}

/-- Reading the name of a member. -/
theorem readName_spec {s : State σ} {name pad rest : List UInt8} (h0 : 0 ∉ name)
    (hp : Pads (110 + name.length + 1) pad.length)
    (hA : At P c soft s.input (name ++ 0 :: pad ++ rest)) :
    ∃ input, readName P s ((name.length + 1 : Nat) : Int) =
      .ok { s with input := input, info := { s.info with filename := shownName name },
                   status := if shownName name = trailerName then .eof else s.status } ∧
      At P c soft input rest := by
  have e1 : ((name.length + 1 : Nat) : Int) + padTo4 ((((name.length + 1 : Nat) : Int) + 2).tmod 4) =
      ((name ++ 0 :: pad).length : Int) := by
    have : padTo4 ((((name.length + 1 : Nat) : Int) + 2).tmod 4) = pad.length := by
      apply padTo4_pads (len := name.length + 1 + 2)
      · refine ⟨hp.1, ?_⟩
        have := hp.2
        omega
      · congr 1
    rw [this]; simp only [List.length_append, List.length_cons]; omega
  obtain ⟨input, er, hA', _⟩ := hA.read (n := ((name ++ 0 :: pad).length : Int)) rfl
    (by simp only [List.length_append, List.length_cons]; omega)
  refine ⟨input, ?_, hA'⟩
  unfold readName
  dsimp only
  rw [e1, er]
  simp only [Res.bind_ok]
  rw [if_neg (by simp)]
  obtain ⟨eb, _⟩ := base_spec name pad
  rw [eb]
  simp only [Res.bind_ok]
  obtain ⟨pre, hpre, hlen⟩ := shown_split name
  generalize hshown : shownName name = shown at *
  have en : nameLen (name ++ 0 :: pad) ((name.length - shown.length : Nat) : Int)
      ((name.length + 1 : Nat) : Int).toNat 0 = .ok (0 + (shown.length : Int)) := by
    have := nameLen_spec shown pre pad (name.length + 1) 0 (pre.length : Int)
      (fun z => h0 (by rw [hpre]; exact List.mem_append_right _ z))
      (by have : name.length = pre.length + shown.length := by
            conv => lhs; rw [hpre]
            simp
          omega) (by omega)
    rw [hlen] at this
    have e3 : pre ++ (shown ++ 0 :: pad) = name ++ 0 :: pad := by
      conv => rhs; rw [hpre]
      simp
    rw [e3] at this
    rw [← this]; congr 1
  rw [en]
  simp only [Res.bind_ok]
  have es : slice (name ++ 0 :: pad) ((name.length - shown.length : Nat) : Int)
      (0 + (shown.length : Int)) = shown := by
    rw [← hlen]
    unfold slice
    have e3 : name ++ 0 :: pad = pre ++ (shown ++ 0 :: pad) := by
      conv => lhs; rw [hpre]
      simp
    rw [e3]
    simp
  rw [es]
  have ht : trailer = trailerName := rfl
  rw [ht]
  split <;> rfl

/-- Reading a header up to the name. -/
theorem readHeader_fields {s : State σ} {head rest : List UInt8} {size mtime ns : Nat}
    (hh : Header head size mtime ns) (hA : At P c soft s.input (head ++ rest)) :
    ∃ input, readHeader P s = readName P { s with
        input := input
        info := { s.info with size := size, mtime := mtime }
        padding := padTo4 ((size : Int).tmod 4) } ns ∧
      At P c soft input rest := by
  obtain ⟨⟨before, mf, sf, between, nf, check, hhead, hb, hm1, hs1, hbt, hn1, hck⟩, hr1, hr2, hr3⟩ := hh
  have hl : (head.length : Int) = 110 := by
    rw [hhead]
    simp only [List.length_append, hb, hbt, hck, hs1.1, hm1.1, hn1.1, List.length_cons, List.length_nil]
    omega
  obtain ⟨input, er, hA', _⟩ := hA.read (n := 110) hl.symm (by omega)
  have hmagic : head.take 6 = magic := by rw [hhead]; rfl
  have e54 : readHexField head 54 = .ok (size : Int) := by
    apply readHexField_spec hs1 hr2 (pre := [48, 55, 48, 55, 48, 49] ++ before ++ mf)
      (post := between ++ nf ++ check)
    · rw [hhead]; simp
    · simp [hb, hm1.1]
  have e46 : readHexField head 46 = .ok (mtime : Int) := by
    apply readHexField_spec hm1 hr1 (pre := [48, 55, 48, 55, 48, 49] ++ before)
      (post := sf ++ between ++ nf ++ check)
    · rw [hhead]; simp
    · simp [hb]
  have e94 : readHexField head 94 = .ok (ns : Int) := by
    apply readHexField_spec hn1 hr3
      (pre := [48, 55, 48, 55, 48, 49] ++ before ++ mf ++ sf ++ between) (post := check)
    · rw [hhead]; simp
    · simp [hb, hm1.1, hs1.1, hbt]
  refine ⟨input, ?_, hA'⟩
  unfold readHeader
  rw [er]
  simp only [Res.bind_ok]
  rw [if_neg (by simp), if_neg (by simp [hmagic]), e54, e46, e94]
  simp only [Res.bind_ok]

/-- Reading the header of a member. -/
theorem readHeader_spec {s : State σ} {m : Member} {rest : List UInt8} (hm : m.WellFormed)
    (hA : At P c soft s.input (m.bytes ++ rest)) :
    ∃ input, readHeader P s = .ok { s with
        input := input
        info := ⟨shownName m.name, m.content.length, m.mtime, s.info.type⟩
        padding := m.pad.length
        status := if shownName m.name = trailerName then .eof else s.status } ∧
      At P c soft input (m.content ++ (m.pad ++ rest)) := by
  generalize hhead : magic ++ m.before ++ m.mtimeField ++ m.sizeField ++ m.between ++ m.nameField ++
    m.check = head
  have hsplit : m.bytes ++ rest = head ++ (m.name ++ 0 :: m.namePad ++ (m.content ++ (m.pad ++ rest))) := by
    rw [← hhead, Member.bytes]; simp [magic]
  have hh : Header head m.content.length m.mtime (m.name.length + 1) :=
    ⟨⟨_, _, _, _, _, _, hhead.symm, hm.before, hm.mtime.1, hm.size.1, hm.between, hm.nameSize.1, hm.check⟩,
      hm.mtime.2, hm.size.2, by have := hm.nameSize.2; omega⟩
  rw [hsplit] at hA
  obtain ⟨input, er, hA'⟩ := readHeader_fields hh hA
  have epad : padTo4 ((m.content.length : Int).tmod 4) = m.pad.length := padTo4_pads hm.pad rfl
  rw [epad] at er
  obtain ⟨input', e', hA''⟩ := readName_spec
    (s := { s with input := input, padding := m.pad.length,
                   info := { s.info with size := m.content.length, mtime := m.mtime } })
    hm.noNul hm.namePad hA'
  exact ⟨input', er.trans e', hA''⟩

/-- The scan for the end of the name leaves the buffer. -/
theorem nameLen_fault : ∀ (l pre : List UInt8) (k : Nat) (len base : Int), 0 ∉ l → l.length < k →
    base + len = pre.length → nameLen (pre ++ l) base k len = .fault .outOfBounds := by
  intro l
  induction l with
  | nil =>
    intro pre k len base _ hk hb
    obtain ⟨k, rfl⟩ : ∃ j, k = j + 1 := ⟨k - 1, by simp at hk; omega⟩
    rw [nameLen, List.append_nil, aget, hb, if_pos (by omega)]
    simp
  | cons b l ih =>
    intro pre k len base h0 hk hb
    obtain ⟨k, rfl⟩ : ∃ j, k = j + 1 := ⟨k - 1, by simp at hk; omega⟩
    simp only [List.mem_cons, not_or] at h0
    rw [nameLen, aget_append_right hb]
    simp only [Res.bind_ok]
    rw [if_pos (fun z => h0.1 z.symm)]
    have := ih (pre ++ [b]) k (len + 1) base h0.2 (by simp at hk; omega) (by simp; omega)
    simpa using this

/-- The scan for the end of the name stays in the buffer if that is long enough or contains a NUL. -/
theorem nameLen_safe : ∀ (l pre : List UInt8) (k : Nat) (len base : Int), (0 ∈ l ∨ k ≤ l.length) →
    base + len = pre.length → ∃ r, nameLen (pre ++ l) base k len = .ok r := by
  intro l
  induction l with
  | nil =>
    intro pre k len base h hb
    have : k = 0 := by rcases h with h | h <;> simp at h; exact h
    subst this
    exact ⟨len, rfl⟩
  | cons b l ih =>
    intro pre k len base h hb
    cases k with
    | zero => exact ⟨len, rfl⟩
    | succ k =>
      rw [nameLen, aget_append_right hb]
      simp only [Res.bind_ok]
      by_cases hz : b = 0
      · exact ⟨len, by rw [if_neg (by simp [hz])]⟩
      · rw [if_pos hz]
        have := ih (pre ++ [b]) k (len + 1) base
          (by rcases h with h | h
              · simp only [List.mem_cons] at h
                rcases h with h | h
                · exact absurd h.symm hz
                · exact Or.inl h
              · simp only [List.length_cons] at h; exact Or.inr (by omega))
          (by simp; omega)
        simpa using this

/-- The provider is about to read `rest`. -/
def Ready (P : StreamOps σ UInt8) (c : List UInt8) (soft : Prop) (fuel : Nat) (s : State σ)
    (rest : List UInt8) : Prop :=
  s.status = .ok ∧ s.info.type = .file ∧
    ∃ input, leave P fuel s = .ok { s with entry := none, input := input } ∧ At P c soft input rest

theorem skipEntry_spec {e : SubInputStream σ} {fuel : Nat} (hf : 2 ≤ fuel)
    (hst : e.status ≠ .ok ∨ ∃ e' r, SubInputStream.skip P e e.size = .ok (e', r) ∧ e'.status ≠ .ok) :
    ∃ e', skipEntry P fuel e = .ok e' ∧ ((e.status ≠ .ok ∧ e' = e) ∨
      ∃ r, SubInputStream.skip P e e.size = .ok (e', r)) := by
  obtain ⟨f, rfl⟩ : ∃ f, fuel = f + 2 := ⟨fuel - 2, by omega⟩
  by_cases h : e.status = .ok
  · rcases hst with x | ⟨e', r, x, y⟩
    · exact absurd h x
    · refine ⟨e', ?_, Or.inr ⟨r, x⟩⟩
      rw [skipEntry, if_pos h, x]
      simp only [Res.bind_ok]
      rw [skipEntry, if_neg y]
  · exact ⟨e, by rw [skipEntry, if_neg h], Or.inl ⟨h, rfl⟩⟩

/-- `nextEntry()` at the start of a member. -/
theorem nextEntry_spec {fuel : Nat} (hf : 2 ≤ fuel) {s : State σ} {m : Member} {rest : List UInt8}
    (hm : m.WellFormed) (hne : shownName m.name ≠ trailerName)
    (hR : Ready P c soft fuel s (m.bytes ++ rest)) :
    ∃ s' e, nextEntry P fuel s = .ok s' ∧ s'.entry = some e ∧ s'.info = m.entry.info ∧
      s'.status = .ok ∧ e.pos = 0 ∧ e.size = m.content.length ∧
      IsStream (SubInputStream.ops P) m.content Failure.never soft e ∧
      ∀ e' lo hi, Uses (SubInputStream.ops P) m.content soft e e' lo hi →
        Ready P c soft fuel { s' with entry := some e' } rest := by
  obtain ⟨hst, hty, input, el, hA⟩ := hR
  obtain ⟨input', eh, hA'⟩ := readHeader_spec (s := { s with entry := none, input := input }) hm hA
  rw [if_neg hne] at eh
  obtain ⟨e, en, hsz, hpos, hest, hI, hU⟩ := hA'.sub (n := (m.content.length : Int)) rfl
    (by have := hm.size.2; omega)
  refine ⟨{ s with entry := some e, input := input', padding := m.pad.length,
                   info := ⟨shownName m.name, m.content.length, m.mtime, s.info.type⟩ },
    e, ?_, rfl, ?_, hst, hpos, hsz, hI, ?_⟩
  · rw [nextEntry, if_neg (by simp [hst]), el]
    simp only [Res.bind_ok]
    rw [eh]
    simp only [Res.bind_ok]
    rw [en]
    simp only [Res.bind_ok]
    rw [if_neg (by simp [hst])]
  · rw [hty]; rfl
  · intro e' lo hi hu
    obtain ⟨hsz', hne', hk⟩ := hU e' lo hi hu
    refine ⟨hst, hty, ?_⟩
    have hpads := hm.pad.1
    -- leaving the substream
    have hleft : ∃ e'', skipEntry P fuel e' = .ok e'' ∧ At P c soft e''.parent (m.pad ++ rest) := by
      by_cases h0 : e'.status = .ok
      · by_cases hz : (m.content.length : Int) = 0
        · -- an empty entry: `skip(0)` at the end
          have hw : e'.pos = 0 := by
            have hr := (Contract.of_behaves (SubInputStream.ops P) m.content Failure.never soft).range
              ((Contract.of_behaves (SubInputStream.ops P) m.content Failure.never soft).uses
                (fun hs => SoftReset.of_behaves _ _ _ _ hs) hI hu)
            simp only [SubInputStream.ops] at hr
            omega
          have hskip : SubInputStream.skip P e' e'.size = .ok ({ e' with status := .eof }, -1) := by
            rw [SubInputStream.skip, if_pos (by omega)]
          obtain ⟨e'', x, y⟩ := skipEntry_spec (P := P) (fuel := fuel) hf (e := e')
            (Or.inr ⟨_, _, hskip, by simp⟩)
          refine ⟨e'', x, ?_⟩
          rcases y with ⟨y, _⟩ | ⟨r, y⟩
          · exact absurd h0 y
          · rw [hskip] at y; cases y
            obtain ⟨e3, r3, x3, _, _, x5, _⟩ := hk 1 (by omega) (by omega) (by omega)
            rw [SubInputStream.skip, if_pos (by omega)] at x3
            cases x3
            exact x5
        · obtain ⟨e2, r2, x2, x3, x4, x5, _⟩ := hk e'.size (by omega) (by omega)
            (by have := hm.size.2; omega)
          obtain ⟨e'', x, y⟩ := skipEntry_spec (P := P) (fuel := fuel) hf (e := e')
            (Or.inr ⟨_, _, x2, by simp [x4]⟩)
          refine ⟨e'', x, ?_⟩
          rcases y with ⟨y, _⟩ | ⟨r, y⟩
          · exact absurd h0 y
          · rw [x2] at y; cases y; exact x5
      · obtain ⟨e'', x, y⟩ := skipEntry_spec (P := P) (fuel := fuel) hf (e := e') (Or.inl h0)
        obtain ⟨_, hAt, _⟩ := hne' h0
        refine ⟨e'', x, ?_⟩
        have : ∀ f, 1 ≤ f → skipEntry P f e' = .ok e' := by
          intro f hf1
          obtain ⟨g, rfl⟩ : ∃ g, f = g + 1 := ⟨f - 1, by omega⟩
          rw [skipEntry, if_neg h0]
        rw [this fuel (by omega)] at x
        cases x; exact hAt
    obtain ⟨e'', x, hAt⟩ := hleft
    unfold leave
    simp only
    rw [x]
    simp only [Res.bind_ok]
    by_cases hp0 : ((m.pad.length : Nat) : Int) = 0
    · refine ⟨e''.parent, by rw [if_neg (by simp only [hp0]; simp)], ?_⟩
      have : m.pad = [] := List.length_eq_zero_iff.mp (by omega)
      rw [this] at hAt
      exact hAt
    · obtain ⟨i2, r2, ei, hA2, _, _⟩ := hAt.skip (n := (m.pad.length : Int)) rfl (by omega)
      refine ⟨i2, ?_, hA2⟩
      rw [if_pos hp0, ei]
      simp only [Res.bind_ok]

/-- `nextEntry()` at the trailer. -/
theorem nextEntry_trailer {fuel : Nat} {s : State σ} {m : Member} {rest : List UInt8}
    (hm : m.WellFormed) (ht : shownName m.name = trailerName)
    (hR : Ready P c soft fuel s (m.bytes ++ rest)) :
    ∃ s', nextEntry P fuel s = .ok s' ∧ Finished (ops P fuel) .eof s' := by
  obtain ⟨hst, hty, input, el, hA⟩ := hR
  obtain ⟨input', eh, hA'⟩ := readHeader_spec (s := { s with entry := none, input := input }) hm hA
  rw [if_pos ht] at eh
  refine ⟨{ s with entry := none, input := input', padding := m.pad.length, status := .eof,
                   info := ⟨shownName m.name, m.content.length, m.mtime, s.info.type⟩ }, ?_, rfl, rfl, ?_⟩
  · rw [nextEntry, if_neg (by simp [hst]), el]
    simp only [Res.bind_ok]
    rw [eh]
    simp only [Res.bind_ok]
    rw [SubInputStream.new, Res.assert_of (by simp)]
    simp only [Res.bind_ok]
    rw [if_pos (by simp)]
  · simp only [ops]
    rw [nextEntry, if_pos (by simp)]

/-- `nextEntry()` when nothing is left. -/
theorem nextEntry_end {fuel : Nat} {s : State σ} (hsz : -1 ≤ s.info.size)
    (hR : Ready P c soft fuel s []) :
    ∃ s', nextEntry P fuel s = .ok s' ∧ Finished (ops P fuel) .eof s' := by
  obtain ⟨hst, hty, input, el, hA⟩ := hR
  obtain ⟨input', k, d, er, hA', _, hz⟩ := hA.read_short (n := 110) (by omega) (by simp)
  obtain ⟨hk, _, hs⟩ := hz rfl
  refine ⟨{ s with entry := none, input := input', status := .eof }, ?_, rfl, rfl, ?_⟩
  · rw [nextEntry, if_neg (by simp [hst]), el]
    simp only [Res.bind_ok]
    rw [readHeader, er]
    simp only [Res.bind_ok]
    rw [if_pos (by omega)]
    simp only [Res.bind_ok]
    rw [SubInputStream.new, Res.assert_of (by simpa using hsz)]
    simp only [Res.bind_ok, hs]
    rw [if_pos (by simp)]
  · simp only [ops]
    rw [nextEntry, if_pos (by simp)]

/-- Iterating over members followed by `tail`, given what happens at `tail`. -/
theorem presents {fuel : Nat} (hf : 2 ≤ fuel) {tail : List UInt8} {last : Status}
    (hend : ∀ s : State σ, -1 ≤ s.info.size → Ready P c soft fuel s tail →
      ∃ s', nextEntry P fuel s = .ok s' ∧ Finished (ops P fuel) last s') :
    ∀ (ms : List Member) (s : State σ), (∀ m ∈ ms, m.WellFormed ∧ shownName m.name ≠ trailerName) →
      -1 ≤ s.info.size → Ready P c soft fuel s (ms.flatMap Member.bytes ++ tail) →
      Presents (ops P fuel) Failure.never soft last s (ms.map Member.entry) := by
  intro ms
  induction ms with
  | nil =>
    intro s _ hsz hR
    simp only [List.flatMap_nil, List.nil_append] at hR
    exact hend s hsz hR
  | cons m ms ih =>
    intro s hms hsz hR
    rw [List.flatMap_cons, List.append_assoc] at hR
    obtain ⟨hm, hne⟩ := hms m (by simp)
    obtain ⟨s', e, x1, x2, x3, x4, x5, x6, x7, x8⟩ := nextEntry_spec hf hm hne hR
    refine ⟨s', e, x1, x2, x3, x4, x5, x6, x7, fun e' lo hi hu => ?_⟩
    refine ih _ (fun m' hm' => hms m' (by simp [hm'])) ?_ (x8 e' lo hi hu)
    simp only [ops]
    rw [x3]; simp only [Member.entry]; omega

end Strigi.Cpio
