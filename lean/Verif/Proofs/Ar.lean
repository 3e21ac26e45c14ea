import Verif.Model.Ar
import Verif.Proofs.CLib

namespace Strigi.Ar

open ArSpec

variable {σ : Type} {P : StreamOps σ UInt8} {c : List UInt8} {soft : Prop}

/-- Only the header and possibly a byte of padding lie before `rest`. -/
def Aligned (P : StreamOps σ UInt8) (c : List UInt8) (soft : Prop) (input : σ) (rest : List UInt8) : Prop :=
  ∃ pad, At P c soft input (pad ++ rest) ∧
    ((pad.length : Int) = P.position input % 2 ∨ (pad = [] ∧ rest = []))

theorem align_spec {input : σ} {rest : List UInt8} (h : Aligned P c soft input rest) :
    ∃ input', align P input = .ok input' ∧ At P c soft input' rest ∧
      (rest ≠ [] → P.position input' % 2 = 0) := by
  obtain ⟨pad, hA, hp⟩ := h
  have hr := hA.range
  unfold align
  rw [Int.tmod_eq_emod_of_nonneg hr.1]
  by_cases hz : P.position input % 2 = 0
  · rw [if_neg (by simp [hz])]
    have : pad = [] := by
      rcases hp with x | ⟨x, _⟩
      · exact List.length_eq_zero_iff.mp (by omega)
      · exact x
    subst this
    exact ⟨input, rfl, by simpa using hA, fun _ => hz⟩
  · rw [if_pos hz]
    rcases hp with x | ⟨x, y⟩
    · obtain ⟨i, r, e, hA', hpos, _⟩ := hA.skip (n := 1) (by omega) (by omega)
      exact ⟨i, by rw [e]; rfl, hA', fun _ => by omega⟩
    · subst x y
      obtain ⟨i, r, e, hA', _⟩ := hA.skip_short (n := 1) (by simp) (by omega)
      exact ⟨i, by rw [e]; rfl, hA', fun z => absurd rfl z⟩

/-- The parts of a header. -/
theorem header_parts {head field : List UInt8} {mtime size : Nat} (h : Header head field mtime size) :
    head.length = 60 ∧ head.take 16 = field ∧ (∃ r, head = field ++ r) ∧
      CLib.atoi ((head ++ [0]).drop 48) = .ok (size : Int) ∧
      CLib.atoi ((head ++ [0]).drop 16) = .ok (mtime : Int) := by
  obtain ⟨mf, other, sf, rfl, hl, ⟨md, mk, hm1, hm2, hm3, hm4⟩, ho, ⟨sd, sk, hs1, hs2, hs3, hs4⟩, ht, hsz⟩ := h
  refine ⟨by simp [hl, hm4, ho, hs4], ?_, ⟨_, by simp only [List.append_assoc]; rfl⟩, ?_, ?_⟩
  · rw [← hl]; simp
  · have : (field ++ (mf ++ [32]) ++ other ++ sf ++ [96, 10] ++ [0]).drop 48 = sf ++ [96, 10, 0] := by
      have : (field ++ (mf ++ [32]) ++ other).length = 48 := by simp [hl, hm4, ho]
      rw [← this]; simp
    rw [this, hs1]
    cases sk with
    | zero =>
      have := CLib.atoi_spec 0 sd 96 [10, 0] size hs2 hs3 (Or.inr (by decide)) hsz
      simpa using this
    | succ k =>
      have := CLib.atoi_spec 0 sd 32 (List.replicate k 32 ++ [96, 10, 0]) size hs2 hs3
        (Or.inl (by decide)) hsz
      rw [List.replicate_succ]
      simpa using this
  · have : (field ++ (mf ++ [32]) ++ other ++ sf ++ [96, 10] ++ [0]).drop 16 =
        mf ++ 32 :: (other ++ sf ++ [96, 10, 0]) := by
      rw [← hl]; simp
    rw [this, hm1]
    cases mk with
    | zero =>
      have := CLib.atoi_spec 0 md 32 (other ++ sf ++ [96, 10, 0]) mtime hm2 hm3 (Or.inl (by decide)) ht
      simpa using this
    | succ k =>
      have := CLib.atoi_spec 0 md 32 (List.replicate k 32 ++ 32 :: (other ++ sf ++ [96, 10, 0])) mtime
        hm2 hm3 (Or.inl (by decide)) ht
      rw [List.replicate_succ]
      simpa using this

theorem nameLen_short : ∀ (name pre rest : List UInt8) (k : Nat),
    (∀ b ∈ name, b ≠ 32 ∧ b ≠ 47 ∧ b ≠ 0) →
    (name.length = k ∨ ∃ b l, rest = b :: l ∧ name.length < k ∧ (b = 32 ∨ b = 47 ∨ b = 0)) →
    nameLen (pre ++ (name ++ rest)) k pre.length = .ok ((pre.length + name.length : Nat) : Int) := by
  intro name
  induction name with
  | nil =>
    intro pre rest k _ h
    rcases h with h | ⟨b, l, h1, h2, h3⟩
    · simp only [List.length_nil] at h
      subst h
      simp [nameLen]
    · obtain ⟨k, rfl⟩ : ∃ j, k = j + 1 := ⟨k - 1, by simp at h2; omega⟩
      subst h1
      rw [nameLen, List.nil_append, Cpio.aget_append_right rfl]
      simp only [Res.bind_ok]
      rw [if_pos h3]
      simp
  | cons b name ih =>
    intro pre rest k hn h
    obtain ⟨k, rfl⟩ : ∃ j, k = j + 1 := by
      rcases h with h | ⟨_, _, _, h, _⟩
      · exact ⟨name.length, by simp at h; omega⟩
      · exact ⟨k - 1, by omega⟩
    have hb := hn b (by simp)
    rw [nameLen, List.cons_append, Cpio.aget_append_right rfl]
    simp only [Res.bind_ok]
    rw [if_neg (by simp [hb])]
    have := ih (pre ++ [b]) rest k (fun x hx => hn x (by simp [hx]))
      (by rcases h with h | ⟨b', l, h1, h2, h3⟩
          · left; simp at h; exact h
          · right; exact ⟨b', l, h1, by simp at h2; exact h2, h3⟩)
    simp only [List.append_assoc, List.cons_append, List.nil_append, List.length_append,
      List.length_cons, List.length_nil] at this
    rw [show (pre.length : Int) + 1 = ((pre.length + (0 + 1) : Nat) : Int) by omega, this]
    simp only [List.length_cons]
    congr 2; omega

theorem nameAt_spec {before name after : List UInt8} (hn : ∀ b ∈ name, b ≠ 47 ∧ b ≠ 0) :
    nameAt (before ++ name ++ 47 :: after) before.length = name := by
  unfold nameAt
  rw [List.append_assoc, List.drop_left, List.takeWhile_append_of_pos]
  · simp
  · intro b hb
    simpa using hn b hb

/-- The parts of the state that `readHeader` does not touch. -/
theorem readHeader_entry : ∀ (fuel : Nat) (s s' : State σ), readHeader P fuel s = .ok s' →
    s'.entry = s.entry := by
  intro fuel
  induction fuel with
  | zero => intro s s' h; cases h
  | succ fuel ih =>
    intro s s' h
    rw [readHeader] at h
    generalize align P s.input = r0 at h
    rcases r0 with i0 | _ | _
    · simp only [Res.bind_ok] at h
      generalize P.read i0 60 60 = r1 at h
      rcases r1 with ⟨i1, n, b⟩ | _ | _
      · simp only [Res.bind_ok] at h
        split at h
        · cases h; rfl
        · split at h
          · cases h; rfl
          · split at h
            · cases h; rfl
            · generalize nameLen b 16 0 = r2 at h
              rcases r2 with len | _ | _
              · simp only [Res.bind_ok] at h
                generalize CLib.atoi (List.drop 48 _) = r3 at h
                rcases r3 with size | _ | _
                · simp only [Res.bind_ok] at h
                  split at h
                  · cases h; rfl
                  · generalize CLib.atoi (List.drop 16 _) = r4 at h
                    rcases r4 with mtime | _ | _
                    · simp only [Res.bind_ok] at h
                      split at h
                      · generalize aget b 1 = r5 at h
                        rcases r5 with b1 | _ | _
                        · simp only [Res.bind_ok] at h
                          split at h
                          · generalize P.read i1 size size = r6 at h
                            rcases r6 with ⟨i2, n2, d2⟩ | _ | _
                            · simp only [Res.bind_ok] at h
                              split at h
                              · cases h; rfl
                              · generalize hq : readHeader P fuel _ = r7 at h
                                rcases r7 with s7 | _ | _
                                · simp only [Res.bind_ok] at h
                                  cases h
                                  have := ih _ _ hq
                                  exact this
                                · cases h
                                · cases h
                            · cases h
                            · cases h
                          · split at h
                            · generalize P.skip i1 size = r6 at h
                              rcases r6 with ⟨i2, n2⟩ | _ | _
                              · simp only [Res.bind_ok] at h
                                generalize hq : readHeader P fuel _ = r7 at h
                                rcases r7 with s7 | _ | _
                                · simp only [Res.bind_ok] at h
                                  cases h
                                  have := ih _ _ hq
                                  exact this
                                · cases h
                                · cases h
                              · cases h
                              · cases h
                            · generalize CLib.atoi (List.drop 1 _) = r6 at h
                              rcases r6 with p | _ | _
                              · simp only [Res.bind_ok] at h
                                split at h <;> (cases h; rfl)
                              · cases h
                              · cases h
                        · cases h
                        · cases h
                      · cases h; rfl
                    · cases h
                    · cases h
                · cases h
                · cases h
              · cases h
              · cases h
      · cases h
      · cases h
    · cases h
    · cases h

/-- What reading the next header of an archive with the entries `l` leads to. -/
def Next (P : StreamOps σ UInt8) (c : List UInt8) (soft : Prop) (K : Nat) (s' : State σ) :
    List ArchiveEntry → Prop
  | [] => s'.status = .eof
  | e :: l => s'.status = .ok ∧ s'.info = e.info ∧ e.info.size = e.content.length ∧
      e.content.length < 2 ^ 31 ∧ ∃ pad rest,
        At P c soft s'.input (e.content ++ (pad ++ rest)) ∧
        ((pad.length : Int) = (P.position s'.input + e.content.length) % 2 ∨ (pad = [] ∧ rest = [])) ∧
        Archive s'.names l rest ∧ rest.length ≤ K

theorem Next.type {K K' : Nat} (hK : K ≤ K') {s' : State σ} {l : List ArchiveEntry} (h : Next P c soft K s' l)
    (hl : ∀ e ∈ l, e.info.type = .file) :
    Next P c soft K' { s' with info := { s'.info with type := .file } } l := by
  cases l with
  | nil => exact h
  | cons e l =>
    obtain ⟨h1, h2, h3, h4, p, r, h5, h6, h7, h8⟩ := h
    refine ⟨h1, ?_, h3, h4, p, r, h5, h6, h7, by omega⟩
    have := hl e (by simp)
    simp only [h2]
    obtain ⟨⟨_, _, _, _⟩, _⟩ := e
    simp only at this
    subst this
    rfl

theorem Archive_types {table bytes : List UInt8} {l : List ArchiveEntry} (h : Archive table l bytes) :
    ∀ e ∈ l, e.info.type = .file := by
  induction h with
  | done => intro e he; cases he
  | closing => intro e he; cases he
  | entry _ _ _ _ ih =>
    intro e he
    simp only [List.mem_cons] at he
    rcases he with rfl | he
    · rfl
    · exact ih e he
  | symbols _ _ _ _ ih => exact ih
  | names _ _ _ _ _ ih => exact ih

/-- Up to the evaluation of the name. -/
theorem readHeader_step {head field rest : List UInt8} {mtime size : Nat}
    (hh : Header head field mtime size) {s : State σ} {fuel : Nat}
    (hA : Aligned P c soft s.input (head ++ rest)) {len : Int} (hlen : nameLen head 16 0 = .ok len) :
    ∃ input, At P c soft input rest ∧ P.position input % 2 = 0 ∧
      readHeader P (fuel + 1) s =
        (let s : State σ := { s with input := input, info := { s.info with size := size, mtime := mtime } }
        if len = 0 then do
          let b1 ← aget head 1
          if b1 = 47 then
            let (input, nread, d) ← P.read s.input size size
            let s := { s with input := input }
            if nread ≠ size then .ok { s with status := .error }
            else
              let s ← readHeader P fuel { s with names := slice d 0 size }
              .ok { s with info := { s.info with type := .file } }
          else if b1 = 32 then
            let (input, _) ← P.skip s.input size
            let s ← readHeader P fuel { s with input := input }
            .ok { s with info := { s.info with type := .file } }
          else
            let p := ((← CLib.atoi ((head ++ [0]).drop 1)) % 2 ^ 32).toNat
            if s.names.length ≤ p then .ok { s with status := .error }
            else .ok { s with info := { s.info with filename := nameAt s.names p, type := .file } }
        else .ok { s with info := { s.info with filename := slice head 0 len, type := .file } }) := by
  obtain ⟨hl, _, _, e48, e16⟩ := header_parts hh
  obtain ⟨i0, e0, hA0, hpos0⟩ := align_spec hA
  obtain ⟨i1, e1, hA1, hpos1⟩ := hA0.read (n := 60) (by omega) (by omega)
  have hne : head ++ rest ≠ [] := by intro z; rw [List.append_eq_nil_iff] at z; rw [z.1] at hl; simp at hl
  refine ⟨i1, hA1, by have := hpos0 hne; omega, ?_⟩
  rw [readHeader, e0]
  simp only [Res.bind_ok]
  rw [e1]
  simp only [Res.bind_ok]
  rw [if_neg hA1.status_ne, if_neg (by omega), if_neg (by simp), hlen]
  simp only [Res.bind_ok]
  rw [e48]
  simp only [Res.bind_ok]
  rw [if_neg (by omega), e16]
  simp only [Res.bind_ok]

/-- The header of an entry. -/
theorem step_entry {table field name head x : List UInt8} {mtime size : Nat} (hname : ShortName field name ∨ LongName table field name)
    (hh : Header head field mtime size) {s : State σ} (hs : s.names = table) (fuel : Nat)
    (hA : Aligned P c soft s.input (head ++ x)) :
    ∃ input, At P c soft input x ∧ P.position input % 2 = 0 ∧
      readHeader P (fuel + 1) s = .ok { s with input := input, info := ⟨name, size, mtime, .file⟩ } := by
  obtain ⟨hl, htake, ⟨r, hr⟩, _, _⟩ := header_parts hh
  rcases hname with ⟨hne, hfl, hch, hform⟩ | ⟨digits, k, offset, before, after, hf1, hf2, hf3, hf4, hf5, hf6, hf7, hf8⟩
  · have hlen : nameLen head 16 0 = .ok (name.length : Int) := by
      rcases hform with x | ⟨b, l', x, y⟩
      · have := nameLen_short name [] r 16 hch (Or.inl (by rw [← x]; exact hfl))
        rw [hr, x]
        simpa using this
      · have hnl : name.length < 16 := by
          rw [x] at hfl; simp only [List.length_append, List.length_cons] at hfl; omega
        have := nameLen_short name [] (b :: (l' ++ r)) 16 hch (Or.inr ⟨b, _, rfl, hnl, y⟩)
        rw [hr, x]
        simpa using this
    obtain ⟨input, hAi, hpos, e⟩ := readHeader_step (fuel := fuel) hh hA hlen
    have hn0 : (name.length : Int) ≠ 0 := by
      have := List.length_pos_iff.mpr hne; omega
    refine ⟨input, hAi, hpos, ?_⟩
    rw [e]
    simp only
    rw [if_neg hn0]
    have hs0 : slice head 0 (name.length : Int) = name := by
      rw [hr]
      rcases hform with x | ⟨b, l', x, y⟩
      · rw [x]; simp [slice]
      · rw [x]; simp [slice]
    rw [hs0]
  · have hlen : nameLen head 16 0 = .ok 0 := by
      rw [hr, hf1]
      simp [nameLen, aget]
    obtain ⟨input, hAi, hpos, e⟩ := readHeader_step (fuel := fuel) hh hA hlen
    refine ⟨input, hAi, hpos, ?_⟩
    obtain ⟨d, ds, rfl⟩ : ∃ d ds, digits = d :: ds := by
      cases digits with
      | nil => exact absurd rfl hf2
      | cons d l => exact ⟨d, l, rfl⟩
    have hd : 48 ≤ d.toNat ∧ d.toNat ≤ 57 := by
      rw [decimal] at hf3
      cases hn : decimal ds with
      | none => rw [hn] at hf3; simp at hf3
      | some w =>
        rw [hn] at hf3
        simp only [Option.bind_eq_bind, Option.bind_some] at hf3
        split at hf3
        · assumption
        · cases hf3
    have ea : aget head 1 = .ok d := by rw [hr, hf1]; simp [aget]
    have h47 : d ≠ 47 := by intro z; subst z; simp at hd
    have h32 : d ≠ 32 := by intro z; subst z; simp at hd
    have eat : CLib.atoi ((head ++ [0]).drop 1) = .ok (offset : Int) := by
      have := CLib.atoi_spec 0 (d :: ds) 32 (List.replicate k 32 ++ (r ++ [0])) offset hf2 hf3
        (Or.inl (by decide)) hf4
      rw [hr, hf1, List.replicate_succ]
      simpa using this
    rw [e]
    simp only
    rw [if_pos trivial, ea]
    simp only [Res.bind_ok]
    rw [if_neg h47, if_neg h32, eat]
    simp only [Res.bind_ok]
    have hp : ((offset : Int) % 2 ^ 32).toNat = offset := by omega
    rw [hp, hs, if_neg (by rw [hf6]; simp; omega)]
    have : nameAt table offset = name := by rw [hf6, ← hf7]; exact nameAt_spec hf8
    rw [this]

/-- The header of the symbol table. -/
theorem step_symbols {field head x : List UInt8} {mtime size : Nat} (hf : field = 47 :: List.replicate 15 32)
    (hh : Header head field mtime size) (s : State σ) (fuel : Nat) (hA : Aligned P c soft s.input (head ++ x)) :
    ∃ input, At P c soft input x ∧ P.position input % 2 = 0 ∧
      readHeader P (fuel + 1) s = (do
        let (input, _) ← P.skip input size
        let s ← readHeader P fuel { s with input := input, info := { s.info with size := size, mtime := mtime } }
        .ok { s with info := { s.info with type := .file } }) := by
  obtain ⟨hl, htake, ⟨r, hr⟩, _, _⟩ := header_parts hh
  have hlen : nameLen head 16 0 = .ok 0 := by
    rw [hr, hf]; simp [nameLen, aget]
  obtain ⟨input, hAi, hpos, e⟩ := readHeader_step (fuel := fuel) hh hA hlen
  have ea : aget head 1 = .ok 32 := by rw [hr, hf]; simp [aget]
  refine ⟨input, hAi, hpos, ?_⟩
  rw [e]
  simp only
  rw [if_pos trivial, ea]
  simp only [Res.bind_ok]
  rw [if_neg (by decide), if_pos trivial]

/-- The header of the name table. -/
theorem step_names {field head x : List UInt8} {mtime size : Nat} (hf : field = 47 :: 47 :: List.replicate 14 32)
    (hh : Header head field mtime size) (s : State σ) (fuel : Nat) (hA : Aligned P c soft s.input (head ++ x)) :
    ∃ input, At P c soft input x ∧ P.position input % 2 = 0 ∧
      readHeader P (fuel + 1) s = (do
        let (input, nread, d) ← P.read input size size
        let s : State σ := { s with input := input, info := { s.info with size := size, mtime := mtime } }
        if nread ≠ size then .ok { s with status := .error }
        else
          let s ← readHeader P fuel { s with names := slice d 0 size }
          .ok { s with info := { s.info with type := .file } }) := by
  obtain ⟨hl, htake, ⟨r, hr⟩, _, _⟩ := header_parts hh
  have hlen : nameLen head 16 0 = .ok 0 := by
    rw [hr, hf]; simp [nameLen, aget]
  obtain ⟨input, hAi, hpos, e⟩ := readHeader_step (fuel := fuel) hh hA hlen
  have ea : aget head 1 = .ok 47 := by rw [hr, hf]; simp [aget]
  refine ⟨input, hAi, hpos, ?_⟩
  rw [e]
  simp only
  rw [if_pos trivial, ea]
  simp only [Res.bind_ok]
  rw [if_pos trivial]

/-- At most one byte is left. -/
theorem readHeader_end {bytes : List UInt8} (hb : bytes.length ≤ 1) (fuel : Nat) (s : State σ) (hA : Aligned P c soft s.input bytes) :
    ∃ i, readHeader P (fuel + 1) s = .ok { s with input := i, status := .eof } := by
  obtain ⟨i0, e0, hA0, _⟩ := align_spec hA
  obtain ⟨i1, k, d, e1, hA1, h1, h2⟩ := hA0.read_short (n := 60) (by omega) (by omega)
  refine ⟨i1, ?_⟩
  have hk : k ≤ 1 := by
    by_cases hz : bytes = []
    · have := (h2 hz).1; omega
    · have := (h1 hz).1; omega
  rw [readHeader, e0]
  simp only [Res.bind_ok]
  rw [e1]
  simp only [Res.bind_ok]
  rw [if_neg hA1.status_ne, if_pos hk]

theorem header_size {head field : List UInt8} {mtime size : Nat} (hh : Header head field mtime size) : size < 2 ^ 31 := by
  obtain ⟨_, _, _, _, _, _, _, _, _, x⟩ := hh; exact x

/-- `readHeader()` finds the next entry of an archive, or its end. -/
theorem readHeader_spec {table bytes : List UInt8} {l : List ArchiveEntry} (h : Archive table l bytes) :
    ∀ fuel, bytes.length < fuel → ∀ s : State σ, s.names = table → s.status = .ok →
      Aligned P c soft s.input bytes →
      ∃ s', readHeader P fuel s = .ok s' ∧ Next P c soft bytes.length s' l := by
  induction h with
  | done =>
    intro fuel hf s _ _ hA
    obtain ⟨fuel, rfl⟩ : ∃ f, fuel = f + 1 := ⟨fuel - 1, by omega⟩
    obtain ⟨i, e⟩ := readHeader_end (by simp) fuel s hA
    exact ⟨_, e, rfl⟩
  | closing =>
    intro fuel hf s _ _ hA
    obtain ⟨fuel, rfl⟩ : ∃ f, fuel = f + 1 := ⟨fuel - 1, by omega⟩
    obtain ⟨i, e⟩ := readHeader_end (by simp) fuel s hA
    exact ⟨_, e, rfl⟩
  | @entry table field name content pad head rest l mtime hname hh hpad hrest ih =>
    intro fuel hf s hs hst hA
    obtain ⟨fuel, rfl⟩ : ∃ f, fuel = f + 1 := ⟨fuel - 1, by omega⟩
    rw [show head ++ content ++ pad ++ rest = head ++ (content ++ (pad ++ rest)) by simp] at hA
    obtain ⟨input, hAi, hpos, e⟩ := step_entry hname hh hs fuel hA
    refine ⟨_, e, hst, rfl, rfl, header_size hh, pad, rest, hAi, ?_, by simp only; rw [hs]; exact hrest,
      by simp only [List.length_append]; omega⟩
    rcases hpad with x | x
    · left; simp only; omega
    · exact Or.inr x
  | @symbols table field content pad head rest l mtime hf hh hpad hrest ih =>
    intro fuel hfu s hs hst hA
    obtain ⟨fuel, rfl⟩ : ∃ f, fuel = f + 1 := ⟨fuel - 1, by omega⟩
    have hsz := header_size hh
    rw [show head ++ content ++ pad ++ rest = head ++ (content ++ (pad ++ rest)) by simp] at hA
    have hl := (header_parts hh).1
    obtain ⟨input, hAi, hpos, e⟩ := step_symbols hf hh s fuel hA
    obtain ⟨i2, r2, e2, hA2, hpos2, _⟩ := hAi.skip (n := (content.length : Int)) rfl (by omega)
    obtain ⟨s', e3, hN⟩ := ih fuel (by simp only [List.length_append] at hfu; omega)
      { s with input := i2, info := { s.info with size := content.length, mtime := mtime } } hs hst
      ⟨pad, hA2, by
        rcases hpad with x | x
        · left; simp only; omega
        · exact Or.inr x⟩
    refine ⟨_, ?_, hN.type (by simp only [List.length_append]; omega) (Archive_types hrest)⟩
    rw [e, e2]
    simp only [Res.bind_ok]
    rw [e3]
    simp only [Res.bind_ok]
  | @names table field content pad head rest l mtime hf hh hne hpad hrest ih =>
    intro fuel hfu s hs hst hA
    obtain ⟨fuel, rfl⟩ : ∃ f, fuel = f + 1 := ⟨fuel - 1, by omega⟩
    have hsz := header_size hh
    rw [show head ++ content ++ pad ++ rest = head ++ (content ++ (pad ++ rest)) by simp] at hA
    obtain ⟨input, hAi, hpos, e⟩ := step_names hf hh s fuel hA
    have := List.length_pos_iff.mpr hne
    obtain ⟨i2, e2, hA2, hpos2⟩ := hAi.read (n := (content.length : Int)) rfl (by omega)
    obtain ⟨s', e3, hN⟩ := ih fuel (by simp only [List.length_append] at hfu; omega)
      { s with input := i2, info := { s.info with size := content.length, mtime := mtime },
               names := content } rfl hst
      ⟨pad, hA2, by
        rcases hpad with x | x
        · left; simp only; omega
        · exact Or.inr x⟩
    refine ⟨_, ?_, hN.type (by simp only [List.length_append]; omega) (Archive_types hrest)⟩
    rw [e, e2]
    simp only [Res.bind_ok]
    have : slice content 0 (content.length : Int) = content := slice_all content
    rw [if_neg (by simp), this, e3]
    simp only [Res.bind_ok]

/-- The provider is about to read `rest`. -/
def Ready (P : StreamOps σ UInt8) (c : List UInt8) (soft : Prop) (s : State σ) (rest : List UInt8) : Prop :=
  s.status = .ok ∧
    ∃ input, leave P s = .ok { s with entry := none, input := input } ∧ Aligned P c soft input rest

/-- Iterating over an archive. -/
theorem presents : ∀ (l : List ArchiveEntry) {fuel : Nat} {table bytes : List UInt8} (s : State σ),
    Archive table l bytes → bytes.length < fuel → s.names = table → Ready P c soft s bytes →
    Presents (ops P fuel) Failure.never soft .eof s l := by
  intro l
  induction l with
  | nil =>
    intro fuel table bytes s hArch hf hs hR
    obtain ⟨hst, input, el, hA⟩ := hR
    obtain ⟨s', e, hN⟩ := readHeader_spec hArch fuel hf { s with entry := none, input := input } hs hst hA
    have hent := readHeader_entry _ _ _ e
    have hst' : s'.status = .eof := hN
    refine ⟨s', ?_, hent, hst', ?_⟩
    · simp only [ops]
      rw [nextEntry, if_neg (by simp [hst]), el]
      simp only [Res.bind_ok]
      rw [e]
      simp only [Res.bind_ok]
      rw [if_pos (by simp [hst'])]
    · simp only [ops]
      rw [nextEntry, if_pos (by simp [hst'])]
  | cons a l ih =>
    intro fuel table bytes s hArch hf hs hR
    obtain ⟨hst, input, el, hA⟩ := hR
    obtain ⟨s', e, hN⟩ := readHeader_spec hArch fuel hf { s with entry := none, input := input } hs hst hA
    obtain ⟨hst', hinfo, hsz, hlt, pad, rest, hAt, hpad, hrest, hK⟩ := hN
    obtain ⟨es, en, hessz, hpos, hI, hU⟩ := hAt.sub_skip (n := (a.content.length : Int)) rfl (by omega)
    refine ⟨{ s' with entry := some es }, es, ?_, rfl, hinfo, hst', hpos, by simp only [ops, SubInputStream.ops]; omega, hI, ?_⟩
    · simp only [ops]
      rw [nextEntry, if_neg (by simp [hst]), el]
      simp only [Res.bind_ok]
      rw [e]
      simp only [Res.bind_ok]
      rw [if_neg (by simp [hst']), hinfo, hsz, en]
      simp only [Res.bind_ok]
    · intro es' lo hi hu
      obtain ⟨e2, r2, x1, x2, x3, x4⟩ := hU es' lo hi hu
      refine ih (table := s'.names) (bytes := rest) _ hrest (by omega) rfl ⟨hst', e2.parent, ?_, pad, x3, ?_⟩
      · simp only [ops, leave]
        rw [x1]
        simp only [Res.bind_ok]
      · rw [x4]; exact hpad

end Strigi.Ar
