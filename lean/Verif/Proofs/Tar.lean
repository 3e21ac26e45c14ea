import Verif.Model.Tar
import Verif.TarSpec
import Verif.Proofs.CLib

namespace Strigi.Tar

open TarSpec

variable {σ : Type} {P : StreamOps σ UInt8} {c : List UInt8} {soft : Prop}

theorem denotes_eight (l : List UInt8) : CLib.denotes 8 l = octal l := by
  induction l with
  | nil => rfl
  | cons b l ih =>
    rw [CLib.denotes, octal, ih]
    cases octal l with
    | none => rfl
    | some v =>
      simp only [Option.bind_eq_bind, Option.bind_some]
      by_cases h : 48 ≤ b.toNat ∧ b.toNat ≤ 55
      · rw [if_pos (by omega), if_pos h]
      · rw [if_neg (by omega), if_neg h]

theorem scanOctal_spec {f : List UInt8} {n : Nat} (h : Field f n) (hn : n < 2 ^ 31) (rest : List UInt8) :
    CLib.scanOctal (f ++ rest) = .ok (some (n : Int)) := by
  obtain ⟨k, ds, j, t, rfl, ht, hne, ho, _⟩ := h
  have := CLib.number_spec (base := 8) (by omega) k ds t (List.replicate j t ++ rest) n hne
    (by rw [denotes_eight]; exact ho) (by rcases ht with rfl | rfl <;> decide)
  rw [CLib.scanOctal, List.replicate_succ]
  rw [show List.replicate k 32 ++ ds ++ t :: List.replicate j t ++ rest =
    List.replicate k 32 ++ (ds ++ t :: (List.replicate j t ++ rest)) by simp, this]
  simp only [Res.bind_ok]
  rw [if_pos (by simp; omega), narrow32_of_range (by omega) (by omega)]

/-- The last byte of a field ends it. -/
theorem field_last {f : List UInt8} {n : Nat} (h : Field f n) :
    ∃ g t, f = g ++ [t] ∧ (t = 0 ∨ t = 32) ∧ g.length = 11 := by
  obtain ⟨k, ds, j, t, rfl, ht, _, _, hl⟩ := h
  refine ⟨List.replicate k 32 ++ ds ++ List.replicate j t, t, ?_, ht, ?_⟩
  · rw [List.replicate_succ']; simp
  · simp only [List.length_append, List.length_replicate] at hl ⊢; omega

/-- A field contains a byte that is not NUL. -/
theorem field_nonzero {f : List UInt8} {n : Nat} (h : Field f n) : ∃ b ∈ f, b ≠ 0 := by
  obtain ⟨k, ds, j, t, rfl, ht, hne, ho, hl⟩ := h
  obtain ⟨d, l, rfl⟩ : ∃ d l, ds = d :: l := by
    cases ds with
    | nil => exact absurd rfl hne
    | cons d l => exact ⟨d, l, rfl⟩
  refine ⟨d, by simp, ?_⟩
  rw [octal] at ho
  cases hn : octal l with
  | none => rw [hn] at ho; simp at ho
  | some w =>
    rw [hn] at ho
    simp only [Option.bind_eq_bind, Option.bind_some] at ho
    split at ho
    · rename_i hd; intro z; subst z; simp at hd
    · cases ho

theorem drop_left' {a b : List UInt8} {n : Nat} (h : a.length = n) : (a ++ b).drop n = b := by
  rw [← h]; simp

structure Parts (head front : List UInt8) (size mtime : Nat) (type : EntryType) : Prop where
  len : head.length = 512
  front : ∃ r, head = front ++ r
  size : CLib.scanOctal (head.drop 124) = .ok (some (size : Int))
  mtime : CLib.scanOctal (head.drop 136) = .ok (some (mtime : Int))
  flag : ∃ t, aget head 156 = .ok t ∧ flagType t = type
  nonzero : ∃ b ∈ slice head 100 156, b ≠ 0
  b135 : ∃ t, aget head 135 = .ok t ∧ (t = 0 ∨ t = 32)
  b147 : ∃ t, aget head 147 = .ok t ∧ (t = 0 ∨ t = 32)

theorem fields_parts {head front back : List UInt8} {size mtime : Nat} {type : EntryType}
    (h : Fields head front back size mtime type) : Parts head front size mtime type := by
  obtain ⟨sf, mf, ck, t, rfl, hfr, hs, hs2, hm, hm2, hck, hty, hb⟩ := h
  have hsl : sf.length = 12 := by obtain ⟨_, _, _, _, _, _, _, _, x⟩ := hs; exact x
  have hml : mf.length = 12 := by obtain ⟨_, _, _, _, _, _, _, _, x⟩ := hm; exact x
  constructor
  · simp [hfr, hsl, hml, hck, hb]
  · exact ⟨_, by simp only [List.append_assoc]; rfl⟩
  · rw [show front ++ sf ++ mf ++ ck ++ [t] ++ back = front ++ (sf ++ (mf ++ ck ++ [t] ++ back)) by simp,
      drop_left' hfr]
    exact scanOctal_spec hs hs2 _
  · rw [show front ++ sf ++ mf ++ ck ++ [t] ++ back = (front ++ sf) ++ (mf ++ (ck ++ [t] ++ back)) by simp,
      drop_left' (by simp [hfr, hsl])]
    exact scanOctal_spec hm hm2 _
  · refine ⟨t, ?_, hty⟩
    rw [show front ++ sf ++ mf ++ ck ++ [t] ++ back = (front ++ sf ++ mf ++ ck) ++ t :: back by simp]
    exact Cpio.aget_append_right (by simp [hfr, hsl, hml, hck])
  · obtain ⟨b, hb1, hb2⟩ := field_nonzero hs
    refine ⟨b, ?_, hb2⟩
    have e0 : front ++ sf ++ mf ++ ck ++ [t] ++ back =
        front.take 100 ++ ((front.drop 100 ++ sf) ++ (mf ++ ck ++ [t] ++ back)) := by
      simp only [← List.append_assoc, List.take_append_drop]
    unfold slice
    rw [e0, show (100 : Int).toNat = 100 from rfl, show (156 : Int).toNat = 156 from rfl,
      drop_left' (by simp [hfr]), List.take_append, List.take_of_length_le (by simp [hfr, hsl])]
    simp [hb1]
  · obtain ⟨g, t', e, ht', hg⟩ := field_last hs
    refine ⟨t', ?_, ht'⟩
    rw [e, show front ++ (g ++ [t']) ++ mf ++ ck ++ [t] ++ back =
      (front ++ g) ++ t' :: (mf ++ ck ++ [t] ++ back) by simp]
    exact Cpio.aget_append_right (by simp [hfr, hg])
  · obtain ⟨g, t', e, ht', hg⟩ := field_last hm
    refine ⟨t', ?_, ht'⟩
    rw [e, show front ++ sf ++ (g ++ [t']) ++ ck ++ [t] ++ back =
      (front ++ sf ++ g) ++ t' :: (ck ++ [t] ++ back) by simp]
    exact Cpio.aget_append_right (by simp [hfr, hsl, hg])

theorem strlen_append : ∀ (a rest : List UInt8), 0 ∉ a → 
    CLib.strlen (a ++ rest) = (do let n ← CLib.strlen rest; .ok (a.length + n)) := by
  intro a
  induction a with
  | nil =>
    intro rest _
    simp only [List.nil_append, List.length_nil, Nat.zero_add]
    cases CLib.strlen rest <;> rfl
  | cons b a ih =>
    intro rest h
    simp only [List.mem_cons, not_or] at h
    rw [List.cons_append, CLib.strlen, if_neg (fun z => h.1 z.symm), ih rest h.2]
    cases CLib.strlen rest with
    | ok n => simp only [Res.bind_ok, List.length_cons]; congr 1; omega
    | fault f => rfl
    | diverge => rfl

theorem strlen_ok : ∀ (l : List UInt8), 0 ∈ l → ∃ n, CLib.strlen l = .ok n := by
  intro l
  induction l with
  | nil => intro h; cases h
  | cons b l ih =>
    intro h
    rw [CLib.strlen]
    by_cases hb : b = 0
    · exact ⟨0, by rw [if_pos hb]⟩
    · rw [if_neg hb]
      simp only [List.mem_cons] at h
      rcases h with h | h
      · exact absurd h.symm hb
      · obtain ⟨n, e⟩ := ih h
        exact ⟨n + 1, by rw [e]; rfl⟩

structure Named (head name : List UInt8) : Prop where
  check : checkHeader head 257 = .ok true
  zero : (slice head 0 512).all (· = 0) = false
  len : ∃ n, CLib.strlen head = .ok n ∧ n ≠ 0 ∧ (if n > 100 then 100 else n) = name.length
  name : ∃ r, head = name ++ r

theorem header_named {head name : List UInt8} {size mtime : Nat} {type : EntryType}
    (h : Header head name size mtime type) :
    Named head name ∧ ∃ front, Parts head front size mtime type := by
  obtain ⟨mode, owner, group, link, rest, k, hF, hk, hne, h0, hmo, how, hgr, hli⟩ := h
  have hp := fields_parts hF
  obtain ⟨sf, mf, ck, t, hhead, _, hs, _, hm, _, hck, _, _⟩ := hF
  have hsl : sf.length = 12 := by obtain ⟨_, _, _, _, _, _, _, _, x⟩ := hs; exact x
  have hml : mf.length = 12 := by obtain ⟨_, _, _, _, _, _, _, _, x⟩ := hm; exact x
  have hpos := List.length_pos_iff.mpr hne
  have hname : ∃ r, head = name ++ (List.replicate k 0 ++ (mode ++ 0 :: r)) := by
    rw [hhead]; exact ⟨_, by simp only [List.append_assoc]; rfl⟩
  have hx : ∀ (i : Int) (pre post : List UInt8) (b : UInt8), head = pre ++ b :: post → i = pre.length →
      aget head i = .ok b := by
    intro i pre post b e hi
    rw [e]; exact Cpio.aget_append_right hi
  refine ⟨⟨?_, ?_, ?_, ?_⟩, _, hp⟩
  · have c1 : ((head.take 100).dropWhile (· ≠ 0)).any (· ≠ 0) = false := by
      obtain ⟨r, e⟩ := hname
      have e2 : head.take 100 = name ++ List.replicate k 0 := by
        rw [e, ← List.append_assoc, ← hk]
        have : name.length + k = (name ++ List.replicate k (0 : UInt8)).length := by simp
        rw [this, List.take_left]
      rw [e2, List.dropWhile_append_of_pos]
      · rw [List.any_eq_false]
        intro b hb
        have := List.dropWhile_sublist (p := fun b : UInt8 => decide (b ≠ 0)) (l := List.replicate k 0)
        have := this.mem hb
        rw [List.mem_replicate] at this
        simp [this.2]
      · intro b hb
        have : b ≠ 0 := fun z => h0 (z ▸ hb)
        simpa using this
    have c2 : (slice head 100 156).all (· = 0) = false := by
      obtain ⟨b, hb1, hb2⟩ := hp.nonzero
      rw [List.all_eq_false]
      exact ⟨b, hb1, by simpa using hb2⟩
    have h107 : aget head 107 = .ok 0 :=
      hx 107 (name ++ List.replicate k 0 ++ mode) _ 0 (by rw [hhead]; simp only [List.append_assoc, List.cons_append, List.nil_append]; rfl)
        (by simp [hmo]; omega)
    have h115 : aget head 115 = .ok 0 :=
      hx 115 (name ++ List.replicate k 0 ++ (mode ++ [0]) ++ owner) _ 0 (by rw [hhead]; simp only [List.append_assoc, List.cons_append, List.nil_append]; rfl)
        (by simp [hmo, how]; omega)
    have h123 : aget head 123 = .ok 0 :=
      hx 123 (name ++ List.replicate k 0 ++ (mode ++ [0]) ++ (owner ++ [0]) ++ group) _ 0 (by rw [hhead]; simp only [List.append_assoc, List.cons_append, List.nil_append]; rfl)
        (by simp [hmo, how, hgr]; omega)
    have h256 : aget head 256 = .ok 0 :=
      hx 256 (name ++ List.replicate k 0 ++ (mode ++ [0]) ++ (owner ++ [0]) ++ (group ++ [0]) ++ sf ++ mf ++
        ck ++ [t] ++ link) _ 0 (by rw [hhead]; simp only [List.append_assoc, List.cons_append, List.nil_append]; rfl)
        (by simp [hmo, how, hgr, hsl, hml, hck, hli]; omega)
    obtain ⟨t1, h135, ht1⟩ := hp.b135
    obtain ⟨t2, h147, ht2⟩ := hp.b147
    unfold checkHeader
    rw [if_neg (by omega), c1, c2, h107, h115, h123, h135, h147, h256]
    rcases ht1 with rfl | rfl <;> rcases ht2 with rfl | rfl <;> rfl
  · obtain ⟨b, l, rfl⟩ : ∃ b l, name = b :: l := by
      cases name with
      | nil => exact absurd rfl hne
      | cons b l => exact ⟨b, l, rfl⟩
    rw [List.all_eq_false]
    refine ⟨b, ?_, ?_⟩
    · obtain ⟨r, e⟩ := hname
      rw [e]; simp [slice]
    · simp only [List.mem_cons, not_or] at h0
      simpa using fun z => h0.1 z.symm
  · obtain ⟨r, e⟩ := hname
    obtain ⟨n, en⟩ := strlen_ok (List.replicate k 0 ++ (mode ++ 0 :: r)) (by simp)
    refine ⟨name.length + n, by rw [e, strlen_append _ _ h0, en]; rfl, by omega, ?_⟩
    by_cases hk0 : k = 0
    · subst hk0
      split <;> omega
    · obtain ⟨k', rfl⟩ : ∃ k', k = k' + 1 := ⟨k - 1, by omega⟩
      rw [List.replicate_succ, List.cons_append, CLib.strlen, if_pos rfl] at en
      cases en
      rw [if_neg (by omega)]; omega
  · obtain ⟨r, e⟩ := hname
    exact ⟨_, e⟩

/-- One block is read and more follows. -/
theorem readHeader_more {s : State σ} {head rest : List UInt8} (hl : head.length = 512) (hne : rest ≠ [])
    (hA : At P c soft s.input (head ++ rest)) :
    ∃ input, readHeader P s = .ok ({ s with input := input }, head) ∧ At P c soft input rest := by
  obtain ⟨i, e, hA', _⟩ := hA.read (n := 512) (by omega) (by omega)
  refine ⟨i, ?_, hA'⟩
  rw [readHeader, e]
  simp only [Res.bind_ok]
  rw [if_neg (by rw [hA'.status_ok hne]; simp), if_neg (by simp)]

theorem padding_spec {len n : Nat} (h : Pads len n) :
    (if 512 - (len : Int).tmod 512 = 512 then (0 : Int) else 512 - (len : Int).tmod 512) = n := by
  have h1 := h.1; have h2 := h.2
  rw [Int.tmod_eq_emod_of_nonneg (by omega)]
  split <;> omega

theorem left_spec {len n : Nat} (h : Pads len n) :
    (if (len : Int).tmod 512 ≠ 0 then 512 - (len : Int).tmod 512 else 0) = n := by
  have h1 := h.1; have h2 := h.2
  rw [Int.tmod_eq_emod_of_nonneg (by omega)]
  split <;> omega

/-- Size, time, padding, final slash and type. -/
theorem finish_spec {s : State σ} {head front content pad : List UInt8} {mtime : Nat} {type : EntryType}
    (hp : Parts head front content.length mtime type) (hpad : Pads content.length pad.length)
    (hst : s.status = .ok) (hne : s.info.filename ≠ []) :
    finish s head = .ok { s with
      info := ⟨stripSlash s.info.filename, content.length, mtime, type⟩, padding := pad.length } := by
  unfold finish readOctalField
  obtain ⟨t, ht, hty⟩ := hp.flag
  rw [show (124 : Int).toNat = 124 from rfl, show (136 : Int).toNat = 136 from rfl, hp.size]
  simp only [Res.bind_ok]
  rw [if_neg (by simp [hst]), hp.mtime]
  simp only [Res.bind_ok]
  rw [if_neg (by simp [hst]), padding_spec hpad, ht]
  obtain ⟨⟨st, inp, ent, ⟨name, sz, mt, ty⟩⟩, pd⟩ := s
  simp only at hne hst ⊢
  obtain ⟨l, b, rfl⟩ : ∃ l b, name = l ++ [b] := ⟨name.dropLast, name.getLast hne, (List.dropLast_concat_getLast hne).symm⟩
  have ea : aget (l ++ [b]) (((l ++ [b]).length : Int) - 1) = .ok b :=
    Cpio.aget_append_right (by simp)
  rw [ea]
  simp only [Res.bind_ok]
  have e1 : (if b = 47 then List.take ((l ++ [b]).length - 1) (l ++ [b]) else l ++ [b]) =
      stripSlash (l ++ [b]) := by
    unfold stripSlash
    simp only [List.getLast?_append, List.getLast?_singleton, Option.some_or, Option.some.injEq,
      List.dropLast_concat, List.length_append, List.length_cons, List.length_nil, Nat.add_sub_cancel]
    split
    · simp
    · rfl
  have e2 : (if t = 0 ∨ t = 48 then EntryType.file else if t = 53 then .dir else .unknown) = type := hty
  rw [e1, e2]

/-- Blocks of NULs up to the end of the input. -/
theorem zeroBlocks_spec : ∀ (k : Nat) (fuel : Nat) (n : Int) (s : State σ), s.status = .ok → k + 1 < fuel →
    0 ≤ n → 2 ≤ n + k → At P c soft s.input (List.replicate (512 * k) 0) →
    ∃ s', zeroBlocks P fuel n s = .ok s' ∧ s'.status = .eof ∧ s'.entry = s.entry := by
  intro k
  induction k with
  | zero =>
    intro fuel n s hst hf hn0 hn hA
    obtain ⟨fuel, rfl⟩ : ∃ f, fuel = f + 1 := ⟨fuel - 1, by omega⟩
    obtain ⟨i, j, d, e, hA', _, h2⟩ := hA.read_short (n := 512) (by omega) (by simp only [Nat.mul_zero, List.replicate_zero, List.length_nil]; omega)
    obtain ⟨_, _, hs⟩ := h2 rfl
    refine ⟨{ s with input := i, status := .eof }, ?_, rfl, rfl⟩
    rw [zeroBlocks, readHeader, e]
    simp only [Res.bind_ok]
    rw [if_pos (Or.inr hs)]
    simp only [Res.bind_ok]
    rw [if_neg (by omega), if_pos (by simp)]
  | succ k ih =>
    intro fuel n s hst hf hn0 hn hA
    obtain ⟨fuel, rfl⟩ : ∃ f, fuel = f + 1 := ⟨fuel - 1, by omega⟩
    rw [show 512 * (k + 1) = 512 + 512 * k by omega, ← List.replicate_append_replicate] at hA
    obtain ⟨i, e, hA', _⟩ := hA.read (n := 512) (by rw [List.length_replicate]; rfl) (by omega)
    by_cases hs : P.status i = .eof
    · have hk : k = 0 := by
        by_cases hk : k = 0
        · exact hk
        · have : List.replicate (512 * k) (0 : UInt8) ≠ [] := by
            intro z; rw [List.replicate_eq_nil_iff] at z; omega
          rw [hA'.status_ok this] at hs; cases hs
      subst hk
      refine ⟨{ s with input := i, status := .eof }, ?_, rfl, rfl⟩
      rw [zeroBlocks, readHeader, e]
      simp only [Res.bind_ok]
      rw [if_pos (Or.inr hs)]
      simp only [Res.bind_ok]
      rw [if_neg (by omega), if_pos (by simp)]
    · obtain ⟨s', e', h1, h2⟩ := ih fuel (n + 1) { s with input := i } hst (by omega) (by omega) (by omega) hA'
      refine ⟨s', ?_, h1, h2⟩
      rw [zeroBlocks, readHeader, e]
      simp only [Res.bind_ok]
      rw [if_neg (by simp [hs]), if_neg (by simp)]
      simp only [Res.bind_ok]
      have hz : (slice (List.replicate 512 (0 : UInt8)) 0 512).all (· = 0) = true := by
        rw [List.all_eq_true]
        intro b hb
        unfold slice at hb
        have := List.mem_of_mem_drop (List.mem_of_mem_take hb)
        rw [List.mem_replicate] at this
        simp [this.2]
      rw [if_neg (by simp [hst]), if_neg (by simp [hst]), if_pos hz]
      exact e'

/-- What parsing the next header of an archive with the entries `l` leads to. -/
def Next (P : StreamOps σ UInt8) (c : List UInt8) (soft : Prop) (tail : List UInt8) (E : State σ → Prop) (K : Nat)
    (s' : State σ) : List ArchiveEntry → Prop
  | [] => E s'
  | e :: l => s'.status = .ok ∧ s'.info = e.info ∧ e.info.size = e.content.length ∧
      e.content.length < 2 ^ 31 ∧ ∃ pad rest,
        At P c soft s'.input (e.content ++ (pad ++ rest)) ∧ s'.padding = (pad.length : Int) ∧
        pad.length < 512 ∧ Archive tail l rest ∧ rest.length ≤ K

theorem Next.mono {tail : List UInt8} {E : State σ → Prop} {K K' : Nat} (hK : K ≤ K') {s' : State σ}
    {l : List ArchiveEntry} (h : Next P c soft tail E K s' l) : Next P c soft tail E K' s' l := by
  cases l with
  | nil => exact h
  | cons e l =>
    obtain ⟨h1, h2, h3, h4, p, r, h5, h6, h7, h8, h9⟩ := h
    exact ⟨h1, h2, h3, h4, p, r, h5, h6, h7, h8, by omega⟩

theorem archive_ne_nil {tail bytes : List UInt8} (ht : tail ≠ []) {l : List ArchiveEntry}
    (h : Archive tail l bytes) : bytes ≠ [] := by
  induction h with
  | done => exact ht
  | entry _ _ _ _ _ ih => intro z; rw [List.append_eq_nil_iff] at z; exact ih z.2
  | dot _ _ ih => intro z; rw [List.append_eq_nil_iff] at z; exact ih z.2
  | long _ _ _ _ _ _ _ ih => intro z; rw [List.append_eq_nil_iff] at z; exact ih z.2

/-- Up to the evaluation of the name. -/
theorem parse_begin {head name : List UInt8} {size mtime : Nat} {type : EntryType} (fuel : Nat)
    (s : State σ) {input : σ} (hh : Header head name size mtime type) (hst : s.status = .ok)
    (e : readHeader P s = .ok ({ s with input := input }, head)) :
        parseHeader P (fuel + 1) s =
          (let s : State σ := { s with input := input, info := { s.info with filename := [] } }
          if name.length = 13 ∧ head.take 13 = longLink then do
            let s ← readLongLink P s head
            if s.status ≠ .ok then .ok s
            else
              let (s, hb) ← readHeader P s
              if s.status ≠ .ok then .ok s else finish s hb
          else if name.length > 1 ∧ head.take 2 = [46, 47] then
            if name.length = 2 then parseHeader P fuel s
            else finish { s with info := { s.info with filename := slice head 2 ((name.length : Int) - 2) } } head
          else finish { s with info := { s.info with filename := slice head 0 name.length } } head) := by
  obtain ⟨hn, front, hp⟩ := header_named hh
  obtain ⟨n, en, hn0, hlen⟩ := hn.len
  rw [parseHeader, e]
  simp only [Res.bind_ok]
  rw [if_neg (by simp [hst]), hn.zero, if_neg (by simp), hn.check]
  simp only [Res.bind_ok]
  rw [if_neg (by simp), en]
  simp only [Res.bind_ok]
  rw [if_neg hn0, hlen]
  rfl

/-- As `parse_begin`, if more follows. -/
theorem parse_start {head name : List UInt8} {size mtime : Nat} {type : EntryType} {rest : List UInt8} (fuel : Nat)
    (s : State σ) (hh : Header head name size mtime type) (hne : rest ≠ []) (hst : s.status = .ok)
    (hA : At P c soft s.input (head ++ rest)) :
      ∃ input, At P c soft input rest ∧
        parseHeader P (fuel + 1) s =
          (let s : State σ := { s with input := input, info := { s.info with filename := [] } }
          if name.length = 13 ∧ head.take 13 = longLink then do
            let s ← readLongLink P s head
            if s.status ≠ .ok then .ok s
            else
              let (s, hb) ← readHeader P s
              if s.status ≠ .ok then .ok s else finish s hb
          else if name.length > 1 ∧ head.take 2 = [46, 47] then
            if name.length = 2 then parseHeader P fuel s
            else finish { s with info := { s.info with filename := slice head 2 ((name.length : Int) - 2) } } head
          else finish { s with info := { s.info with filename := slice head 0 name.length } } head) := by
  obtain ⟨hn, front, hp⟩ := header_named hh
  obtain ⟨i, e, hA'⟩ := readHeader_more hp.len hne hA
  exact ⟨i, hA', parse_begin fuel s hh hst e⟩

/-- `parseHeader()` finds the next entry of an archive, or its end. -/
theorem parseHeader_spec {tail bytes : List UInt8} {E : State σ → Prop} (ht : tail ≠ [])
    (hend : ∀ (fuel : Nat) (s : State σ), tail.length < fuel → s.status = .ok → At P c soft s.input tail →
      ∃ s', parseHeader P fuel s = .ok s' ∧ E s' ∧ s'.entry = s.entry)
    {l : List ArchiveEntry} (h : Archive tail l bytes) :
    ∀ fuel, bytes.length < fuel → ∀ s : State σ, s.status = .ok → At P c soft s.input bytes →
      ∃ s', parseHeader P fuel s = .ok s' ∧ s'.entry = s.entry ∧ Next P c soft tail E bytes.length s' l := by
  induction h with
  | done =>
    intro fuel hf s hst hA
    obtain ⟨s', e, h1, h2⟩ := hend fuel s hf hst hA
    exact ⟨s', e, h2, h1⟩
  | @entry head name content pad rest l mtime type hh hn1 hn2 hpad hrest ih =>
    intro fuel hf s hst hA
    obtain ⟨fuel, rfl⟩ : ∃ f, fuel = f + 1 := ⟨fuel - 1, by omega⟩
    obtain ⟨hn, front, hp⟩ := header_named hh
    rw [show head ++ content ++ pad ++ rest = head ++ (content ++ (pad ++ rest)) by simp] at hA
    have hne : content ++ (pad ++ rest) ≠ [] := by
      intro z; simp only [List.append_eq_nil_iff] at z; exact archive_ne_nil ht hrest z.2.2
    obtain ⟨i, hA', e⟩ := parse_start fuel s hh hne hst hA
    have hsz : content.length < 2 ^ 31 := by
      obtain ⟨_, _, _, _, _, _, ⟨_, _, _, _, _, _, _, x, _⟩, _⟩ := hh; exact x
    obtain ⟨r, hr⟩ := hn.name
    have hname : name ≠ [] := by obtain ⟨_, _, _, _, _, _, _, _, x, _⟩ := hh; exact x
    have hfin : ∀ (nm : List UInt8), nm ≠ [] → stripSlash nm = shownName name →
        ∃ s', finish { s with input := i, info := { s.info with filename := nm } } head = .ok s' ∧
          s'.entry = s.entry ∧ Next P c soft tail E (head ++ content ++ pad ++ rest).length s'
            (⟨⟨shownName name, content.length, mtime, type⟩, content⟩ :: l) := by
      intro nm hnm hs
      refine ⟨_, finish_spec hp hpad hst hnm, rfl, hst, ?_, rfl, hsz, pad, rest, hA', rfl, hpad.1, hrest, ?_⟩
      · simp only [hs]
      · simp only [List.length_append]; omega
    rw [e]
    simp only
    have c1 : ¬ (name.length = 13 ∧ head.take 13 = longLink) := by
      rintro ⟨z1, z2⟩
      apply hn1
      rw [hr, ← z1, List.take_left] at z2
      exact z2
    rw [if_neg c1]
    rcases name with _ | ⟨a, _ | ⟨b, nm⟩⟩
    · exact absurd rfl hname
    · rw [if_neg (by simp)]
      have hs0 : slice head 0 (([a] : List UInt8).length : Int) = [a] := by rw [hr]; simp [slice]
      rw [hs0]
      refine hfin [a] (by simp) ?_
      unfold shownName
      split
      · rename_i heq; simp at heq
      · rfl
    · have htk : head.take 2 = [a, b] := by rw [hr]; rfl
      rw [htk]
      by_cases hab : a = 46 ∧ b = 47
      · obtain ⟨rfl, rfl⟩ := hab
        have hnm : nm ≠ [] := fun z => hn2 (by rw [z])
        have : 0 < nm.length := List.length_pos_iff.mpr hnm
        rw [if_pos ⟨by simp, rfl⟩, if_neg (by simp only [List.length_cons]; omega)]
        have hs0 : slice head 2 (((46 :: 47 :: nm : List UInt8).length : Int) - 2) = nm := by
          have e3 : (((46 :: 47 :: nm : List UInt8).length : Int) - 2) = nm.length := by
            simp only [List.length_cons]; omega
          rw [hr, e3]; simp [slice]
        rw [hs0]
        exact hfin nm hnm rfl
      · have hc2 : ¬ ((a :: b :: nm : List UInt8).length > 1 ∧ ([a, b] : List UInt8) = [46, 47]) := by
          rintro ⟨_, z⟩
          rw [List.cons.injEq, List.cons.injEq] at z
          exact hab ⟨z.1, z.2.1⟩
        rw [if_neg hc2]
        have hs0 : slice head 0 ((a :: b :: nm : List UInt8).length : Int) = a :: b :: nm := by
          unfold slice
          rw [hr, Int.toNat_natCast, Int.toNat_zero, List.drop_zero, List.take_left]
        rw [hs0]
        refine hfin _ (by simp) ?_
        unfold shownName
        split
        · rename_i l' heq
          simp only [List.cons.injEq] at heq
          exact absurd ⟨heq.1, heq.2.1⟩ hab
        · rfl
  | @dot head rest l size mtime type hh hrest ih =>
    intro fuel hf s hst hA
    obtain ⟨fuel, rfl⟩ : ∃ f, fuel = f + 1 := ⟨fuel - 1, by omega⟩
    obtain ⟨hn, front, hp⟩ := header_named hh
    obtain ⟨r, hr⟩ := hn.name
    obtain ⟨i, hA', e⟩ := parse_start fuel s hh (archive_ne_nil ht hrest) hst hA
    have hl := hp.len
    obtain ⟨s', e', h1, h2⟩ := ih fuel (by simp only [List.length_append] at hf; omega)
      { s with input := i, info := { s.info with filename := [] } } hst hA'
    refine ⟨s', ?_, h1, h2.mono (by simp only [List.length_append]; omega)⟩
    rw [e]
    simp only
    rw [if_neg (by simp), if_pos ⟨by simp, by rw [hr]; rfl⟩, if_pos (by simp)]
    exact e'
  | @long head1 head2 front back longName pad1 content pad rest l size mtime1 type1 mtime type hh hsize hlne hpad1 hF hpad hrest ih =>
    intro fuel hf s hst hA
    obtain ⟨fuel, rfl⟩ : ∃ f, fuel = f + 1 := ⟨fuel - 1, by omega⟩
    obtain ⟨hn, front1, hp⟩ := header_named hh
    have hp2 := fields_parts hF
    obtain ⟨r, hr⟩ := hn.name
    subst hsize
    rw [show head1 ++ longName ++ pad1 ++ head2 ++ content ++ pad ++ rest =
      head1 ++ (longName ++ (pad1 ++ (head2 ++ (content ++ (pad ++ rest))))) by simp] at hA
    have hne : content ++ (pad ++ rest) ≠ [] := by
      intro z; simp only [List.append_eq_nil_iff] at z; exact archive_ne_nil ht hrest z.2.2
    have hl2 := hp2.len
    have hne2 : head2 ++ (content ++ (pad ++ rest)) ≠ [] := by
      intro z; rw [List.append_eq_nil_iff] at z; exact hne z.2
    obtain ⟨i, hA', e⟩ := parse_start fuel s hh
      (by intro z; simp only [List.append_eq_nil_iff] at z; exact hlne z.1) hst hA
    have hsz : content.length < 2 ^ 31 := by obtain ⟨_, _, _, _, _, _, _, x, _⟩ := hF; exact x
    have hsz1 : longName.length < 2 ^ 31 := by
      obtain ⟨_, _, _, _, _, _, ⟨_, _, _, _, _, _, _, x, _⟩, _⟩ := hh; exact x
    have hl1 := List.length_pos_iff.mpr hlne
    obtain ⟨i2, e2, hA2, _⟩ := hA'.read (n := (longName.length : Int)) rfl (by omega)
    have hpl := hpad1.1
    obtain ⟨i3, r3, e3, hA3, _, hr3⟩ := hA2.skip (n := (pad1.length : Int)) rfl (by omega)
    have hr3 := hr3 (Or.inl hne2)
    subst hr3
    obtain ⟨i4, e4, hA4⟩ := readHeader_more
      (s := { s with input := i3, info := { s.info with filename := longName } }) hl2 hne hA3
    have hlong : readLongLink P { s with input := i, info := { s.info with filename := [] } } head1 =
        .ok { s with input := i3, info := { s.info with filename := longName } } := by
      unfold readLongLink readOctalField
      rw [show (124 : Int).toNat = 124 from rfl, hp.size]
      simp only [Res.bind_ok]
      rw [if_neg (by simp [hst]), e2]
      simp only [Res.bind_ok]
      rw [if_neg (by simp), left_spec hpad1, e3]
      simp only [Res.bind_ok]
      rw [if_neg (by simp), slice_all]
      rfl
    refine ⟨{ s with input := i4, info := ⟨stripSlash longName, content.length, mtime, type⟩,
                     padding := pad.length }, ?_, rfl, hst, rfl, rfl, hsz, pad, rest, hA4, rfl, hpad.1, hrest, ?_⟩
    · rw [e]
      simp only
      rw [if_pos ⟨rfl, by rw [hr]; rfl⟩, hlong]
      simp only [Res.bind_ok]
      rw [if_neg (by simp [hst]), e4]
      simp only [Res.bind_ok]
      rw [if_neg (by simp [hst])]
      exact finish_spec (s := { s with input := i4, info := { s.info with filename := longName } }) hp2 hpad hst hlne
    · simp only [List.length_append]; omega

/-- The provider is about to read `rest`. -/
def Ready (P : StreamOps σ UInt8) (c : List UInt8) (soft : Prop) (s : State σ) (rest : List UInt8) : Prop :=
  s.status = .ok ∧
    ∃ input, leave P s = .ok { s with entry := none, input := input } ∧ At P c soft input rest

/-- Iterating over an archive. -/
theorem presents {tail : List UInt8} {last : Status} (ht : tail ≠ []) (hlast : last ≠ .ok)
    (hend : ∀ (fuel : Nat) (s : State σ), tail.length < fuel → s.status = .ok → At P c soft s.input tail →
      ∃ s', parseHeader P fuel s = .ok s' ∧ s'.status = last ∧ s'.entry = s.entry) :
    ∀ (l : List ArchiveEntry) {fuel : Nat} {bytes : List UInt8} (s : State σ),
    Archive tail l bytes → bytes.length < fuel → Ready P c soft s bytes →
    Presents (ops P fuel) Failure.never soft last s l := by
  intro l
  induction l with
  | nil =>
    intro fuel bytes s hArch hf hR
    obtain ⟨hst, input, el, hA⟩ := hR
    obtain ⟨s', e, hent, hN⟩ := parseHeader_spec (E := fun s => s.status = last) ht hend hArch fuel hf { s with entry := none, input := input } hst hA
    have hst' : s'.status = last := hN
    refine ⟨s', ?_, hent, hst', ?_⟩
    · simp only [ops]
      rw [nextEntry, if_neg (by simp [hst]), el]
      simp only [Res.bind_ok]
      rw [e]
      simp only [Res.bind_ok]
      rw [if_pos (by rw [hst']; exact hlast)]
    · simp only [ops]
      rw [nextEntry, if_pos (by rw [hst']; exact hlast)]
  | cons a l ih =>
    intro fuel bytes s hArch hf hR
    obtain ⟨hst, input, el, hA⟩ := hR
    obtain ⟨s', e, hent, hN⟩ := parseHeader_spec (E := fun s => s.status = last) ht hend hArch fuel hf { s with entry := none, input := input } hst hA
    obtain ⟨hst', hinfo, hsz, hlt, pad, rest, hAt, hpd, hpl, hrest, hK⟩ := hN
    obtain ⟨es, en, hessz, hpos, hI, hU⟩ := hAt.sub_skip (n := (a.content.length : Int)) rfl (by omega)
    refine ⟨{ s' with entry := some es }, es, ?_, rfl, hinfo, hst', hpos,
      by simp only [ops, SubInputStream.ops]; omega, hI, ?_⟩
    · simp only [ops]
      rw [nextEntry, if_neg (by simp [hst]), el]
      simp only [Res.bind_ok]
      rw [e]
      simp only [Res.bind_ok]
      rw [if_neg (by simp [hst']), hinfo, hsz, if_pos (by omega), en]
      simp only [Res.bind_ok]
    · intro es' lo hi hu
      obtain ⟨e2, r2, x1, x2, x3, x4⟩ := hU es' lo hi hu
      obtain ⟨i3, r3, x5, x6, _, _⟩ := x3.skip (n := (pad.length : Int)) rfl (by omega)
      refine ih (bytes := rest) _ hrest (by omega) ⟨hst', i3, ?_, x6⟩
      simp only [ops, leave]
      rw [x1]
      simp only [Res.bind_ok]
      rw [hpd, x5]
      simp only [Res.bind_ok]

end Strigi.Tar
