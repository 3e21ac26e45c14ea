import Verif.Proofs.BufferedAny
import Verif.Proofs.ArchiveSafe
import Verif.Model.Decompress

/-!
# Decompressing streams on arbitrary bytes
-/

namespace Strigi

namespace Unpack

variable {σ ζ : Type}

/-- What `GZipInputStream` and `BZ2InputStream` need of their input: `K` holds for its states, at most `rem s` bytes are
left, and it does not leave the part from `lo` on. -/
structure Source (P : StreamOps σ UInt8) (K : σ → Prop) (rem : σ → Nat) (lo : Int) : Prop where
  low : 0 ≤ lo
  read : ∀ {s : σ}, K s → ∃ s' n d, P.read s 1 0 = .ok (s', n, d) ∧ K s' ∧
    (1 ≤ n → rem s' + n ≤ rem s ∧ lo ≤ P.position s' - n)
  reset : ∀ {s : σ}, K s → ∀ q : Int, lo ≤ q → q ≤ P.position s → ∃ s' r, P.reset s q = .ok (s', r) ∧ K s'

variable {P : StreamOps σ UInt8} {K : σ → Prop} {rem : σ → Nat} {lo : Int} {D : Decompressor ζ} {g : Nat} {w : ζ → Nat}

/-- Bytes that may still be written. -/
def budget (rem : σ → Nat) (g : Nat) (w : ζ → Nat) (f : State σ ζ) : Nat := w f.z + g * f.availIn.length + g * rem f.input

/-- Bounds the number of calls. -/
def calls (rem : σ → Nat) (g : Nat) (w : ζ → Nat) (f : State σ ζ) : Nat :=
  2 * (budget rem g w f + rem f.input) + (if f.availOut = 0 then 1 else 0)

/-- States from which `fillBuffer` may be called. -/
structure Ready (P : StreamOps σ UInt8) (K : σ → Prop) (rem : σ → Nat) (lo : Int) (g : Nat) (w : ζ → Nat) (N : Nat)
    (f : State σ ζ) (m b : Nat) : Prop where
  input : K f.input
  alive : f.failed = false
  back : f.isOpen = true → lo ≤ P.position f.input - f.availIn.length ∨ f.availIn = []
  calls : f.isOpen = true → calls rem g w f ≤ m
  budget : f.isOpen = true → budget rem g w f ≤ b
  fuel : m < N

theorem decompress_safe (S : Source P K rem lo) (hD : Tidy D g w) (keep : Bool) {f : State σ ζ} (hK : K f.input)
    (ha : f.failed = false) (hb : lo ≤ P.position f.input - f.availIn.length ∨ f.availIn = []) {N : Nat} {space : Int} (hs : 0 < space)
    (ho : f.isOpen = true) {m : Nat} (hm : 2 * (budget rem g w f + rem f.input) + 1 ≤ m) (hN : m < N) :
    ∃ f' r, decompress P D keep f space = .ok (f', r) ∧ K f'.input ∧ (r.data.length : Int) ≤ space ∧
      ((r.error = false ∧ r.n = r.data.length ∧ ∃ m' b', m' < m ∧ b' + r.data.length ≤ budget rem g w f ∧
          Ready P K rem lo g w N f' m' b') ∨ r.n < 0 ∨
        (r.error = true ∧ r.n = r.data.length ∧ 0 < m ∧ (r.n < space → f'.failed = true ∧ f'.isOpen = true ∧ f'.availOut ≠ 0))) := by
  obtain ⟨z', k, out, code, e, hk, hl, hw⟩ := hD f.z f.availIn space hs
  unfold decompress
  rw [e]
  dsimp only
  have hgk : g * (f.availIn.drop k).length + g * k = g * f.availIn.length := by
    rw [← Nat.mul_add, List.length_drop]; congr 1; omega
  have hbud : w z' + g * (f.availIn.drop k).length + out.length ≤ w f.z + g * f.availIn.length := by omega
  unfold budget at hm ⊢
  cases code with
  | more =>
    refine ⟨_, _, rfl, hK, hl, Or.inl ⟨rfl, rfl, _, _, ?_, ?_, ⟨hK, ha, ?_, fun _ => Nat.le_refl _, fun _ => Nat.le_refl _, ?_⟩⟩⟩
    · unfold calls budget; simp only
      split
      · rename_i h0
        omega
      · omega
    · unfold budget; simp only; omega
    · intro _
      simp only
      rcases hb with hb | hb
      · left; rw [List.length_drop]; omega
      · right; rw [hb]; simp
    · unfold calls budget; simp only
      split
      · rename_i h0
        omega
      · omega
  | failed =>
    cases keep with
    | false => exact ⟨_, _, rfl, hK, hl, Or.inr (Or.inl (by simp))⟩
    | true =>
      refine ⟨_, _, rfl, hK, hl, Or.inr (Or.inr ⟨rfl, by simp, by omega, ?_⟩)⟩
      intro h
      simp only [if_true] at h
      exact ⟨rfl, ho, by simp only; omega⟩
  | ended =>
    by_cases hne : f.availIn.drop k ≠ []
    · rw [if_pos hne]
      have hb1 : lo ≤ P.position f.input - f.availIn.length := by
        rcases hb with hb | hb
        · exact hb
        · rw [hb] at hne; simp at hne
      have hdl : ((f.availIn.drop k).length : Int) ≤ f.availIn.length := by rw [List.length_drop]; omega
      obtain ⟨s', r, er, hK'⟩ := S.reset hK (P.position f.input - (f.availIn.drop k).length) (by omega) (by omega)
      rw [er, Res.bind_ok]
      refine ⟨_, _, rfl, hK', hl, Or.inl ⟨rfl, rfl, 0, 0, by omega, ?_, ⟨hK', ha, fun z => by simp at z, fun z => by simp at z, fun z => by simp at z, by omega⟩⟩⟩
      simp only; omega
    · rw [if_neg hne]
      have hnil : f.availIn.drop k = [] := Classical.not_not.1 hne
      refine ⟨_, _, rfl, hK, hl, Or.inl ⟨rfl, rfl, 0, 0, by omega, ?_, ⟨hK, ha, fun _ => Or.inr hnil, fun z => by simp at z, fun z => by simp at z, by omega⟩⟩⟩
      simp only; omega

theorem emits (S : Source P K rem lo) (hD : Tidy D g w) (keep : Bool) (N : Nat) :
    BufferedStream.Emits (producer P D keep N) (fun f => K f.input) (Ready P K rem lo g w N) where
  weak h := h.input
  fuel h := h.fuel
  step := by
    intro f m b h space hs
    show ∃ f' r, fill P D keep f space = .ok (f', r) ∧ _
    unfold fill
    by_cases ho : f.isOpen = false
    · rw [if_pos ho]
      exact ⟨f, ⟨-1, [], false⟩, rfl, h.input, by simp only [List.length_nil]; omega, Or.inr (Or.inl (by simp))⟩
    rw [if_neg ho]
    have ho' : f.isOpen = true := by simpa using ho
    have hc := h.calls ho'
    have hbu := h.budget ho'
    -- after the call nothing is delivered any more
    have dead : ∀ f' : State σ ζ, K f'.input → f'.failed = true → f'.isOpen = true → f'.availOut ≠ 0 → ∀ space' : Int, 0 < space' →
        ∃ f'' r', fill P D keep f' space' = .ok (f'', r') ∧ K f''.input ∧ r'.n < 0 ∧ (r'.data.length : Int) ≤ space' := by
      intro f' k1 k2 k3 k4 space' hs'
      unfold fill
      rw [if_neg (by simp [k3]), if_pos k4]
      unfold readFromStream
      obtain ⟨s', n, d, er, hK', _⟩ := S.read k1
      rw [er, Res.bind_ok]
      dsimp only
      by_cases hn : n < 1
      · rw [if_pos hn, Res.bind_ok]
        simp only [if_true]
        exact ⟨_, _, rfl, hK', by simp, by simp; omega⟩
      · rw [if_neg hn, Res.bind_ok]
        simp only [k2, if_true]
        exact ⟨_, _, rfl, hK', by simp, by simp; omega⟩
    by_cases hz : f.availOut ≠ 0
    · rw [if_pos hz]
      unfold readFromStream
      obtain ⟨s', n, d, er, hK', hn1⟩ := S.read h.input
      rw [er, Res.bind_ok]
      dsimp only
      by_cases hn : n < 1
      · rw [if_pos hn, Res.bind_ok]
        simp only [if_true]
        exact ⟨_, _, rfl, hK', by simp; omega, Or.inr (Or.inl (by simp))⟩
      · rw [if_neg hn, Res.bind_ok]
        simp only [h.alive, Bool.false_eq_true, if_false]
        obtain ⟨a1, a2⟩ := hn1 (by omega)
        have hlen : ((slice d 0 n).length : Int) ≤ n := by
          unfold slice; rw [List.length_take]; omega
        unfold calls budget at hc
        rw [if_neg hz] at hc
        unfold budget at hbu
        have hmul : g * (slice d 0 n).length + g * rem s' ≤ g * rem f.input := by
          rw [← Nat.mul_add]; exact Nat.mul_le_mul_left _ (by omega)
        obtain ⟨f', r, e, k1, k2, k3⟩ := decompress_safe (m := m) (N := N) S hD keep
          (f := ⟨s', f.isOpen, f.z, slice d 0 n, f.availOut, false⟩) hK' rfl (Or.inl (by simp only; omega)) hs ho'
          (by unfold budget; simp only; omega) h.fuel
        refine ⟨f', r, e, k1, k2, ?_⟩
        rcases k3 with ⟨k3, k4, m', b', k5, k6, k7⟩ | k3 | ⟨k3, k4, k5, k6⟩
        · refine Or.inl ⟨k3, k4, m', b', k5, ?_, k7⟩
          unfold budget at k6; simp only at k6; omega
        · exact Or.inr (Or.inl k3)
        · refine Or.inr (Or.inr ⟨k3, k4, k5, fun z => ?_⟩)
          obtain ⟨l1, l2, l3⟩ := k6 z
          exact dead f' k1 l1 l2 l3
    · rw [if_neg hz]
      unfold calls at hc
      rw [if_pos (Classical.not_not.1 hz)] at hc
      obtain ⟨f', r, e, k1, k2, k3⟩ := decompress_safe (m := m) (N := N) S hD keep h.input h.alive (h.back ho') hs ho' hc h.fuel
      refine ⟨f', r, e, k1, k2, ?_⟩
      rcases k3 with ⟨k3, k4, m', b', k5, k6, k7⟩ | k3 | ⟨k3, k4, k5, k6⟩
      · exact Or.inl ⟨k3, k4, m', b', k5, by omega, k7⟩
      · exact Or.inr (Or.inl k3)
      · refine Or.inr (Or.inr ⟨k3, k4, k5, fun z => ?_⟩)
        obtain ⟨l1, l2, l3⟩ := k6 z
        exact dead f' k1 l1 l2 l3

/-- The states of a decompressing stream. -/
abbrev Running (P : StreamOps σ UInt8) (K : σ → Prop) (rem : σ → Nat) (lo : Int) (g : Nat) (w : ζ → Nat) (N T : Nat) :
    List UInt8 → BufferedStream (State σ ζ) UInt8 → Prop :=
  BufferedStream.Live (fun f => K f.input) (Ready P K rem lo g w N) T

theorem openStream_any {input : σ} (hK : K input) {N : Nat} (hN : 2 * (w D.init + (g + 1) * rem input) < N) {T : Nat}
    (hT : w D.init + g * rem input ≤ T) :
    ∃ s, openStream D input = .ok s ∧ Running P K rem lo g w N T [] s ∧ s.pos = 0 ∧ s.status = .ok ∧ s.size = -1 := by
  have hI : Ready P K rem lo g w N (start D input) (2 * (w D.init + (g + 1) * rem input)) (w D.init + g * rem input) := by
    refine ⟨hK, rfl, fun _ => Or.inr rfl, fun _ => ?_, fun _ => ?_, hN⟩
    · unfold calls budget start
      simp only [List.length_nil, Nat.mul_zero, Nat.add_mul]
      rw [if_neg (by omega)]
      omega
    · unfold budget start
      simp
  obtain ⟨s, e, L, p1, p2, _, p3⟩ := BufferedStream.live_new (α := UInt8) (J := fun f => K f.input) hK hI hT (-1) (n := 262144) (by omega)
  exact ⟨s, e, L, p1, p2, p3⟩

/-- Input that may be used in any way. -/
theorem Source.of_sturdy {l : Int} {H : σ → Prop} {V : View σ} (R : Sturdy P l H V) (hl : l ≤ 1) {lo : Int} (h0 : 0 ≤ lo) :
    Source P (fun s => H s ∧ (¬ V.dead s → lo ≤ V.loc s))
      (fun s => open Classical in if V.dead s then 0 else (V.total - V.loc s).toNat) lo where
  low := h0
  read := by
    rintro s ⟨h, hp⟩
    obtain ⟨s', n, d, e, hH, _, _, _, _, g3, _, g4⟩ := R.read h 1 0 hl (by omega)
    refine ⟨s', n, d, e, ⟨hH, fun z => ?_⟩, fun hn => ?_⟩
    · have := hp (g4 z).1
      have := (g4 z).2
      omega
    · obtain ⟨k1, k2, k3, k4⟩ := g3 (by omega)
      obtain ⟨k5, k6⟩ := R.sync hH k1
      have := hp (g4 k5).1
      have := R.range hH k5
      rw [if_neg k5, if_neg (g4 k5).1]
      omega
  reset := by
    rintro s ⟨h, hp⟩ q h1 h2
    by_cases hd : V.dead s
    · obtain ⟨s', r, e, hH, g1, g2⟩ := R.reset h q (by omega) (Or.inr hd)
      exact ⟨s', r, e, hH, fun z => absurd (g1 hd).1 z⟩
    · obtain ⟨a1, a2, a3, a4⟩ := R.range h hd
      obtain ⟨s', r, e, hH, g1, g2⟩ := R.reset h q (by omega) (Or.inl (R.below (by omega) a4))
      refine ⟨s', r, e, hH, fun z => ?_⟩
      obtain ⟨k0, k1, k2, _⟩ := g2 hd
      have := hp hd
      have := (R.sync hH k0).2
      omega

theorem broken_any {input : σ} (hK : K input) (N T : Nat) : Running P K rem lo g w N T [] (broken D input) :=
  ⟨hK, fun z => absurd rfl z, fun z => absurd rfl z, fun z => by cases z⟩

end Unpack

theorem slice_length_exact {α : Type} {c : List α} {p n : Int} (hp : 0 ≤ p) (hn : 0 ≤ n) (h : p + n ≤ c.length) : ((slice c p n).length : Int) = n := by
  unfold slice
  rw [List.length_take, List.length_drop]; omega

variable {σ ζ : Type} {P : StreamOps σ UInt8} {D : Decompressor ζ} {l : Int} {H : σ → Prop} {V : View σ}

theorem GZip.checkMagic_total (R : Sturdy P l H V) (hl : l ≤ 1) {input : σ} (h : H input) (hs : P.status input ≠ .error) :
    ∃ s b, GZip.checkMagic P input = .ok (s, b) ∧ H s := by
  unfold GZip.checkMagic
  obtain ⟨s1, n, d, e1, h1, _, _, g3, g4⟩ := R.fetch h (mn := 2) (mx := 2) (by omega) (by omega)
  obtain ⟨s2, r, e2, h2⟩ := R.back h hs h1
  dsimp only
  rw [e1, Res.bind_ok]
  dsimp only
  rw [e2, Res.bind_ok]
  dsimp only
  by_cases hn : n ≠ 2
  · rw [if_pos hn]; exact ⟨_, _, rfl, h2⟩
  rw [if_neg hn]
  have hn := Classical.not_not.1 hn
  obtain ⟨k1, k2, k3, _⟩ := g3 (by omega)
  have hd : (d.length : Int) = 2 := by omega
  obtain ⟨b0, eb0⟩ := aget_total (l := d) (i := 0) (by omega) (by omega)
  obtain ⟨b1, eb1⟩ := aget_total (l := d) (i := 1) (by omega) (by omega)
  rw [eb0, Res.bind_ok, eb1]
  split
  · exact ⟨_, _, rfl, h2⟩
  · exact ⟨_, _, rfl, h2⟩

theorem memEq_total (m l : List UInt8) (h : m.length ≤ l.length) : ∃ b, memEq l m = .ok b := by
  unfold memEq
  rw [if_pos h]
  exact ⟨_, rfl⟩

theorem BZ2.checkMagic_total (R : Sturdy P l H V) (hl : l ≤ 1) {input : σ} (h : H input) (hs : P.status input ≠ .error) :
    ∃ s b, BZ2.checkMagic P input = .ok (s, b) ∧ H s := by
  unfold BZ2.checkMagic
  obtain ⟨s1, n, d, e1, h1, _, _, g3, g4⟩ := R.fetch h (mn := 10) (mx := 0) (by omega) (by omega)
  obtain ⟨s2, r, e2, h2⟩ := R.back h hs h1
  dsimp only
  rw [e1, Res.bind_ok]
  dsimp only
  rw [e2, Res.bind_ok]
  dsimp only
  by_cases hn : n < 10
  · rw [if_pos hn]; exact ⟨_, _, rfl, h2⟩
  rw [if_neg hn]
  obtain ⟨k1, k2, hd, _⟩ := g3 (by omega)
  unfold BZ2.checkHeader
  rw [if_neg (by omega)]
  obtain ⟨b0, eb0⟩ := memEq_total [0x42, 0x5a] d (by simp; omega)
  obtain ⟨b1, eb1⟩ := aget_total (l := d) (i := 2) (by omega) (by omega)
  obtain ⟨b2, eb2⟩ := memEq_total [0x31, 0x41, 0x59, 0x26, 0x53, 0x59] (d.drop 4) (by simp; omega)
  rw [eb0, Res.bind_ok, eb1, eb2]
  split
  · exact ⟨_, _, rfl, h2⟩
  · simp only [Res.bind_ok]
    split
    · exact ⟨_, _, rfl, h2⟩
    · exact ⟨_, _, rfl, h2⟩

/-- What is left of an input. -/
noncomputable def View.rem (V : View σ) (s : σ) : Nat := open Classical in if V.dead s then 0 else (V.total - V.loc s).toNat

theorem View.rem_le (R : Sturdy P l H V) {s : σ} (h : H s) : V.rem s ≤ V.total := by
  unfold View.rem
  split
  · omega
  · rename_i z; have := R.range h z; omega

variable {g : Nat} {w : ζ → Nat}

/-- What a decompressing stream on such an input needs: `Running` with this. -/
abbrev Unpack.Runs (P : StreamOps σ UInt8) (H : σ → Prop) (V : View σ) (lo : Int) (g : Nat) (w : ζ → Nat) (N T : Nat) :
    List UInt8 → BufferedStream (Unpack.State σ ζ) UInt8 → Prop :=
  Unpack.Running P (fun s => H s ∧ (¬ V.dead s → lo ≤ V.loc s)) V.rem lo g w N T

theorem Unpack.runs_growing (R : Sturdy P l H V) (hl : l ≤ 1) (hD : Tidy D g w) (keep : Bool) {lo : Int} (h0 : 0 ≤ lo) (N T : Nat) :
    Growing (BufferedStream.ops (Unpack.producer P D keep N)) T (Unpack.Runs P H V lo g w N T) :=
  BufferedStream.growing (Unpack.emits (Unpack.Source.of_sturdy R hl h0) hD keep N) T

theorem Unpack.runs_under {lo : Int} {N T : Nat} {c : List UInt8} {s : BufferedStream (Unpack.State σ ζ) UInt8}
    (h : Unpack.Runs P H V lo g w N T c s) : H s.prod.input := h.weak.1

theorem Unpack.runs_new (R : Sturdy P l H V) {s : σ} (h : H s) {lo : Int} (hlo : ¬ V.dead s → lo ≤ V.loc s) {N T : Nat}
    (hN : 2 * (w D.init + (g + 1) * V.total) < N) (hT : w D.init + g * V.total ≤ T) :
    ∃ t, Unpack.openStream D s = .ok t ∧ Unpack.Runs P H V lo g w N T [] t ∧ t.pos = 0 ∧ t.status = .ok ∧ t.size = -1 := by
  have hrem := View.rem_le R h
  exact Unpack.openStream_any (P := P) (D := D) (lo := lo) (g := g) (w := w)
      (K := fun s => H s ∧ (¬ V.dead s → lo ≤ V.loc s)) (rem := V.rem)
      (input := s) ⟨h, hlo⟩ (N := N) (T := T)
      (by have := Nat.mul_le_mul_left (g + 1) hrem; omega) (by have := Nat.mul_le_mul_left g hrem; omega)

theorem GZip.new_any (R : Sturdy P l H V) (hl : l ≤ 1) {input : σ} (hi : H input) (hs : P.status input ≠ .error)
    (gzip : Bool) {N T : Nat} (hN : 2 * (w D.init + (g + 1) * V.total) < N) (hT : w D.init + g * V.total ≤ T) :
    ∃ s, GZip.new P D gzip input = .ok s ∧ Unpack.Runs P H V 0 g w N T [] s := by
  cases gzip with
  | false =>
    obtain ⟨t, et, L, _⟩ := Unpack.runs_new (D := D) R hi (fun z => (R.range hi z).1) hN hT
    exact ⟨t, by unfold GZip.new; simpa using et, L⟩
  | true =>
    obtain ⟨s1, b, e1, h1⟩ := GZip.checkMagic_total R hl hi hs
    unfold GZip.new
    simp only [if_true]
    rw [e1, Res.bind_ok]
    cases b with
    | true =>
      obtain ⟨t, et, L, _⟩ := Unpack.runs_new (D := D) R h1 (fun z => (R.range h1 z).1) hN hT
      exact ⟨t, by simpa using et, L⟩
    | false =>
      exact ⟨_, rfl, Unpack.broken_any (K := fun s => H s ∧ (¬ V.dead s → 0 ≤ V.loc s)) ⟨h1, fun z => (R.range h1 z).1⟩ N _⟩

theorem BZ2.new_any (R : Sturdy P l H V) (hl : l ≤ 1) {input : σ} (hi : H input) (hs : P.status input ≠ .error)
    {N T : Nat} (hN : 2 * (w D.init + (g + 1) * V.total) < N) (hT : w D.init + g * V.total ≤ T) :
    ∃ s, BZ2.new P D input = .ok s ∧ Unpack.Runs P H V 0 g w N T [] s := by
  obtain ⟨s1, b, e1, h1⟩ := BZ2.checkMagic_total R hl hi hs
  unfold BZ2.new
  rw [e1, Res.bind_ok]
  cases b with
  | false =>
    exact ⟨_, rfl, Unpack.broken_any (K := fun s => H s ∧ (¬ V.dead s → 0 ≤ V.loc s)) ⟨h1, fun z => (R.range h1 z).1⟩ N _⟩
  | true =>
    obtain ⟨t, et, L, _⟩ := Unpack.runs_new (D := D) R h1 (fun z => (R.range h1 z).1) hN hT
    exact ⟨t, by simpa using et, L⟩

end Strigi
