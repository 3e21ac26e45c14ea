import Verif.Proofs.MailLineSafe
import Verif.Proofs.Base64Safe

/-!
# The structure of a mail, on arbitrary bytes
-/

namespace Strigi.Mail

variable {σ : Type} {P : StreamOps σ UInt8} {c : List UInt8} {lo : Int} {H : σ → Prop} {W : σ → Int → Int → Prop}
  {conv : List UInt8 → List UInt8 → List UInt8} {stale : Int} {fuel N T : Nat}

/-- The memory of the current line. -/
def Mem (s : State σ) : Prop := s.len ≤ s.line.length ∨ 2 ^ 20 < s.line.length

/-- The current line is complete. -/
def Shaped (s : State σ) : Prop :=
  ∃ l r x, s.line = l ++ x :: r ∧ (x = 13 ∨ x = 10) ∧ s.len = l.length ∧ l.length < 2 ^ 20

/-- The boundaries are not too long. -/
def Short (bs : List (List UInt8)) : Prop := ∀ b ∈ bs, b.length + 4 ≤ 2 ^ 20

theorem Start.congr {s s' : State σ} (h : Start P c H W s) (e1 : s'.input = s.input) (e2 : s'.nextLine = s.nextLine) : Start P c H W s' :=
  ⟨by rw [e1]; exact h.input, by rw [e2]; exact h.low, by rw [e2]; exact h.high, by rw [e1, e2]; exact h.reach⟩

theorem After.facts {s s' : State σ} (h : Start P c H W s) (A : After P c H W stale s s') : Start P c H W s' ∧ Mem s' ∧ s'.entry = s.entry ∧
    s'.boundary = s.boundary ∧ s.nextLine ≤ s'.nextLine ∧
    (s'.status = .ok → s.status = .ok ∧ Shaped s' ∧ s.nextLine + s'.len + 1 ≤ s'.nextLine ∧ 0 ≤ s'.len ∧ P.position s'.input = s.nextLine) := by
  have hl := h.low
  cases A with
  | @line i l r x p a1 a2 a3 a4 a5 a6 a7 a8 =>
    refine ⟨⟨a1, by simp only; omega, by simp only; omega, Or.inr (Or.inr ⟨_, _, a3, by simp only; omega, by simp only; omega⟩)⟩, Or.inl ?_, rfl, rfl,
      by simp only; omega, fun z => ⟨z, ⟨l, r, x, rfl, a4, rfl, ?_⟩, by simp only; omega, by simp only; omega, a2⟩⟩
    · simp only [List.length_append, List.length_cons]; omega
    · simp only [List.length_append, List.length_cons] at a7; omega
  | last a1 a2 => exact ⟨a1.congr rfl rfl, Or.inl a2, rfl, rfl, Int.le_refl _, fun z => by cases z⟩
  | long a1 a2 => exact ⟨a1.congr rfl rfl, Or.inr a2, rfl, rfl, Int.le_refl _, fun z => by cases z⟩

/-- Reading a line. -/
theorem readLine_total (E : Env P c lo H W) (stale : Int) (hf : c.length + 1 < fuel) {s : State σ} (h : Start P c H W s) :
    ∃ s', readHeaderLine P stale fuel s = .ok s' ∧ Start P c H W s' ∧ Mem s' ∧ s'.entry = s.entry ∧
    s'.boundary = s.boundary ∧ s.nextLine ≤ s'.nextLine ∧
    (s'.status = .ok → s.status = .ok ∧ Shaped s' ∧ s.nextLine + s'.len + 1 ≤ s'.nextLine ∧ 0 ≤ s'.len ∧ P.position s'.input = s.nextLine) := by
  obtain ⟨s', e, A⟩ := readHeaderLine_total E stale hf h
  exact ⟨s', e, A.facts h⟩

theorem value_length (n h : List UInt8) : (value n h).length ≤ h.length - n.length := by
  unfold value
  cases caseFind n (cstr h) with
  | none => simp
  | some i =>
    dsimp only
    generalize hv : i + n.length + (List.takeWhile isFiller (List.drop (i + n.length) (cstr h))).length = v
    have hsl : ∀ (a b : Int), (n.length : Int) ≤ a → (slice h a b).length ≤ h.length - n.length := by
      intro a b ha
      unfold slice
      rw [List.length_take, List.length_drop]
      omega
    split <;> split <;> exact hsl _ _ (by omega)

theorem boundaryOf_short {l : List UInt8} (h : l.length < 2 ^ 20) : Short (boundaryOf l) := by
  intro b hb
  unfold boundaryOf at hb
  split at hb
  · simp only [List.mem_singleton] at hb
    subst hb
    have h1 := value_length Mime.boundaryKey (fieldValue Mime.contentType l)
    have h2 : (fieldValue Mime.contentType l).length ≤ l.length := by
      unfold fieldValue
      have := (List.dropWhile_suffix (p := CLib.isSpace) (l := List.drop Mime.contentType.length l)).length_le
      rw [List.length_drop] at this
      omega
    have h3 : Mime.boundaryKey.length = 8 := by decide
    omega
  · simp at hb

theorem handle_total (conv : List UInt8 → List UInt8 → List UInt8) {s : State σ} (h : Shaped s) : ∃ h' bs,
    handleHeaderLine conv s = .ok { s with header := h', boundary := bs ++ s.boundary } ∧ Short bs := by
  obtain ⟨l, r, x, h1, h2, h3, h4⟩ := h
  obtain ⟨h', e, _⟩ := handle_spec conv s h2 h1 h3
  exact ⟨h', _, e, boundaryOf_short h4⟩

theorem Short.append {a b : List (List UInt8)} (h1 : Short a) (h2 : Short b) : Short (a ++ b) := by
  intro x hx
  rcases List.mem_append.mp hx with z | z
  · exact h1 x z
  · exact h2 x z

theorem headerLoop_total (E : Env P c lo H W) (conv : List UInt8 → List UInt8 → List UInt8) (stale : Int) (hf : c.length + 1 < fuel) :
    ∀ (n : Nat) (s : State σ), Start P c H W s → Short s.boundary → s.entry = none → (s.status = .ok → Shaped s ∧ c.length - s.nextLine + 1 < n) →
    0 < n → ∃ s', headerLoop P conv stale fuel n s = .ok s' ∧ Start P c H W s' ∧ Short s'.boundary ∧ s'.entry = none := by
  intro n
  induction n with
  | zero => intro s _ _ _ _ z; omega
  | succ n ih =>
    intro s h hb he hok _
    rw [headerLoop]
    by_cases hc : s.status = .ok ∧ s.len ≠ 0
    · rw [if_pos hc]
      obtain ⟨hs, hn⟩ := hok hc.1
      obtain ⟨h', bs, e1, hbs⟩ := handle_total conv hs
      rw [e1, Res.bind_ok]
      obtain ⟨s2, e2, g1, g2, g3, g4, g5, g6⟩ := readLine_total E stale hf (s := { s with header := h', boundary := bs ++ s.boundary }) (h.congr rfl rfl)
      rw [e2, Res.bind_ok]
      simp only at g3 g4 g5 g6
      have hh := h.high
      exact ih s2 g1 (by rw [g4]; exact hbs.append hb) (by rw [g3]; exact he) (fun z => by
        obtain ⟨_, y2, y3, y4, _⟩ := g6 z
        exact ⟨y2, by omega⟩) (by omega)
    · rw [if_neg hc]
      exact ⟨s, rfl, h, hb, he⟩

theorem new_total (E : Env P c lo H W) (conv : List UInt8 → List UInt8 → List UInt8) (stale : Int) (hf : c.length + 1 < fuel) {input : σ} (hi : H input)
    (h0 : P.position input = 0) : ∃ s, Mail.new P conv stale fuel input = .ok s ∧ Start P c H W s ∧ Short s.boundary ∧ s.entry = none := by
  unfold Mail.new readHeader
  obtain ⟨s1, e1, g1, g2, g3, g4, g5, g6⟩ := readLine_total E stale hf (s := ⟨.ok, input, none, {}, 0, 0, fun _ => [], [], [], 0⟩)
    ⟨hi, by simp, by simp, Or.inr (Or.inl (by simpa using h0))⟩
  rw [e1, Res.bind_ok]
  simp only at g3 g4 g5 g6
  have := g1.high
  exact headerLoop_total E conv stale hf fuel s1 g1 (by rw [g4]; intro b hb; simp at hb) g3 (fun z => by
    obtain ⟨_, y2, y3, y4, _⟩ := g6 z
    exact ⟨y2, by omega⟩) (by omega)

theorem partHeader_total (E : Env P c lo H W) (conv : List UInt8 → List UInt8 → List UInt8) (stale : Int) (hf : c.length + 1 < fuel) :
    ∀ (n : Nat) (s : State σ), Start P c H W s → Short s.boundary → s.entry = none → c.length - s.nextLine < n →
    ∃ s', partHeader P conv stale fuel n s = .ok s' ∧ Start P c H W s' ∧ Short s'.boundary ∧ s'.entry = none ∧ Mem s' ∧
      (∃ bs, s'.boundary = bs ++ s.boundary) ∧ s.nextLine ≤ s'.nextLine ∧ (s'.status = .ok → s.status = .ok ∧ s.nextLine + 1 ≤ s'.nextLine) := by
  intro n
  induction n with
  | zero => intro s h _ _ z; have := h.high; omega
  | succ n ih =>
    intro s h hb he hn
    rw [partHeader]
    obtain ⟨s2, e2, g1, g2, g3, g4, g5, g6⟩ := readLine_total E stale hf h
    rw [e2, Res.bind_ok]
    by_cases hc : s2.status = .ok ∧ checkHeaderLine s2 = true
    · rw [if_pos hc]
      obtain ⟨y1, y2, y3, y4, _⟩ := g6 hc.1
      obtain ⟨h', bs, e1, hbs⟩ := handle_total conv y2
      rw [e1, Res.bind_ok]
      obtain ⟨s', e, k1, k2, k3, k4, ⟨bs', k5⟩, k6, k7⟩ := ih { s2 with header := h', boundary := bs ++ s2.boundary } (g1.congr rfl rfl)
        (by simp only; rw [g4]; exact hbs.append hb) (by simp only; rw [g3]; exact he) (by simp only; omega)
      simp only at k5 k6
      exact ⟨s', e, k1, k2, k3, k4, ⟨bs' ++ bs, by rw [k5, g4]; simp⟩, by omega, fun z => ⟨y1, by omega⟩⟩
    · rw [if_neg hc]
      exact ⟨s2, rfl, g1, by rw [g4]; exact hb, by rw [g3]; exact he, g2, ⟨[], by rw [g4]; rfl⟩, g5, fun z => by
        obtain ⟨y1, y2, y3, y4, _⟩ := g6 z
        exact ⟨y1, by omega⟩⟩

/-- A part as entry stream; it starts at `o`. -/
def PartEntry (P : StreamOps σ UInt8) (c : List UInt8) (H : σ → Prop) (W : σ → Int → Int → Prop) (N T : Nat) (o : Int) : Entry σ → Prop
  | .body _ => False
  | .plain e => StringTerminated.PartOk P c H W e ∧ e.offset = o
  | .base64 e => ∃ cc, BufferedStream.Live (Base64.Sane P c H W o) (Base64.Calls P c H W o N) T cc e

theorem openPart_total (E : Env P c lo H W) (hN : 4 * c.length + 3 < N) (hT : 3 * c.length ≤ T) {s : State σ} (hi : H s.input)
    (hp : 1 ≤ P.position s.input) (hb : s.boundary ≠ []) (hs : Short s.boundary) :
    ∃ s' e, openPart P s = .ok s' ∧ s'.entry = some e ∧ PartEntry P c H W N T (P.position s.input) e ∧ s'.status = s.status ∧ s'.boundary = s.boundary := by
  unfold openPart
  cases hbs : s.boundary with
  | nil => exact absurd hbs hb
  | cons b bs =>
    dsimp only
    have hbl := hs b (by rw [hbs]; simp)
    obtain ⟨sub, e, hsub, hst, hoff⟩ := StringTerminated.part_new E hi hp (q := 45 :: 45 :: b) (by simp) (by simp; omega)
    rw [e, Res.bind_ok]
    refine ⟨_, _, rfl, rfl, ?_, rfl, by simp [hbs]⟩
    split
    · refine ⟨[], BufferedStream.live_fresh (m := 4 * Base64.todoChars P c (Base64.State.new sub) + 0 + 1 + 1) (b := 3 * Base64.todoChars P c (Base64.State.new sub) + 0)
        ⟨hsub, hoff⟩ ⟨⟨hsub, hoff⟩, rfl, ?_, Nat.le_refl _⟩ ?_ (-1)⟩ <;>
      · have : Base64.todoChars P c (Base64.State.new sub) ≤ c.length := by
          show 0 + (if sub.status = .ok then (c.length - P.position sub.parent).toNat else 0) ≤ c.length
          have := E.range hsub.parent
          split <;> omega
        omega
    · exact ⟨hsub, hoff⟩

/-- What comes out of looking for the next part: it was found behind `k`, or not. -/
def Outcome (P : StreamOps σ UInt8) (c : List UInt8) (H : σ → Prop) (W : σ → Int → Int → Prop) (N T : Nat) (k : Int) (s' : State σ) : Prop :=
  s'.status = .ok ∧ s'.boundary ≠ [] ∧ Short s'.boundary ∧ ∃ e o, s'.entry = some e ∧ PartEntry P c H W N T o e ∧ k ≤ o ∧ o ≤ c.length

theorem handleBodyLine_total (E : Env P c lo H W) (hN : 4 * c.length + 3 < N) (hT : 3 * c.length ≤ T) (conv : List UInt8 → List UInt8 → List UInt8) (stale : Int)
    (hf : c.length + 1 < fuel) {s : State σ} (h : Start P c H W s) (hs : Short s.boundary) (he : s.entry = none) (hb : s.boundary ≠ []) :
    ∃ s' f, handleBodyLine P conv stale fuel s = .ok (s', f) ∧ ((f = true ∧ s.status = .ok ∧ Outcome P c H W N T (s.nextLine + 1) s') ∨
      (f = false ∧ Start P c H W s' ∧ Short s'.boundary ∧ s'.entry = none ∧ s'.boundary ≠ [] ∧ s.nextLine ≤ s'.nextLine ∧
        (s'.status = .ok → s.status = .ok))) := by
  unfold handleBodyLine
  have hl := h.low
  obtain ⟨s1, e1, g1, g2, g3, g4, ⟨bs, g5⟩, g6, g7⟩ := partHeader_total E conv stale hf fuel (clearHeaders s) (h.congr rfl rfl) hs he (by
    show (c.length : Int) - s.nextLine < fuel
    omega)
  have g5 : s1.boundary = bs ++ s.boundary := g5
  have g6 : s.nextLine ≤ s1.nextLine := g6
  have g7 : s1.status = .ok → s.status = .ok ∧ s.nextLine + 1 ≤ s1.nextLine := g7
  have hb1 : s1.boundary ≠ [] := by rw [g5]; simp [hb]
  rw [e1, Res.bind_ok]
  split
  · exact ⟨s1, false, rfl, Or.inr ⟨rfl, g1, g2, g3, hb1, g6, fun z => (g7 z).1⟩⟩
  obtain ⟨s2, e2, k1, k2, k3, k4, k5, k6⟩ := readLine_total E stale hf g1
  rw [e2, Res.bind_ok]
  by_cases hst : s2.status ≠ .ok
  · rw [if_pos hst]
    exact ⟨s2, false, rfl, Or.inr ⟨rfl, k1, by rw [k4]; exact g2, by rw [k3]; exact g3, by rw [k4]; exact hb1, by omega, fun z => absurd z hst⟩⟩
  rw [if_neg hst]
  have hok : s2.status = .ok := Classical.not_not.1 hst
  obtain ⟨y1, y2, y3, y4, y5⟩ := k6 hok
  have hs1 := g7 y1
  have hr := E.range k1.input
  obtain ⟨s3, en, e3, m1, m2, m3, m4⟩ := openPart_total E hN hT k1.input (by omega) (by rw [k4]; exact hb1) (by rw [k4]; exact g2)
  rw [e3, Res.bind_ok]
  exact ⟨s3, true, rfl, Or.inl ⟨rfl, hs1.1, by rw [m3]; exact hok, by rw [m4, k4]; exact hb1, by rw [m4, k4]; exact g2, en, _, m1, m2, by omega, by omega⟩⟩

theorem strncmp_total : ∀ (n : Nat) (a b : List UInt8), n ≤ a.length → n ≤ b.length → ∃ r, strncmp n a b = .ok r := by
  intro n
  induction n with
  | zero => intro a b _ _; exact ⟨true, by unfold strncmp; rfl⟩
  | succ n ih =>
    intro a b h1 h2
    rcases a with _ | ⟨x, a⟩
    · simp at h1
    rcases b with _ | ⟨y, b⟩
    · simp at h2
    rw [strncmp]
    split
    · exact ⟨_, rfl⟩
    · split
      · exact ⟨_, rfl⟩
      · exact ih a b (by simpa using h1) (by simpa using h2)

theorem bodyLine_total (E : Env P c lo H W) (hN : 4 * c.length + 3 < N) (hT : 3 * c.length ≤ T) (conv : List UInt8 → List UInt8 → List UInt8) (stale : Int)
    (hf : c.length + 1 < fuel) {s : State σ} (h : Start P c H W s) (hm : Mem s) (hs : Short s.boundary) (he : s.entry = none) (hb : s.boundary ≠ []) :
    ∃ s' f, bodyLine P conv stale fuel s = .ok (s', f) ∧ ((f = true ∧ s.status = .ok ∧ 2 < s.len ∧ Outcome P c H W N T (s.nextLine + 1) s') ∨
      (f = false ∧ Start P c H W s' ∧ Short s'.boundary ∧ s'.entry = none ∧ s.nextLine ≤ s'.nextLine ∧
        (s'.status = .ok → s.status = .ok ∧ s'.boundary ≠ []))) := by
  unfold bodyLine
  unfold Mem at hm
  have hdash : ∃ r, isDashed s = .ok r ∧ (r = true → 2 < s.len) := by
    unfold isDashed
    by_cases h2 : s.len > 2
    · rw [if_pos h2]
      obtain ⟨r, e⟩ := strncmp_total 2 [45, 45] s.line (by simp) (by omega)
      exact ⟨r, e, fun _ => h2⟩
    · rw [if_neg h2]; exact ⟨false, rfl, fun z => by cases z⟩
  obtain ⟨r, e1, hr⟩ := hdash
  rw [e1, Res.bind_ok]
  cases r with
  | false =>
    rw [if_neg (by decide)]
    exact ⟨s, false, rfl, Or.inr ⟨rfl, h, hs, he, Int.le_refl _, fun z => ⟨z, hb⟩⟩⟩
  | true =>
    rw [if_pos rfl]
    have hlen := hr rfl
    cases hbs : s.boundary with
    | nil => exact absurd hbs hb
    | cons b bs =>
      dsimp only
      have hbl := hs b (by rw [hbs]; simp)
      have hcmp : ∀ k : Int, 2 ≤ k → k ≤ 4 → s.len = b.length + k → ∃ r, strncmp b.length (s.line.drop 2) (b ++ [0]) = .ok r := by
        intro k _ _ hk
        exact strncmp_total _ _ _ (by rw [List.length_drop]; omega) (by simp)
      have hclose : ∃ r, isClose s b = .ok r := by
        unfold isClose
        by_cases h4 : s.len = b.length + 4
        · rw [if_pos h4]
          obtain ⟨r, e⟩ := strncmp_total 2 (s.line.drop (2 + b.length)) [45, 45] (by rw [List.length_drop]; omega) (by simp)
          rw [e, Res.bind_ok]
          cases r with
          | true => rw [if_pos rfl]; exact hcmp 4 (by omega) (by omega) h4
          | false => rw [if_neg (by decide)]; exact ⟨false, rfl⟩
        · rw [if_neg h4]; exact ⟨false, rfl⟩
      have hopen : ∃ r, isOpen s b = .ok r := by
        unfold isOpen
        by_cases h2 : s.len = b.length + 2
        · rw [if_pos h2]; exact hcmp 2 (by omega) (by omega) h2
        · rw [if_neg h2]; exact ⟨false, rfl⟩
      obtain ⟨r1, e2⟩ := hclose
      obtain ⟨r2, e3⟩ := hopen
      rw [e2, Res.bind_ok]
      cases r1 with
      | true =>
        rw [if_pos rfl]
        refine ⟨_, false, rfl, Or.inr ⟨rfl, h.congr rfl rfl, fun x hx => hs x (by rw [hbs]; simp [hx]), he, Int.le_refl _, fun z => ?_⟩⟩
        simp only at z ⊢
        by_cases hn : bs = []
        · rw [if_pos hn] at z; cases z
        · rw [if_neg hn] at z; exact ⟨z, hn⟩
      | false =>
        rw [if_neg (by decide), e3, Res.bind_ok]
        cases r2 with
        | true =>
          rw [if_pos rfl]
          obtain ⟨s', f, e4, h4⟩ := handleBodyLine_total E hN hT conv stale hf h hs he hb
          refine ⟨s', f, e4, ?_⟩
          rcases h4 with ⟨z1, z2, z3⟩ | ⟨z1, z2, z3, z4, z5, z6, z7⟩
          · exact Or.inl ⟨z1, z2, hlen, z3⟩
          · exact Or.inr ⟨z1, z2, z3, z4, z6, fun z => ⟨z7 z, z5⟩⟩
        | false =>
          rw [if_neg (by decide)]
          exact ⟨s, false, rfl, Or.inr ⟨rfl, h, hs, he, Int.le_refl _, fun z => ⟨z, hb⟩⟩⟩

theorem scanBody_total (E : Env P c lo H W) (hN : 4 * c.length + 3 < N) (hT : 3 * c.length ≤ T) (conv : List UInt8 → List UInt8 → List UInt8) (stale : Int)
    (hf : c.length + 1 < fuel) : ∀ (n : Nat) (s : State σ), Start P c H W s → Short s.boundary → s.entry = none →
    (s.status = .ok → s.boundary ≠ [] ∧ c.length - s.nextLine + 1 < n) → 0 < n →
    ∃ s', scanBody P conv stale fuel n s = .ok s' ∧ ((s'.status ≠ .ok ∧ s'.entry = none) ∨ Outcome P c H W N T (s.nextLine + 5) s') := by
  intro n
  induction n with
  | zero => intro s _ _ _ _ z; omega
  | succ n ih =>
    intro s h hs he hok _
    rw [scanBody]
    by_cases hst : s.status = .ok
    · rw [if_pos hst]
      obtain ⟨hb, hn⟩ := hok hst
      have hh := h.high
      obtain ⟨s1, e1, g1, g2, g3, g4, g5, g6⟩ := readLine_total E stale hf h
      rw [e1, Res.bind_ok]
      obtain ⟨s2, f, e2, k⟩ := bodyLine_total E hN hT conv stale hf g1 g2 (by rw [g4]; exact hs) (by rw [g3]; exact he) (by rw [g4]; exact hb)
      rw [e2, Res.bind_ok]
      dsimp only
      rcases k with ⟨rfl, k1, k2, k3, k4, k5, en, o, k6, k7, k8, k9⟩ | ⟨rfl, k1, k2, k3, k4, k5⟩
      · rw [if_pos rfl]
        obtain ⟨_, _, y3, _⟩ := g6 k1
        exact ⟨s2, rfl, Or.inr ⟨k3, k4, k5, en, o, k6, k7, by omega, k9⟩⟩
      · rw [if_neg (by decide)]
        obtain ⟨s', e, z⟩ := ih s2 k1 k2 k3 (fun z => by
          obtain ⟨y1, y2⟩ := k5 z
          obtain ⟨_, _, y3, y4, _⟩ := g6 y1
          exact ⟨y2, by omega⟩) (by omega)
        refine ⟨s', e, z.imp_right ?_⟩
        rintro ⟨k3, k4, k5, en, o, k6, k7, k8, k9⟩
        exact ⟨k3, k4, k5, en, o, k6, k7, by omega, k9⟩
    · rw [if_neg hst]
      exact ⟨s, rfl, Or.inl ⟨hst, he⟩⟩

end Strigi.Mail
