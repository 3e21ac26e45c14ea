import Verif.Model.EntryOwnership
import Verif.Proofs.Ownership

/-!
# Entry streams are deleted once (except those of `OleInputStream`)
-/

namespace Strigi
namespace Owner

/-- A heap in which the input `r` exists. -/
structure Base (h : Heap) (r : Nat) : Prop where
  fresh : ∀ i, h.next ≤ i → h.live i = none
  root : h.live r = some ⟨none, none⟩

variable {h h0 h1 : Heap} {r : Nat}

theorem Base.lt (B : Base h r) : r < h.next := by
  rcases Nat.lt_or_ge r h.next with z | z
  · exact z
  · have := B.root
    rw [B.fresh r z] at this; cases this

theorem Base.gone (B : Base h0 r) (g : Gone h0 h1) : Base h1 r :=
  ⟨fun i hi => by rw [g.2]; exact B.fresh i (Nat.le_trans g.1 hi), by rw [g.2]; exact B.root⟩

theorem touchLoop_mono (h : Heap) : ∀ n m i, n ≤ m → touchLoop h n i = .ok () → touchLoop h m i = .ok ()
  | 0, _, _, _, z => by cases z
  | n + 1, 0, _, hm, _ => by omega
  | n + 1, m + 1, i, hm, z => by
    unfold touchLoop at z ⊢
    cases e : h.live i with
    | none => rw [e] at z; cases z
    | some o =>
      rw [e] at z
      dsimp only at z ⊢
      cases e2 : o.input with
      | none => rfl
      | some j =>
        rw [e2] at z
        exact touchLoop_mono h n m j (by omega) z

theorem touch_root {i : Nat} {e : Option Nat} (z : h.live i = some ⟨none, e⟩) : touch h i = .ok () := by
  unfold touch touchLoop
  rw [z]

theorem touch_step {i j : Nat} {e : Option Nat} (z : h.live i = some ⟨some j, e⟩) (hj : j < i) (t : touch h j = .ok ()) : touch h i = .ok () := by
  unfold touch touchLoop
  rw [z]
  exact touchLoop_mono h _ _ j (by omega) t

theorem delete_plain {i : Nat} {o : Option Nat} (z : h.live i = some ⟨o, none⟩) : delete h i = .ok (h.set i none) := by
  unfold delete
  rw [z]

theorem make_live (h : Heap) (i k : Nat) : (make h i).live k = if k = h.next then some ⟨some i, none⟩ else h.live k := rfl

theorem make_next (h : Heap) (i : Nat) : (make h i).next = h.next + 1 := rfl

theorem set_live (h : Heap) (i : Nat) (o : Option Obj) (k : Nat) : (h.set i o).live k = if k = i then o else h.live k := rfl

theorem set_next (h : Heap) (i : Nat) (o : Option Obj) : (h.set i o).next = h.next := rfl

theorem Base.touch (B : Base h r) : Owner.touch h r = .ok () := touch_root B.root

/-! One stream. -/

theorem Base.touch1 (B : Base h r) : Owner.touch (make h r) h.next = .ok () :=
  touch_step (by rw [make_live, if_pos rfl]) B.lt (touch_root (by rw [make_live, if_neg (by have := B.lt; omega)]; exact B.root))

theorem Base.touch1r (B : Base h r) : Owner.touch (make h r) r = .ok () :=
  touch_root (by rw [make_live, if_neg (by have := B.lt; omega)]; exact B.root)

theorem Base.del1 (B : Base h1 r) (g : Gone h0 h1) : ∃ h', delete (make h1 r) h1.next = .ok h' ∧ Gone h0 h' := by
  refine ⟨_, delete_plain (by rw [make_live, if_pos rfl]), Nat.le_trans g.1 (Nat.le_succ _), fun i => ?_⟩
  rw [set_live]
  split
  · rename_i z; subst z; rw [← g.2]; exact (B.fresh _ (Nat.le_refl _)).symm
  · rename_i z; rw [make_live, if_neg z]; exact g.2 i

/-! Two streams. -/

def two (h : Heap) (r : Nat) : Heap := make (make h r) h.next

theorem two_live (h : Heap) (r k : Nat) : (two h r).live k = if k = h.next + 1 then some ⟨some h.next, none⟩ else if k = h.next then some ⟨some r, none⟩ else h.live k := rfl

theorem Base.two_root (B : Base h r) : (two h r).live r = some ⟨none, none⟩ := by
  have := B.lt
  rw [two_live, if_neg (by omega), if_neg (by omega)]; exact B.root

theorem Base.touch2 (B : Base h r) : Owner.touch (two h r) h.next = .ok () :=
  touch_step (by rw [two_live, if_neg (by omega), if_pos rfl]) B.lt (touch_root B.two_root)

theorem Base.touch2' (B : Base h r) : Owner.touch (two h r) (h.next + 1) = .ok () :=
  touch_step (by rw [two_live, if_pos rfl]) (Nat.lt_succ_self _) B.touch2

theorem Base.del2 (B : Base h1 r) (g : Gone h0 h1) :
    ∃ h2 h3, delete (two h1 r) h1.next = .ok h2 ∧ delete h2 (h1.next + 1) = .ok h3 ∧ Gone h0 h3 := by
  refine ⟨_, _, delete_plain (by rw [two_live, if_neg (by omega), if_pos rfl]), delete_plain (o := some h1.next) (by
    rw [set_live, if_neg (by omega), two_live, if_pos rfl]), Nat.le_trans g.1 (by show _ ≤ h1.next + 1 + 1; omega), fun i => ?_⟩
  rw [set_live, set_live, two_live]
  have f := fun i hi => (g.2 i).symm.trans (B.fresh i hi)
  by_cases z1 : i = h1.next + 1
  · rw [if_pos z1, f i (by omega)]
  · rw [if_neg z1]
    by_cases z2 : i = h1.next
    · rw [if_pos z2, f i (by omega)]
    · rw [if_neg z2, if_neg z1, if_neg z2]; exact g.2 i

/-! Three streams. -/

def three (h : Heap) (r : Nat) : Heap := make (two h r) (h.next + 1)

theorem three_live (h : Heap) (r k : Nat) : (three h r).live k = if k = h.next + 2 then some ⟨some (h.next + 1), none⟩ else
    if k = h.next + 1 then some ⟨some h.next, none⟩ else if k = h.next then some ⟨some r, none⟩ else h.live k := rfl

theorem Base.three_root (B : Base h r) : (three h r).live r = some ⟨none, none⟩ := by
  have := B.lt
  rw [three_live, if_neg (by omega), if_neg (by omega), if_neg (by omega)]; exact B.root

theorem Base.touch3 (B : Base h r) : Owner.touch (three h r) h.next = .ok () :=
  touch_step (by rw [three_live, if_neg (by omega), if_neg (by omega), if_pos rfl]) B.lt (touch_root B.three_root)

theorem Base.touch3' (B : Base h r) : Owner.touch (three h r) (h.next + 2) = .ok () :=
  touch_step (by rw [three_live, if_pos rfl]) (Nat.lt_succ_self _)
    (touch_step (by rw [three_live, if_neg (by omega), if_pos rfl]) (Nat.lt_succ_self _) B.touch3)

theorem Base.del3 (B : Base h1 r) (g : Gone h0 h1) :
    ∃ h2 h3 h4, delete (three h1 r) h1.next = .ok h2 ∧ delete h2 (h1.next + 1) = .ok h3 ∧ Owner.touch h3 r = .ok () ∧ delete h3 (h1.next + 2) = .ok h4 ∧ Gone h0 h4 := by
  have lt := B.lt
  refine ⟨_, _, _, delete_plain (by rw [three_live, if_neg (by omega), if_neg (by omega), if_pos rfl]), delete_plain (o := some h1.next) (by
    rw [set_live, if_neg (by omega), three_live, if_neg (by omega), if_pos rfl]), touch_root (e := none) (by
      rw [set_live, if_neg (by omega), set_live, if_neg (by omega)]; exact B.three_root), delete_plain (o := some (h1.next + 1)) (by
    rw [set_live, if_neg (by omega), set_live, if_neg (by omega), three_live, if_pos rfl]), Nat.le_trans g.1 (by show _ ≤ h1.next + 1 + 1 + 1; omega), fun i => ?_⟩
  rw [set_live, set_live, set_live, three_live]
  have f := fun i hi => (g.2 i).symm.trans (B.fresh i hi)
  by_cases z0 : i = h1.next + 2
  · rw [if_pos z0, f i (by omega)]
  · rw [if_neg z0]
    by_cases z1 : i = h1.next + 1
    · rw [if_pos z1, f i (by omega)]
    · rw [if_neg z1]
      by_cases z2 : i = h1.next
      · rw [if_pos z2, f i (by omega)]
      · rw [if_neg z2, if_neg z0, if_neg z1, if_neg z2]; exact g.2 i

/-! ## The providers -/

/-- A property that holds at the beginning, and is kept by both steps, holds at the end. -/
theorem runSteps_ok {α : Type} {next : Prov → α → Res Prov} {I : Prov → Prop} (hu : ∀ s, I s → s.use = .ok s) (hn : ∀ s x, I s → ∃ s', next s x = .ok s' ∧ I s') :
    ∀ (l : List (Step α)) (s : Prov), I s → ∃ s', runSteps next s l = .ok s' ∧ I s'
  | [], s, i => ⟨s, rfl, i⟩
  | .use :: l, s, i => by
    unfold runSteps
    rw [hu s i, Res.bind_ok]
    exact runSteps_ok hu hn l s i
  | .next x :: l, s, i => by
    unfold runSteps
    obtain ⟨s', e, i'⟩ := hn s x i
    rw [e, Res.bind_ok]
    exact runSteps_ok hu hn l s' i'

/-- What is there: nothing; an entry; an entry with one or two streams behind it. -/
inductive Shape (h0 : Heap) (r : Nat) : Prov → Prop
  | none (h b) : Gone h0 h → Shape h0 r ⟨h, .none, .none, .none, b⟩
  | entry (h b) : Gone h0 h → Shape h0 r ⟨make h r, .none, .none, some h.next, b⟩
  | shared (h b) : Gone h0 h → Shape h0 r ⟨make h r, some h.next, .none, some h.next, b⟩
  | two (h b) : Gone h0 h → Shape h0 r ⟨two h r, some h.next, .none, some (h.next + 1), b⟩
  | three (h b) : Gone h0 h → Shape h0 r ⟨three h r, some h.next, some (h.next + 1), some (h.next + 2), b⟩

theorem Shape.use (B : Base h0 r) {s : Prov} (S : Shape h0 r s) : s.use = .ok s := by
  unfold Prov.use
  cases S with
  | none h b g => rfl
  | entry h b g => dsimp only; rw [(B.gone g).touch1, Res.bind_ok]
  | shared h b g => dsimp only; rw [(B.gone g).touch1, Res.bind_ok]
  | two h b g => dsimp only; rw [(B.gone g).touch2', Res.bind_ok]
  | three h b g => dsimp only; rw [(B.gone g).touch3', Res.bind_ok]

/-- tar and ar. -/
theorem plain_next (B : Base h0 r) (s : Prov) (x : Bool) (S : Shape h0 r s ∧ s.a = none) : ∃ s', plainNext s r x = .ok s' ∧ Shape h0 r s' ∧ s'.a = none := by
  obtain ⟨S, ha⟩ := S
  unfold plainNext
  split
  · exact ⟨s, rfl, S, ha⟩
  · have fin : ∀ (h : Heap) (b : Bool), Gone h0 h → ∃ s', (do
        touch h r
        if x then .ok ⟨make h r, none, none, some h.next, b⟩ else .ok ⟨h, none, none, none, true⟩ : Res Prov) = .ok s' ∧ Shape h0 r s' ∧ s'.a = none := by
      intro h b g
      rw [(B.gone g).touch, Res.bind_ok]
      cases x with
      | true => exact ⟨_, rfl, .entry h b g, rfl⟩
      | false => exact ⟨_, rfl, .none h true g, rfl⟩
    cases S with
    | none h b g =>
      dsimp only
      rw [Res.bind_ok]
      exact fin h b g
    | entry h b g =>
      dsimp only
      obtain ⟨h', e, g'⟩ := (B.gone g).del1 g
      rw [(B.gone g).touch1, Res.bind_ok, e, Res.bind_ok, Res.bind_ok]
      exact fin h' b g'
    | shared h b g => cases ha
    | two h b g => cases ha
    | three h b g => cases ha

theorem plain_destroy (B : Base h0 r) {s : Prov} (S : Shape h0 r s ∧ s.a = none) : ∃ h, plainDestroy s = .ok h ∧ Gone h0 h := by
  obtain ⟨S, ha⟩ := S
  unfold plainDestroy
  cases S with
  | none h b g => exact ⟨h, rfl, g⟩
  | entry h b g =>
    obtain ⟨h', e, g'⟩ := (B.gone g).del1 g
    exact ⟨h', e, g'⟩
  | shared h b g => cases ha
  | two h b g => cases ha
  | three h b g => cases ha

/-- zip. -/
def ZipShape (s : Prov) : Prop := s.a ≠ none → s.b ≠ none

theorem zip_next (B : Base h0 r) (s : Prov) (x : Bool × ZipFound) (S : Shape h0 r s ∧ ZipShape s) : ∃ s', zipNext s r x.1 x.2 = .ok s' ∧ Shape h0 r s' ∧ ZipShape s' := by
  obtain ⟨S, ha⟩ := S
  unfold zipNext
  split
  · exact ⟨s, rfl, S, ha⟩
  · rename_i hst
    have fin : ∀ (h : Heap) (b : Bool), Gone h0 h → ∃ s', (do
        touch h r
        match x.2 with
        | .nothing => .ok ⟨h, none, none, none, true⟩
        | .stored | .streamed => .ok ⟨make h r, none, none, some h.next, b⟩
        | .deflated => do
          let c := h.next
          let h := make h r
          let h ← del h none
          let u := h.next
          touch h c
          let h := make h c
          touch h u
          .ok ⟨make h u, some c, some u, some h.next, b⟩ : Res Prov) = .ok s' ∧ Shape h0 r s' ∧ ZipShape s' := by
      intro h b g
      rw [(B.gone g).touch, Res.bind_ok]
      cases x.2 with
      | nothing => exact ⟨_, rfl, .none h true g, fun z => absurd rfl z⟩
      | stored => exact ⟨_, rfl, .entry h b g, fun z => absurd rfl z⟩
      | streamed => exact ⟨_, rfl, .entry h b g, fun z => absurd rfl z⟩
      | deflated =>
        dsimp only [del]
        rw [Res.bind_ok, (B.gone g).touch1, Res.bind_ok]
        rw [show touch (make (make h r) h.next) (make h r).next = _ from (B.gone g).touch2', Res.bind_ok]
        exact ⟨_, rfl, .three h b g, fun _ z => by cases z⟩
    cases S with
    | none h b g =>
      dsimp only at hst ⊢
      rw [Res.bind_ok, if_neg hst]
      exact fin h b g
    | entry h b g =>
      dsimp only at hst ⊢
      rw [(B.gone g).touch1, Res.bind_ok, (B.gone g).touch1r, Res.bind_ok]
      cases x.1 with
      | true =>
        rw [if_pos rfl, Res.bind_ok]
        dsimp only
        rw [if_pos rfl]
        exact ⟨_, rfl, .entry h true g, fun z => absurd rfl z⟩
      | false =>
        obtain ⟨h', e, g'⟩ := (B.gone g).del1 g
        rw [if_neg (by simp), e, Res.bind_ok, Res.bind_ok]
        dsimp only
        rw [if_neg hst]
        exact fin h' b g'
    | shared h b g => exact absurd rfl (ha (by simp))
    | two h b g => exact absurd rfl (ha (by simp))
    | three h b g =>
      dsimp only [del] at hst ⊢
      obtain ⟨h2, h3, h4, e1, e2, e3, e4, g4⟩ := (B.gone g).del3 g
      rw [(B.gone g).touch3, Res.bind_ok, e1, Res.bind_ok, e2, Res.bind_ok, e3, Res.bind_ok, e4, Res.bind_ok, Res.bind_ok]
      dsimp only
      rw [if_neg hst]
      exact fin h4 b g4

theorem zip_destroy (B : Base h0 r) {s : Prov} (S : Shape h0 r s ∧ ZipShape s) : ∃ h, zipDestroy s = .ok h ∧ Gone h0 h := by
  obtain ⟨S, ha⟩ := S
  unfold zipDestroy
  cases S with
  | none h b g => exact ⟨h, rfl, g⟩
  | entry h b g =>
    obtain ⟨h', e, g'⟩ := (B.gone g).del1 g
    dsimp only [del]
    rw [Res.bind_ok, Res.bind_ok]
    exact ⟨h', e, g'⟩
  | shared h b g => exact absurd rfl (ha (by simp))
  | two h b g => exact absurd rfl (ha (by simp))
  | three h b g =>
    obtain ⟨h2, h3, h4, e1, e2, e3, e4, g4⟩ := (B.gone g).del3 g
    dsimp only [del]
    rw [e1, Res.bind_ok, e2, Res.bind_ok]
    exact ⟨h4, e4, g4⟩

/-- mail and SD files. -/
def MailShape (multi : Bool) (s : Prov) : Prop := s.b = none ∧ (multi = true → s.a = none → s.entry = none) ∧ (s.stopped = false → multi = false → s.entry = none)

/-- The last part is deleted. -/
theorem last_part (B : Base h0 r) {s : Prov} (S : Shape h0 r s) (hb : s.b = none) (hn : s.a = none → s.entry = none) (bad : Bool) :
    ∃ h b, lastPart s bad = .ok ⟨h, none, none, none, b⟩ ∧ Gone h0 h := by
  unfold lastPart
  cases S with
  | none h b g => exact ⟨h, b, rfl, g⟩
  | entry h b g => cases hn rfl
  | shared h b g =>
    obtain ⟨h', e, g'⟩ := (B.gone g).del1 g
    dsimp only [del]
    rw [(B.gone g).touch1, Res.bind_ok, if_neg (by simp), Res.bind_ok, e, Res.bind_ok]
    exact ⟨h', bad, rfl, g'⟩
  | two h b g =>
    obtain ⟨h2, h3, e1, e2, g'⟩ := (B.gone g).del2 g
    dsimp only [del]
    rw [(B.gone g).touch2, Res.bind_ok, if_pos (by simp), e1, Res.bind_ok, e2, Res.bind_ok]
    exact ⟨h3, bad, rfl, g'⟩
  | three h b g => cases hb

theorem mail_next (B : Base h0 r) (multi : Bool) (s : Prov) (x : Bool × MailFound) (S : Shape h0 r s ∧ MailShape multi s) :
    ∃ s', mailNext multi s r x.1 x.2 = .ok s' ∧ Shape h0 r s' ∧ MailShape multi s' := by
  obtain ⟨S, hb, hm, hs⟩ := S
  unfold mailNext
  split
  · exact ⟨s, rfl, S, hb, hm, hs⟩
  · rename_i hst
    cases multi with
    | true =>
      rw [if_pos rfl]
      obtain ⟨h, b, e, g⟩ := last_part B S hb (hm rfl) x.1
      rw [e, Res.bind_ok]
      dsimp only
      split
      · rename_i z
        rw [z]
        exact ⟨_, rfl, .none h true g, rfl, fun _ _ => rfl, fun _ _ => rfl⟩
      · rw [(B.gone g).touch, Res.bind_ok]
        cases x.2 with
        | nothing => exact ⟨_, rfl, .none h true g, rfl, fun _ _ => rfl, fun _ _ => rfl⟩
        | part => exact ⟨_, rfl, .shared h b g, rfl, fun _ z => (by cases z), fun _ z => (by cases z)⟩
        | base64 => exact ⟨_, rfl, .two h b g, rfl, fun _ z => (by cases z), fun _ z => (by cases z)⟩
    | false =>
      rw [if_neg (by simp)]
      have hs := hs (by simpa using hst) rfl
      cases S with
      | none h b g => exact ⟨_, rfl, .entry h true g, rfl, fun z => (by cases z), fun z => (by cases z)⟩
      | entry h b g => cases hs
      | shared h b g => cases hs
      | two h b g => cases hs
      | three h b g => cases hs

theorem mail_destroy (B : Base h0 r) {s : Prov} (S : Shape h0 r s) (hb : s.b = none) : ∃ h, mailDestroy s = .ok h ∧ Gone h0 h := by
  unfold mailDestroy
  cases S with
  | none h b g => exact ⟨h, rfl, g⟩
  | entry h b g =>
    obtain ⟨h', e, g'⟩ := (B.gone g).del1 g
    dsimp only [del]
    rw [if_neg (by simp), Res.bind_ok]
    exact ⟨h', e, g'⟩
  | shared h b g =>
    obtain ⟨h', e, g'⟩ := (B.gone g).del1 g
    dsimp only [del]
    rw [if_neg (by simp), Res.bind_ok]
    exact ⟨h', e, g'⟩
  | two h b g =>
    obtain ⟨h2, h3, e1, e2, g'⟩ := (B.gone g).del2 g
    dsimp only [del]
    rw [if_pos (by simp), e1, Res.bind_ok]
    exact ⟨h3, e2, g'⟩
  | three h b g => cases hb

theorem sdf_next (B : Base h0 r) (s : Prov) (x : Bool × Bool) (S : Shape h0 r s ∧ s.b = none ∧ (s.a = none → s.entry = none)) :
    ∃ s', sdfNext s r x.1 x.2 = .ok s' ∧ Shape h0 r s' ∧ s'.b = none ∧ (s'.a = none → s'.entry = none) := by
  obtain ⟨S, hb, hn⟩ := S
  unfold sdfNext
  split
  · exact ⟨s, rfl, S, hb, hn⟩
  · have t : touch s.heap r = .ok () := by
      cases S with
      | none h b g => exact (B.gone g).touch
      | entry h b g => exact (B.gone g).touch1r
      | shared h b g => exact (B.gone g).touch1r
      | two h b g => exact touch_root (B.gone g).two_root
      | three h b g => exact touch_root (B.gone g).three_root
    rw [t, Res.bind_ok]
    obtain ⟨h, b, e, g⟩ := last_part B S hb hn x.1
    rw [e, Res.bind_ok]
    dsimp only
    rw [(B.gone g).touch, Res.bind_ok]
    split
    · exact ⟨_, rfl, .shared h b g, rfl, fun z => (by cases z)⟩
    · exact ⟨_, rfl, .none h true g, rfl, fun _ => rfl⟩

/-- RPM packages. -/
structure Cpio (h0 : Heap) (r : Nat) (h1 : Heap) (s : Prov) : Prop where
  gone : Gone h0 h1
  a : s.a = some h1.next
  b : s.b = some (h1.next + 1)
  next : h1.next + 2 ≤ s.heap.next
  entry : ∀ k, s.entry = some k → h1.next + 2 ≤ k ∧ k < s.heap.next
  live : ∀ i, s.heap.live i = if i = h1.next + 1 then some ⟨some h1.next, s.entry⟩ else if i = h1.next then some ⟨some r, none⟩ else
    if s.entry = some i then some ⟨some h1.next, none⟩ else h1.live i

inductive RpmShape (h0 : Heap) (r : Nat) : Prov → Prop
  | none (h : Heap) : Gone h0 h → RpmShape h0 r ⟨h, .none, .none, .none, true⟩
  | broken (h : Heap) : Gone h0 h → RpmShape h0 r ⟨make h r, some h.next, .none, .none, true⟩
  | good (base : Heap) (s : Prov) : Cpio h0 r base s → RpmShape h0 r s

theorem Cpio.root (B : Base h0 r) {s : Prov} (C : Cpio h0 r h1 s) : s.heap.live r = some ⟨none, none⟩ := by
  have B1 := B.gone C.gone
  have := B1.lt
  rw [C.live, if_neg (by omega), if_neg (by omega), if_neg, B1.root]
  intro z
  have := C.entry r z
  omega

theorem Cpio.touch_a (B : Base h0 r) {s : Prov} (C : Cpio h0 r h1 s) : touch s.heap h1.next = .ok () := by
  have B1 := B.gone C.gone
  exact touch_step (by rw [C.live, if_neg (by omega), if_pos rfl]) B1.lt (touch_root (C.root B))

theorem Cpio.touch_b (B : Base h0 r) {s : Prov} (C : Cpio h0 r h1 s) : touch s.heap (h1.next + 1) = .ok () :=
  touch_step (by rw [C.live, if_pos rfl]) (Nat.lt_succ_self _) (C.touch_a B)

theorem rpm_use (B : Base h0 r) {s : Prov} (S : RpmShape h0 r s) : s.use = .ok s := by
  unfold Prov.use
  cases S with
  | none h g => rfl
  | broken h g => rfl
  | good h1 s C =>
    cases e : s.entry with
    | none => rfl
    | some k =>
      dsimp only
      have := C.entry k e
      rw [touch_step (h := s.heap) (i := k) (j := h1.next) (e := none) (by rw [C.live, if_neg (by omega), if_neg (by omega), if_pos e]) (by omega) (C.touch_a B), Res.bind_ok]

theorem rpm_new (B : Base h0 r) (x : RpmFound) : ∃ s, rpmNew h0 r x = .ok s ∧ RpmShape h0 r s := by
  have g : Gone h0 h0 := ⟨Nat.le_refl _, fun _ => rfl⟩
  unfold rpmNew
  cases x with
  | nothing => exact ⟨_, rfl, .none h0 g⟩
  | broken =>
    dsimp only
    rw [B.touch, Res.bind_ok]
    exact ⟨_, rfl, .broken h0 g⟩
  | good =>
    dsimp only
    rw [B.touch, Res.bind_ok, B.touch1, Res.bind_ok]
    refine ⟨_, rfl, .good h0 _ ⟨g, rfl, rfl, Nat.le_refl _, fun k hk => (by cases hk), fun i => ?_⟩⟩
    show (two h0 r).live i = _
    rw [two_live]
    rfl

theorem rpm_next (B : Base h0 r) (s : Prov) (x : Bool) (S : RpmShape h0 r s) : ∃ s', rpmNext s x = .ok s' ∧ RpmShape h0 r s' := by
  unfold rpmNext
  split
  · exact ⟨s, rfl, S⟩
  · rename_i hst
    cases S with
    | none h g => exact absurd rfl hst
    | broken h g => exact absurd rfl hst
    | good h1 s C =>
      have lt := (B.gone C.gone).lt
      have hc : s.heap.live (h1.next + 1) = some ⟨some h1.next, s.entry⟩ := by rw [C.live, if_pos rfl]
      rw [C.b]
      dsimp only
      unfold nextEntry
      rw [C.touch_b B, Res.bind_ok, hc]
      dsimp only
      obtain ⟨h2, e2, n2, l2⟩ : ∃ h2, deleteEntry s.heap ⟨some h1.next, s.entry⟩ = .ok h2 ∧ h2.next = s.heap.next ∧
          ∀ i, h2.live i = if s.entry = some i then none else s.heap.live i := by
        unfold deleteEntry
        cases he : s.entry with
        | none => exact ⟨_, rfl, rfl, fun i => by simp⟩
        | some k =>
          have hk := C.entry k he
          dsimp only
          refine ⟨_, delete_plain (o := some h1.next) (by rw [C.live, if_neg (by omega), if_neg (by omega), if_pos he]), rfl, fun i => ?_⟩
          rw [set_live]
          by_cases z : i = k
          · simp [z]
          · rw [if_neg z, if_neg (by simp; exact fun w => z w.symm)]
      rw [e2, Res.bind_ok]
      have cn := C.next
      cases x with
      | true =>
        rw [if_pos rfl, Res.bind_ok]
        refine ⟨_, rfl, .good h1 _ ⟨C.gone, C.a, rfl, ?_, fun k hk => ?_, fun i => ?_⟩⟩
        · show _ ≤ h2.next + 1; omega
        · injection hk with hk
          have hk : h2.next = k := hk
          subst hk
          exact ⟨by omega, Nat.lt_succ_self _⟩
        · dsimp only
          rw [set_live, alloc_live]
          by_cases z1 : i = h1.next + 1
          · rw [if_pos z1, if_pos z1]
          · rw [if_neg z1, if_neg z1]
            by_cases z2 : i = h1.next
            · have ne : ¬ s.entry = some i := fun w => by have := C.entry i w; omega
              rw [if_pos z2, if_neg (by omega), l2, if_neg ne, C.live, if_neg z1, if_pos z2]
            · rw [if_neg z2]
              by_cases z3 : i = h2.next
              · rw [if_pos z3, if_pos (by rw [z3]; rfl)]
              · rw [if_neg z3, if_neg (by intro w; injection w with w; exact z3 w.symm), l2]
                by_cases z4 : s.entry = some i
                · have := C.entry i z4
                  rw [if_pos z4]
                  exact ((B.gone C.gone).fresh i (by omega)).symm
                · rw [if_neg z4, C.live, if_neg z1, if_neg z2, if_neg z4]
      | false =>
        rw [if_neg (by simp), Res.bind_ok]
        refine ⟨_, rfl, .good h1 _ ⟨C.gone, C.a, rfl, ?_, fun k hk => (by cases hk), fun i => ?_⟩⟩
        · show _ ≤ h2.next; omega
        · dsimp only
          rw [set_live]
          by_cases z1 : i = h1.next + 1
          · rw [if_pos z1, if_pos z1]
          · rw [if_neg z1, if_neg z1, l2]
            by_cases z4 : s.entry = some i
            · have := C.entry i z4
              rw [if_pos z4, if_neg (by omega), if_neg (by simp)]
              exact ((B.gone C.gone).fresh i (by omega)).symm
            · rw [if_neg z4, C.live, if_neg z1, if_neg z4]
              simp

theorem rpm_destroy (B : Base h0 r) {s : Prov} (S : RpmShape h0 r s) : ∃ h, rpmDestroy s = .ok h ∧ Gone h0 h := by
  unfold rpmDestroy
  cases S with
  | none h g => exact ⟨h, rfl, g⟩
  | broken h g =>
    obtain ⟨h', e, g'⟩ := (B.gone g).del1 g
    dsimp only [del]
    rw [e, Res.bind_ok]
    exact ⟨h', rfl, g'⟩
  | good h1 s C =>
    have B1 := B.gone C.gone
    rw [C.a, C.b]
    dsimp only [del]
    rw [delete_plain (h := s.heap) (i := h1.next) (o := some r) (by rw [C.live, if_neg (by omega), if_pos rfl]), Res.bind_ok]
    obtain ⟨h3, e3, n3, l3⟩ := delete_ok (h := s.heap.set h1.next none) (p := h1.next + 1) (o := ⟨some h1.next, s.entry⟩)
      (by rw [set_live, if_neg (by omega), C.live, if_pos rfl]) (fun k hk => by
        have hk : s.entry = some k := hk
        have := C.entry k hk
        exact ⟨_, by rw [set_live, if_neg (by omega), C.live, if_neg (by omega), if_neg (by omega), if_pos hk]⟩)
    rw [e3, Res.bind_ok]
    refine ⟨h3, rfl, ?_, fun i => ?_⟩
    · rw [n3]
      have := C.next
      have := C.gone.1
      show _ ≤ s.heap.next
      omega
    · rw [l3]
      have f := fun i hi => (C.gone.2 i).symm.trans (B1.fresh i hi)
      by_cases z1 : i = h1.next + 1 ∨ s.entry = some i
      · rw [if_pos z1]
        refine (f i ?_).symm
        rcases z1 with z1 | z1
        · omega
        · have := C.entry i z1; omega
      · rw [if_neg z1, set_live]
        rw [not_or] at z1
        by_cases z2 : i = h1.next
        · rw [if_pos z2]; exact (f i (by omega)).symm
        · rw [if_neg z2, C.live, if_neg z1.1, if_neg z2, if_neg z1.2]; exact C.gone.2 i

/-- OLE files: the entry is null or the stream of the class itself. -/
def OleShape (h0 : Heap) (r : Nat) (s : Prov) : Prop := s.heap = make h0 r ∧ s.a = some h0.next ∧ (s.entry = none ∨ s.entry = some h0.next)

theorem ole_use (B : Base h0 r) {s : Prov} (S : OleShape h0 r s) : s.use = .ok s := by
  obtain ⟨e1, _, e3⟩ := S
  unfold Prov.use
  rcases e3 with e3 | e3
  · rw [e3]
  · rw [e3]
    dsimp only
    rw [e1, B.touch1, Res.bind_ok]

theorem ole_next (B : Base h0 r) (s : Prov) (x : Bool) (S : OleShape h0 r s) :
    ∃ s', oleNext s x = .ok s' ∧ OleShape h0 r s' ∧ s'.entry = if x then some h0.next else none := by
  obtain ⟨e1, e2, e3⟩ := S
  unfold oleNext
  cases x with
  | true =>
    rw [if_pos rfl, e2]
    dsimp only
    rw [e1, B.touch1, Res.bind_ok]
    exact ⟨_, rfl, ⟨rfl, rfl, Or.inr rfl⟩, rfl⟩
  | false =>
    rw [if_neg (by simp)]
    exact ⟨_, rfl, ⟨e1, e2, Or.inl rfl⟩, rfl⟩

theorem ole_destroy (B : Base h0 r) {s : Prov} (S : OleShape h0 r s) :
    (s.entry = none → ∃ h, oleDestroy s = .ok h ∧ Gone h0 h) ∧ (s.entry ≠ none → oleDestroy s = .fault .undefined) := by
  obtain ⟨e1, e2, e3⟩ := S
  unfold oleDestroy
  rw [e1, e2]
  dsimp only [del]
  obtain ⟨h', e, g⟩ := B.del1 (h0 := h0) ⟨Nat.le_refl _, fun _ => rfl⟩
  rw [e, Res.bind_ok]
  rcases e3 with e3 | e3
  · rw [e3]
    exact ⟨fun _ => ⟨h', rfl, g⟩, fun z => absurd rfl z⟩
  · rw [e3]
    refine ⟨fun z => (by cases z), fun _ => ?_⟩
    dsimp only
    unfold delete
    rw [g.2, B.fresh _ (Nat.le_refl _)]

end Owner
end Strigi
