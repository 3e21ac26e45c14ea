import Verif.Proofs.Listing

/-! The stack of `ListingInProgress`. -/

namespace Strigi
namespace Listing

/-- What follows the current entry. -/
def behind : Contents → Contents
  | .nil => .nil
  | .entry _ _ _ rest => rest

/-- The tree that results when the listing is completed.  The used part of the stack is given from the top. -/
def final : StackEntry → List StackEntry → Tree
  | e, [] => build e.p e.entry
  | e, par :: l =>
    match par.p with
    | .nil => build e.p e.entry
    | .entry _ len _ rest => final ⟨rest, addEntry par.entry (sized len (build e.p e.entry))⟩ l

/-- The number of calls that are still to come. -/
def todo (e : StackEntry) (l : List StackEntry) : Nat :=
  e.p.count + (l.map fun x => (behind x.p).count + 1).sum

/-- The nested archives fit into the stack. -/
def Room (e : StackEntry) (l : List StackEntry) : Prop :=
  l.length + e.p.depth ≤ 9 ∧ ∀ l1 x l2, l = l1 ++ x :: l2 → l2.length + (behind x.p).depth ≤ 9

/-- They do not. -/
def Over (e : StackEntry) (l : List StackEntry) : Prop :=
  10 ≤ l.length + e.p.depth ∨ ∃ l1 x l2, l = l1 ++ x :: l2 ∧ 10 ≤ l2.length + (behind x.p).depth

def Waiting (l : List StackEntry) : Prop := ∀ x ∈ l, x.p ≠ .nil

theorem Over.cons {e par : StackEntry} {l : List StackEntry} :
    Over e (par :: l) ↔ 10 ≤ l.length + 1 + e.p.depth ∨ Over ⟨behind par.p, par.entry⟩ l := by
  unfold Over
  simp only [List.length_cons]
  constructor
  · rintro (h | ⟨l1, x, l2, h1, h2⟩)
    · exact Or.inl h
    · cases l1 with
      | nil =>
        simp only [List.nil_append, List.cons.injEq] at h1
        obtain ⟨rfl, rfl⟩ := h1
        exact Or.inr (Or.inl h2)
      | cons y l1 =>
        simp only [List.cons_append, List.cons.injEq] at h1
        exact Or.inr (Or.inr ⟨l1, x, l2, h1.2, h2⟩)
  · rintro (h | h | ⟨l1, x, l2, h1, h2⟩)
    · exact Or.inl h
    · exact Or.inr ⟨[], par, l, rfl, h⟩
    · exact Or.inr ⟨par :: l1, x, l2, by rw [h1]; rfl, h2⟩

theorem room_iff {e : StackEntry} {l : List StackEntry} : Room e l ↔ ¬ Over e l := by
  unfold Room Over
  constructor
  · rintro ⟨h1, h2⟩ (h | ⟨l1, x, l2, h3, h4⟩)
    · omega
    · have := h2 l1 x l2 h3; omega
  · intro h
    refine ⟨?_, fun l1 x l2 h1 => ?_⟩
    · have : ¬ 10 ≤ l.length + e.p.depth := fun z => h (Or.inl z)
      omega
    · have : ¬ 10 ≤ l2.length + (behind x.p).depth := fun z => h (Or.inr ⟨l1, x, l2, h1, z⟩)
      omega

theorem finish_spec {par : StackEntry} {l junk : List StackEntry} {ce : StackEntry} {a : Attr} {len : Int}
    {sub rest : Contents} (hp : par.p = .entry a len sub rest) :
    finish ((par :: l).reverse ++ junk) l.length ce =
      .ok ((⟨rest, addEntry par.entry (sized len ce.entry)⟩ :: l).reverse ++ junk) := by
  unfold finish
  have e1 : ((par :: l).reverse ++ junk)[l.length]? = some par := by simp
  rw [e1]
  simp only [hp]
  congr 1
  have : ((par :: l).reverse ++ junk).set l.length ⟨rest, addEntry par.entry (sized len ce.entry)⟩ =
      (⟨rest, addEntry par.entry (sized len ce.entry)⟩ :: l).reverse ++ junk := by
    simp
  rw [← this]
  rfl

/-- One call of `nextEntry(depth)`: it ends the listing, or completes one entry, or overruns the stack. -/
theorem step : ∀ (fuel : Nat) (e : StackEntry) (l junk : List StackEntry), e.p.count < fuel →
    Waiting l → ((e :: l).reverse ++ junk).length = 10 →
    ((e.p = .nil ∧ l = [] ∧ nextEntryAt fuel ((e :: l).reverse ++ junk) l.length =
        .ok ((e :: l).reverse ++ junk, -1)) ∨
      (∃ e' l' junk', nextEntryAt fuel ((e :: l).reverse ++ junk) l.length =
          .ok ((e' :: l').reverse ++ junk', (l'.length : Int)) ∧ Waiting l' ∧
          ((e' :: l').reverse ++ junk').length = 10 ∧ todo e' l' + 1 = todo e l ∧ final e' l' = final e l ∧
          (Over e' l' ↔ Over e l)) ∨
      (Over e l ∧ nextEntryAt fuel ((e :: l).reverse ++ junk) l.length = .fault .outOfBounds)) := by
  intro fuel
  induction fuel with
  | zero => intro e l junk h; omega
  | succ fuel ih =>
    intro e l junk hf hw hlen
    rw [nextEntryAt]
    have hl : l.length + 1 + junk.length = 10 := by simp at hlen; omega
    have hrep : l.length + 1 - ((e :: l).reverse ++ junk).length = 0 := by rw [hlen]; omega
    rw [hrep]
    simp only [List.replicate_zero, List.append_nil]
    have e1 : ((e :: l).reverse ++ junk)[l.length]? = some e := by simp
    rw [e1]
    simp only
    cases hp : e.p with
    | nil =>
      simp only
      cases l with
      | nil => exact Or.inl ⟨by simp, rfl, by simp⟩
      | cons par l =>
        rw [if_neg (by simp)]
        have hpar := hw par (by simp)
        cases hpp : par.p with
        | nil => exact absurd hpp hpar
        | entry a len sub rest =>
          have hst : (e :: par :: l).reverse ++ junk = (par :: l).reverse ++ (e :: junk) := by simp
          simp only [List.length_cons, Nat.add_sub_cancel]
          rw [hst, finish_spec hpp]
          simp only [Res.bind_ok]
          refine Or.inr (Or.inl ⟨⟨rest, addEntry par.entry (sized len e.entry)⟩, l, e :: junk, ?_, fun x hx => hw x (by simp [hx]), ?_, ?_, ?_, ?_⟩)
          · congr 2
            omega
          · simp; simp at hl; omega
          · simp [todo, hp, hpp, behind, Contents.count]; omega
          · conv => rhs; rw [final]
            simp only [hpp, hp, build]
          · rw [Over.cons, hp, hpp]
            simp only [behind, Contents.depth]
            unfold Over
            constructor
            · rintro (h | h)
              · exact Or.inr (Or.inl h)
              · exact Or.inr (Or.inr h)
            · rintro (h | h | h)
              · simp at hl; omega
              · exact Or.inl h
              · exact Or.inr h
    | entry a len sub rest =>
      simp only
      by_cases hd : l.length + 1 < ((e :: l).reverse ++ junk).length
      · rw [if_pos hd]
        cases junk with
        | nil => simp at hd
        | cons j junk =>
          have hset : ∀ x, ((e :: l).reverse ++ j :: junk).set (l.length + 1) x = (x :: e :: l).reverse ++ junk := by
            intro x
            rw [List.set_append]
            simp
          by_cases hs : sub = .nil
          · rw [if_neg (by simp [hs]), hset]
            have hst : ∀ x : StackEntry, (x :: e :: l).reverse ++ junk = (e :: l).reverse ++ x :: junk := by
              intro x; simp
            rw [hst, finish_spec hp]
            simp only [Res.bind_ok]
            refine Or.inr (Or.inl ⟨_, l, _, rfl, hw, ?_, ?_, ?_, ?_⟩)
            · simp; simp at hl; omega
            · simp only [todo, hp, Contents.count, hs]; omega
            · cases l with
              | nil => simp [final, hp, build, hs]
              | cons par l => simp [final, hp, build, hs]
            · have hll : l.length + 2 ≤ 10 := by simp at hl; omega
              cases l with
              | nil =>
                simp only [Over, hp, hs, Contents.depth, List.length_nil]
                constructor
                · rintro (h | h)
                  · left; omega
                  · exact Or.inr h
                · rintro (h | h)
                  · left; omega
                  · exact Or.inr h
              | cons par l =>
                simp only [List.length_cons] at hll
                rw [Over.cons, Over.cons, hp, hs]
                simp only [Contents.depth]
                constructor
                · rintro (h | h)
                  · left; omega
                  · exact Or.inr h
                · rintro (h | h)
                  · left; omega
                  · exact Or.inr h
          · rw [if_pos hs, hset]
            rw [hp] at hf
            simp only [Contents.count] at hf
            have := ih ⟨sub, .node { a with isDir := true } []⟩ (e :: l) junk (by simp only; omega)
              (by
                intro x hx
                simp only [List.mem_cons] at hx
                rcases hx with rfl | hx
                · rw [hp]; simp
                · exact hw x hx) (by simp; simp at hl; omega)
            simp only [List.length_cons] at this
            have hov : Over ⟨sub, .node { a with isDir := true } []⟩ (e :: l) ↔ Over e l := by
              rw [Over.cons, hp]
              simp only [behind]
              unfold Over
              simp only [hp, Contents.depth]
              constructor
              · rintro (h | h | h)
                · left; omega
                · left; omega
                · exact Or.inr h
              · rintro (h | h)
                · by_cases h' : 10 ≤ l.length + 1 + sub.depth
                  · exact Or.inl h'
                  · right; left; omega
                · exact Or.inr (Or.inr h)
            rcases this with ⟨h1, h2, h3⟩ | ⟨e', l', junk', h1, h2, h3, h4, h5, h6⟩ | ⟨h1, h2⟩
            · exact absurd h1 hs
            · refine Or.inr (Or.inl ⟨e', l', junk', h1, h2, h3, ?_, ?_, h6.trans hov⟩)
              · rw [h4]
                simp [todo, hp, behind, Contents.count]; omega
              · rw [h5]
                conv => lhs; rw [final]
                simp only [hp]
                cases l with
                | nil => simp [final, hp, build, hs]
                | cons par l => simp [final, hp, build, hs]
            · exact Or.inr (Or.inr ⟨hov.1 h1, h2⟩)
      · rw [if_neg hd]
        refine Or.inr (Or.inr ⟨Or.inl ?_, rfl⟩)
        rw [hp]
        simp only [Contents.depth]
        rw [hlen] at hd
        omega

/-- The state of a listing with the used part of the stack given from the top. -/
def At (s : State) (e : StackEntry) (l : List StackEntry) : Prop :=
  ∃ junk, s.stack = (e :: l).reverse ++ junk ∧ s.stack.length = 10 ∧ s.currentdepth = l.length ∧ Waiting l

theorem at_new {a : Attr} {c : Contents} (hc : c ≠ .nil) :
    At (State.new a c) ⟨c, .node { a with isDir := true } []⟩ [] := by
  refine ⟨List.replicate 9 .zero, ?_, ?_, ?_, by simp [Waiting]⟩
  · simp [State.new, hc]
  · simp [State.new]
  · simp [State.new, hc]

/-- One call of `nextEntry()`. -/
theorem nextEntry_step {fuel : Nat} {s : State} {e : StackEntry} {l : List StackEntry} (h : At s e l)
    (hf : todo e l < fuel) :
    ((e.p = .nil ∧ l = [] ∧ nextEntry fuel s = .ok (⟨s.stack, -1, false, s.steps + 1⟩, false)) ∨
      (∃ s' e' l', nextEntry fuel s = .ok (s', true) ∧ At s' e' l' ∧ s'.streamOpen = s.streamOpen ∧
        todo e' l' + 1 = todo e l ∧ final e' l' = final e l ∧ (Over e' l' ↔ Over e l)) ∨
      (Over e l ∧ nextEntry fuel s = .fault .outOfBounds)) := by
  obtain ⟨junk, h1, h2, h3, h4⟩ := h
  have hcnt : e.p.count < fuel := by unfold todo at hf; omega
  unfold nextEntry
  rw [if_pos (by omega), h1, show s.currentdepth.toNat = l.length by omega]
  rcases step fuel e l junk hcnt h4 (by rw [← h1]; exact h2) with ⟨k1, k2, k3⟩ | ⟨e', l', junk', k1, k2, k3, k4, k5, k6⟩ | ⟨k1, k2⟩
  · exact Or.inl ⟨k1, k2, by rw [k3]; rfl⟩
  · rw [k1]
    refine Or.inr (Or.inl ⟨⟨(e' :: l').reverse ++ junk', l'.length, s.streamOpen, s.steps + 1⟩, e', l', ?_, ⟨junk', rfl, k3, rfl, k2⟩, rfl, k4, k5, k6⟩)
    simp only [Res.bind_ok]
    rw [if_neg (by omega)]
    simp
  · exact Or.inr (Or.inr ⟨k1, by rw [k2]; rfl⟩)

theorem At.root {s : State} {e : StackEntry} (h : At s e []) : s.root = e.entry := by
  obtain ⟨junk, h1, _⟩ := h
  simp [State.root, h1]

/-- The whole listing. -/
theorem listAll_spec {fuel : Nat} : ∀ (n : Nat) {s : State} {e : StackEntry} {l : List StackEntry}, At s e l →
    todo e l < fuel → todo e l < n →
    (¬ Over e l ∧ ∃ s', listAll fuel n s = .ok s' ∧ s'.currentdepth = -1 ∧ s'.streamOpen = false ∧ s'.root = final e l) ∨
    (Over e l ∧ listAll fuel n s = .fault .outOfBounds) := by
  intro n
  induction n with
  | zero => intro s e l _ _ h; omega
  | succ n ih =>
    intro s e l h hf hn
    rw [listAll]
    rcases nextEntry_step h hf with ⟨k1, k2, k3⟩ | ⟨s', e', l', k1, k2, k3, k4, k5, k6⟩ | ⟨k1, k2⟩
    · subst k2
      rw [k3]
      left
      refine ⟨?_, ⟨s.stack, -1, false, s.steps + 1⟩, rfl, rfl, rfl, ?_⟩
      · rintro (z | ⟨l1, x, l2, z, _⟩)
        · rw [k1] at z; simp [Contents.depth] at z
        · simp at z
      · simp only [final, k1, build]
        rw [← h.root]
        rfl
    · rw [k1]
      simp only [Res.bind_ok, if_true]
      rcases ih k2 (by omega) (by omega) with ⟨m1, m2⟩ | ⟨m1, m2⟩
      · left
        rw [← k6, ← k5]
        exact ⟨m1, m2⟩
      · right
        rw [← k6]
        exact ⟨m1, m2⟩
    · right
      rw [k2]
      exact ⟨k1, rfl⟩

end Listing
end Strigi
