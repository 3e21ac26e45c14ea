import Verif.Model.DirLister
import Verif.Proofs.ListingStack

namespace Strigi

/-- The keys of every map are different, and are the names of the entries. -/
inductive Tree.Wf : Tree → Prop
  | mk {a : Attr} {k : List (Name × Tree)} (h1 : (keys k).Nodup)
      (h2 : ∀ n c, (n, c) ∈ k → c.attr.filename = n) (h3 : ∀ n c, (n, c) ∈ k → Tree.Wf c) : Tree.Wf (.node a k)

theorem mapFind_mem {β : Type} {k : Name} {m : List (Name × β)} {v : β} (h : mapFind k m = some v) :
    (k, v) ∈ m := by
  induction m with
  | nil => simp [mapFind] at h
  | cons x m ih =>
    obtain ⟨k1, v1⟩ := x
    simp only [mapFind] at h
    split at h
    · rename_i h1; cases h; subst h1; simp
    · simp [ih h]

namespace Listing

theorem Wf.attr {a a' : Attr} {k : List (Name × Tree)} (h : (Tree.node a k).Wf) : (Tree.node a' k).Wf := by
  cases h with
  | mk h1 h2 h3 => exact .mk h1 h2 h3

theorem wf_leaf (a : Attr) : (Tree.node a []).Wf := .mk (by simp [keys]) (by simp) (by simp)

theorem link_wf {name : Name} {se : Tree} (hse : se.Wf) (hn : se.attr.filename = name) :
    ∀ (names : List Name) (t : Tree), t.Wf → (link name se names t).Wf := by
  intro names
  induction names with
  | nil =>
    intro t ht
    cases ht with
    | mk h1 h2 h3 =>
      refine .mk (nodup_keys_set h1) (fun n c h => ?_) (fun n c h => ?_)
      · rcases mem_set h with h | h
        · cases h; exact hn
        · exact h2 n c h
      · rcases mem_set h with h | h
        · cases h; exact hse
        · exact h3 n c h
  | cons m names ih =>
    intro t ht
    cases ht with
    | @mk a k h1 h2 h3 =>
      have hc : ((match mapFind m k with
        | some c => c
        | none => Tree.node { filename := m, size := 0, isDir := true } []) : Tree).Wf ∧
        ((match mapFind m k with
        | some c => c
        | none => Tree.node { filename := m, size := 0, isDir := true } []) : Tree).attr.filename = m := by
        cases h : mapFind m k with
        | none => exact ⟨wf_leaf _, rfl⟩
        | some c => exact ⟨h3 m c (mapFind_mem h), h2 m c (mapFind_mem h)⟩
      refine .mk (nodup_keys_set h1) (fun n c h => ?_) (fun n c h => ?_)
      · rcases mem_set h with h | h
        · cases h; rw [link_attr]; exact hc.2
        · exact h2 n c h
      · rcases mem_set h with h | h
        · cases h; exact ih _ hc.1
        · exact h3 n c h

theorem addEntry_wf {t se : Tree} (ht : t.Wf) (hse : se.Wf) : (addEntry t se).Wf := by
  obtain ⟨names, name, -, h⟩ := addEntry_eq t se
  rw [h]
  cases se
  exact link_wf (name := name) (Wf.attr (a' := _) hse) (by rfl) names t ht

theorem sized_wf {len : Int} {se : Tree} (h : se.Wf) : (sized len se).Wf := by
  unfold sized
  split
  · cases se; exact Wf.attr h
  · exact h

/-- An entry that is not at or below the path of the new entry keeps its subentries. -/
theorem link_keeps (name : Name) (se : Tree) : ∀ (names : List Name) (t : Tree) (q : List Name) (u : Tree),
    ¬ names ++ [name] <+: q → t.get q = some u →
    ∃ u', (link name se names t).get q = some u' ∧ ∀ k ∈ keys u.kids, k ∈ keys u'.kids := by
  intro names
  induction names with
  | nil =>
    intro t q u hq hu
    obtain ⟨a, k⟩ := t
    cases q with
    | nil =>
      rw [show (link name se [] (.node a k)).get [] = some (.node a (mapSet name se k)) from rfl]
      rw [show (Tree.node a k).get [] = some (.node a k) from rfl] at hu
      cases hu
      refine ⟨_, rfl, fun k' h => ?_⟩
      exact (mem_keys_set _ _ _ _).2 (Or.inr h)
    | cons n q =>
      have hne : n ≠ name := fun z => hq (by rw [z]; exact ⟨q, rfl⟩)
      refine ⟨u, ?_, fun _ h => h⟩
      simp only [link, Tree.get] at hu ⊢
      rw [mapFind_set, if_neg hne]
      exact hu
  | cons m names ih =>
    intro t q u hq hu
    obtain ⟨a, k⟩ := t
    cases q with
    | nil =>
      rw [show (Tree.node a k).get [] = some (.node a k) from rfl] at hu
      cases hu
      refine ⟨_, rfl, fun k' h => ?_⟩
      simp only [link, Tree.kids]
      exact (mem_keys_set _ _ _ _).2 (Or.inr h)
    | cons n q =>
      simp only [link, Tree.get] at hu ⊢
      rw [mapFind_set]
      by_cases hn : n = m
      · subst hn
        rw [if_pos rfl]
        cases hf : mapFind n k with
        | none => rw [hf] at hu; simp at hu
        | some c =>
          rw [hf] at hu
          simp only [Option.bind_some] at hu ⊢
          refine ih c q u (fun z => hq ?_) hu
          simp only [List.cons_append]
          exact List.prefix_cons_inj n |>.2 z
      · rw [if_neg hn]
        exact ⟨u, hu, fun _ h => h⟩

theorem addEntry_keeps {t se : Tree} {q : List Name} {u : Tree} (hq : ¬ components se.attr.filename <+: q)
    (hu : t.get q = some u) :
    ∃ u', (addEntry t se).get q = some u' ∧ ∀ k ∈ keys u.kids, k ∈ keys u'.kids := by
  obtain ⟨names, name, h1, h2⟩ := addEntry_eq t se
  rw [h2]
  rw [← h1] at hq
  exact link_keeps _ _ _ _ _ _ hq hu

/-- An entry appears only at, above or below the path of the new entry. -/
theorem addEntry_new {t se : Tree} {q : List Name} (h : (addEntry t se).get q ≠ none)
    (h1 : ¬ components se.attr.filename <+: q) (h2 : ¬ q <+: components se.attr.filename) : t.get q ≠ none := by
  have := addEntry_view t se q
  rw [if_neg h1, if_neg h2] at this
  unfold Tree.view at this
  intro z
  rw [z] at this
  simp only [Option.map_none, Option.map_eq_none_iff] at this
  exact h this

/-- The entries below an existing one are shown in it. -/
theorem get_append (t : Tree) (p q : List Name) : t.get (p ++ q) = (t.get p).bind fun u => u.get q := by
  induction p generalizing t with
  | nil => cases t; rfl
  | cons n p ih =>
    obtain ⟨a, k⟩ := t
    simp only [List.cons_append, Tree.get]
    cases mapFind n k with
    | none => rfl
    | some c => simp only [Option.bind_some]; exact ih c

theorem get_wf : ∀ (p : List Name) {t u : Tree}, t.Wf → t.get p = some u → u.Wf := by
  intro p
  induction p with
  | nil => intro t u ht h; cases t; cases h; exact ht
  | cons n p ih =>
    intro t u ht h
    cases ht with
    | mk h1 h2 h3 =>
      simp only [Tree.get] at h
      rw [Option.bind_eq_some_iff] at h
      obtain ⟨c, hc, h⟩ := h
      exact ih (h3 n c (mapFind_mem hc)) h

/-! ## A step of the listing, seen from the root -/

/-- While a nested archive is listed, its entry has the name that the outer archive tells. -/
def Named (stack : List StackEntry) (depth : Int) : Prop :=
  1 ≤ depth → ∃ e0 e1 a len sub rest, stack[0]? = some e0 ∧ stack[1]? = some e1 ∧ e0.p = .entry a len sub rest ∧
    e1.entry.attr.filename = a.filename

/-- What happens at the root when the depth becomes `d`. -/
def RootStep (stack stack' : List StackEntry) (d : Int) : Prop :=
  ∃ e0 e0', stack[0]? = some e0 ∧ stack'[0]? = some e0' ∧
    ((d = 0 ∧ ∃ a len sub rest se, e0.p = .entry a len sub rest ∧ e0'.p = rest ∧
        e0'.entry = addEntry e0.entry se ∧ se.attr.filename = a.filename) ∨
      (d ≠ 0 ∧ e0' = e0))

theorem finish_inv {stack stack' : List StackEntry} {depth : Nat} {ce : StackEntry}
    (h : finish stack depth ce = .ok stack') (hw : ∀ x ∈ stack, x.entry.Wf) (hc : ce.entry.Wf)
    (hn : ∀ e0 a len sub rest, depth = 0 → stack[0]? = some e0 → e0.p = .entry a len sub rest →
      ce.entry.attr.filename = a.filename)
    (hd : Named stack depth) :
    (∀ x ∈ stack', x.entry.Wf) ∧ Named stack' depth ∧ RootStep stack stack' depth ∧
      stack'.length = stack.length := by
  unfold finish at h
  split at h
  · cases h
  · rename_i e he
    split at h
    · cases h
    · rename_i a len sub rest hp
      simp only [Res.ok.injEq] at h
      have hlt : depth < stack.length := by
        rw [List.getElem?_eq_some_iff] at he
        exact he.1
      have hse : (sized len ce.entry).Wf := sized_wf hc
      rw [show (if ce.entry.attr.size < 0 then Tree.node { ce.entry.attr with size := max len 0 } ce.entry.kids
        else ce.entry) = sized len ce.entry from rfl] at h
      have hse' : (sized len ce.entry).attr.filename = ce.entry.attr.filename := by
        unfold sized; split <;> rfl
      refine ⟨?_, ?_, ?_, by rw [← h]; simp⟩
      · intro x hx
        rw [← h] at hx
        rcases List.mem_or_eq_of_mem_set hx with hx | hx
        · exact hw x hx
        · subst hx
          exact addEntry_wf (hw e (List.mem_of_getElem? he)) hse
      · intro h1
        obtain ⟨e0, e1, a', len', sub', rest', h2, h3, h4, h5⟩ := hd h1
        by_cases h6 : depth = 1
        · subst h6
          refine ⟨e0, _, a', len', sub', rest', ?_, by rw [← h, List.getElem?_set_self hlt], h4, ?_⟩
          · rw [← h, List.getElem?_set_ne (by decide)]; exact h2
          · simp only [addEntry_attr]
            rw [h3] at he
            cases he
            exact h5
        · refine ⟨e0, e1, a', len', sub', rest', ?_, ?_, h4, h5⟩
          · rw [← h, List.getElem?_set_ne (by omega)]; exact h2
          · rw [← h, List.getElem?_set_ne (by omega)]; exact h3
      · by_cases h0 : depth = 0
        · subst h0
          refine ⟨e, _, he, by rw [← h, List.getElem?_set_self hlt], Or.inl ⟨rfl, a, len, sub, rest, _, hp, rfl, rfl, ?_⟩⟩
          rw [hse']
          exact hn e a len sub rest rfl he hp
        · have : ∃ e0, stack[0]? = some e0 := by
            rw [List.getElem?_eq_getElem (by omega)]; exact ⟨_, rfl⟩
          obtain ⟨e0, h2⟩ := this
          refine ⟨e0, e0, h2, by rw [← h, List.getElem?_set_ne (by omega)]; exact h2, Or.inr ⟨by omega, rfl⟩⟩

theorem nextEntryAt_inv : ∀ (fuel : Nat) (stack stack' : List StackEntry) (depth : Nat) (d : Int),
    nextEntryAt fuel stack depth = .ok (stack', d) → depth < stack.length → (∀ x ∈ stack, x.entry.Wf) →
    Named stack depth →
    (∀ x ∈ stack', x.entry.Wf) ∧ Named stack' d ∧ RootStep stack stack' d ∧ stack'.length = stack.length := by
  intro fuel
  induction fuel with
  | zero => intro stack stack' depth d h; cases h
  | succ fuel ih =>
    intro stack stack' depth d h hl hw hn
    unfold nextEntryAt at h
    rw [show depth + 1 - stack.length = 0 by omega] at h
    simp only [List.replicate_zero, List.append_nil] at h
    split at h
    · cases h
    · rename_i e he
      split at h
      · rename_i a len sub rest hp
        split at h
        · rename_i hl'
          have hlen : ∀ x : StackEntry, (stack.set (depth + 1) x).length = stack.length := fun x => by simp
          have h0 : ∀ x : StackEntry, (stack.set (depth + 1) x)[0]? = stack[0]? := fun x => by
            rw [List.getElem?_set_ne (by omega)]
          have hw' : ∀ x : StackEntry, x.entry.Wf → ∀ y ∈ stack.set (depth + 1) x, y.entry.Wf := by
            intro x hx y hy
            rcases List.mem_or_eq_of_mem_set hy with hy | hy
            · exact hw y hy
            · subst hy; exact hx
          split at h
          · obtain ⟨h1, h2, h3, h4⟩ := ih _ _ _ _ h (by rw [hlen]; exact hl') (hw' _ (wf_leaf _)) (by
              intro h1
              by_cases hd : depth = 0
              · subst hd
                refine ⟨e, _, a, len, sub, rest, by rw [h0]; exact he, by rw [List.getElem?_set_self hl'], hp, rfl⟩
              · obtain ⟨e0, e1, a', len', sub', rest', h2, h3, h4, h5⟩ := hn (by omega)
                refine ⟨e0, e1, a', len', sub', rest', by rw [h0]; exact h2, ?_, h4, h5⟩
                rw [List.getElem?_set_ne (by omega)]; exact h3)
            refine ⟨h1, h2, ?_, by rw [h4, hlen]⟩
            unfold RootStep at h3 ⊢
            rw [h0] at h3
            exact h3
          · obtain ⟨st, h1, h2⟩ : ∃ st, finish (stack.set (depth + 1) ⟨.nil, .node a []⟩) depth ⟨.nil, .node a []⟩ =
                .ok st ∧ (st, (depth : Int)) = (stack', d) := by
              cases hf : finish (stack.set (depth + 1) ⟨.nil, .node a []⟩) depth ⟨.nil, .node a []⟩ with
              | ok st => rw [hf] at h; simp only [Res.bind_ok, Res.ok.injEq] at h; exact ⟨st, rfl, h⟩
              | fault f => rw [hf] at h; cases h
              | diverge => rw [hf] at h; cases h
            simp only [Prod.mk.injEq] at h2
            obtain ⟨rfl, rfl⟩ := h2
            obtain ⟨h5, h6, h7, h8⟩ := finish_inv h1 (hw' _ (wf_leaf _)) (wf_leaf _) (by
              intro e0 a' len' sub' rest' hd h2 h3
              subst hd
              rw [h0, he] at h2
              cases h2
              rw [hp] at h3
              cases h3
              rfl) (by
              intro h1
              obtain ⟨e0, e1, a', len', sub', rest', h2, h3, h4, h5⟩ := hn h1
              refine ⟨e0, e1, a', len', sub', rest', by rw [h0]; exact h2, ?_, h4, h5⟩
              rw [List.getElem?_set_ne (by omega)]; exact h3)
            refine ⟨h5, h6, ?_, by rw [h8, hlen]⟩
            unfold RootStep at h7 ⊢
            rw [h0] at h7
            exact h7
        · cases h
      · rename_i hp
        split at h
        · simp only [Res.ok.injEq, Prod.mk.injEq] at h
          obtain ⟨rfl, rfl⟩ := h
          refine ⟨hw, fun h => by omega, ?_, rfl⟩
          rename_i hd
          subst hd
          exact ⟨e, e, he, he, Or.inr ⟨by omega, rfl⟩⟩
        · rename_i hd
          obtain ⟨st, h1, h2⟩ : ∃ st, finish stack (depth - 1) e = .ok st ∧ (st, (depth : Int) - 1) = (stack', d) := by
            cases hf : finish stack (depth - 1) e with
            | ok st => rw [hf] at h; simp only [Res.bind_ok, Res.ok.injEq] at h; exact ⟨st, rfl, h⟩
            | fault f => rw [hf] at h; cases h
            | diverge => rw [hf] at h; cases h
          simp only [Prod.mk.injEq] at h2
          obtain ⟨rfl, rfl⟩ := h2
          have hd' : ((depth - 1 : Nat) : Int) = (depth : Int) - 1 := by omega
          rw [← hd']
          apply finish_inv h1 hw (hw e (List.mem_of_getElem? he))
          · intro e0 a' len' sub' rest' h2 h3 h4
            obtain ⟨e0', e1, a'', len'', sub'', rest'', h5, h6, h7, h8⟩ := hn (by omega)
            have hd1 : depth = 1 := by omega
            subst hd1
            rw [he] at h6; cases h6
            rw [h3] at h5; cases h5
            rw [h4] at h7; cases h7
            exact h8
          · intro h1
            exact hn (by omega)

theorem finish_length {stack stack' : List StackEntry} {depth : Nat} {ce : StackEntry}
    (h : finish stack depth ce = .ok stack') : stack'.length = stack.length ∧ depth < stack.length := by
  unfold finish at h
  split at h
  · cases h
  · rename_i e he
    split at h
    · cases h
    · simp only [Res.ok.injEq] at h
      rw [List.getElem?_eq_some_iff] at he
      exact ⟨by rw [← h]; simp, he.1⟩

theorem nextEntryAt_depth : ∀ {fuel : Nat} {stack stack' : List StackEntry} {depth : Nat} {d : Int},
    nextEntryAt fuel stack depth = .ok (stack', d) → depth < stack.length → d < stack'.length := by
  intro fuel
  induction fuel with
  | zero => intro stack stack' depth d h; cases h
  | succ fuel ih =>
    intro stack stack' depth d h hl
    unfold nextEntryAt at h
    rw [show depth + 1 - stack.length = 0 by omega] at h
    simp only [List.replicate_zero, List.append_nil] at h
    split at h
    · cases h
    · rename_i e he
      split at h
      · rename_i a len sub rest hp
        split at h
        · split at h
          · exact ih h (by simpa using ‹depth + 1 < stack.length›)
          · cases hf : finish (stack.set (depth + 1) ⟨.nil, .node a []⟩) depth ⟨.nil, .node a []⟩ with
            | ok st =>
              rw [hf] at h
              simp only [Res.bind_ok, Res.ok.injEq, Prod.mk.injEq] at h
              obtain ⟨rfl, rfl⟩ := h
              have := finish_length hf
              omega
            | fault f => rw [hf] at h; cases h
            | diverge => rw [hf] at h; cases h
        · cases h
      · split at h
        · simp only [Res.ok.injEq, Prod.mk.injEq] at h
          obtain ⟨rfl, rfl⟩ := h
          omega
        · cases hf : finish stack (depth - 1) e with
          | ok st =>
            rw [hf] at h
            simp only [Res.bind_ok, Res.ok.injEq, Prod.mk.injEq] at h
            obtain ⟨rfl, rfl⟩ := h
            have := finish_length hf
            omega
          | fault f => rw [hf] at h; cases h
          | diverge => rw [hf] at h; cases h

/-- The paths of the entries of an archive, without those of nested archives. -/
def tops : Contents → List (List Name)
  | .nil => []
  | .entry a _ _ rest => components a.filename :: tops rest

/-- Invariant of a listing: the paths of `pre` were added to the root, the paths of `post` will be. -/
structure Inv (pre post : List (List Name)) (s : State) : Prop where
  wf : ∀ x ∈ s.stack, x.entry.Wf
  named : Named s.stack s.currentdepth
  shown : ∀ q, q ≠ [] → s.root.get q ≠ none → ∃ y ∈ pre, y <+: q ∨ q <+: y
  depth : s.currentdepth < s.stack.length
  pos : 0 < s.stack.length
  rest : ∀ e0, s.stack[0]? = some e0 → tops e0.p = post

theorem Inv.root_wf {pre post : List (List Name)} {s : State} (h : Inv pre post s) : s.root.Wf := by
  unfold State.root
  have := h.wf
  cases hs : s.stack with
  | nil => exact wf_leaf _
  | cons e l => exact this e (by rw [hs]; simp)

/-- What an advance of the listing does to the root and to the invariant. -/
theorem Inv.step {pre post : List (List Name)} {s s' : State} {fuel : Nat} {b : Bool} (h : Inv pre post s)
    (hn : nextEntry fuel s = .ok (s', b)) :
    (s'.root = s.root ∧ (s.currentdepth < 0 ∨ s'.currentdepth ≠ 0) ∧ Inv pre post s') ∨
    (0 ≤ s.currentdepth ∧ s'.currentdepth = 0 ∧ ∃ f se x post', post = x :: post' ∧ s.head = some f ∧
      x = components f ∧ se.attr.filename = f ∧ s'.root = addEntry s.root se ∧ Inv (pre ++ [x]) post' s') := by
  unfold nextEntry at hn
  by_cases hd : s.currentdepth ≥ 0
  · rw [if_pos hd] at hn
    cases hr : nextEntryAt fuel s.stack s.currentdepth.toNat with
    | fault f => rw [hr] at hn; cases hn
    | diverge => rw [hr] at hn; cases hn
    | ok r =>
      obtain ⟨stack', d⟩ := r
      rw [hr] at hn
      simp only [Res.bind_ok, Res.ok.injEq, Prod.mk.injEq] at hn
      obtain ⟨hs, -⟩ := hn
      have hdep : s.currentdepth.toNat < s.stack.length := by have := h.depth; omega
      obtain ⟨h1, h2, ⟨e0, e0', h3, h4, h5⟩, h6⟩ := nextEntryAt_inv fuel _ _ _ _ hr hdep h.wf (by
        rw [show ((s.currentdepth.toNat : Nat) : Int) = s.currentdepth by omega]; exact h.named)
      have hst : s'.stack = stack' := by rw [← hs]
      have hcd : s'.currentdepth = d := by rw [← hs]
      have hroot : s.root = e0.entry := by
        unfold State.root
        cases hs : s.stack with
        | nil => rw [hs] at h3; simp at h3
        | cons e l => rw [hs] at h3; simp at h3; rw [h3]
      have hroot' : s'.root = e0'.entry := by
        unfold State.root
        rw [hst]
        cases hs : stack' with
        | nil => rw [hs] at h4; simp at h4
        | cons e l => rw [hs] at h4; simp at h4; rw [h4]
      have hlt : d < stack'.length := nextEntryAt_depth hr hdep
      rcases h5 with ⟨h7, a, len, sub, rest, se, h8, h9, h10, h11⟩ | ⟨h7, h8⟩
      · right
        have hpost : post = components a.filename :: tops rest := by
          rw [← h.rest e0 h3, h8, tops]
        have hhead : s.head = some a.filename := by
          unfold State.head
          cases hs : s.stack with
          | nil => rw [hs] at h3; simp at h3
          | cons e l =>
            rw [hs] at h3; simp at h3; subst h3
            obtain ⟨p, t⟩ := e
            simp only at h8
            subst h8
            rfl
        refine ⟨hd, by rw [hcd, h7], a.filename, se, _, _, hpost, hhead, rfl, h11, by rw [hroot', h10, hroot], ?_⟩
        refine ⟨by rw [hst]; exact h1, by rw [hst, hcd]; exact h2, ?_, by rw [hcd, hst]; exact hlt,
          by rw [hst, h6]; exact h.pos, ?_⟩
        · intro q hq hne
          rw [hroot', h10] at hne
          by_cases c1 : components se.attr.filename <+: q
          · exact ⟨components a.filename, by simp, Or.inl (h11 ▸ c1)⟩
          · by_cases c2 : q <+: components se.attr.filename
            · exact ⟨components a.filename, by simp, Or.inr (h11 ▸ c2)⟩
            · have := addEntry_new hne c1 c2
              rw [← hroot] at this
              obtain ⟨y, hy, hy'⟩ := h.shown q hq this
              exact ⟨y, by simp [hy], hy'⟩
        · intro e1 he1
          rw [hst, h4] at he1
          cases he1
          rw [h9]
      · left
        subst h8
        refine ⟨by rw [hroot, hroot'], Or.inr (by rw [hcd]; exact h7), ?_⟩
        refine ⟨by rw [hst]; exact h1, by rw [hst, hcd]; exact h2, ?_, by rw [hcd, hst]; exact hlt,
          by rw [hst, h6]; exact h.pos, ?_⟩
        · intro q hq hne
          rw [hroot', ← hroot] at hne
          exact h.shown q hq hne
        · intro e1 he1
          rw [hst, h4] at he1
          cases he1
          exact h.rest _ h3
  · rw [if_neg hd] at hn
    simp only [Res.bind_ok, Res.ok.injEq, Prod.mk.injEq] at hn
    obtain ⟨hs, -⟩ := hn
    left
    subst hs
    exact ⟨rfl, Or.inl (by omega), h.wf, h.named, h.shown, h.depth, h.pos, h.rest⟩

/-! ## Pointers -/

/-- The pointer leads to an entry. -/
def Ptr.Ok (s : State) : Ptr → Prop
  | .orphan t => t.Wf
  | .at q => s.root.get q ≠ none

/-- The pointer after an advance of the listing. -/
def Ptr.moved (s s' : State) (p : Ptr) : Ptr := if s.currentdepth ≥ 0 then p.after s s'.currentdepth else p

theorem Ptr.kids_nodup {pre post : List (List Name)} {s : State} (h : Inv pre post s) {p : Ptr} (hp : p.Ok s) :
    (keys (p.kids s.root)).Nodup := by
  have key : ∀ {t : Tree}, t.Wf → (keys t.kids).Nodup := by
    intro t ht
    cases ht with
    | mk h1 _ _ => exact h1
  cases p with
  | orphan t => exact key hp
  | «at» q =>
    simp only [Ptr.kids]
    cases hg : s.root.get q with
    | none => exact absurd hg hp
    | some t => exact key (get_wf q h.root_wf hg)

theorem Ptr.kids_name {pre post : List (List Name)} {s : State} (h : Inv pre post s) {p : Ptr} (hp : p.Ok s)
    {n : Name} {c : Tree} (hm : (n, c) ∈ p.kids s.root) : c.attr.filename = n := by
  have key : ∀ {t : Tree}, t.Wf → (n, c) ∈ t.kids → c.attr.filename = n := by
    intro t ht hm
    cases ht with
    | mk _ h2 _ => exact h2 n c hm
  cases p with
  | orphan t => exact key hp hm
  | «at» q =>
    simp only [Ptr.kids] at hm
    cases hg : s.root.get q with
    | none => exact absurd hg hp
    | some t => rw [hg] at hm; exact key (get_wf q h.root_wf hg) hm

/-- A pointer stays good, and its entry loses no subentries. -/
theorem Ptr.moved_ok {pre post : List (List Name)} {s s' : State} {fuel : Nat} {b : Bool} (h : Inv pre post s)
    (hn : nextEntry fuel s = .ok (s', b)) {p : Ptr} (hp : p.Ok s) :
    (p.moved s s').Ok s' ∧ ∀ k ∈ keys (p.kids s.root), k ∈ keys ((p.moved s s').kids s'.root) := by
  unfold Ptr.moved
  cases p with
  | orphan t =>
    rw [show Ptr.after s s'.currentdepth (.orphan t) = .orphan t from rfl, ite_self]
    exact ⟨hp, fun _ h => h⟩
  | «at» q =>
    rcases h.step hn with ⟨h1, h2, h3⟩ | ⟨h1, h2, f, se, x, post', h3, h4, h5, h6, h7, h8⟩
    · have : (if s.currentdepth ≥ 0 then Ptr.after s s'.currentdepth (.at q) else .at q) = .at q := by
        split
        · unfold Ptr.after
          cases s.head with
          | none => rfl
          | some f =>
            simp only
            rw [if_neg (fun z => by omega)]
        · rfl
      rw [this]
      simp only [Ptr.Ok, Ptr.kids]
      rw [h1]
      exact ⟨hp, fun _ h => h⟩
    · rw [if_pos h1]
      simp only [Ptr.after, h4, h2, true_and]
      simp only [Ptr.Ok] at hp
      obtain ⟨u, hu⟩ := Option.ne_none_iff_exists'.1 hp
      by_cases hc : components f <+: q
      · rw [if_pos hc, hu]
        simp only [Option.getD_some, Ptr.Ok, Ptr.kids, hu]
        exact ⟨get_wf q h.root_wf hu, fun _ h => h⟩
      · rw [if_neg hc]
        obtain ⟨u', h9, h10⟩ := addEntry_keeps (t := s.root) (se := se) (q := q) (by rw [h6]; exact hc) hu
        simp only [Ptr.Ok, Ptr.kids, h7, h9, hu]
        exact ⟨by simp, h10⟩

/-- An entry at or above the path comes first of all entries at, above or below the path. -/
def First (l : List (List Name)) (path : List Name) : Prop :=
  ∀ t1 x t2, l = t1 ++ x :: t2 → x <+: path → ∀ y ∈ t1, ¬ y <+: path ∧ ¬ path <+: y

theorem Ptr.moved_at {pre post : List (List Name)} {s s' : State} {fuel : Nat} {b : Bool} (h : Inv pre post s)
    (hn : nextEntry fuel s = .ok (s', b)) {path : List Name} (hf : First (pre ++ post) path)
    (hp : s.root.get path ≠ none) : Ptr.moved s s' (.at path) = .at path := by
  unfold Ptr.moved
  rcases h.step hn with ⟨h1, h2, h3⟩ | ⟨h1, h2, f, se, x, post', h3, h4, h5, h6, h7, h8⟩
  · split
    · unfold Ptr.after
      cases s.head with
      | none => rfl
      | some f =>
        simp only
        rw [if_neg (fun z => by omega)]
    · rfl
  · rw [if_pos h1]
    simp only [Ptr.after, h4]
    apply if_neg
    rintro ⟨-, hc⟩
    have hne : path ≠ [] := by
      rintro rfl
      exact components_ne_nil f (List.prefix_nil.1 hc)
    obtain ⟨y, hy, hy'⟩ := h.shown path hne hp
    have := hf pre x post' (by rw [h3]) (by rw [h5]; exact hc) y hy
    rcases hy' with hy' | hy'
    · exact this.1 hy'
    · exact this.2 hy'

/-! ## Advancing with a pointer -/

theorem nodup_length {l m : List Name} (hl : l.Nodup) (h : ∀ x ∈ l, x ∈ m) : l.length ≤ m.length := by
  induction l generalizing m with
  | nil => simp
  | cons a l ih =>
    have h1 := List.nodup_cons.1 hl
    have h2 : ∀ x ∈ l, x ∈ m.erase a := fun x hx =>
      (List.mem_erase_of_ne (fun z => h1.1 (by rw [← z]; exact hx))).2 (h x (by simp [hx]))
    have := ih h1.2 h2
    have hm : a ∈ m := h a (by simp)
    rw [List.length_erase_of_mem hm] at this
    have := List.length_pos_of_mem hm
    simp only [List.length_cons]
    omega

theorem keys_length {β : Type} (m : List (Name × β)) : (keys m).length = m.length := by simp [keys]

/-- A listing that will end with the tree `T`, after at most `k` more entries. -/
structure Good (T : Tree) (all : List (List Name)) (k : Nat) (s : State) : Prop where
  inv : ∃ pre post, pre ++ post = all ∧ Inv pre post s
  live : (∃ e l, At s e l ∧ ¬ Over e l ∧ final e l = T ∧ todo e l = k) ∨
    (k = 0 ∧ s.currentdepth = -1 ∧ s.root = T)

variable {T : Tree} {all : List (List Name)} {path : List Name}

theorem Good.ended {k : Nat} {s : State} (h : Good T all k s) (hd : s.currentdepth < 0) :
    k = 0 ∧ s.currentdepth = -1 ∧ s.root = T := by
  rcases h.live with ⟨e, l, ⟨junk, _, _, h3, _⟩, _⟩ | h
  · omega
  · exact h

theorem Good.next {k : Nat} {s : State} (h : Good T all k s) {fuel : Nat} (hf : k < fuel) :
    ∃ s' b, nextEntry fuel s = .ok (s', b) ∧
      ((b = true ∧ ∃ k', k' + 1 = k ∧ Good T all k' s') ∨
        (b = false ∧ s'.currentdepth = -1 ∧ s'.root = T ∧ Good T all 0 s')) := by
  obtain ⟨pre, post, hall, hi⟩ := h.inv
  have hinv : ∀ {s' b}, nextEntry fuel s = .ok (s', b) → ∃ pre post, pre ++ post = all ∧ Inv pre post s' := by
    intro s' b hn
    rcases hi.step hn with ⟨_, _, h3⟩ | ⟨_, _, f, se, x, post', h3, _, _, _, _, h8⟩
    · exact ⟨pre, post, hall, h3⟩
    · exact ⟨pre ++ [x], post', by rw [← hall, h3]; simp, h8⟩
  rcases h.live with ⟨e, l, h1, h2, h3, h4⟩ | ⟨h1, h2, h3⟩
  · rcases nextEntry_step h1 (by omega : todo e l < fuel) with ⟨h5, h6, h7⟩ | ⟨s', e', l', h5, h6, h7, h8, h9, h10⟩ | ⟨h5, _⟩
    · subst h6
      refine ⟨_, _, h7, Or.inr ⟨rfl, rfl, ?_, hinv h7, Or.inr ⟨rfl, rfl, ?_⟩⟩⟩
      all_goals
        rw [show (State.root ⟨s.stack, -1, false, s.steps + 1⟩) = s.root from rfl, h1.root, ← h3, final, h5, build]
    · exact ⟨s', true, h5, Or.inl ⟨rfl, todo e' l', by omega, hinv h5,
        Or.inl ⟨e', l', h6, fun z => h2 (h10.1 z), by rw [h9, h3], rfl⟩⟩⟩
    · exact absurd h5 h2
  · have hn : nextEntry fuel s = .ok (⟨s.stack, -1, false, s.steps + 1⟩, false) := by
      unfold nextEntry
      rw [if_neg (by omega), h2]
      rfl
    exact ⟨_, _, hn, Or.inr ⟨rfl, rfl, h3, hinv hn, Or.inr ⟨rfl, rfl, h3⟩⟩⟩

/-- The pointer of a lister of `path`. -/
structure PtrOf (all : List (List Name)) (path : List Name) (s : State) (p : Ptr) : Prop where
  ok : p.Ok s
  first : First all path → p = .at path
  path : ∀ q, p = .at q → q = path

theorem PtrOf.moved {pre post : List (List Name)} {s s' : State} {fuel : Nat} {b : Bool}
    (hall : pre ++ post = all) (hi : Inv pre post s) (hn : nextEntry fuel s = .ok (s', b)) {p : Ptr}
    (hp : PtrOf all path s p) :
    PtrOf all path s' (p.moved s s') ∧ ∀ k ∈ keys (p.kids s.root), k ∈ keys ((p.moved s s').kids s'.root) := by
  obtain ⟨h1, h2⟩ := Ptr.moved_ok hi hn hp.ok
  refine ⟨⟨h1, fun hf => ?_, ?_⟩, h2⟩
  · have := hp.first hf
    subst this
    exact Ptr.moved_at hi hn (hall ▸ hf) hp.ok
  · intro q hq
    cases p with
    | orphan t =>
      unfold Ptr.moved at hq
      rw [show Ptr.after s s'.currentdepth (.orphan t) = .orphan t from rfl, ite_self] at hq
      cases hq
    | «at» q' =>
      have hq' := hp.path q' rfl
      subst hq'
      unfold Ptr.moved at hq
      split at hq
      · simp only [Ptr.after] at hq
        split at hq
        · cases hq; rfl
        · split at hq
          · cases hq
          · cases hq; rfl
      · cases hq; rfl

theorem advance_spec {k : Nat} {s : State} (h : Good T all k s) {fuel : Nat} (hf : k < fuel) {p : Ptr}
    (hp : PtrOf all path s p) :
    ∃ s' p' b, advance fuel s p = .ok (s', p', b) ∧ PtrOf all path s' p' ∧
      (∀ n ∈ keys (p.kids s.root), n ∈ keys (p'.kids s'.root)) ∧
      (b = true → ∃ k', k' + 1 = k ∧ Good T all k' s') ∧
      (b = false → s'.currentdepth = -1 ∧ s'.root = T ∧ Good T all 0 s') := by
  obtain ⟨s', b, h1, h2⟩ := h.next hf
  obtain ⟨pre, post, hall, hi⟩ := h.inv
  obtain ⟨h3, h4⟩ := PtrOf.moved hall hi h1 hp
  refine ⟨s', p.moved s s', b, ?_, h3, h4, ?_, ?_⟩
  · unfold advance
    rw [h1]
    rfl
  · rintro rfl
    rcases h2 with h2 | h2
    · exact h2.2
    · exact absurd h2.1 (by decide)
  · rintro rfl
    rcases h2 with h2 | h2
    · exact absurd h2.1 (by decide)
    · exact h2.2

theorem growLoop_spec {fuel size : Nat} : ∀ (n : Nat) {k : Nat} {s : State} {p : Ptr}, Good T all k s → k < fuel →
    k < n → PtrOf all path s p → size = (p.kids s.root).length →
    ∃ s' p' b, growLoop fuel size n s p = .ok (s', p', b) ∧ PtrOf all path s' p' ∧
      (∀ m ∈ keys (p.kids s.root), m ∈ keys (p'.kids s'.root)) ∧ (∃ k', k' ≤ k ∧ Good T all k' s') ∧
      (b = true → size < (p'.kids s'.root).length) ∧
      (b = false → (p'.kids s'.root).length ≤ size ∧ s'.currentdepth = -1 ∧ s'.root = T) := by
  intro n
  induction n with
  | zero => intro k s p _ _ h; omega
  | succ n ih =>
    intro k s p h hf hk hp hs
    obtain ⟨s', p', b, h1, h2, h3, h4, h5⟩ := advance_spec h hf hp
    unfold growLoop
    rw [h1]
    simp only [Res.bind_ok]
    obtain ⟨pre, post, _, hi⟩ := h.inv
    have hle : size ≤ (p'.kids s'.root).length := by
      have := nodup_length (Ptr.kids_nodup hi hp.ok) h3
      rw [keys_length, keys_length] at this
      omega
    by_cases hc : b = true ∧ size = (p'.kids s'.root).length
    · rw [if_pos hc]
      obtain ⟨k', hk', hg⟩ := h4 hc.1
      obtain ⟨s'', p'', b', i1, i2, i3, ⟨k'', i4, i4'⟩, i5, i6⟩ := ih hg (by omega) (by omega) h2 hc.2
      exact ⟨s'', p'', b', i1, i2, fun m hm => i3 m (h3 m hm), ⟨k'', by omega, i4'⟩, i5, i6⟩
    · rw [if_neg hc]
      refine ⟨s', p', _, rfl, h2, h3, ?_, ?_, ?_⟩
      · cases b with
        | true => obtain ⟨k', hk', hg⟩ := h4 rfl; exact ⟨k', by omega, hg⟩
        | false => exact ⟨0, by omega, (h5 rfl).2.2⟩
      · intro hd; exact of_decide_eq_true hd
      · intro hd
        have hd := of_decide_eq_false hd
        have hb : b = false := by
          cases b with
          | false => rfl
          | true => exact absurd ⟨rfl, by omega⟩ hc
        exact ⟨by omega, (h5 hb).1, (h5 hb).2.1⟩

theorem grow_spec {fuel n k : Nat} {s : State} {p : Ptr} (h : Good T all k s) (hf : k < fuel) (hn : k < n)
    (hp : PtrOf all path s p) :
    ∃ s' p' b, grow fuel n s p = .ok (s', p', b) ∧ PtrOf all path s' p' ∧
      (∀ m ∈ keys (p.kids s.root), m ∈ keys (p'.kids s'.root)) ∧ (∃ k', k' ≤ k ∧ Good T all k' s') ∧
      (b = true → (p.kids s.root).length < (p'.kids s'.root).length) ∧
      (b = false → (p'.kids s'.root).length ≤ (p.kids s.root).length ∧ s'.currentdepth = -1 ∧ s'.root = T) := by
  unfold grow
  split
  · rename_i hd
    obtain ⟨_, h2, h3⟩ := h.ended hd
    exact ⟨s, p, false, rfl, hp, fun _ h => h, ⟨k, Nat.le_refl _, h⟩, by simp, fun _ => ⟨Nat.le_refl _, h2, h3⟩⟩
  · exact growLoop_spec n h hf hn hp rfl

/-- The subentries of a path of the complete tree do not become fewer. -/
theorem keys_final : ∀ (k : Nat) {s : State}, Good T all k s → First all path → s.root.get path ≠ none →
    ∀ n ∈ keys (Ptr.kids s.root (.at path)), n ∈ keys (Ptr.kids T (.at path)) := by
  intro k
  induction k using Nat.strongRecOn with
  | ind k ih =>
    intro s h hf hp n hn
    obtain ⟨s', p', b, h1, h2, h3, h4, h5⟩ := advance_spec (path := path) h (Nat.lt_succ_self k)
      (p := .at path) ⟨hp, fun _ => rfl, fun q hq => by cases hq; rfl⟩
    have hp' := h2.first hf
    subst hp'
    cases b with
    | true =>
      obtain ⟨k', hk, hg⟩ := h4 rfl
      exact ih k' (by omega) hg hf h2.ok n (h3 n hn)
    | false =>
      have := (h5 rfl).2.1
      rw [← this]
      exact h3 n hn

/-! ## Finding the entry of a url -/

theorem findPtr_spec (s : State) (lurl rest : List UInt8) :
    findPtr s lurl (lurl ++ 47 :: rest) =
      .ok (if s.root.get (components rest) = none then none else some (.at (components rest))) := by
  unfold findPtr
  rw [findBelow_spec]
  simp only [Res.bind_ok]
  cases h : s.root.get (components rest) with
  | none => rfl
  | some t =>
    simp only [reduceCtorEq, if_false]
    congr 4
    rw [show lurl.length + 1 = (lurl ++ [47]).length by simp,
      show lurl ++ 47 :: rest = (lurl ++ [47]) ++ rest by simp, List.drop_left]

/-- The result of looking for the entry: nothing, because there is none, or the entry. -/
structure Found (T : Tree) (path : List Name) (s : State) (o : Option Ptr) : Prop where
  nothing : o = none → s.currentdepth = -1 ∧ s.root = T ∧ Ptr.kids T (.at path) = []
  entry : ∀ p, o = some p → p = .at path ∧ s.root.get path ≠ none ∧
    ((p.kids s.root).length = 0 → s.currentdepth = -1 ∧ s.root = T)

theorem seekLoop_spec {fuel : Nat} {lurl rest : List UInt8} : ∀ (n : Nat) {k : Nat} {s : State} {ok : Bool}
    {o : Option Ptr}, Good T all k s → k < fuel → k + 1 < n →
    findPtr s lurl (lurl ++ 47 :: rest) = .ok o → (ok = false → s.currentdepth = -1 ∧ s.root = T) →
    ∃ s' o', seekLoop fuel lurl (lurl ++ 47 :: rest) n s ok o = .ok (s', o') ∧ (∃ k', k' ≤ k ∧ Good T all k' s') ∧
      Found T (components rest) s' o' := by
  intro n
  induction n with
  | zero => intro k s ok o _ _ h; omega
  | succ n ih =>
    intro k s ok o h hf hn ho hok
    unfold seekLoop
    have hfound : ¬ (ok = true ∧ bare s o = true) → Found T (components rest) s o := by
      intro hc
      rw [findPtr_spec] at ho
      simp only [Res.ok.injEq] at ho
      cases hb : bare s o with
      | true =>
        have hok' : ok = false := by
          cases ok with
          | false => rfl
          | true => exact absurd ⟨rfl, hb⟩ hc
        obtain ⟨h1, h2⟩ := hok hok'
        refine ⟨fun z => ⟨h1, h2, ?_⟩, fun p z => ?_⟩
        · subst z
          rw [← h2]
          simp only [Ptr.kids]
          split at ho
          · rename_i hg; rw [hg]
          · cases ho
        · subst z
          split at ho
          · cases ho
          · rename_i hg
            cases ho
            exact ⟨rfl, hg, fun _ => ⟨h1, h2⟩⟩
      | false =>
        refine ⟨fun z => ?_, fun p z => ?_⟩
        · subst z; simp [bare] at hb
        · subst z
          split at ho
          · cases ho
          · rename_i hg
            cases ho
            refine ⟨rfl, hg, fun z => ?_⟩
            simp only [bare] at hb
            exact absurd z (of_decide_eq_false hb)
    by_cases hc : ok = true ∧ bare s o = true
    · rw [if_pos hc]
      obtain ⟨s', b, h1, h2⟩ := h.next hf
      rw [h1]
      simp only [Res.bind_ok]
      have e := findPtr_spec s' lurl rest
      rw [e]
      simp only [Res.bind_ok]
      rcases h2 with ⟨rfl, k', hk, hg⟩ | ⟨rfl, h3, h4, hg⟩
      · obtain ⟨s'', o', i1, ⟨k'', i2, i2'⟩, i3⟩ := ih (ok := true) hg (by omega) (by omega) e (by simp)
        exact ⟨s'', o', i1, ⟨k'', by omega, i2'⟩, i3⟩
      · cases n with
        | zero => omega
        | succ n =>
          refine ⟨s', (if s'.root.get (components rest) = none then none else some (Ptr.at (components rest))), ?_,
            ⟨0, by omega, hg⟩, ?_⟩
          · unfold seekLoop
            rw [if_neg (by simp)]
          · refine ⟨fun z => ⟨h3, h4, ?_⟩, fun p z => ?_⟩
            · rw [← h4]
              simp only [Ptr.kids]
              split at z
              · rename_i hg; rw [hg]
              · cases z
            · split at z
              · cases z
              · rename_i hg
                cases z
                exact ⟨rfl, hg, fun _ => ⟨h3, h4⟩⟩
    · rw [if_neg hc]
      exact ⟨s, o, rfl, ⟨k, Nat.le_refl _, h⟩, hfound hc⟩

theorem seek_spec {fuel n k : Nat} {lurl url : List UInt8} {s : State} (h : Good T all k s) (hf : k < fuel)
    (hn : k + 1 < n) (hu : UrlOf lurl url path) (hall : ∀ x ∈ all, x ≠ []) :
    ∃ s' o, seek fuel n lurl url s = .ok (s', o) ∧ (∃ k', k' ≤ k ∧ Good T all k' s') ∧ Found T path s' o := by
  have hnil : First all [] := by
    intro t1 x t2 e hx
    exact absurd (List.prefix_nil.1 hx) (hall x (by rw [e]; simp))
  unfold seek
  rcases hu with ⟨rfl, rfl⟩ | ⟨rest, rfl, rfl⟩
  · rw [if_pos rfl]
    have hget : ∀ t : Tree, t.get [] ≠ none := fun t => by cases t; simp [Tree.get]
    have hkids : ∀ t : Tree, Ptr.kids t (.at []) = t.kids := fun t => by cases t; rfl
    split
    · rename_i hk
      refine ⟨s, _, rfl, ⟨k, Nat.le_refl _, h⟩, ⟨by simp, fun p z => ?_⟩⟩
      cases z
      exact ⟨rfl, hget _, fun z => absurd z (by rw [hkids]; exact hk)⟩
    · rename_i hk
      obtain ⟨s', p', b, h1, h2, h3, h4, h5, h6⟩ := grow_spec (path := []) (p := .at []) (n := n) h hf (by omega)
        ⟨hget _, fun _ => rfl, fun q hq => by cases hq; rfl⟩
      have hp' := h2.first hnil
      subst hp'
      rw [h1]
      refine ⟨s', _, rfl, h4, ⟨fun z => ?_, fun p z => ?_⟩⟩
      · cases b with
        | true => simp at z
        | false =>
          obtain ⟨h7, h8, h9⟩ := h6 rfl
          refine ⟨h8, h9, ?_⟩
          rw [hkids, hkids, h9] at h7
          rw [hkids]
          exact List.length_eq_zero_iff.1 (by omega)
      · cases b with
        | false => simp at z
        | true =>
          simp only [if_true] at z
          cases z
          refine ⟨rfl, hget _, fun z => ?_⟩
          have := h5 rfl
          omega
  · rw [if_neg (fun z => by have := congrArg List.length z; simp at this), findPtr_spec]
    simp only [Res.bind_ok]
    exact seekLoop_spec n h hf (by omega) (findPtr_spec s lurl rest) (by simp)

/-! ## The lister -/

theorem takeNext_spec {l : Lister} {kids : List (Name × Tree)} (hk : (keys kids).Nodup) (hl : l.done.length < kids.length) :
    ∃ k c, (k, c) ∈ kids ∧ k ∉ l.done ∧
      takeNext l kids = .ok ({ l with done := k :: l.done, pos := l.pos + 1 }, c.attr) := by
  unfold takeNext
  cases h : kids.find? fun x => decide (x.1 ∉ l.done) with
  | none =>
    exfalso
    rw [List.find?_eq_none] at h
    have : ∀ k ∈ keys kids, k ∈ l.done := by
      intro k hk
      simp only [keys, List.mem_map] at hk
      obtain ⟨x, hx, rfl⟩ := hk
      have := h x hx
      simpa using this
    have := nodup_length hk this
    rw [keys_length] at this
    omega
  | some x =>
    refine ⟨x.1, x.2, List.mem_of_find?_eq_some h, ?_, rfl⟩
    have := List.find?_some h
    simpa using this

/-- Invariant of a lister of `path`. -/
structure LInv (T : Tree) (all : List (List Name)) (path : List Name) (l : Lister) (s : State) : Prop where
  nodup : l.done.Nodup
  final : First all path → ∀ k ∈ l.done, k ∈ keys (Ptr.kids T (.at path))
  cases : (l.pos = -1 ∧ (First all path → ∀ k ∈ keys (Ptr.kids T (.at path)), k ∈ l.done)) ∨
    (l.pos = 0 ∧ l.entry = none ∧ l.done = []) ∨
    (∃ p, l.entry = some p ∧ PtrOf all path s p ∧ l.pos = l.done.length ∧
      ∀ k ∈ l.done, k ∈ keys (p.kids s.root))

theorem mem_keys {β : Type} {m : List (Name × β)} {k : Name} {v : β} (h : (k, v) ∈ m) : k ∈ keys m := by
  simp only [keys, List.mem_map]
  exact ⟨(k, v), h, rfl⟩

/-- Taking the next subentry of an entry that has one more. -/
theorem take_linv {k : Nat} {s : State} {l : Lister} {p : Ptr} (h : Good T all k s) (hp : PtrOf all path s p)
    (he : l.entry = some p) (hd : l.done.Nodup) (hs : ∀ k ∈ l.done, k ∈ keys (p.kids s.root))
    (hfin : First all path → ∀ k ∈ l.done, k ∈ keys (Ptr.kids T (.at path)))
    (hl : l.done.length < (p.kids s.root).length) (hpos : l.pos = l.done.length) :
    ∃ l' a, takeNext l (p.kids s.root) = .ok (l', a) ∧ LInv T all path l' s ∧ l'.done = a.filename :: l.done ∧
      l'.pos = l.pos + 1 := by
  obtain ⟨pre, post, _, hi⟩ := h.inv
  obtain ⟨n, c, h1, h2, h3⟩ := takeNext_spec (Ptr.kids_nodup hi hp.ok) hl
  have hname := Ptr.kids_name hi hp.ok h1
  refine ⟨_, _, h3, ⟨List.nodup_cons.2 ⟨h2, hd⟩, ?_, Or.inr (Or.inr ⟨p, he, hp, ?_, ?_⟩)⟩, ?_, rfl⟩
  · intro hf m hm
    rcases List.mem_cons.1 hm with rfl | hm
    · have hpp := hp.first hf
      subst hpp
      exact keys_final k h hf hp.ok m (mem_keys h1)
    · exact hfin hf m hm
  · simp only [List.length_cons]; omega
  · intro m hm
    rcases List.mem_cons.1 hm with rfl | hm
    · exact mem_keys h1
    · exact hs m hm
  · rw [hname]

theorem next_spec {fuel n k : Nat} {lurl url : List UInt8} {l : Lister} {s : State} (h : Good T all k s)
    (hf : k < fuel) (hn : k + 1 < n) (hu : UrlOf lurl url path) (hall : ∀ x ∈ all, x ≠ [])
    (hl : LInv T all path l s) :
    ∃ l' s' o, l.next fuel n lurl url s = .ok (l', s', o) ∧ LInv T all path l' s' ∧
      (∃ k', k' ≤ k ∧ Good T all k' s') ∧ (o = none → l'.done = l.done ∧ l'.pos = -1) ∧
      (∀ a, o = some a → l.pos ≠ -1 ∧ l'.done = a.filename :: l.done) := by
  unfold Lister.next
  rcases hl.cases with ⟨h1, h2⟩ | ⟨h1, h2, h3⟩ | ⟨p, h1, h2, h3, h4⟩
  · rw [if_pos (by omega)]
    exact ⟨_, s, none, rfl, ⟨hl.nodup, hl.final, Or.inl ⟨rfl, h2⟩⟩, ⟨k, Nat.le_refl _, h⟩, fun _ => ⟨rfl, rfl⟩, by simp⟩
  · rw [if_neg (by omega), h2]
    simp only
    obtain ⟨s', o, i1, ⟨k', i2, i2'⟩, i3⟩ := seek_spec h hf hn hu hall
    rw [i1]
    simp only [Res.bind_ok]
    cases o with
    | none =>
      obtain ⟨i4, i5, i6⟩ := i3.nothing rfl
      refine ⟨_, s', none, rfl, ⟨hl.nodup, hl.final, Or.inl ⟨rfl, fun _ m hm => ?_⟩⟩, ⟨k', i2, i2'⟩,
        fun _ => ⟨rfl, rfl⟩, by simp⟩
      rw [i6] at hm
      simp [keys] at hm
    | some p =>
      obtain ⟨rfl, i4, i5⟩ := i3.entry p rfl
      simp only
      split
      · rename_i hk
        obtain ⟨l', a, j1, j2, j3, j4⟩ := take_linv (l := { l with entry := some (.at path) }) (p := .at path) i2'
          ⟨i4, fun _ => rfl, fun q hq => by cases hq; rfl⟩ rfl hl.nodup (by simp [h3]) hl.final
          (by simp only [h3, List.length_nil]; omega) (by simp [h3, h1])
        rw [j1]
        simp only [Res.bind_ok]
        have e : ({ l' with pos := 1 } : Lister) = l' := by
          simp only [h1] at j4
          cases l'
          simp only [Lister.mk.injEq, and_true] at j4 ⊢
          omega
        rw [e]
        exact ⟨l', s', some a, rfl, j2, ⟨k', i2, i2'⟩, by simp, fun b hb => by cases hb; exact ⟨by omega, j3⟩⟩
      · rename_i hk
        obtain ⟨i6, i7⟩ := i5 (by omega)
        refine ⟨_, s', none, rfl, ⟨hl.nodup, hl.final, Or.inl ⟨rfl, fun _ m hm => ?_⟩⟩, ⟨k', i2, i2'⟩,
          fun _ => ⟨rfl, rfl⟩, by simp⟩
        have : Ptr.kids T (.at path) = [] := by
          rw [← i7]
          exact List.length_eq_zero_iff.1 (by omega)
        rw [this] at hm
        simp [keys] at hm
  · rw [if_neg (by omega), h1]
    simp only
    split
    · rename_i hk
      obtain ⟨l', a, j1, j2, j3, j4⟩ := take_linv h h2 h1 hl.nodup h4 hl.final (by omega) h3
      rw [j1]
      exact ⟨l', s, some a, rfl, j2, ⟨k, Nat.le_refl _, h⟩, by simp, fun b hb => by cases hb; exact ⟨by omega, j3⟩⟩
    · rename_i hk
      obtain ⟨s', p', b, i1, i2, i3, ⟨k', i4, i4'⟩, i5, i6⟩ := grow_spec (n := n) h hf (by omega) h2
      rw [i1]
      simp only [Res.bind_ok]
      cases b with
      | true =>
        simp only [if_true]
        have := i5 rfl
        obtain ⟨pre, post, _, hi⟩ := h.inv
        have hle := nodup_length hl.nodup h4
        rw [keys_length] at hle
        obtain ⟨l', a, j1, j2, j3, j4⟩ := take_linv (l := { l with entry := some p' }) i4' i2 rfl hl.nodup
          (fun m hm => i3 m (h4 m hm)) hl.final (by simp only; omega) h3
        rw [j1]
        exact ⟨l', s', some a, rfl, j2, ⟨k', i4, i4'⟩, by simp, fun b hb => by cases hb; exact ⟨by omega, j3⟩⟩
      | false =>
        simp only [Bool.false_eq_true, if_false]
        obtain ⟨i7, i8, i9⟩ := i6 rfl
        refine ⟨_, s', none, rfl, ⟨hl.nodup, hl.final, Or.inl ⟨rfl, fun hfi m hm => ?_⟩⟩, ⟨k', i4, i4'⟩,
          fun _ => ⟨rfl, rfl⟩, by simp⟩
        have hp' := i2.first hfi
        subst hp'
        rw [i9] at i3 i7
        -- all of the names were returned
        apply Classical.byContradiction
        intro hnot
        have hsub : ∀ x ∈ m :: l.done, x ∈ keys (Ptr.kids T (.at path)) := by
          intro x hx
          rcases List.mem_cons.1 hx with rfl | hx
          · exact hm
          · exact i3 x (h4 x hx)
        have := nodup_length (List.nodup_cons.2 ⟨hnot, hl.nodup⟩) hsub
        rw [keys_length] at this
        simp only [List.length_cons] at this
        omega

/-- The names that were returned. -/
def names (outs : List (Option Attr)) : List Name := outs.filterMap fun o => o.map Attr.filename

theorem run_spec {fuel n : Nat} {lurl url : List UInt8} (hu : UrlOf lurl url path) (hall : ∀ x ∈ all, x ≠ []) :
    ∀ (ev : List Event) {k : Nat} {l : Lister} {s : State}, Good T all k s → k < fuel → k + 1 < n →
    LInv T all path l s →
    ∃ l' s' outs, Lister.run fuel n lurl url ev l s = .ok (l', s', outs) ∧ LInv T all path l' s' ∧
      l'.done = (names outs).reverse ++ l.done ∧ (l.pos = -1 → ∀ o ∈ outs, o = none) ∧
      (none ∈ outs → l'.pos = -1) ∧ (l.pos = -1 → l'.pos = -1) ∧
      (∀ o1 o2, outs = o1 ++ none :: o2 → ∀ o ∈ o2, o = none) ∧
      outs.length = ev.count .call := by
  intro ev
  induction ev with
  | nil =>
    intro k l s h hf hn hl
    refine ⟨l, s, [], rfl, hl, by simp [names], by simp, by simp, fun h => h, ?_, rfl⟩
    intro o1 o2 e
    have := congrArg List.length e
    simp at this
  | cons e ev ih =>
    intro k l s h hf hn hl
    cases e with
    | call =>
      obtain ⟨l1, s1, o, h1, h2, ⟨k', h3, h3'⟩, h4, h5⟩ := next_spec h hf hn hu hall hl
      obtain ⟨l', s', outs, i1, i2, i3, i4, i5, i6, i7, i8⟩ := ih h3' (by omega) (by omega) h2
      refine ⟨l', s', o :: outs, ?_, i2, ?_, ?_, ?_, ?_, ?_, by simp [i8]⟩
      · simp only [Lister.run]
        rw [h1]
        simp only [Res.bind_ok]
        rw [i1]
        rfl
      · rw [i3]
        cases o with
        | none => rw [(h4 rfl).1]; simp [names]
        | some a => rw [(h5 a rfl).2]; simp [names]
      · intro hpos o' ho'
        have ho : o = none := by
          cases o with
          | none => rfl
          | some a => exact absurd hpos (h5 a rfl).1
        rcases List.mem_cons.1 ho' with rfl | ho'
        · exact ho
        · exact i4 (h4 ho).2 o' ho'
      · intro hm
        rcases List.mem_cons.1 hm with rfl | hm
        · exact i6 (h4 rfl).2
        · exact i5 hm
      · intro hpos
        have ho : o = none := by
          cases o with
          | none => rfl
          | some a => exact absurd hpos (h5 a rfl).1
        exact i6 (h4 ho).2
      · intro o1 o2 e
        cases o1 with
        | nil =>
          simp only [List.nil_append, List.cons.injEq] at e
          obtain ⟨rfl, rfl⟩ := e
          exact i4 (h4 rfl).2
        | cons a o1 =>
          simp only [List.cons_append, List.cons.injEq] at e
          exact i7 o1 o2 e.2
    | other =>
      obtain ⟨s1, b, h1, h2⟩ := h.next hf
      have hg : ∃ k', k' ≤ k ∧ Good T all k' s1 := by
        rcases h2 with ⟨_, k', hk, hg⟩ | ⟨_, _, _, hg⟩
        · exact ⟨k', by omega, hg⟩
        · exact ⟨0, by omega, hg⟩
      obtain ⟨k', hk, hg⟩ := hg
      obtain ⟨pre, post, hpp, hi⟩ := h.inv
      have hl1 : LInv T all path { l with entry := l.entry.map fun p => p.moved s s1 } s1 := by
        refine ⟨hl.nodup, hl.final, ?_⟩
        rcases hl.cases with ⟨c1, c2⟩ | ⟨c1, c2, c3⟩ | ⟨p, c1, c2, c3, c4⟩
        · exact Or.inl ⟨c1, c2⟩
        · exact Or.inr (Or.inl ⟨c1, by simp [c2], c3⟩)
        · obtain ⟨d1, d2⟩ := PtrOf.moved hpp hi h1 c2
          exact Or.inr (Or.inr ⟨p.moved s s1, by simp [c1], d1, c3, fun m hm => d2 m (c4 m hm)⟩)
      obtain ⟨l', s', outs, i1, i2, i3, i4, i5, i6, i7, i8⟩ := ih hg (by omega) (by omega) hl1
      refine ⟨l', s', outs, ?_, i2, i3, i4, i5, i6, i7, by rw [i8]; simp⟩
      simp only [Lister.run]
      rw [h1]
      simp only [Res.bind_ok]
      exact i1

theorem tops_ne (c : Contents) : ∀ x ∈ tops c, x ≠ [] := by
  induction c with
  | nil => simp [tops]
  | entry a len sub rest _ ih =>
    intro x hx
    rw [tops] at hx
    rcases List.mem_cons.1 hx with rfl | hx
    · exact components_ne_nil _
    · exact ih x hx

theorem inv_new (a : Attr) (c : Contents) : Inv [] (tops c) (State.new a c) := by
  refine ⟨?_, ?_, ?_, ?_, by simp [State.new], ?_⟩
  · intro x hx
    simp only [State.new, List.mem_cons, List.mem_replicate] at hx
    rcases hx with rfl | ⟨_, rfl⟩
    · exact wf_leaf _
    · exact wf_leaf _
  · intro h
    simp only [State.new] at h
    split at h <;> omega
  · intro q hq h
    cases q with
    | nil => exact absurd rfl hq
    | cons n q => exact absurd rfl h
  · simp only [State.new]
    split <;> simp <;> omega
  · intro e0 h
    simp only [State.new, List.getElem?_cons_zero, Option.some.injEq] at h
    subst h
    rfl

/-- The tree of the complete listing. -/
def finalTree (a : Attr) (c : Contents) : Tree := build c (.node { a with isDir := a.isDir || decide (c ≠ .nil) } [])

theorem good_new (a : Attr) (c : Contents) (hd : c.depth ≤ 9) :
    Good (finalTree a c) (tops c) c.count (State.new a c) := by
  refine ⟨⟨[], tops c, rfl, inv_new a c⟩, ?_⟩
  by_cases hc : c = .nil
  · subst hc
    exact Or.inr ⟨rfl, by simp [State.new], by simp [State.new, State.root, finalTree, build]⟩
  · refine Or.inl ⟨_, [], at_new hc, ?_, ?_, by simp [todo]⟩
    · rintro (h | ⟨l1, x, l2, h, _⟩)
      · simp at h; omega
      · simp at h
    · simp [final, finalTree, hc]

theorem keys_shown (a : Attr) (c : Contents) (path : List Name) (n : Name) :
    n ∈ keys (Ptr.kids (finalTree a c) (.at path)) ↔ shownAt (c.entries []).reverse (path ++ [n]) ≠ none := by
  have := build_shows c (.node { a with isDir := a.isDir || decide (c ≠ .nil) } []) [] (shows_node _)
  rw [List.append_nil] at this
  rw [← this (path ++ [n]) (by simp)]
  unfold Tree.view
  rw [show build c (.node { a with isDir := a.isDir || decide (c ≠ .nil) } []) = finalTree a c from rfl, get_append]
  simp only [Ptr.kids]
  cases (finalTree a c).get path with
  | none => simp [keys]
  | some t =>
    obtain ⟨b, k⟩ := t
    simp only [Tree.kids, Option.bind_some, Tree.get, ne_eq, Option.map_eq_none_iff]
    cases h : mapFind n k with
    | none =>
      rw [mapFind_none] at h
      simp [h]
    | some u =>
      have : n ∈ keys k := mem_keys (mapFind_mem h)
      obtain ⟨c, d⟩ := u
      simp [this]

theorem build_wf : ∀ (c : Contents) (t : Tree), t.Wf → (build c t).Wf := by
  intro c
  induction c with
  | nil => intro t h; exact h
  | entry a len sub rest ih1 ih2 =>
    intro t h
    rw [build]
    exact ih2 _ (addEntry_wf h (sized_wf (ih1 _ (wf_leaf _))))

theorem final_nodup (a : Attr) (c : Contents) (path : List Name) :
    (keys (Ptr.kids (finalTree a c) (.at path))).Nodup := by
  simp only [Ptr.kids]
  cases hg : (finalTree a c).get path with
  | none => simp [keys]
  | some t =>
    have := get_wf path (build_wf c _ (wf_leaf _)) hg
    cases this with
    | mk h1 _ _ => exact h1

end Listing
end Strigi
