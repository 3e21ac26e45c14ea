import Verif.Model.Listing

namespace Strigi

theorem mapFind_insert {β : Type} (k : Name) (v : β) (m : List (Name × β)) (k' : Name)
    (h : mapFind k m = none) :
    mapFind k' (mapInsert k v m) = if k' = k then some v else mapFind k' m := by
  induction m with
  | nil => simp [mapInsert, mapFind]
  | cons x m ih =>
    obtain ⟨k1, v1⟩ := x
    simp only [mapFind] at h
    split at h
    · cases h
    · rename_i hk
      simp only [mapInsert]
      split
      · simp only [mapFind]
      · simp only [mapFind]
        rw [ih h]
        split
        · rename_i h1
          rw [if_neg (fun z => hk (by rw [← z, h1]))]
        · rfl

theorem mapFind_map {β : Type} (k : Name) (v w : β) (m : List (Name × β)) (k' : Name)
    (h : mapFind k m = some w) :
    mapFind k' (m.map fun x => if x.1 = k then (k, v) else x) = if k' = k then some v else mapFind k' m := by
  have key : ∀ m : List (Name × β), k' ≠ k →
      mapFind k' (m.map fun x => if x.1 = k then (k, v) else x) = mapFind k' m := by
    intro m hk
    induction m with
    | nil => rfl
    | cons x m ih =>
      obtain ⟨k1, v1⟩ := x
      simp only [List.map_cons]
      split
      · rename_i h1
        have h1 : k1 = k := h1
        simp only [mapFind]
        rw [if_neg hk, if_neg (by rw [h1]; exact hk), ih]
      · simp only [mapFind]
        rw [ih]
  by_cases hk : k' = k
  · subst hk
    rw [if_pos rfl]
    induction m with
    | nil => simp [mapFind] at h
    | cons x m ih =>
      obtain ⟨k1, v1⟩ := x
      simp only [List.map_cons]
      by_cases h1 : k1 = k'
      · rw [if_pos h1]; simp [mapFind]
      · rw [if_neg h1]
        simp only [mapFind] at h ⊢
        rw [if_neg (Ne.symm h1)] at h ⊢
        exact ih h
  · rw [if_neg hk, key m hk]

theorem mapFind_set {β : Type} (k : Name) (v : β) (m : List (Name × β)) (k' : Name) :
    mapFind k' (mapSet k v m) = if k' = k then some v else mapFind k' m := by
  unfold mapSet
  cases h : mapFind k m with
  | none => exact mapFind_insert k v m k' h
  | some w => exact mapFind_map k v w m k' h

/-- The keys of a map. -/
def keys {β : Type} (m : List (Name × β)) : List Name := m.map Prod.fst

theorem mapFind_none {β : Type} {k : Name} {m : List (Name × β)} : mapFind k m = none ↔ k ∉ keys m := by
  induction m with
  | nil => simp [mapFind, keys]
  | cons x m ih =>
    obtain ⟨k1, v1⟩ := x
    simp only [mapFind, keys, List.map_cons, List.mem_cons, not_or]
    split
    · rename_i h; simp [h]
    · rename_i h
      rw [ih]
      simp [h, keys]

theorem mem_keys_insert {β : Type} (k : Name) (v : β) (m : List (Name × β)) (k' : Name) :
    k' ∈ keys (mapInsert k v m) ↔ k' = k ∨ k' ∈ keys m := by
  induction m with
  | nil => simp [mapInsert, keys]
  | cons x m ih =>
    obtain ⟨k1, v1⟩ := x
    simp only [mapInsert]
    split
    · simp [keys]
    · simp only [keys, List.map_cons, List.mem_cons] at ih ⊢
      rw [ih]
      constructor
      · rintro (h | h | h)
        · exact Or.inr (Or.inl h)
        · exact Or.inl h
        · exact Or.inr (Or.inr h)
      · rintro (h | h | h)
        · exact Or.inr (Or.inl h)
        · exact Or.inl h
        · exact Or.inr (Or.inr h)

theorem keys_map {β : Type} (k : Name) (v : β) (m : List (Name × β)) :
    keys (m.map fun x => if x.1 = k then (k, v) else x) = keys m := by
  unfold keys
  rw [List.map_map]
  apply List.map_congr_left
  intro x _
  simp only [Function.comp]
  split
  · rename_i h; exact h.symm
  · rfl

theorem mem_keys_set {β : Type} (k : Name) (v : β) (m : List (Name × β)) (k' : Name) :
    k' ∈ keys (mapSet k v m) ↔ k' = k ∨ k' ∈ keys m := by
  unfold mapSet
  cases h : mapFind k m with
  | none => exact mem_keys_insert k v m k'
  | some w =>
    simp only [keys_map]
    constructor
    · exact Or.inr
    · rintro (rfl | h')
      · apply Classical.byContradiction
        intro z
        rw [← mapFind_none] at z
        rw [z] at h; cases h
      · exact h'

theorem nodup_keys_set {β : Type} {k : Name} {v : β} {m : List (Name × β)} (hm : (keys m).Nodup) :
    (keys (mapSet k v m)).Nodup := by
  unfold mapSet
  cases h : mapFind k m with
  | some w => simp only [keys_map]; exact hm
  | none =>
    simp only
    rw [mapFind_none] at h
    induction m with
    | nil => simp [mapInsert, keys]
    | cons x m ih =>
      obtain ⟨k1, v1⟩ := x
      simp only [mapInsert]
      split
      · simp only [keys, List.map_cons] at hm h ⊢
        exact List.nodup_cons.2 ⟨h, hm⟩
      · simp only [keys, List.map_cons] at hm h ⊢
        have h2 := List.nodup_cons.1 hm
        refine List.nodup_cons.2 ⟨?_, ih h2.2 (fun z => h (by simp only [List.mem_cons]; exact Or.inr z))⟩
        intro z
        have := (mem_keys_insert k v m k1).1 z
        rcases this with rfl | z
        · exact h (by simp)
        · exact h2.1 z

theorem mem_insert {β : Type} {k : Name} {v : β} {m : List (Name × β)} {x : Name × β}
    (h : x ∈ mapInsert k v m) : x = (k, v) ∨ x ∈ m := by
  induction m with
  | nil => simp [mapInsert] at h; exact Or.inl h
  | cons y m ih =>
    obtain ⟨k1, v1⟩ := y
    simp only [mapInsert] at h
    split at h
    · simp only [List.mem_cons] at h ⊢; exact h
    · simp only [List.mem_cons] at h ⊢
      rcases h with h | h
      · exact Or.inr (Or.inl h)
      · rcases ih h with h | h
        · exact Or.inl h
        · exact Or.inr (Or.inr h)

theorem mem_set {β : Type} {k : Name} {v : β} {m : List (Name × β)} {x : Name × β} (h : x ∈ mapSet k v m) :
    x = (k, v) ∨ x ∈ m := by
  unfold mapSet at h
  split at h
  · rw [List.mem_map] at h
    obtain ⟨y, h1, h2⟩ := h
    split at h2
    · exact Or.inl h2.symm
    · exact Or.inr (h2 ▸ h1)
  · exact mem_insert h

/-- What is known of the entry at a path. -/
def Tree.view (t : Tree) (q : List Name) : Option Attr := (t.get q).map Tree.attr

theorem Tree.view_nil (t : Tree) : t.view [] = some t.attr := by
  cases t; rfl

theorem Tree.view_cons (a : Attr) (k : List (Name × Tree)) (n : Name) (q : List Name) :
    (Tree.node a k).view (n :: q) = (mapFind n k).bind fun t => t.view q := by
  simp only [Tree.view, Tree.get]
  cases mapFind n k <;> rfl

/-- A tree that shows exactly what the history `h` says. -/
def Tree.Shows (t : Tree) (h : List (List Name × Attr)) : Prop := ∀ q, q ≠ [] → t.view q = shownAt h q

namespace Listing

theorem getLast?_getD_cons (n : Name) (q : List Name) (h : q ≠ []) :
    (n :: q).getLast?.getD [] = q.getLast?.getD [] := by
  cases q with
  | nil => exact absurd rfl h
  | cons a l => rw [List.getLast?_cons_cons]

theorem link_attr (name : Name) (se : Tree) (names : List Name) (t : Tree) :
    (link name se names t).attr = t.attr := by
  cases t
  cases names <;> simp [link, Tree.attr]

/-- What is shown after linking an entry. -/
theorem link_view (name : Name) (se : Tree) : ∀ (names : List Name) (t : Tree) (q : List Name),
    (link name se names t).view q =
      if names ++ [name] <+: q then se.view (q.drop (names.length + 1))
      else if q <+: names ++ [name] then (t.view q).or (some (impliedDir (q.getLast?.getD [])))
      else t.view q := by
  intro names
  induction names with
  | nil =>
    intro t q
    cases t with
    | node a kids =>
    cases q with
    | nil => simp [link, Tree.view_nil, Tree.attr]
    | cons n q =>
      simp only [link, Tree.view_cons, mapFind_set, List.nil_append]
      by_cases hn : n = name
      · subst hn; simp
      · rw [if_neg hn, if_neg (by simp [Ne.symm hn]), if_neg (by simp [hn])]
  | cons m names ih =>
    intro t q
    cases t with
    | node a kids =>
    cases q with
    | nil => simp [link, Tree.view_nil, Tree.attr]
    | cons n q =>
      simp only [link, Tree.view_cons, mapFind_set]
      by_cases hn : n = m
      · subst hn
        simp only [if_true, Option.bind_some, List.cons_append, List.cons_prefix_cons, true_and]
        rw [ih]
        by_cases h1 : names ++ [name] <+: q
        · simp [h1]
        · rw [if_neg h1, if_neg h1]
          by_cases h2 : q <+: names ++ [name]
          · rw [if_pos h2, if_pos h2]
            cases hf : mapFind n kids with
            | some c =>
              simp only [Option.bind_some]
              by_cases hq : q = []
              · subst hq; simp [Tree.view_nil]
              · rw [getLast?_getD_cons n q hq]
            | none =>
              simp only [Option.bind_none, Option.none_or]
              cases q with
              | nil => simp [Tree.view_nil, Tree.attr, impliedDir]
              | cons x q =>
                rw [Tree.view_cons, getLast?_getD_cons n (x :: q) (by simp)]
                simp [mapFind]
          · rw [if_neg h2, if_neg h2]
            cases hf : mapFind n kids with
            | some c => rfl
            | none =>
              cases q with
              | nil => simp at h2
              | cons x q => simp [Tree.view_cons, mapFind]
      · rw [if_neg hn, if_neg (by simp [Ne.symm hn]), if_neg (by simp [hn])]

/-! ## Splitting -/

theorem components_ne_nil (s : List UInt8) : components s ≠ [] := by
  cases s with
  | nil => simp [components]
  | cons b l =>
    rw [components]
    split
    · simp
    · split <;> simp

theorem components_none {s : List UInt8} (h : findSlash s = none) : components s = [s] := by
  induction s with
  | nil => rfl
  | cons b l ih =>
    rw [findSlash, List.findIdx?_cons] at h
    split at h
    · cases h
    · rename_i hb
      rw [components, if_neg (by simpa using hb), ih (by
        unfold findSlash
        cases hx : List.findIdx? (fun x => decide (x = 47)) l with
        | none => rfl
        | some i => rw [hx] at h; cases h)]

theorem components_some {s : List UInt8} {p : Nat} (h : findSlash s = some p) :
    components s = s.take p :: components (s.drop (p + 1)) ∧ p < s.length := by
  induction s generalizing p with
  | nil => simp [findSlash] at h
  | cons b l ih =>
    rw [findSlash, List.findIdx?_cons] at h
    split at h
    · rename_i hb
      simp at h
      subst h
      rw [components, if_pos (by simpa using hb)]
      simp
    · rename_i hb
      cases hx : List.findIdx? (fun x => decide (x = 47)) l with
      | none => rw [hx] at h; cases h
      | some i =>
        rw [hx] at h
        simp at h
        subst h
        obtain ⟨h1, h2⟩ := ih (p := i) hx
        rw [components, if_neg (by simpa using hb), h1]
        simp; omega

theorem splitLoop_spec : ∀ (fuel : Nat) (names : List Name) (name : List UInt8), name.length ≤ fuel →
    (splitLoop fuel names name).1 ++ [(splitLoop fuel names name).2] = names ++ components name := by
  intro fuel
  induction fuel with
  | zero =>
    intro names name h
    have : name = [] := List.length_eq_zero_iff.1 (by omega)
    subst this
    rfl
  | succ fuel ih =>
    intro names name h
    rw [splitLoop]
    cases hf : findSlash name with
    | none => simp [components_none hf]
    | some p =>
      obtain ⟨h1, h2⟩ := components_some hf
      simp only
      rw [ih _ _ (by rw [List.length_drop]; omega), h1]
      simp

/-- The tree with the file name cut to its last component. -/
theorem addEntry_eq (parent se : Tree) : ∃ names name, names ++ [name] = components se.attr.filename ∧
    addEntry parent se = link name (.node { se.attr with filename := name } se.kids) names parent := by
  refine ⟨_, _, splitLoop_spec se.attr.filename.length [] se.attr.filename (Nat.le_refl _), rfl⟩

theorem view_node (a a' : Attr) (k : List (Name × Tree)) {q : List Name} (h : q ≠ []) :
    (Tree.node a k).view q = (Tree.node a' k).view q := by
  cases q with
  | nil => exact absurd rfl h
  | cons n q => rw [Tree.view_cons, Tree.view_cons]

/-- What is shown after adding an entry (with all its subentries): at its path and below, the entry and its
subentries only; above, directories are implied; elsewhere nothing changes. -/
theorem addEntry_view (t se : Tree) (q : List Name) :
    (addEntry t se).view q =
      if components se.attr.filename <+: q then
        if q = components se.attr.filename then
          some { se.attr with filename := (components se.attr.filename).getLast?.getD [] }
        else se.view (q.drop (components se.attr.filename).length)
      else if q <+: components se.attr.filename then (t.view q).or (some (impliedDir (q.getLast?.getD [])))
      else t.view q := by
  obtain ⟨names, name, h1, h2⟩ := addEntry_eq t se
  rw [h2, link_view, ← h1]
  by_cases hp : names ++ [name] <+: q
  · rw [if_pos hp, if_pos hp]
    obtain ⟨r, rfl⟩ := hp
    by_cases hr : r = []
    · subst hr
      simp [Tree.view_nil, Tree.attr]
    · rw [if_neg (by simp [hr])]
      have hd : List.drop (names.length + 1) (names ++ [name] ++ r) = r := by
        rw [show names.length + 1 = (names ++ [name]).length by simp, List.drop_left]
      have hd2 : List.drop (names ++ [name]).length (names ++ [name] ++ r) = r := List.drop_left
      rw [hd, hd2]
      cases se with
      | node a k => exact view_node _ _ _ hr
  · rw [if_neg hp, if_neg hp]

/-! ## Looking up -/

theorem take_drop_slash {url : List UInt8} {i p : Nat} (h : findSlash (url.drop i) = some p) :
    p + i < url.length := by
  have := (components_some h).2
  rw [List.length_drop] at this
  omega

theorem findLoop_spec (url : List UInt8) : ∀ (fuel : Nat) (t : Tree) (p : Nat), url.length - p ≤ fuel →
    p + 1 ≤ url.length → findLoop url fuel t p = .ok (t.get (components (url.drop (p + 1)))) := by
  intro fuel
  induction fuel with
  | zero => intro t p h1 h2; omega
  | succ fuel ih =>
    intro t p h1 h2
    rw [findLoop, if_neg (by omega)]
    cases t with
    | node a k =>
    unfold findSlashFrom
    cases hf : findSlash (url.drop (p + 1)) with
    | none =>
      simp only [Option.map_none]
      rw [components_none hf]
      simp only [Tree.kids, Tree.get]
      cases mapFind (url.drop (p + 1)) k with
      | none => rfl
      | some t => simp [Tree.get]
    | some i =>
      simp only [Option.map_some]
      have hi := take_drop_slash hf
      rw [(components_some hf).1]
      simp only [Tree.kids, Tree.get]
      rw [show i + (p + 1) - p - 1 = i by omega]
      cases mapFind ((url.drop (p + 1)).take i) k with
      | none => rfl
      | some t =>
        simp only [Option.bind_some]
        rw [if_neg (by omega), ih _ _ (by omega) (by omega), List.drop_drop]
        congr 3
        congr 1
        omega

theorem findBelow_spec (t : Tree) (root rest : List UInt8) :
    findBelow t root (root ++ 47 :: rest) = .ok (t.get (components rest)) := by
  unfold findBelow
  rw [findLoop_spec _ _ _ _ (by simp; omega) (by simp)]
  congr 3
  rw [show root.length + 1 = (root ++ [47]).length by simp,
    show root ++ 47 :: rest = (root ++ [47]) ++ rest by simp, List.drop_left]

/-! ## Roots -/

theorem rfindSlash_none {s : List UInt8} (h : rfindSlash s = none) : (47 : UInt8) ∉ s := by
  unfold rfindSlash at h
  rw [Option.map_eq_none_iff, List.findIdx?_eq_none_iff] at h
  intro hm
  have := h 47 (by simpa using hm)
  simp at this

theorem rfindSlash_some {s : List UInt8} {p : Nat} (h : rfindSlash s = some p) :
    ∃ a b, s = a ++ 47 :: b ∧ a.length = p ∧ (47 : UInt8) ∉ b := by
  unfold rfindSlash at h
  rw [Option.map_eq_some_iff] at h
  obtain ⟨i, h1, rfl⟩ := h
  rw [List.findIdx?_eq_some_iff_getElem] at h1
  obtain ⟨hi, h1, h2⟩ := h1
  have e : s.reverse = s.reverse.take i ++ s.reverse[i] :: s.reverse.drop (i + 1) := by
    rw [← List.drop_eq_getElem_cons, List.take_append_drop]
  have e2 := congrArg List.reverse e
  rw [List.reverse_reverse] at e2
  have hb : s.reverse[i] = 47 := by simpa using h1
  rw [hb] at e2
  refine ⟨(s.reverse.drop (i + 1)).reverse, (s.reverse.take i).reverse, ?_, ?_, ?_⟩
  · exact e2.trans (by simp)
  · simp; omega
  · intro hm
    rw [List.mem_reverse, List.mem_iff_getElem] at hm
    obtain ⟨j, hj, e⟩ := hm
    rw [List.length_take] at hj
    rw [List.getElem_take] at e
    have := h2 j (by omega)
    rw [e] at this
    simp at this

theorem _root_.Strigi.Ancestor.cut {a b k : List UInt8} (hb : (47 : UInt8) ∉ b) :
    Ancestor k (a ++ 47 :: b) ↔ k = a ++ 47 :: b ∨ Ancestor k a := by
  constructor
  · rintro (h | ⟨rest, h⟩)
    · exact Or.inl h
    · right
      rw [List.append_eq_append_iff] at h
      rcases h with ⟨x, h1, h2⟩ | ⟨x, h1, h2⟩
      · cases x with
        | nil =>
          left; simpa using h1
        | cons y x =>
          simp only [List.cons_append, List.cons.injEq] at h2
          exact absurd (show (47 : UInt8) ∈ b by rw [h2.2]; simp) hb
      · cases x with
        | nil => left; simpa using h1.symm
        | cons y x =>
          simp only [List.cons_append, List.cons.injEq] at h2
          right
          exact ⟨x, by rw [h1, ← h2.1]⟩
  · rintro (h | h | ⟨rest, h⟩)
    · exact Or.inl h
    · exact Or.inr ⟨b, by rw [h]⟩
    · exact Or.inr ⟨rest ++ 47 :: b, by rw [h]; simp⟩

theorem _root_.Strigi.Ancestor.none {s k : List UInt8} (h : (47 : UInt8) ∉ s) : Ancestor k s ↔ k = s := by
  constructor
  · rintro (h1 | ⟨rest, h1⟩)
    · exact h1
    · exact absurd (by rw [h1]; simp) h
  · exact Or.inl

theorem _root_.Strigi.Ancestor.length {k s : List UInt8} (h : Ancestor k s) : k.length ≤ s.length := by
  rcases h with rfl | ⟨rest, rfl⟩
  · exact Nat.le_refl _
  · simp

theorem rootLoop_spec {β : Type} (cache : List (Name × β)) : ∀ (fuel : Nat) (n : List UInt8), n.length < fuel →
    (∃ k v, rootLoop cache fuel n = .ok (some (k, v)) ∧ mapFind k cache = some v ∧ Ancestor k n ∧
      ∀ k' v', mapFind k' cache = some v' → Ancestor k' n → k'.length ≤ k.length) ∨
    (rootLoop cache fuel n = .ok none ∧ ∀ k, Ancestor k n → mapFind k cache = none) := by
  intro fuel
  induction fuel with
  | zero => intro n h; omega
  | succ fuel ih =>
    intro n h
    rw [rootLoop]
    cases hf : mapFind n cache with
    | some v =>
      exact Or.inl ⟨n, v, rfl, hf, Or.inl rfl, fun k' v' _ h' => h'.length⟩
    | none =>
      cases hr : rfindSlash n with
      | none =>
        refine Or.inr ⟨rfl, fun k hk => ?_⟩
        rw [Ancestor.none (rfindSlash_none hr)] at hk
        rw [hk]; exact hf
      | some p =>
        obtain ⟨a, b, rfl, rfl, hb⟩ := rfindSlash_some hr
        simp only [List.take_left]
        rcases ih a (by simp at h; omega) with ⟨k, v, h1, h2, h3, h4⟩ | ⟨h1, h2⟩
        · refine Or.inl ⟨k, v, h1, h2, (Ancestor.cut hb).2 (Or.inr h3), fun k' v' e hk => ?_⟩
          rcases (Ancestor.cut hb).1 hk with rfl | hk
          · rw [hf] at e; cases e
          · exact h4 k' v' e hk
        · refine Or.inr ⟨h1, fun k hk => ?_⟩
          rcases (Ancestor.cut hb).1 hk with rfl | hk
          · exact hf
          · exact h2 k hk

/-! ## Histories -/

/-- Putting the entries of a nested archive under a path. -/
def under (p : List Name) (h : List (List Name × Attr)) : List (List Name × Attr) := h.map fun x => (p ++ x.1, x.2)

theorem shownAt_under {p : List Name} {a : Attr} {h : List (List Name × Attr)} (q : List Name) :
    ∀ (hs : List (List Name × Attr)), (∀ x ∈ hs, x.1 ≠ []) →
      shownAt (under p hs ++ (p, a) :: h) q =
        if p <+: q then
          if q = p then some { a with filename := p.getLast?.getD [] }
          else shownAt hs (q.drop p.length)
        else if q <+: p then (shownAt h q).or (some (impliedDir (q.getLast?.getD [])))
        else shownAt h q := by
  intro hs
  induction hs with
  | nil =>
    intro _
    simp only [under, List.map_nil, List.nil_append, shownAt]
    by_cases h1 : q = p
    · subst h1; simp
    · rw [if_neg h1]
      by_cases h2 : p <+: q
      · rw [if_pos h2, if_pos h2, if_neg h1]
      · rw [if_neg h2, if_neg h2]
  | cons x hs ih =>
    intro hne
    obtain ⟨r, b⟩ := x
    have hr : r ≠ [] := hne (r, b) (by simp)
    have ih := ih (fun x hx => hne x (by simp [hx]))
    simp only [under, List.map_cons, List.cons_append, shownAt] at ih ⊢
    rw [ih]
    by_cases h1 : p <+: q
    · obtain ⟨q', rfl⟩ := h1
      have hp : p <+: p ++ q' := List.prefix_append _ _
      simp only [if_pos hp, List.append_cancel_left_eq, List.prefix_append_right_inj, List.drop_left]
      by_cases hq : q' = []
      · subst hq
        simp only [List.append_nil, if_true]
        rw [if_neg (Ne.symm hr), if_neg (by rw [List.prefix_nil]; exact hr), if_pos List.nil_prefix]
        rfl
      · have : (p ++ q' = p) = False := by simp [hq]
        simp only [this, if_false]
        have l1 : ∀ l : List Name, l ≠ [] → (p ++ l).getLast? = l.getLast? := by
          intro l hl
          rw [List.getLast?_append, List.getLast?_eq_some_getLast hl]; rfl
        rw [l1 r hr, l1 q' hq]
    · rw [if_neg h1, if_neg (fun z : q = p ++ r => h1 (by rw [z]; exact List.prefix_append _ _)),
        if_neg (fun z => h1 ((List.prefix_append _ _).trans z))]
      by_cases h2 : q <+: p
      · rw [if_pos h2, if_pos (h2.trans (List.prefix_append _ _))]
        rw [if_neg h1]
        cases shownAt h q <;> rfl
      · rw [if_neg h2, if_neg]
        · rw [if_neg h1]
        · intro z
          rcases List.prefix_or_prefix_of_prefix z (List.prefix_append p r) with z | z
          · exact h2 z
          · exact h1 z

/-- Adding an entry with its subentries. -/
theorem shows_add {t se : Tree} {h hs : List (List Name × Attr)} (ht : t.Shows h) (hse : se.Shows hs)
    (hne : ∀ x ∈ hs, x.1 ≠ []) :
    (addEntry t se).Shows (under (components se.attr.filename) hs ++ (components se.attr.filename, se.attr) :: h) := by
  intro q hq
  rw [addEntry_view, shownAt_under q hs hne]
  by_cases h1 : components se.attr.filename <+: q
  · rw [if_pos h1, if_pos h1]
    by_cases h2 : q = components se.attr.filename
    · rw [if_pos h2, if_pos h2]
    · rw [if_neg h2, if_neg h2]
      apply hse
      obtain ⟨r, rfl⟩ := h1
      rw [List.drop_left]
      intro z; subst z; simp at h2
  · rw [if_neg h1, if_neg h1]
    by_cases h2 : q <+: components se.attr.filename
    · rw [if_pos h2, if_pos h2, ht q hq]
    · rw [if_neg h2, if_neg h2, ht q hq]

theorem shows_node (a : Attr) : (Tree.node a []).Shows [] := by
  intro q hq
  cases q with
  | nil => exact absurd rfl hq
  | cons n q => simp [Tree.view_cons, mapFind, shownAt]

theorem shows_attr {a a' : Attr} {k : List (Name × Tree)} {h : List (List Name × Attr)}
    (ht : (Tree.node a k).Shows h) : (Tree.node a' k).Shows h := by
  intro q hq
  rw [view_node a' a k hq]
  exact ht q hq

/-! ## The complete tree -/

/-- listinginprogress.cpp:223-229: the size is counted if it is not known. -/
def sized (len : Int) (se : Tree) : Tree :=
  if se.attr.size < 0 then .node { se.attr with size := max len 0 } se.kids else se

/-- The tree after all of the contents were added. -/
def build : Contents → Tree → Tree
  | .nil, t => t
  | .entry a len sub rest, t =>
    build rest (addEntry t (sized len (build sub (.node { a with isDir := a.isDir || decide (sub ≠ .nil) } []))))

theorem addEntry_attr (t se : Tree) : (addEntry t se).attr = t.attr := by
  unfold addEntry
  exact link_attr _ _ _ _

theorem build_attr : ∀ (c : Contents) (t : Tree), (build c t).attr = t.attr := by
  intro c
  induction c with
  | nil => intro t; rfl
  | entry a len sub rest _ ih =>
    intro t
    rw [build, ih, addEntry_attr]

theorem entries_pre (c : Contents) (pre : List Name) : c.entries pre = under pre (c.entries []) := by
  induction c generalizing pre with
  | nil => rfl
  | entry a len sub rest ih1 ih2 =>
    have e1 := ih1 (pre ++ components a.filename)
    have e1' := ih1 ([] ++ components a.filename)
    have e2 := ih2 pre
    simp only [Contents.entries]
    rw [e1, e1', e2]
    simp [under, List.map_append, Function.comp_def]

theorem entries_ne (c : Contents) : ∀ x ∈ c.entries [], x.1 ≠ [] := by
  induction c with
  | nil => simp [Contents.entries]
  | entry a len sub rest ih1 ih2 =>
    intro x hx
    simp only [Contents.entries, List.nil_append, List.mem_cons, List.mem_append] at hx
    rcases hx with rfl | hx | hx
    · exact components_ne_nil _
    · rw [entries_pre] at hx
      simp only [under, List.mem_map] at hx
      obtain ⟨y, _, rfl⟩ := hx
      simp [components_ne_nil]
    · exact ih2 x hx

theorem build_shows : ∀ (c : Contents) (t : Tree) (h : List (List Name × Attr)), t.Shows h →
    (build c t).Shows ((c.entries []).reverse ++ h) := by
  intro c
  induction c with
  | nil => intro t h ht; exact ht
  | entry a len sub rest ih1 ih2 =>
    intro t h ht
    rw [build]
    generalize hse : sized len (build sub (.node { a with isDir := a.isDir || decide (sub ≠ .nil) } [])) = se
    have hs1 := ih1 _ [] (shows_node { a with isDir := a.isDir || decide (sub ≠ .nil) })
    have ha1 := build_attr sub (.node { a with isDir := a.isDir || decide (sub ≠ .nil) } [])
    have hattr : se.attr = shownAttr a len sub := by
      rw [← hse]
      unfold sized shownAttr
      by_cases hz : a.size < 0
      · rw [if_pos (by rw [ha1]; exact hz), if_pos hz]
        show ({ (build sub _).attr with size := max len 0 } : Attr) = _
        rw [ha1]; rfl
      · rw [if_neg (by rw [ha1]; exact hz), if_neg hz, ha1]; rfl
    have hs : se.Shows (sub.entries []).reverse := by
      rw [← hse]
      unfold sized
      rw [List.append_nil] at hs1
      split
      · generalize build sub _ = b at hs1 ⊢
        cases b
        exact shows_attr hs1
      · exact hs1
    have hf : se.attr.filename = a.filename := by rw [hattr]; rfl
    have := ih2 _ _ (shows_add ht hs (by
      intro x hx; exact entries_ne sub x (by simpa using hx)))
    rw [hf, hattr] at this
    simp only [Contents.entries, List.nil_append]
    rw [entries_pre sub]
    have e : (under (components a.filename) (sub.entries [])).reverse =
        under (components a.filename) (sub.entries []).reverse := by
      simp [under]
    rw [List.reverse_cons, List.reverse_append, e]
    simpa [List.append_assoc] using this

end Listing
end Strigi
