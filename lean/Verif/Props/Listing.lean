import Verif.Proofs.ListingStack

/-!
# Properties C45, C46, C54, C87: the tree of a listing, the cache, and the listing of nested archives
-/

namespace Strigi.Props

open Listing

/-- Entries without subentries, added one after the other to an empty root. -/
def addAll (a : Attr) (es : List Attr) : Tree :=
  es.foldl (fun t e => addEntry t (.node e [])) (.node a [])

/-- The entries with the components of their paths, the newest first. -/
def history (es : List Attr) : List (List Name × Attr) :=
  (es.map fun e => (components e.filename, e)).reverse

theorem addAll_shows (a : Attr) (es : List Attr) : (addAll a es).Shows (history es) := by
  have key : ∀ (es : List Attr) (t : Tree) (h : List (List Name × Attr)), t.Shows h →
      (es.foldl (fun t e => addEntry t (.node e [])) t).Shows (history es ++ h) := by
    intro es
    induction es with
    | nil => intro t h ht; exact ht
    | cons e es ih =>
      intro t h ht
      have h1 := shows_add ht (shows_node e) (by simp)
      have := ih _ _ h1
      simpa [history, under, Tree.attr] using this
  have := key es (.node a []) [] (shows_node a)
  rw [List.append_nil] at this
  exact this

/-- **C45**: after any sequence of additions a lookup below the root of the tree succeeds and returns what the
specification `shownAt` says. -/
theorem C45_lookup (a : Attr) (es : List Attr) (root rest : List UInt8) :
    ∃ o, findBelow (addAll a es) root (root ++ 47 :: rest) = .ok o ∧
      o.map Tree.attr = shownAt (history es) (components rest) := by
  refine ⟨_, findBelow_spec _ _ _, ?_⟩
  exact addAll_shows a es (components rest) (components_ne_nil rest)

theorem shownAt_keep {h' h : List (List Name × Attr)} {q : List Name} {a : Attr} (hq : shownAt h q = some a)
    (hh : ∀ x ∈ h', ¬ x.1 <+: q) : shownAt (h' ++ h) q = some a := by
  induction h' with
  | nil => exact hq
  | cons x h' ih =>
    obtain ⟨p, b⟩ := x
    have h1 := hh (p, b) (by simp)
    have h2 := ih (fun x hx => hh x (by simp [hx]))
    simp only [List.cons_append, shownAt]
    rw [if_neg (fun z => h1 (by rw [z]; exact List.prefix_rfl)), if_neg h1, h2]
    split <;> rfl

/-- **C45**: the last entry that was added at a path is found there with everything that is known of it, unless
an entry was added later at the same path or at one of the directories above it. -/
theorem C45_last (a e : Attr) (es es' : List Attr) (root : List UInt8)
    (h : ∀ x ∈ es', ¬ components x.filename <+: components e.filename) :
    ∃ t, findBelow (addAll a (es ++ e :: es')) root (root ++ 47 :: e.filename) = .ok (some t) ∧
      t.attr = { e with filename := (components e.filename).getLast?.getD [] } := by
  obtain ⟨o, h1, h2⟩ := C45_lookup a (es ++ e :: es') root e.filename
  have h3 : shownAt (history (es ++ e :: es')) (components e.filename) =
      some { e with filename := (components e.filename).getLast?.getD [] } := by
    rw [show history (es ++ e :: es') = history es' ++ history (es ++ [e]) by simp [history]]
    apply shownAt_keep
    · simp [history, shownAt]
    · intro x hx
      simp only [history, List.mem_reverse, List.mem_map] at hx
      obtain ⟨y, hy, rfl⟩ := hx
      exact h y hy
  rw [h3] at h2
  cases o with
  | none => simp at h2
  | some t => exact ⟨t, h1, by simpa using h2⟩

/-- **C45**: every directory above an entry exists: it is an entry of its own or an implied directory. -/
theorem C45_parents (a e : Attr) (es es' : List Attr) (root dir : List UInt8)
    (hd : components dir <+: components e.filename)
    (h : ∀ x ∈ es', ¬ components x.filename <+: components dir) :
    ∃ t, findBelow (addAll a (es ++ e :: es')) root (root ++ 47 :: dir) = .ok (some t) := by
  obtain ⟨o, h1, h2⟩ := C45_lookup a (es ++ e :: es') root dir
  have h3 : ∃ b, shownAt (history (es ++ e :: es')) (components dir) = some b := by
    have h4 : ∃ b, shownAt (history (es ++ [e])) (components dir) = some b := by
      simp only [history, List.map_append, List.map_cons, List.map_nil, List.reverse_append,
        List.reverse_cons, List.reverse_nil, List.nil_append, List.cons_append, shownAt]
      by_cases hp : components dir = components e.filename
      · rw [if_pos hp]; exact ⟨_, rfl⟩
      · rw [if_neg hp, if_neg (fun z => hp (hd.eq_of_length (Nat.le_antisymm hd.length_le z.length_le))),
          if_pos hd]
        cases shownAt (List.map (fun e => (components e.filename, e)) es).reverse (components dir) with
        | none => exact ⟨_, rfl⟩
        | some b => exact ⟨b, rfl⟩
    obtain ⟨b, hb⟩ := h4
    rw [show history (es ++ e :: es') = history es' ++ history (es ++ [e]) by simp [history]]
    refine ⟨b, shownAt_keep hb ?_⟩
    intro x hx
    simp only [history, List.mem_reverse, List.mem_map] at hx
    obtain ⟨y, hy, rfl⟩ := hx
    exact h y hy
  obtain ⟨b, hb⟩ := h3
  rw [hb] at h2
  cases o with
  | none => simp at h2
  | some t => exact ⟨t, h1⟩

/-- **C45**: nothing is found at a path at or below which nothing was added. -/
theorem C45_none (a : Attr) (es : List Attr) (root rest : List UInt8)
    (h : ∀ e ∈ es, ¬ components rest <+: components e.filename) :
    findBelow (addAll a es) root (root ++ 47 :: rest) = .ok none := by
  obtain ⟨o, h1, h2⟩ := C45_lookup a es root rest
  have key : ∀ h : List (List Name × Attr), (∀ x ∈ h, ¬ components rest <+: x.1) →
      shownAt h (components rest) = none := by
    intro h
    induction h with
    | nil => intro _; rfl
    | cons x h ih =>
      intro hx
      obtain ⟨p, b⟩ := x
      have h1 := hx (p, b) (by simp)
      simp only [shownAt]
      rw [if_neg (fun z => h1 (by rw [z]; exact List.prefix_rfl))]
      split
      · rfl
      · try rw [if_neg h1]
        exact ih (fun x h => hx x (by simp [h]))
  rw [key] at h2
  · cases o with
    | none => exact h1
    | some t => simp at h2
  · intro x hx
    simp only [history, List.mem_reverse, List.mem_map] at hx
    obtain ⟨y, hy, rfl⟩ := hx
    exact h y hy

/-- **C45** (found while proving): an archive that mentions a directory after a file in it loses the file:
`d/f` followed by `d`. -/
theorem C45_witness_lost :
    findBelow (addAll {} [{ filename := [100, 47, 102], size := 5, isFile := true },
      { filename := [100], size := 0, isDir := true }]) [120] [120, 47, 100, 47, 102] = .ok none := by
  obtain ⟨o, h1, h2⟩ := C45_lookup {} [{ filename := [100, 47, 102], size := 5, isFile := true },
      { filename := [100], size := 0, isDir := true }] [120] [100, 47, 102]
  rw [show ([120] : List UInt8) ++ 47 :: [100, 47, 102] = [120, 47, 100, 47, 102] from rfl] at h1
  rw [h1]
  have : shownAt (history [{ filename := [100, 47, 102], size := 5, isFile := true },
      { filename := [100], size := 0, isDir := true }]) (components [100, 47, 102]) = none := by
    decide +kernel
  rw [this] at h2
  cases o with
  | none => rfl
  | some t => simp at h2

-- The hypotheses of C45_last, C45_parents and C45_none are met.
example : ∀ x ∈ [({ filename := [100, 47, 103] } : Attr)],
    ¬ components x.filename <+: components [100, 47, 102] := by decide +kernel
example : components [100] <+: components [100, 47, 102] := by decide +kernel
example : ∀ x ∈ [({ filename := [100, 47, 103] } : Attr)],
    ¬ components x.filename <+: components [100] := by decide +kernel
example : ∀ x ∈ [({ filename := [100, 47, 103] } : Attr)],
    ¬ components [101] <+: components x.filename := by decide +kernel

/-- **C46**: looking for the archive that a url belongs to finds the longest of the cached urls that are the
url itself or a part of it that ends before a slash, and nothing if there is none. -/
theorem C46_root {β : Type} (cache : List (Name × β)) (url : List UInt8) :
    (∃ k v, findRootEntry cache url = .ok (some (k, v)) ∧ mapFind k cache = some v ∧ Ancestor k url ∧
      ∀ k' v', mapFind k' cache = some v' → Ancestor k' url → k'.length ≤ k.length) ∨
    (findRootEntry cache url = .ok none ∧ ∀ k, Ancestor k url → mapFind k cache = none) :=
  rootLoop_spec cache (url.length + 1) url (Nat.lt_succ_self _)

/-- **C46**: a lookup in the cache never fails, and looks for the rest of the url in the tree of the longest
cached ancestor only. -/
theorem C46_find (cache : List (Name × Tree)) (url : List UInt8) :
    (findEntry cache url = .ok none ∧ ∀ k, Ancestor k url → mapFind k cache = none) ∨
    ∃ k t, mapFind k cache = some t ∧
      (∀ k' v', mapFind k' cache = some v' → Ancestor k' url → k'.length ≤ k.length) ∧
      ((k = url ∧ findEntry cache url = .ok (some t)) ∨
        ∃ rest, url = k ++ 47 :: rest ∧ findEntry cache url = .ok (t.get (components rest))) := by
  rcases C46_root cache url with ⟨k, v, h1, h2, h3, h4⟩ | ⟨h1, h2⟩
  · refine Or.inr ⟨k, v, h2, h4, ?_⟩
    rcases h3 with rfl | ⟨rest, rfl⟩
    · refine Or.inl ⟨rfl, ?_⟩
      unfold findEntry
      rw [h1]
      simp [Res.bind_ok]
    · refine Or.inr ⟨rest, rfl, ?_⟩
      unfold findEntry
      rw [h1]
      have hne : k ≠ k ++ 47 :: rest := fun z => by
        have := congrArg List.length z
        simp at this
      simp only [Res.bind_ok]
      rw [if_neg hne, findBelow_spec]
  · refine Or.inl ⟨?_, h2⟩
    unfold findEntry
    rw [h1]
    rfl

example : Ancestor [120] [120, 47, 100] := Or.inr ⟨[100], rfl⟩

/-- **C87**: listing an archive whose nested archives are at most nine deep to the end shows below the root
exactly the entries of the archive and of the nested archives, under their paths. -/
theorem C87_complete (a : Attr) (c : Contents) (hd : c.depth ≤ 9) (fuel n : Nat) (hf : c.count < fuel)
    (hn : c.count < n) :
    ∃ s, listAll fuel n (State.new a c) = .ok s ∧ s.streamOpen = false ∧
      s.root.attr = { a with isDir := a.isDir || decide (c ≠ .nil) } ∧
      ∀ root rest, ∃ o, findBelow s.root root (root ++ 47 :: rest) = .ok o ∧
        o.map Tree.attr = shownAt (c.entries []).reverse (components rest) := by
  by_cases hc : c = .nil
  · subst hc
    cases n with
    | zero => omega
    | succ n =>
      refine ⟨⟨(State.new a .nil).stack, -1, false, 1⟩, ?_, rfl, ?_, ?_⟩
      · unfold listAll nextEntry
        simp [State.new, Res.bind_ok]
      · simp [State.new, State.root, Tree.attr]
      · intro root rest
        refine ⟨_, findBelow_spec _ _ _, ?_⟩
        exact shows_node _ _ (components_ne_nil rest)
  · have hA := at_new (a := a) hc
    have hover : ¬ Over ⟨c, .node { a with isDir := true } []⟩ [] := by
      rintro (h | ⟨l1, x, l2, h, _⟩)
      · simp at h; omega
      · simp at h
    rcases listAll_spec (fuel := fuel) n hA (by simp [todo]; exact hf) (by simp [todo]; exact hn) with
      ⟨_, s, h1, _, h3, h4⟩ | ⟨h, _⟩
    · refine ⟨s, h1, h3, ?_, ?_⟩
      · rw [h4, final, build_attr]; simp [Tree.attr, hc]
      · intro root rest
        refine ⟨_, findBelow_spec _ _ _, ?_⟩
        rw [h4, final]
        have := build_shows c _ [] (shows_node { a with isDir := true })
        rw [List.append_nil] at this
        exact this _ (components_ne_nil rest)
    · exact absurd h hover

/-- **C54**: listing an archive in which archives are nested at most nine deep never leaves the stack of the
listing, and ends. -/
theorem C54_safe (a : Attr) (c : Contents) (hd : c.depth ≤ 9) (fuel n : Nat) (hf : c.count < fuel)
    (hn : c.count < n) : ∃ s, listAll fuel n (State.new a c) = .ok s := by
  obtain ⟨s, h, _⟩ := C87_complete a c hd fuel n hf hn
  exact ⟨s, h⟩

/-- **C54** (found while proving): listing any archive with deeper nesting accesses an element behind the end
of the stack. -/
theorem C54_overrun (a : Attr) (c : Contents) (hd : 10 ≤ c.depth) (fuel n : Nat) (hf : c.count < fuel)
    (hn : c.count < n) : listAll fuel n (State.new a c) = .fault .outOfBounds := by
  have hc : c ≠ .nil := fun z => by subst z; simp [Contents.depth] at hd
  have hA := at_new (a := a) hc
  rcases listAll_spec (fuel := fuel) n hA (by simp [todo]; exact hf) (by simp [todo]; exact hn) with
    ⟨h, _⟩ | ⟨_, h⟩
  · exact absurd (Or.inl (by simp; omega)) h
  · exact h

/-- An archive with archives nested `n` deep. -/
def nested : Nat → Contents
  | 0 => .nil
  | n + 1 => .entry { filename := [97], size := 1, isFile := true } 1 (nested n) .nil

theorem nested_depth (n : Nat) : (nested n).depth = n := by
  induction n with
  | zero => rfl
  | succ n ih => simp [nested, Contents.depth, ih]

example : (nested 9).depth ≤ 9 := by rw [nested_depth]; decide
example : 10 ≤ (nested 10).depth := by rw [nested_depth]; decide

end Strigi.Props
