import Verif.Proofs.ReaderHistory
import Verif.ReaderSpec
import Verif.Props.DirLister
import Verif.Props.Listing
import Verif.Props.ArchiveReader

/-!
# The invariant of an `ArchiveReader` whose files do not change
-/

namespace Strigi
namespace Listing

theorem final_attr : ∀ (l : List StackEntry) (e : StackEntry), Waiting l →
    ∃ x, (e :: l).getLast? = some x ∧ (final e l).attr = x.entry.attr := by
  intro l
  induction l with
  | nil => intro e _; exact ⟨e, rfl, by rw [final, build_attr]⟩
  | cons par l ih =>
    intro e hw
    have hp : par.p ≠ .nil := hw par (by simp)
    cases hpp : par.p with
    | nil => exact absurd hpp hp
    | entry a len sub rest =>
      obtain ⟨x, h1, h2⟩ := ih ⟨rest, addEntry par.entry (sized len (build e.p e.entry))⟩ (fun y hy => hw y (by simp [hy]))
      rw [final, hpp]
      simp only
      rw [h2]
      cases l with
      | nil =>
        simp only [List.getLast?_singleton, Option.some.injEq] at h1
        subst h1
        exact ⟨par, by simp, addEntry_attr _ _⟩
      | cons y l => exact ⟨x, by simpa using h1, rfl⟩

/-- The root of a listing has its attributes from the start. -/
theorem Good.root_attr {T : Tree} {all : List (List Name)} {κ : Nat} {s : State} (h : Good T all κ s) :
    s.root.attr = T.attr := by
  rcases h.live with ⟨e, l, ⟨junk, h1, _, _, h4⟩, _, h6, _⟩ | ⟨_, _, h3⟩
  · obtain ⟨x, i1, i2⟩ := final_attr l e h4
    rw [← h6, i2]
    unfold State.root
    rw [h1]
    have : ((e :: l).reverse ++ junk).head? = some x := by
      rw [List.head?_append, List.head?_reverse, i1]; rfl
    cases hq : (e :: l).reverse ++ junk with
    | nil => rw [hq] at this; cases this
    | cons y q => rw [hq] at this; simp only [List.head?_cons, Option.some.injEq] at this; rw [this]
  · rw [h3]

theorem finalTree_attr (a : Attr) (c : Contents) :
    (finalTree a c).attr = { a with isDir := a.isDir || decide (c ≠ .nil) } := by
  unfold finalTree
  rw [build_attr]
  rfl

end Listing

namespace Reader

open Listing BufferedStream

variable {fs : Opener} {B N : Nat}

/-- The attributes with which the listing of a file starts. -/
def Told (fs : Opener) (url : Name) (a : Attr) : Prop :=
  ∀ e, fs.stat url = some e → e.isFile = true → a = statOf fs url e

theorem statOf_probe {url : Name} {e : Attr} (h : e.isFile = true) : probe fs url e = statOf fs url e := by
  unfold probe statOf
  cases ho : fs.openStream url with
  | none => simp
  | some c =>
    cases c with
    | nil => simp
    | entry a len sub rest => simp [h]

theorem statOf_dir {url : Name} {e : Attr} (h : ¬ e.isFile = true) : statOf fs url e = e := by
  unfold statOf
  rw [if_neg (fun z => h z.1)]

/-- The attributes of the tree are those that were told. -/
theorem Told.tree {url : Name} {a : Attr} {c : Contents} (h : Told fs url a) (ho : fs.openStream url = some c) {e : Attr}
    (hs : fs.stat url = some e) (hf : e.isFile = true) : (finalTree a c).attr = statOf fs url e := by
  rw [finalTree_attr, h e hs hf]
  unfold statOf
  cases c with
  | nil => simp
  | entry x len sub rest => simp [ho, hf]

structure OInv (fs : Opener) (g : Attr × Contents) (o : Obj) : Prop where
  opens : fs.openStream o.url = some g.2
  told : Told fs o.url g.1
  alive : o.alive = true
  closed : Closed o.st
  gone : o.held = false → o.st.streamOpen = false
  good : ∃ κ, κ ≤ g.2.count ∧ Good (finalTree g.1 g.2) (tops g.2) κ o.st

def Absorbing (outs : List (Option Attr)) : Prop := ∀ o1 o2, outs = o1 ++ none :: o2 → ∀ o ∈ o2, o = none

theorem Absorbing.add {outs : List (Option Attr)} (h : Absorbing outs) {o : Option Attr} (ho : none ∈ outs → o = none) :
    Absorbing (outs ++ [o]) := by
  intro o1 o2 e x hx
  rcases List.eq_nil_or_concat o2 with rfl | ⟨o3, y, rfl⟩
  · cases hx
  · rw [List.concat_eq_append] at e hx
    have e' : outs ++ [o] = (o1 ++ none :: o3) ++ [y] := by rw [e]; simp
    obtain ⟨e1, e2⟩ := List.append_inj' e' rfl
    cases e2
    rcases List.mem_append.1 hx with hx | hx
    · exact h o1 o3 e1 x hx
    · rw [List.mem_singleton.1 hx]
      exact ho (by rw [e1]; simp)

/-- A `DirLister` with known entries, after it returned `outs`. -/
def Shape (es : List Attr) (pos : Int) (outs : List (Option Attr)) : Prop :=
  (pos = outs.length ∧ outs.length ≤ es.length ∧ outs = (es.take outs.length).map some) ∨
  (pos = -1 ∧ ∃ m, outs = es.map some ++ List.replicate (m + 1) none)

theorem Shape.next {es : List Attr} {pos : Int} {outs : List (Option Attr)} (h : Shape es pos outs) :
    Shape es (Lister.nextStatic es pos).1 (outs ++ [(Lister.nextStatic es pos).2]) := by
  unfold Lister.nextStatic
  rcases h with ⟨h1, h2, h3⟩ | ⟨h1, m, h2⟩
  · by_cases hc : outs.length < es.length
    · rw [if_neg (by omega)]
      refine Or.inl ⟨by simp [h1], by simp; omega, ?_⟩
      simp only [List.length_append, List.length_singleton]
      have hp : pos.toNat = outs.length := by omega
      rw [hp, List.getElem?_eq_getElem hc, List.take_succ_eq_append_getElem hc, List.map_append, ← h3]
      simp
    · rw [if_pos (Or.inr (by omega))]
      refine Or.inr ⟨rfl, 0, ?_⟩
      rw [List.take_of_length_le (by omega)] at h3
      rw [h3]; simp
  · rw [if_pos (Or.inl (by omega))]
    refine Or.inr ⟨rfl, m + 1, ?_⟩
    rw [h2, List.replicate_succ' (n := m + 1)]
    simp

/-- The known entries of a `DirLister` of `u`. -/
def KnownOf (fs : Opener) (u : Name) (es : List Attr) : Prop :=
  (∃ k c a path, fs.openStream k = some c ∧ UrlOf k u path ∧
    es = (Ptr.kids (finalTree a c) (.at path)).map fun x => x.2.attr) ∨
  (es = [] ∧ ∀ k, Ancestor k u → fs.openStream k = none)

structure LiOf (objs : List Obj) (G : List (Attr × Contents)) (id : Nat) (l : Lister) (u : Name)
    (outs : List (Option Attr)) (o : Obj) (g : Attr × Contents) (path : List Name) : Prop where
  obj : objs[id]? = some o
  ghost : G[id]? = some g
  url : UrlOf o.url u path
  linv : LInv (finalTree g.1 g.2) (tops g.2) path l o.st
  done : l.done = (namesOf outs).reverse
  over : none ∈ outs → l.pos = -1
  absorbing : Absorbing outs
  started : outs ≠ [] → ¬ (l.pos = 0 ∧ l.entry.isNone = true)
  held : o.held = false → ¬ (l.pos = 0 ∧ l.entry.isNone = true)

def HInv (fs : Opener) (objs : List Obj) (G : List (Attr × Contents)) (h : Handle) (x : Name × List (Option Attr)) : Prop :=
  match h with
  | .known es pos => KnownOf fs x.1 es ∧ Shape es pos x.2
  | .listing id url l => url = x.1 ∧ ∃ o g path, LiOf objs G id l x.1 x.2 o g path

structure RInv (fs : Opener) (r : Reader) (G : List (Attr × Contents)) (log : List (Name × List (Option Attr))) : Prop where
  ghosts : G.length = r.objs.length
  objs : ∀ (id : Nat) o g, r.objs[id]? = some o → G[id]? = some g → OInv fs g o
  cache : ∀ x ∈ r.cache, ∃ a c, x.2 = some (finalTree a c) ∧ fs.openStream x.1 = some c ∧ Told fs x.1 a
  lips : ∀ x ∈ r.lips, ∃ o, r.objs[x.2]? = some o ∧ o.url = x.1 ∧ o.held = true
  length : r.handles.length = log.length
  handles : ∀ (j : Nat) h x, r.handles[j]? = some h → log[j]? = some x → HInv fs r.objs G h x

theorem RInv.new : RInv fs {} [] [] :=
  ⟨rfl, by intro id o g h; simp at h, by simp, by simp, rfl, by intro j h x z; simp at z⟩

theorem RInv.ghost {r : Reader} {G : List (Attr × Contents)} {log : List (Name × List (Option Attr))} (h : RInv fs r G log)
    {id : Nat} {o : Obj} (ho : r.objs[id]? = some o) : ∃ g, G[id]? = some g ∧ OInv fs g o := by
  have hl : id < G.length := by
    rw [h.ghosts]
    exact (List.getElem?_eq_some_iff.1 ho).1
  exact ⟨G[id], List.getElem?_eq_getElem hl, h.objs id o _ ho (List.getElem?_eq_getElem hl)⟩

/-- **`localStat`** of a file system that does not change: always the same. -/
theorem RInv.localStat {r : Reader} {G : List (Attr × Contents)} {log : List (Name × List (Option Attr))} (h : RInv fs r G log)
    (url : Name) : r.localStat fs url = .ok ((fs.stat url).map (statOf fs url), r) := by
  unfold Reader.localStat
  cases hs : fs.stat url with
  | none => rfl
  | some e =>
    simp only [Option.map_some]
    by_cases hf : e.isFile = false
    · rw [if_pos hf, statOf_dir (by simp [hf])]
    · rw [if_neg hf]
      have hf : e.isFile = true := by simpa using hf
      cases hl : mapFind url r.lips with
      | some id =>
        obtain ⟨o, h1, h2, h3⟩ := h.lips _ (mapFind_mem hl)
        simp only at h1 h2
        simp only [h1, h3, if_true]
        obtain ⟨g, h4, h5⟩ := h.ghost h1
        obtain ⟨κ, _, hg⟩ := h5.good
        have ht := h5.told
        have ho := h5.opens
        rw [h2] at ht ho
        rw [hg.root_attr, ht.tree ho hs hf]
      | none =>
        simp only
        cases hc : mapFind url r.cache with
        | none => simp only; rw [statOf_probe hf]
        | some v =>
          obtain ⟨a, c, h1, h2, h3⟩ := h.cache _ (mapFind_mem hc)
          simp only at h1 h2 h3
          subst h1
          simp only
          rw [h3.tree h2 hs hf]
          have : (statOf fs url e).mtime = e.mtime := by unfold statOf; split <;> rfl
          rw [if_pos this]
          congr 3
          unfold statOf
          split
          · simp [hf]
          · rfl

theorem getElem?_set_eq' {α : Type} {l : List α} {i : Nat} {x y : α} (h : l[i]? = some x) : (l.set i y)[i]? = some y := by
  have := (List.getElem?_eq_some_iff.1 h).1
  rw [List.getElem?_set_self this]

theorem namesOf_eq (outs : List (Option Attr)) : namesOf outs = names outs := rfl

theorem namesOf_add (outs : List (Option Attr)) (o : Option Attr) :
    namesOf (outs ++ [o]) = namesOf outs ++ (o.map Attr.filename).toList := by
  unfold namesOf
  rw [List.filterMap_append]
  cases o <;> rfl

/-- **`nextEntry`** of a `DirLister`. -/
theorem RInv.next (hs : Steady fs B) (hN : B + 1 < N) {r : Reader} {G : List (Attr × Contents)}
    {log : List (Name × List (Option Attr))} (h : RInv fs r G log) {i : Nat} {x : Name × List (Option Attr)}
    (hx : log[i]? = some x) :
    ∃ r' o, r.next N i = .ok (r', o) ∧ RInv fs r' G (log.set i (x.1, x.2 ++ [o])) := by
  have hi : i < log.length := (List.getElem?_eq_some_iff.1 hx).1
  have hh : ∃ hd, r.handles[i]? = some hd := ⟨r.handles[i]'(by rw [h.length]; exact hi), List.getElem?_eq_getElem _⟩
  obtain ⟨hd, hh⟩ := hh
  have hinv := h.handles i hd x hh hx
  unfold Reader.next
  rw [hh]
  cases hd with
  | known es pos =>
    simp only
    refine ⟨_, _, rfl, h.ghosts, h.objs, h.cache, h.lips, by simp [h.length], ?_⟩
    intro j h' x' hj hx'
    by_cases hij : i = j
    · subst hij
      simp only at hj
      rw [getElem?_set_eq' hh] at hj
      rw [getElem?_set_eq' hx] at hx'
      cases hj
      cases hx'
      exact ⟨hinv.1, hinv.2.next⟩
    · simp only at hj
      rw [List.getElem?_set_ne hij] at hj hx'
      exact h.handles j h' x' hj hx'
  | listing id url l =>
    obtain ⟨hurl, o, g, path, hl⟩ := hinv
    subst hurl
    simp only [hl.obj]
    have ho := h.objs id o g hl.obj hl.ghost
    obtain ⟨κ, hκ, hgood⟩ := ho.good
    have hsm := (hs.small _ _ ho.opens).2
    rw [if_neg (by
      rintro ⟨z1, z2 | ⟨z2, z3⟩⟩
      · rw [ho.alive] at z2; cases z2
      · rcases hl.linv.cases with ⟨c1, _⟩ | ⟨c1, c2, _⟩ | ⟨p, c1, _⟩
        · omega
        · exact hl.held z2 ⟨c1, by rw [c2]; rfl⟩
        · rw [c1] at z3; cases z3)]
    obtain ⟨l', s', out, n1, n2, ⟨κ', n3, n3'⟩, n4, n5⟩ := next_spec (n := N) hgood (show κ < N by omega) (by omega)
      hl.url (tops_ne _) hl.linv
    obtain ⟨k, r1, r2⟩ := next_reaches n1
    rw [n1]
    simp only [Res.bind_ok]
    rw [show s'.steps - o.st.steps = k by omega]
    obtain ⟨hs', w1, w2, w3⟩ := watchAll_spec (id := id) hgood (show κ < N by omega) r1 r.handles
    rw [w1]
    simp only [Res.bind_ok]
    refine ⟨_, _, rfl, ?_, ?_, h.cache, ?_, ?_, ?_⟩
    · simp [h.ghosts]
    · intro id' o' g' ho' hg'
      simp only at ho'
      by_cases hid : id = id'
      · subst hid
        rw [getElem?_set_eq' hl.obj] at ho'
        cases ho'
        rw [hl.ghost] at hg'
        cases hg'
        exact ⟨ho.opens, ho.told, ho.alive, ho.closed.reaches k r1,
          fun z => closed_stays k (ho.gone z) ho.closed r1, κ', by omega, n3'⟩
      · rw [List.getElem?_set_ne hid] at ho'
        exact h.objs id' o' g' ho' hg'
    · intro y hy
      obtain ⟨o', i1, i2, i3⟩ := h.lips y hy
      simp only
      by_cases hid : id = y.2
      · rw [← hid] at i1 ⊢
        rw [hl.obj] at i1
        cases i1
        exact ⟨_, getElem?_set_eq' hl.obj, i2, i3⟩
      · rw [List.getElem?_set_ne hid]
        exact ⟨o', i1, i2, i3⟩
    · simp [w2, h.length]
    · intro j h' x' hj hx'
      simp only at hj
      by_cases hij : i = j
      · subst hij
        obtain ⟨y, hy, _⟩ := w3 i _ hh
        rw [getElem?_set_eq' hy] at hj
        rw [getElem?_set_eq' hx] at hx'
        cases hj
        cases hx'
        refine ⟨rfl, { o with st := s' }, g, path, ?_⟩
        have hpos : ∀ a, out = some a → none ∉ x.2 := fun a ha z => (n5 a ha).1 (hl.over z)
        refine ⟨getElem?_set_eq' hl.obj, hl.ghost, hl.url, n2, ?_, ?_, ?_, ?_, ?_⟩
        · rw [namesOf_add]
          cases out with
          | none => rw [(n4 rfl).1, hl.done]; simp
          | some a => rw [(n5 a rfl).2, hl.done]; simp
        · intro z
          rcases List.mem_append.1 z with hz | z
          · cases out with
            | none => exact (n4 rfl).2
            | some a => exact absurd hz (hpos a rfl)
          · have : out = none := (List.mem_singleton.1 z).symm
            exact (n4 this).2
        · refine hl.absorbing.add (fun z => ?_)
          cases out with
          | none => rfl
          | some a => exact absurd z (hpos a rfl)
        all_goals
          rintro - ⟨z1, z2⟩
          cases out with
          | none => have := (n4 rfl).2; omega
          | some a =>
            have hd := (n5 a rfl).2
            rcases n2.cases with ⟨c1, _⟩ | ⟨_, _, c3⟩ | ⟨p, c1, _⟩
            · omega
            · rw [c3] at hd; cases hd
            · rw [c1] at z2; cases z2
      · rw [List.getElem?_set_ne hij] at hj hx'
        have hjl : j < r.handles.length := by
          rw [← w2]
          exact (List.getElem?_eq_some_iff.1 hj).1
        obtain ⟨y, hy, hw⟩ := w3 j _ (List.getElem?_eq_getElem hjl)
        rw [hj] at hy
        cases hy
        have hold := h.handles j _ x' (List.getElem?_eq_getElem hjl) hx'
        generalize r.handles[j] = hd at hw hold
        cases hd with
        | known es pos =>
          have hw : h' = .known es pos := hw
          subst hw
          exact hold
        | listing id2 url2 l2 =>
          obtain ⟨l3, rfl, q1, q2, q3, q4, q5⟩ := hw
          obtain ⟨hu2, o2, g2, path2, hl2⟩ := hold
          refine ⟨hu2, ?_⟩
          by_cases hid : id2 = id
          · subst hid
            have e1 := hl2.obj
            rw [hl.obj] at e1
            cases e1
            have e2 := hl2.ghost
            rw [hl.ghost] at e2
            cases e2
            exact ⟨{ o with st := s' }, g, path2, getElem?_set_eq' hl.obj, hl.ghost, hl2.url, q5 path2 hl2.linv rfl,
              by rw [q1]; exact hl2.done, fun z => by rw [q2]; exact hl2.over z, hl2.absorbing,
              fun z => by rw [q2, q3]; exact hl2.started z, fun z => by rw [q2, q3]; exact hl2.held z⟩
          · have := q4 hid
            subst this
            exact ⟨o2, g2, path2, by rw [List.getElem?_set_ne (Ne.symm hid)]; exact hl2.obj, hl2.ghost, hl2.url,
              hl2.linv, hl2.done, hl2.over, hl2.absorbing, hl2.started, hl2.held⟩

theorem ancestor_urlOf {k u : Name} (h : Ancestor k u) : ∃ path, UrlOf k u path := by
  rcases h with h | ⟨rest, h⟩
  · exact ⟨[], Or.inl ⟨h.symm, rfl⟩⟩
  · exact ⟨_, Or.inr ⟨rest, h, rfl⟩⟩

theorem urlOf_ancestor {k u : Name} {path : List Name} (h : UrlOf k u path) : Ancestor k u := by
  rcases h with ⟨h, _⟩ | ⟨rest, h, _⟩
  · exact Or.inl h.symm
  · exact Or.inr ⟨rest, h⟩

/-- What is found in the cache. -/
theorem findCached_spec (hs : Steady fs B) {cache : List (Name × Option Tree)}
    (hc : ∀ x ∈ cache, ∃ a c, x.2 = some (finalTree a c) ∧ fs.openStream x.1 = some c ∧ Told fs x.1 a) (u : Name) :
    (findCached cache u = .ok none ∧ ∀ k, Ancestor k u → mapFind k cache = none) ∨
    (∃ k a c path, mapFind k cache = some (some (finalTree a c)) ∧ fs.openStream k = some c ∧ UrlOf k u path ∧
      findCached cache u = .ok ((finalTree a c).get path)) := by
  unfold findCached
  rcases Props.C46_root cache u with ⟨k, v, h1, h2, h3, h4⟩ | ⟨h1, h2⟩
  · obtain ⟨a, c, i1, i2, i3⟩ := hc _ (mapFind_mem h2)
    simp only at i1 i2
    subst i1
    right
    rw [h1]
    simp only [Res.bind_ok]
    rcases h3 with rfl | ⟨rest, rfl⟩
    · refine ⟨k, a, c, [], h2, i2, Or.inl ⟨rfl, rfl⟩, ?_⟩
      rw [if_pos rfl]
      cases finalTree a c
      rfl
    · refine ⟨k, a, c, components rest, h2, i2, Or.inr ⟨rest, rfl, rfl⟩, ?_⟩
      rw [if_neg (fun z => by have := congrArg List.length z; simp at this), findBelow_spec]
  · left
    rw [h1]
    exact ⟨rfl, h2⟩

theorem kidAttrs_get {t : Tree} {path : List Name} {u : Tree} (h : t.get path = some u) :
    kidAttrs u = (Ptr.kids t (.at path)).map fun x => x.2.attr := by
  simp only [kidAttrs, Ptr.kids, h]

/-- A new `DirLister` with known entries. -/
theorem RInv.add_known {r : Reader} {G : List (Attr × Contents)} {log : List (Name × List (Option Attr))}
    (h : RInv fs r G log) {u : Name} {es : List Attr} (hk : KnownOf fs u es) :
    RInv fs (r.add (.known es 0)) G (log ++ [(u, [])]) := by
  refine ⟨h.ghosts, h.objs, h.cache, h.lips, by simp [Reader.add, h.length], ?_⟩
  intro j hd x hj hx
  simp only [Reader.add] at hj ⊢
  by_cases hl : j < r.handles.length
  · rw [List.getElem?_append_left hl] at hj
    rw [List.getElem?_append_left (by rw [← h.length]; exact hl)] at hx
    exact h.handles j hd x hj hx
  · rw [List.getElem?_append_right (by omega)] at hj
    rw [List.getElem?_append_right (by rw [← h.length]; omega)] at hx
    rw [← h.length] at hx
    cases hz : j - r.handles.length with
    | zero =>
      rw [hz] at hj hx
      simp only [List.getElem?_cons_zero, Option.some.injEq] at hj hx
      subst hj
      subst hx
      exact ⟨hk, Or.inl ⟨rfl, by simp, by simp⟩⟩
    | succ n => rw [hz] at hj; simp at hj

/-- A new `DirLister` on a listing. -/
theorem RInv.add_listing {r : Reader} {G : List (Attr × Contents)} {log : List (Name × List (Option Attr))}
    (h : RInv fs r G log) {u : Name} {id : Nat} {o : Obj} (ho : r.objs[id]? = some o) (hh : o.held = true)
    (hu : Ancestor o.url u) :
    RInv fs (r.add (.listing id u {})) G (log ++ [(u, [])]) := by
  obtain ⟨g, hg, hi⟩ := h.ghost ho
  obtain ⟨path, hp⟩ := ancestor_urlOf hu
  refine ⟨h.ghosts, h.objs, h.cache, h.lips, by simp [Reader.add, h.length], ?_⟩
  intro j hd x hj hx
  simp only [Reader.add] at hj ⊢
  by_cases hl : j < r.handles.length
  · rw [List.getElem?_append_left hl] at hj
    rw [List.getElem?_append_left (by rw [← h.length]; exact hl)] at hx
    exact h.handles j hd x hj hx
  · rw [List.getElem?_append_right (by omega)] at hj
    rw [List.getElem?_append_right (by rw [← h.length]; omega)] at hx
    rw [← h.length] at hx
    cases hz : j - r.handles.length with
    | zero =>
      rw [hz] at hj hx
      simp only [List.getElem?_cons_zero, Option.some.injEq] at hj hx
      subst hj
      subst hx
      refine ⟨rfl, o, g, path, ho, hg, hp, ⟨by simp, by simp, Or.inr (Or.inl ⟨rfl, rfl, rfl⟩)⟩, rfl, by simp, ?_, by simp,
        fun z => by rw [hh] at z; cases z⟩
      intro o1 o2 e
      have := congrArg List.length e
      simp at this
    | succ n => rw [hz] at hj; simp at hj

/-- The file to which a url leads. -/
theorem cullName_steady (hs : Steady fs B) (u : Name) :
    (∃ k c parts, fs.openStream k = some c ∧ Ancestor k u ∧ cullName fs u = .ok (some c, parts) ∧ fileOf u parts = k) ∨
    ((∀ k, Ancestor k u → fs.openStream k = none) ∧ ∃ parts, cullName fs u = .ok (none, parts)) := by
  rcases cullName_spec fs u with ⟨k, c, r, h1, h2, h3, h4, h5, h6⟩ | ⟨h1, parts, h2⟩
  · left
    refine ⟨k, c, _, h2, h3, h6, ?_⟩
    rcases h3 with h3 | ⟨rest, h3⟩
    · have hr : r = [] := by
        rw [← h3] at h1
        have := congrArg List.length h1
        simp at this
        exact this
      subst hr
      simp [startsAt, fileOf, h3]
    · have hr : r = 47 :: rest := by
        rw [h1, List.append_cancel_left_eq] at h3
        exact h3
      subst hr
      rw [startsAt, if_pos rfl, List.reverse_cons, fileOf, List.getLast?_append]
      simp [h1]
  · right
    refine ⟨fun k hk => ?_, parts, h2⟩
    by_cases hk' : k = []
    · rw [hk']; exact hs.empty
    · exact h1 k hk (Or.inr hk')

/-- The listing for a url. -/
theorem RInv.lipFor (hs : Steady fs B) {r : Reader} {G : List (Attr × Contents)} {log : List (Name × List (Option Attr))}
    (h : RInv fs r G log) (u : Name) :
    (∃ r' G' id o, r.lipFor fs u = .ok (r', some id) ∧ RInv fs r' G' log ∧ r'.objs[id]? = some o ∧ o.held = true ∧
      Ancestor o.url u ∧ r'.handles = r.handles) ∨
    (r.lipFor fs u = .ok (r, none) ∧ ∀ k, Ancestor k u → fs.openStream k = none) := by
  unfold Reader.lipFor
  rcases Props.C46_root r.lips u with ⟨k, id, h1, h2, h3, _⟩ | ⟨h1, h2⟩
  · left
    obtain ⟨o, i1, i2, i3⟩ := h.lips _ (mapFind_mem h2)
    rw [h1]
    simp only at i1 i2
    exact ⟨r, G, id, o, rfl, h, i1, i3, by rw [i2]; exact h3, rfl⟩
  · rw [h1]
    simp only [Res.bind_ok]
    rcases cullName_steady hs u with ⟨k, c, parts, i1, i2, i3, i4⟩ | ⟨i1, parts, i2⟩
    · left
      rw [i3]
      simp only [Res.bind_ok]
      rw [i4, h.localStat]
      simp only [Res.bind_ok]
      generalize ha : ((fs.stat k).map (statOf fs k)).getD {} = a
      have hget : (r.objs ++ [(⟨k, Listing.State.new a c, true, true⟩ : Obj)])[r.objs.length]? =
          some ⟨k, Listing.State.new a c, true, true⟩ := by
        rw [List.getElem?_append_right (Nat.le_refl _)]; simp
      refine ⟨_, G ++ [(a, c)], _, ⟨k, Listing.State.new a c, true, true⟩, rfl, ?_, hget, rfl, i2, rfl⟩
      have hold : ∀ {id : Nat} {o : Obj}, r.objs[id]? = some o →
          (r.objs ++ [(⟨k, Listing.State.new a c, true, true⟩ : Obj)])[id]? = some o := by
        intro id o ho
        rw [List.getElem?_append_left (List.getElem?_eq_some_iff.1 ho).1]
        exact ho
      refine ⟨by simp [h.ghosts], ?_, h.cache, ?_, h.length, ?_⟩
      · intro id o g ho hg
        simp only at ho
        by_cases hid : id < r.objs.length
        · rw [List.getElem?_append_left hid] at ho
          rw [List.getElem?_append_left (by rw [h.ghosts]; exact hid)] at hg
          exact h.objs id o g ho hg
        · rw [List.getElem?_append_right (by omega)] at ho
          rw [List.getElem?_append_right (by rw [h.ghosts]; omega), h.ghosts] at hg
          cases hz : id - r.objs.length with
          | zero =>
            rw [hz] at ho hg
            simp only [List.getElem?_cons_zero, Option.some.injEq] at ho hg
            subst ho
            subst hg
            refine ⟨i1, ?_, rfl, (fun z => by cases z), (fun z => by cases z), c.count, Nat.le_refl _,
              good_new a c (hs.small k c i1).1⟩
            intro e he _
            simp only at he ⊢
            rw [← ha, he]
            rfl
          | succ n => rw [hz] at ho; simp at ho
      · intro x hx
        simp only at hx ⊢
        rcases mem_set hx with hx | hx
        · rw [hx]
          exact ⟨_, hget, rfl, rfl⟩
        · obtain ⟨o, j1, j2, j3⟩ := h.lips x hx
          exact ⟨o, hold j1, j2, j3⟩
      · intro j hd x hj hx
        have := h.handles j hd x hj hx
        cases hd with
        | known es pos => exact this
        | listing id url l =>
          obtain ⟨j1, o, g, path, hl⟩ := this
          refine ⟨j1, o, g, path, hold hl.obj, ?_, hl.url, hl.linv, hl.done, hl.over, hl.absorbing, hl.started, hl.held⟩
          rw [List.getElem?_append_left (List.getElem?_eq_some_iff.1 hl.ghost).1]
          exact hl.ghost
    · right
      rw [i2]
      exact ⟨rfl, i1⟩

/-- A listing that is done goes to the cache. -/
theorem RInv.collect {r : Reader} {G : List (Attr × Contents)} {log : List (Name × List (Option Attr))}
    (h : RInv fs r G log) (hst : ∀ x ∈ log, x.2 ≠ []) {id : Nat} {o : Obj} (ho : r.objs[id]? = some o) (hh : o.held = true)
    (hd : o.st.streamOpen = false) : RInv fs (r.collect id o) G log := by
  obtain ⟨g, hg, hi⟩ := h.ghost ho
  obtain ⟨κ, _, hgood⟩ := hi.good
  have hroot := (hgood.ended (hi.closed hd)).2.2
  refine ⟨by simp [Reader.collect, h.ghosts], ?_, ?_, ?_, h.length, ?_⟩
  · intro id' o' g' ho' hg'
    simp only [Reader.collect] at ho'
    by_cases hid : id = id'
    · subst hid
      rw [getElem?_set_eq' ho] at ho'
      cases ho'
      rw [hg] at hg'
      cases hg'
      exact ⟨hi.opens, hi.told, hi.alive, hi.closed, fun _ => hd, hi.good⟩
    · rw [List.getElem?_set_ne hid] at ho'
      exact h.objs id' o' g' ho' hg'
  · intro x hx
    simp only [Reader.collect] at hx
    rcases mem_set hx with hx | hx
    · rw [hx]
      refine ⟨g.1, g.2, ?_, hi.opens, hi.told⟩
      simp only
      rw [if_pos hh, hroot]
    · exact h.cache x hx
  · intro x hx
    simp only [Reader.collect, mapErase, List.mem_filter, decide_eq_true_eq] at hx ⊢
    obtain ⟨o', i1, i2, i3⟩ := h.lips x hx.1
    have hid : id ≠ x.2 := by
      intro z
      rw [← z, ho] at i1
      cases i1
      exact hx.2 i2.symm
    rw [List.getElem?_set_ne hid]
    exact ⟨o', i1, i2, i3⟩
  · intro j hd' x hj hx
    have := h.handles j hd' x hj hx
    cases hd' with
    | known es pos => exact this
    | listing id2 url l =>
      obtain ⟨j1, o2, g2, path, hl⟩ := this
      refine ⟨j1, ?_⟩
      simp only [Reader.collect]
      by_cases hid : id = id2
      · subst hid
        have e1 := hl.obj
        rw [ho] at e1
        cases e1
        exact ⟨{ o with held := false }, g2, path, getElem?_set_eq' ho, hl.ghost, hl.url, hl.linv, hl.done, hl.over,
          hl.absorbing, hl.started, fun _ => hl.started (hst x (List.mem_of_getElem? hx))⟩
      · exact ⟨o2, g2, path, by rw [List.getElem?_set_ne hid]; exact hl.obj, hl.ghost, hl.url, hl.linv, hl.done, hl.over,
          hl.absorbing, hl.started, hl.held⟩

theorem RInv.known (hs : Steady fs B) {r : Reader} {G : List (Attr × Contents)} {log : List (Name × List (Option Attr))}
    (h : RInv fs r G log) {u : Name} {t : Tree} (hf : findCached r.cache u = .ok (some t)) : KnownOf fs u (kidAttrs t) := by
  rcases findCached_spec hs h.cache u with ⟨h1, _⟩ | ⟨k, a, c, path, _, h2, h3, h4⟩
  · rw [h1] at hf; cases hf
  · rw [h4] at hf
    have hf : (finalTree a c).get path = some t := by simpa using hf
    exact Or.inl ⟨k, c, a, path, h2, h3, kidAttrs_get hf⟩

/-- **`dirEntries`**: a new `DirLister`. -/
theorem RInv.dirEntries (hs : Steady fs B) {r : Reader} {G : List (Attr × Contents)}
    {log : List (Name × List (Option Attr))} (h : RInv fs r G log) (hst : ∀ x ∈ log, x.2 ≠ []) (u : Name) :
    ∃ r' G', r.dirEntries fs u = .ok r' ∧ RInv fs r' G' (log ++ [(u, [])]) := by
  unfold Reader.dirEntries
  have hfc : ∃ o, findCached r.cache u = .ok o := by
    rcases findCached_spec hs h.cache u with ⟨h1, _⟩ | ⟨k, a, c, path, _, h2, h3, h4⟩
    · exact ⟨_, h1⟩
    · exact ⟨_, h4⟩
  obtain ⟨oc, hfc⟩ := hfc
  rw [hfc]
  simp only [Res.bind_ok]
  cases oc with
  | some t => exact ⟨_, G, rfl, h.add_known (h.known hs hfc)⟩
  | none =>
    simp only
    rcases h.lipFor hs u with ⟨r', G', id, o, i1, i2, i3, i4, i5, -⟩ | ⟨i1, i2⟩
    · rw [i1]
      simp only [Res.bind_ok, i3]
      by_cases hso : o.st.streamOpen = true
      · rw [if_pos hso]
        exact ⟨_, G', rfl, i2.add_listing i3 i4 i5⟩
      · rw [if_neg hso]
        have hc := i2.collect hst i3 i4 (by simpa using hso)
        rcases findCached_spec hs hc.cache u with ⟨h1, h2⟩ | ⟨k, a, c, path, h1, h2, h3, h4⟩
        · have := h2 o.url i5
          simp only [Reader.collect] at this
          rw [mapFind_set, if_pos rfl] at this
          cases this
        · rw [h4]
          simp only [Res.bind_ok]
          cases hg : (finalTree a c).get path with
          | none =>
            refine ⟨_, G', rfl, hc.add_known (Or.inl ⟨k, c, a, path, h2, h3, ?_⟩)⟩
            simp only [Ptr.kids, hg, List.map_nil]
          | some t => exact ⟨_, G', rfl, hc.add_known (Or.inl ⟨k, c, a, path, h2, h3, kidAttrs_get hg⟩)⟩
    · rw [i1]
      exact ⟨_, G, rfl, h.add_known (Or.inr ⟨rfl, i2⟩)⟩

/-! ## What is delivered -/

theorem kids_filename (a : Attr) (c : Contents) (path : List Name) :
    (Ptr.kids (finalTree a c) (.at path)).map (fun x => x.2.attr.filename) = keys (Ptr.kids (finalTree a c) (.at path)) := by
  simp only [Ptr.kids]
  cases hg : (finalTree a c).get path with
  | none => rfl
  | some t =>
    have := get_wf path (build_wf c _ (wf_leaf _)) hg
    cases this with
    | mk _ h2 _ =>
      rename_i k _ _
      simp only [Tree.kids, keys]
      apply List.map_congr_left
      intro x hx
      exact h2 x.1 x.2 hx

theorem namesOf_somes (es : List Attr) : namesOf (es.map some) = es.map Attr.filename := by
  induction es with
  | nil => rfl
  | cons e es ih => simp [namesOf] at ih ⊢; exact ih

theorem none_somes (es : List Attr) : none ∉ es.map some := by
  intro z
  obtain ⟨x, _, h⟩ := List.mem_map.1 z
  cases h

theorem namesOf_nones (m : Nat) : namesOf (List.replicate m none) = [] := by
  induction m with
  | zero => rfl
  | succ m ih => simpa [namesOf, List.replicate_succ] using ih

theorem namesOf_append (a b : List (Option Attr)) : namesOf (a ++ b) = namesOf a ++ namesOf b := by
  simp [namesOf]

theorem namesOf_length {outs : List (Option Attr)} (h : none ∉ outs) : (namesOf outs).length = outs.length := by
  induction outs with
  | nil => rfl
  | cons o l ih =>
    cases o with
    | none => simp at h
    | some b =>
      have := ih (fun z => h (by simp [z]))
      simp only [namesOf, List.filterMap_cons, Option.map_some, List.length_cons] at this ⊢
      omega

theorem Delivers.of {shown : Name → Prop} {outs : List (Option Attr)} (h1 : (namesOf outs).Nodup) (h2 : Absorbing outs)
    (h3 : ∀ k ∈ namesOf outs, shown k) (h4 : none ∈ outs → ∀ k, shown k → k ∈ namesOf outs) : Delivers shown outs := by
  refine ⟨h1, h2, h3, h4, fun ks hks hlt => ?_⟩
  apply Classical.byContradiction
  intro hno
  have h5 := namesOf_length hno
  have h6 := nodup_length h1 (fun k hk => hks k (h3 k hk))
  omega

theorem Shape.absorbing {es : List Attr} {pos : Int} {outs : List (Option Attr)} (h : Shape es pos outs) :
    Absorbing outs := by
  intro o1 o2 e o ho
  rcases h with ⟨_, _, h⟩ | ⟨_, m, h⟩
  · have : none ∈ outs := by rw [e]; simp
    rw [h] at this
    exact absurd this (none_somes _)
  · rw [h] at e
    rw [List.append_eq_append_iff] at e
    rcases e with ⟨as, e1, e2⟩ | ⟨bs, e1, e2⟩
    · have : o ∈ List.replicate (m + 1) (none : Option Attr) := by rw [e2]; simp [ho]
      exact (List.mem_replicate.1 this).2
    · cases bs with
      | nil =>
        have : o ∈ List.replicate (m + 1) (none : Option Attr) := by
          simp only [List.nil_append] at e2
          rw [← e2]; simp [ho]
        exact (List.mem_replicate.1 this).2
      | cons b bs =>
        simp only [List.cons_append, List.cons.injEq] at e2
        have : b ∈ es.map some := by rw [e1]; simp
        rw [← e2.1] at this
        simp at this

theorem urlOf_unique {k u : Name} {p p' : List Name} (h : UrlOf k u p) (h' : UrlOf k u p') : p = p' := by
  have hne : ∀ r : List UInt8, k ≠ k ++ 47 :: r := fun r z => by have := congrArg List.length z; simp at this
  rcases h with ⟨h1, h2⟩ | ⟨r, h1, h2⟩ <;> rcases h' with ⟨h3, h4⟩ | ⟨r', h3, h4⟩
  · rw [h2, h4]
  · exact absurd (h1.symm.trans h3) (hne _)
  · exact absurd (h3.symm.trans h1) (hne _)
  · rw [h1, List.append_cancel_left_eq] at h3
    cases h3
    rw [h2, h4]

theorem inArchive_unique (hs : Steady fs B) {k u : Name} {c c' : Contents} {path path' : List Name}
    (ho : fs.openStream k = some c) (hu : UrlOf k u path) (h : InArchive fs u c' path') : c = c' ∧ path = path' := by
  obtain ⟨k', h1, h2⟩ := h
  have : k = k' := hs.one u k k' (urlOf_ancestor hu) (urlOf_ancestor h2) (by rw [ho]; simp) (by rw [h1]; simp)
  subst this
  rw [ho] at h1
  cases h1
  exact ⟨rfl, urlOf_unique hu h2⟩

/-- What a `DirLister` of a directory of an archive has returned. -/
theorem HInv.delivers (hs : Steady fs B) {objs : List Obj} {G : List (Attr × Contents)}
    (hob : ∀ (id : Nat) o g, objs[id]? = some o → G[id]? = some g → OInv fs g o) {h : Handle} {u : Name}
    {outs : List (Option Attr)} (hi : HInv fs objs G h (u, outs)) :
    (∀ c path, InArchive fs u c path → Orderly c path → Delivers (shownIn c path) outs) ∧
    (namesOf outs).Nodup ∧ Absorbing outs ∧
    ((∀ k, Ancestor k u → fs.openStream k = none) → ∀ o ∈ outs, o = none) := by
  cases h with
  | known es pos =>
    obtain ⟨h1, h2⟩ := hi
    have habs := h2.absorbing
    simp only at h1 h2
    rcases h1 with ⟨k, c, a, path, i1, i2, i3⟩ | ⟨i1, i2⟩
    · have hnames : es.map Attr.filename = keys (Ptr.kids (finalTree a c) (.at path)) := by
        rw [i3, List.map_map, ← kids_filename]
        rfl
      have hnd := final_nodup a c path
      have hno : (namesOf outs).Nodup := by
        rcases h2 with ⟨_, _, j⟩ | ⟨_, m, j⟩
        · rw [j, namesOf_somes, List.map_take, hnames]
          exact hnd.sublist (List.take_sublist _ _)
        · rw [j, namesOf_append, namesOf_somes, namesOf_nones, List.append_nil, hnames]
          exact hnd
      refine ⟨?_, hno, habs, fun z => by rw [z k (urlOf_ancestor i2)] at i1; cases i1⟩
      intro c' path' hin _
      obtain ⟨rfl, rfl⟩ := inArchive_unique hs i1 i2 hin
      refine Delivers.of hno habs ?_ ?_
      · intro n hn
        apply (keys_shown a c path n).1
        rw [← hnames]
        rcases h2 with ⟨_, _, j⟩ | ⟨_, m, j⟩
        · rw [j, namesOf_somes, List.map_take] at hn
          exact List.mem_of_mem_take hn
        · rw [j, namesOf_append, namesOf_somes, namesOf_nones, List.append_nil] at hn
          exact hn
      · intro hno' n hn
        rcases h2 with ⟨_, _, j⟩ | ⟨_, m, j⟩
        · rw [j] at hno'; exact absurd hno' (none_somes _)
        · rw [j, namesOf_append, namesOf_somes, namesOf_nones, List.append_nil, hnames]
          exact (keys_shown a c path n).2 hn
    · subst i1
      have hall : ∀ o ∈ outs, o = none := by
        intro o ho
        rcases h2 with ⟨_, _, j⟩ | ⟨_, m, j⟩
        · rw [j] at ho; simp at ho
        · rw [j] at ho
          simp only [List.map_nil, List.nil_append] at ho
          exact (List.mem_replicate.1 ho).2
      refine ⟨?_, ?_, habs, fun _ => hall⟩
      · rintro c' path' ⟨k', j1, j2⟩
        rw [i2 k' (urlOf_ancestor j2)] at j1
        cases j1
      · rw [List.eq_replicate_of_mem hall, namesOf_nones]
        simp
  | listing id url l =>
    obtain ⟨_, o, g, path, hl⟩ := hi
    have ho := hob id o g hl.obj hl.ghost
    have hnd : (namesOf outs).Nodup := by
      have := hl.linv.nodup
      rw [hl.done] at this
      unfold List.Nodup at this ⊢
      rw [List.pairwise_reverse] at this
      exact this.imp Ne.symm
    refine ⟨?_, hnd, hl.absorbing, fun z => by have := ho.opens; rw [z _ (urlOf_ancestor hl.url)] at this; cases this⟩
    intro c' path' hin hord
    obtain ⟨rfl, rfl⟩ := inArchive_unique hs ho.opens hl.url hin
    have hfirst : First (tops g.2) path := by rw [Props.tops_eq]; exact hord
    refine Delivers.of hnd hl.absorbing ?_ ?_
    · intro n hn
      exact (keys_shown g.1 g.2 path n).1 (hl.linv.final hfirst n (by rw [hl.done]; simpa using hn))
    · intro hno n hn
      have hp := hl.over hno
      rcases hl.linv.cases with ⟨_, i2⟩ | ⟨i1, _⟩ | ⟨p, _, _, i1, _⟩
      · have := i2 hfirst n ((keys_shown g.1 g.2 path n).2 hn)
        rw [hl.done] at this
        simpa using this
      · omega
      · omega

/-! ## `stat` -/

theorem shownAt_some {h : List (List Name × Attr)} {q : List Name} (hne : shownAt h q ≠ none) : ∃ y ∈ h, q <+: y.1 := by
  induction h with
  | nil => exact absurd rfl hne
  | cons x h ih =>
    obtain ⟨p, a⟩ := x
    simp only [shownAt] at hne
    by_cases h1 : q = p
    · exact ⟨(p, a), by simp, by rw [h1]; exact List.prefix_rfl⟩
    · rw [if_neg h1] at hne
      by_cases h2 : p <+: q
      · rw [if_pos h2] at hne; exact absurd rfl hne
      · rw [if_neg h2] at hne
        by_cases h3 : q <+: p
        · exact ⟨(p, a), by simp, h3⟩
        · rw [if_neg h3] at hne
          obtain ⟨y, hy, hq⟩ := ih hne
          exact ⟨y, by simp [hy], hq⟩

theorem entries_length (c : Contents) : ∀ pre, (c.entries pre).length = c.count := by
  induction c with
  | nil => intro pre; rfl
  | entry a len sub rest ih1 ih2 =>
    intro pre
    simp only [Contents.entries, Contents.count, List.length_cons, List.length_append, ih1, ih2]

/-- A directory has no more entries than the archive. -/
theorem shown_bound (c : Contents) (path : List Name) :
    ∃ ks : List Name, (∀ k, shownIn c path k → k ∈ ks) ∧ ks.length ≤ c.count := by
  refine ⟨(c.entries []).reverse.map fun y => y.1[path.length]?.getD [], ?_, by simp [entries_length]⟩
  intro k hk
  obtain ⟨y, hy, t, ht⟩ := shownAt_some hk
  refine List.mem_map.2 ⟨y, hy, ?_⟩
  rw [← ht, List.append_assoc, List.getElem?_append_right (Nat.le_refl _)]
  simp

theorem getElem?_last {α : Type} (l : List α) (x : α) : (l ++ [x])[l.length]? = some x := by simp

theorem RInv.last {r : Reader} {G : List (Attr × Contents)} {log : List (Name × List (Option Attr))}
    {x : Name × List (Option Attr)} (h : RInv fs r G (log ++ [x])) : ∃ hd, HInv fs r.objs G hd x := by
  have hl : log.length < r.handles.length := by rw [h.length]; simp
  exact ⟨_, h.handles log.length _ x (List.getElem?_eq_getElem hl) (getElem?_last log x)⟩

theorem RInv.dropLast {r : Reader} {G : List (Attr × Contents)} {log : List (Name × List (Option Attr))}
    {x : Name × List (Option Attr)} (h : RInv fs r G (log ++ [x])) :
    RInv fs { r with handles := r.handles.dropLast } G log := by
  have hlen := h.length
  simp only [List.length_append, List.length_singleton] at hlen
  refine ⟨h.ghosts, h.objs, h.cache, h.lips, by simp [hlen], ?_⟩
  intro j hd y hj hy
  have hjl : j < log.length := (List.getElem?_eq_some_iff.1 hy).1
  simp only at hj
  rw [List.getElem?_dropLast, if_pos (by omega)] at hj
  exact h.handles j hd y hj (by rw [List.getElem?_append_left hjl]; exact hy)

theorem statLoop_inv (hs : Steady fs B) (hN : B + 1 < N) {G : List (Attr × Contents)}
    {log : List (Name × List (Option Attr))} {p name : Name} {D : Nat}
    (hb : ∀ (r : Reader) outs, RInv fs r G (log ++ [(p, outs)]) → D < outs.length → none ∈ outs) :
    ∀ (m : Nat) (r : Reader) (outs : List (Option Attr)), RInv fs r G (log ++ [(p, outs)]) → none ∉ outs →
    cName name ∉ namesOf outs → D < outs.length + m →
    ∃ r' o outs', r.statLoop N log.length name m = .ok (r', o) ∧ RInv fs r' G (log ++ [(p, outs')]) ∧
      (∀ e, o = some e → e.filename = cName name ∧ cName name ∈ namesOf outs') ∧
      (o = none → cName name ∉ namesOf outs' ∧ none ∈ outs') := by
  intro m
  induction m with
  | zero => intro r outs h hno _ hD; exact absurd (hb r outs h (by omega)) hno
  | succ m ih =>
    intro r outs h hno hname hD
    obtain ⟨r', o, h1, h2⟩ := h.next hs hN (getElem?_last log (p, outs))
    rw [List.set_append_right _ _ (Nat.le_refl _)] at h2
    simp only [Nat.sub_self, List.set_cons_zero] at h2
    unfold Reader.statLoop
    rw [h1]
    simp only [Res.bind_ok]
    cases o with
    | none =>
      refine ⟨r', none, _, rfl, h2, by simp, fun _ => ⟨?_, by simp⟩⟩
      rw [namesOf_add]
      simpa using hname
    | some e =>
      simp only
      by_cases he : e.filename = cName name
      · rw [if_pos he]
        refine ⟨r', some e, _, rfl, h2, ?_, by simp⟩
        intro e' z
        cases z
        refine ⟨he, ?_⟩
        rw [namesOf_add, ← he]
        simp
      · rw [if_neg he]
        refine ih r' _ h2 (by simpa using hno) ?_ (by simp only [List.length_append, List.length_singleton]; omega)
        rw [namesOf_add]
        simp only [Option.map_some, Option.toList_some, List.mem_append, List.mem_singleton]
        rintro (z | z)
        · exact hname z
        · exact he z.symm

theorem components_snoc (s name : Name) (hn : (47 : UInt8) ∉ name) :
    components (s ++ 47 :: name) = components s ++ [name] := by
  have hname : components name = [name] := by
    induction name with
    | nil => rfl
    | cons b l ih =>
      have h1 : b ≠ 47 := fun z => hn (by simp [z])
      rw [components, if_neg h1, ih (fun z => hn (by simp [z]))]
  induction s with
  | nil => simp only [List.nil_append, components, if_true, hname]; rfl
  | cons b s ih =>
    rw [List.cons_append, components, components, ih]
    by_cases hb : b = 47
    · rw [if_pos hb, if_pos hb]; rfl
    · rw [if_neg hb, if_neg hb]
      have := components_ne_nil s
      cases hc : components s with
      | nil => exact absurd hc this
      | cons c cs => rfl

theorem urlOf_snoc {k parent name : Name} {path : List Name} (h : UrlOf k parent path) (hn : (47 : UInt8) ∉ name) :
    UrlOf k (parent ++ 47 :: name) (path ++ [name]) := by
  right
  rcases h with ⟨rfl, rfl⟩ | ⟨rest, rfl, rfl⟩
  · refine ⟨name, rfl, ?_⟩
    have := components_snoc [] name hn
    simp only [List.nil_append, components, if_true, List.cons_append, List.cons.injEq, true_and] at this ⊢
    exact this.symm
  · exact ⟨rest ++ 47 :: name, by simp, (components_snoc rest name hn).symm⟩

theorem slash_unique {a b c d : Name} (h : a ++ 47 :: b = c ++ 47 :: d) (hb : (47 : UInt8) ∉ b) (hd : (47 : UInt8) ∉ d) :
    a = c ∧ b = d := by
  rw [List.append_eq_append_iff] at h
  rcases h with ⟨as, e1, e2⟩ | ⟨bs, e1, e2⟩
  · cases as with
    | nil =>
      simp only [List.nil_append, List.cons.injEq, true_and] at e2
      exact ⟨by simpa using e1.symm, e2⟩
    | cons x as =>
      simp only [List.cons_append, List.cons.injEq] at e2
      exact absurd (by rw [e2.2]; simp) hb
  · cases bs with
    | nil =>
      simp only [List.nil_append, List.cons.injEq, true_and] at e2
      exact ⟨by simpa using e1, e2.symm⟩
    | cons x bs =>
      simp only [List.cons_append, List.cons.injEq] at e2
      exact absurd (by rw [e2.2]; simp) hd

/-- **`stat`**. -/
theorem RInv.stat (hs : Steady fs B) (hN : B + 1 < N) {r : Reader} {G : List (Attr × Contents)}
    {log : List (Name × List (Option Attr))} (h : RInv fs r G log) (hst : ∀ x ∈ log, x.2 ≠ []) (url : Name)
    (hord : ∀ parent name c path, url = parent ++ 47 :: name → (47 : UInt8) ∉ name → InArchive fs parent c path →
      Orderly c path) :
    ∃ r' G' o, r.stat N fs url = .ok (r', o) ∧ RInv fs r' G' log ∧ StatResult fs url o := by
  unfold Reader.stat
  rw [h.localStat]
  simp only [Res.bind_ok]
  cases hst' : fs.stat url with
  | some e =>
    refine ⟨r, G, some (statOf fs url e), rfl, h, ?_, ?_, ?_⟩
    · intro e' he'; rw [hst'] at he'; cases he'; rfl
    · intro z; rw [hst'] at z; cases z
    · intro z; rw [hst'] at z; cases z
  | none =>
    simp only [Option.map_none]
    have hfc : ∃ oc, findCached r.cache url = .ok oc ∧ ∀ t, oc = some t → ∃ k a c path, fs.openStream k = some c ∧
        UrlOf k url path ∧ (finalTree a c).get path = some t := by
      rcases findCached_spec hs h.cache url with ⟨h1, _⟩ | ⟨k, a, c, path, _, h2, h3, h4⟩
      · exact ⟨_, h1, by simp⟩
      · exact ⟨_, h4, fun t ht => ⟨k, a, c, path, h2, h3, ht⟩⟩
    obtain ⟨oc, hfc, hoc⟩ := hfc
    rw [hfc]
    simp only [Res.bind_ok]
    cases oc with
    | some t =>
      obtain ⟨k, a, c, path, i1, i2, i3⟩ := hoc t rfl
      refine ⟨r, G, some t.attr, rfl, h, ?_, ?_, ?_⟩
      · intro e z; rw [hst'] at z; cases z
      · rintro - parent name c' path' rfl hn _ hin
        obtain ⟨k', j1, j2⟩ := hin
        have hin' : InArchive fs (parent ++ 47 :: name) c' (path' ++ [name]) := ⟨k', j1, urlOf_snoc j2 hn⟩
        obtain ⟨rfl, rfl⟩ := inArchive_unique hs i1 i2 hin'
        have hk : name ∈ keys (Ptr.kids (finalTree a c) (.at path')) ∧ t.attr.filename = name := by
          rw [get_append] at i3
          simp only [Ptr.kids]
          cases hg : (finalTree a c).get path' with
          | none => rw [hg] at i3; cases i3
          | some t' =>
            rw [hg] at i3
            have hw := get_wf path' (build_wf c _ (wf_leaf _)) hg
            cases hw with
            | mk _ h2 _ =>
              rename_i b kk _ _
              simp only [Option.bind_some, Tree.get] at i3
              cases hm : mapFind name kk with
              | none => rw [hm] at i3; cases i3
              | some t'' =>
                rw [hm] at i3
                simp only [Option.bind_some] at i3
                have e : t'' = t := by cases t''; cases i3; rfl
                subst e
                exact ⟨mem_keys (mapFind_mem hm), h2 _ _ (mapFind_mem hm)⟩
        refine ⟨fun b hb => by cases hb; exact hk.2, ?_⟩
        simp only [ne_eq, reduceCtorEq, not_false_eq_true, true_iff]
        exact (keys_shown a c path' name).1 hk.1
      · intro _ z
        rw [z k (urlOf_ancestor i2)] at i1
        cases i1
    | none =>
      simp only
      cases hr : rfindSlash url with
      | none =>
        simp only
        refine ⟨r, G, none, rfl, h, ?_, ?_, fun _ _ => rfl⟩
        · intro e z; rw [hst'] at z; cases z
        · rintro - parent name c' path' rfl
          exact absurd (rfindSlash_none hr) (by simp)
      | some pos =>
        obtain ⟨parent, name, e1, e2, e3⟩ := rfindSlash_some hr
        simp only
        have t1 : url.take pos = parent := by rw [e1, ← e2]; simp
        have t2 : url.drop (pos + 1) = name := by
          rw [e1, ← e2, show parent.length + 1 = (parent ++ [47]).length by simp,
            show parent ++ 47 :: name = (parent ++ [47]) ++ name by simp, List.drop_left]
        rw [t1, t2]
        obtain ⟨r1, G1, d1, d2⟩ := h.dirEntries hs hst parent
        rw [d1]
        simp only [Res.bind_ok]
        have hb : ∀ (r : Reader) outs, RInv fs r G1 (log ++ [(parent, outs)]) → B < outs.length → none ∈ outs := by
          intro r outs hr hD
          obtain ⟨hd, hh⟩ := hr.last
          obtain ⟨a1, _, _, a4⟩ := hh.delivers hs hr.objs
          rcases cullName_steady hs parent with ⟨k, c, _, b1, b2, _⟩ | ⟨b1, _⟩
          · obtain ⟨path, hp⟩ := ancestor_urlOf b2
            have hin : InArchive fs parent c path := ⟨k, b1, hp⟩
            obtain ⟨ks, c1, c2⟩ := shown_bound c path
            have := (hs.small k c b1).2
            exact (a1 c path hin (hord parent name c path e1 e3 hin)).ends ks c1 (by omega)
          · cases outs with
            | nil => simp at hD
            | cons o outs =>
              have := a4 b1 o (by simp)
              rw [this]; simp
        obtain ⟨r2, o, outs', s1, s2, s3, s4⟩ := statLoop_inv hs hN (name := name) hb N r1 [] d2 (by simp) (by simp [namesOf]) (by simp; omega)
        rw [h.length, s1]
        refine ⟨_, G1, o, rfl, s2.dropLast, ?_, ?_, ?_⟩
        · intro e z; rw [hst'] at z; cases z
        · intro _ parent' name' c path e1' e3' hz hin
          rw [e1'] at e1
          obtain ⟨rfl, rfl⟩ := slash_unique e1 e3' e3
          obtain ⟨hd, hh⟩ := s2.last
          have hdel := (hh.delivers hs s2.objs).1 c path hin (hord _ _ c path e1' e3 hin)
          rw [show cName name' = name' from czstr_self hz] at s3 s4
          refine ⟨fun a ha => (s3 a ha).1, ?_⟩
          cases o with
          | none =>
            obtain ⟨q1, q2⟩ := s4 rfl
            simp only [ne_eq, not_true_eq_false, false_iff]
            exact fun z => q1 (hdel.complete q2 _ z)
          | some e =>
            simp only [ne_eq, reduceCtorEq, not_false_eq_true, true_iff]
            exact hdel.sound _ (s3 e rfl).2
        · intro _ z
          obtain ⟨hd, hh⟩ := s2.last
          have hall := (hh.delivers hs s2.objs).2.2.2 (fun k hk => z k (by
            rw [e1]
            rcases hk with rfl | ⟨rest, rfl⟩
            · exact Or.inr ⟨name, rfl⟩
            · exact Or.inr ⟨rest ++ 47 :: name, by simp⟩))
          cases o with
          | none => rfl
          | some e =>
            have := (s3 e rfl).2
            rw [List.eq_replicate_of_mem hall, namesOf_nones] at this
            cases this

end Reader
end Strigi
