import Verif.Proofs.ArchiveReader
import Verif.Props.DirLister

/-!
# Properties of `ArchiveReader`: C53 (`isArchive`), C88 (`openStream`), C89 (`canHandle`), C90 (`stat` of changed
files), C91 (`stat` inside of archives), C92 (copies of `DirLister`), C93 (assignments)
-/

namespace Strigi.Props

open Listing Reader

/-- Two ancestors of the same length are the same. -/
theorem ancestor_eq {k k' url : List UInt8} (h : Ancestor k url) (h' : Ancestor k' url) (hl : k.length = k'.length) :
    k = k' := by
  have hp : ∀ {k}, Ancestor k url → k <+: url := by
    rintro k (rfl | ⟨rest, rfl⟩)
    · exact List.prefix_rfl
    · exact List.prefix_append _ _
  have h1 := List.prefix_iff_eq_take.1 (hp h)
  have h2 := List.prefix_iff_eq_take.1 (hp h')
  rw [h1, h2, hl]

theorem cullName_file (fs : Opener) {file rest : List UInt8} {c : Contents} (hne : file ≠ [])
    (ho : fs.openStream file = some c)
    (hlong : ∀ k, Ancestor k (file ++ 47 :: rest) → file.length < k.length → fs.openStream k = none) :
    cullName fs (file ++ 47 :: rest) = .ok (some c, (startsAt file.length (47 :: rest)).reverse) := by
  have ha : Ancestor file (file ++ 47 :: rest) := Or.inr ⟨rest, rfl⟩
  rcases cullName_spec fs (file ++ 47 :: rest) with ⟨k, c', r, h1, h2, h3, h4, h5, h6⟩ | ⟨h1, _⟩
  · have hk : k = file := by
      apply ancestor_eq h3 ha
      have e1 : ¬ file.length < k.length := fun z => by rw [hlong k h3 z] at h2; cases h2
      have e2 : ¬ k.length < file.length := fun z => by rw [h5 file ha z] at ho; cases ho
      omega
    subst hk
    rw [h2] at ho
    cases ho
    rw [List.append_cancel_left_eq] at h1
    subst h1
    exact h6
  · rw [h1 file ha (Or.inr hne)] at ho
    cases ho

/-- **C88**: if `file` is the longest part of the url that the opener can open, `openStream` opens the entry that
the rest of the url leads to in the archive `file`, through nested archives, provided that no plain file that
comes before it (or before the nested archive on the way) has a name with which the rest of the url starts. -/
theorem C88_open (fs : Opener) {file path : List UInt8} {c x : Contents} (hne : file ≠ [])
    (ho : fs.openStream file = some c)
    (hlong : ∀ k, Ancestor k (file ++ 47 :: path) → file.length < k.length → fs.openStream k = none)
    (hz : (0 : UInt8) ∉ path) (h : EntryPath c path x) :
    Reader.openStream fs (file ++ 47 :: path) = .ok (some (.entry x)) := by
  unfold Reader.openStream
  rw [hlong _ (Or.inl rfl) (by simp)]
  simp only
  unfold positionedProvider
  rw [cullName_file fs hne ho hlong]
  simp only [Res.bind_ok, List.reverse_reverse]
  rw [startsAt, if_pos rfl]
  have := openLoop_spec h (file ++ [47]) (file ++ 47 :: path)
    ((List.reverse ((file.length + 1) :: startsAt (file.length + 1) path)).length + 1)
    (by simp) (by simp) hz (by simp; omega)
  simp only [List.length_append, List.length_cons, List.length_nil] at this
  rw [this]
  rfl

/-- **C88**: nothing is opened if no plain file of the archive has a name with which the rest of the url
starts. -/
theorem C88_missing (fs : Opener) {file path : List UInt8} {c : Contents} (hne : file ≠ [])
    (ho : fs.openStream file = some c)
    (hlong : ∀ k, Ancestor k (file ++ 47 :: path) → file.length < k.length → fs.openStream k = none)
    (hz : (0 : UInt8) ∉ path) (h : ∀ a ∈ c.attrs, ¬ NamedBy path a) :
    Reader.openStream fs (file ++ 47 :: path) = .ok none := by
  unfold Reader.openStream
  rw [hlong _ (Or.inl rfl) (by simp)]
  simp only
  unfold positionedProvider
  rw [cullName_file fs hne ho hlong]
  simp only [Res.bind_ok, List.reverse_reverse]
  rw [startsAt, if_pos rfl, openLoop]
  have := firstFit_nil (url := file ++ 47 :: path) (pre := file ++ [47]) (by simp) hz c h
  simp only [List.length_append, List.length_cons, List.length_nil] at this
  rw [this]
  rfl

/-- **C88**: nothing is opened if the opener can open no part of the url. -/
theorem C88_no_file (fs : Opener) (url : List UInt8) (h : ∀ k, Ancestor k url → fs.openStream k = none) :
    Reader.openStream fs url = .ok none := by
  unfold Reader.openStream
  rw [h url (Or.inl rfl)]
  simp only
  unfold positionedProvider
  rcases cullName_spec fs url with ⟨k, c', r, _, h2, h3, _⟩ | ⟨_, parts, h2⟩
  · rw [h k h3] at h2; cases h2
  · rw [h2]; rfl

/-- An opener of the file `x` only. -/
def onlyX (c : Contents) : Opener where
  openStream u := if u = [120] then some c else none
  stat u := if u = [120] then some { filename := [120], isFile := true } else none

/-- **C88** (found while proving): the archive `x` has the files `a` and `ab`; opening `x/ab` opens `a`. -/
theorem C88_witness_wrong_entry :
    let rest : Contents := .entry { filename := [97, 98], isFile := true } 2 .nil .nil
    Reader.openStream (onlyX (.entry { filename := [97], isFile := true } 1 .nil rest)) [120, 47, 97, 98] =
      .ok (some (.entry (.entry { filename := [97], isFile := true } 1 .nil rest))) := by
  decide +kernel

/-- **C88** (found while proving): the archive `x` has the files `a` and `ab/c`; `x/ab/c` cannot be opened. -/
theorem C88_witness_not_opened :
    Reader.openStream (onlyX (.entry { filename := [97], isFile := true } 1 .nil
      (.entry { filename := [97, 98, 47, 99], isFile := true } 2 .nil .nil))) [120, 47, 97, 98, 47, 99] =
      .ok none := by
  decide +kernel

-- An entry in a nested archive.
example : EntryPath (.entry { filename := [98], isFile := true } 1 .nil
      (.entry { filename := [97, 47, 122], isFile := true } 1 (.entry { filename := [99], isFile := true } 1 .nil .nil) .nil))
      [97, 47, 122, 47, 99] (.entry { filename := [99], isFile := true } 1 .nil .nil) := by
  refine .skip ?_ ?_
  · simp [NamedBy, cName]
  · exact EntryPath.inside (a := { filename := [97, 47, 122], isFile := true }) rfl rfl (by decide)
      (.here (a := { filename := [99], isFile := true }) rfl rfl (by decide))
example (c : Contents) : ∀ k, Ancestor k ([120] ++ 47 :: [97, 98]) → [120].length < k.length →
    (onlyX c).openStream k = none := by
  intro k _ h
  simp only [onlyX]
  rw [if_neg]
  rintro rfl
  simp at h
example : ∀ a ∈ (Contents.entry { filename := [98], isFile := true } 1 .nil .nil).attrs, ¬ NamedBy [97] a := by
  simp [Contents.attrs, NamedBy, cName]

/-- **C53** (found while proving): `isArchive` of a new reader is true for every file and every directory, not
only for archives; it is false exactly for what does not exist or is of unknown type. -/
theorem C53_isArchive (fs : Opener) (url : List UInt8) :
    isArchive fs [] url = .ok (match fs.stat url with
      | none => (false, [])
      | some e => (e.isFile || e.isDir, [])) := by
  unfold isArchive
  rw [localStat_new]
  simp only [Res.bind_ok]
  cases fs.stat url with
  | none => rfl
  | some e =>
    simp only [Option.map_some]
    by_cases h : e.isFile = false
    · rw [if_pos h]
    · rw [if_neg h]
      have h : e.isFile = true := by simpa using h
      unfold probe
      cases fs.openStream url with
      | none => simp [h]
      | some c => cases c <;> simp [h]

/-- **C53**: a file that is no archive. -/
theorem C53_witness : isArchive (onlyX .nil) [] [120] = .ok (true, []) := rfl

/-- **C89**: `canHandle` of a new reader is true exactly if the longest part of the url that exists is an
archive (or is a file and a directory as the opener sees it). -/
theorem C89_canHandle (fs : Opener) (url : List UInt8) :
    ∃ b, canHandle fs [] url = .ok b ∧
      (b = true ↔ ∃ k e, fs.stat k = some e ∧ Ancestor k url ∧ (k = url ∨ k ≠ []) ∧
        (∀ k', Ancestor k' url → k.length < k'.length → fs.stat k' = none) ∧
        e.isFile = true ∧ (e.isDir = true ∨ ∃ a len sub rest, fs.openStream k = some (.entry a len sub rest))) := by
  unfold canHandle
  rw [localStat_new]
  simp only [Res.bind_ok]
  rcases handleLoop_spec fs url (url.length + 1) url [] _ (by simp) (Nat.lt_succ_self _) rfl with
    ⟨k, e, h1, h2, h3, h4, h5⟩ | ⟨h1, h2⟩
  · rw [h5]
    simp only [Res.bind_ok]
    refine ⟨_, rfl, ?_⟩
    have huniq : ∀ k' e', fs.stat k' = some e' → Ancestor k' url →
        (∀ k'', Ancestor k'' url → k'.length < k''.length → fs.stat k'' = none) → k' = k ∧ e' = e := by
      intro k' e' i1 i2 i3
      have : k' = k := by
        apply ancestor_eq i2 h2
        have e1 : ¬ k.length < k'.length := fun z => by rw [h4 k' i2 z] at i1; cases i1
        have e2 : ¬ k'.length < k.length := fun z => by rw [i3 k h2 z] at h1; cases h1
        omega
      subst this
      rw [h1] at i1
      cases i1
      exact ⟨rfl, rfl⟩
    constructor
    · intro hb
      refine ⟨k, e, h1, h2, h3, h4, ?_⟩
      by_cases hf : e.isFile = false
      · rw [if_pos hf] at hb; simp [hf] at hb
      · rw [if_neg hf] at hb
        have hf : e.isFile = true := by simpa using hf
        refine ⟨hf, ?_⟩
        unfold probe at hb
        cases ho : fs.openStream k with
        | none => rw [ho] at hb; simp [hf] at hb; exact Or.inl hb
        | some c =>
          cases c with
          | nil => rw [ho] at hb; simp [hf] at hb; exact Or.inl hb
          | entry a len sub rest => exact Or.inr ⟨a, len, sub, rest, rfl⟩
    · rintro ⟨k', e', i1, i2, _, i3, i4, i5⟩
      obtain ⟨rfl, rfl⟩ := huniq k' e' i1 i2 i3
      rw [if_neg (by simp [i4])]
      unfold probe
      rcases i5 with i5 | ⟨a, len, sub, rest, i5⟩
      · cases fs.openStream k' with
        | none => simp [i4, i5]
        | some c => cases c <;> simp [i4, i5]
      · rw [i5]; simp
  · rw [h2]
    simp only [Res.bind_ok]
    refine ⟨false, rfl, ?_⟩
    simp only [Bool.false_eq_true, false_iff]
    rintro ⟨k, e, i1, i2, i3, _⟩
    rw [h1 k i2 i3] at i1
    cases i1

example : canHandle (onlyX (.entry { filename := [97] } 0 .nil .nil)) [] [120, 47, 97] = .ok true := by decide +kernel
example : canHandle (onlyX .nil) [] [120, 47, 97] = .ok false := by decide +kernel

theorem mapFind_free {url k : Name} {m : List (Name × Cached)} {c : Cached} (h : mapFind k m = some c) :
    mapFind k (free url m) = some (if k = url then { c with alive := false } else c) := by
  induction m with
  | nil => simp [mapFind] at h
  | cons x m ih =>
    obtain ⟨k1, v⟩ := x
    simp only [free, List.map_cons, mapFind] at h ih ⊢
    by_cases h1 : k = k1
    · subst h1
      rw [if_pos rfl] at h
      cases h
      by_cases h2 : k = url
      · subst h2; simp [mapFind]
      · simp [mapFind, h2]
    · rw [if_neg h1] at h
      by_cases h2 : k1 = url
      · subst h2
        simp only [if_true, mapFind]
        rw [if_neg h1]
        exact ih h
      · rw [if_neg h2]
        simp only [mapFind]
        rw [if_neg h1]
        exact ih h

theorem mapFind_erase {β : Type} {k k' : Name} {m : List (Name × β)} :
    mapFind k (mapErase k' m) = if k = k' then none else mapFind k m := by
  induction m with
  | nil => simp [mapErase, mapFind]
  | cons x m ih =>
    obtain ⟨k1, v⟩ := x
    simp only [mapErase] at ih ⊢
    by_cases h1 : k1 = k'
    · subst h1
      rw [List.filter_cons_of_neg (by simp), ih]
      by_cases h2 : k = k1
      · rw [if_pos h2, if_pos h2]
      · rw [if_neg h2, if_neg h2, mapFind, if_neg h2]
    · rw [List.filter_cons_of_pos (by simpa using h1)]
      simp only [mapFind]
      rw [ih]
      by_cases h2 : k = k1
      · subst h2; rw [if_pos rfl, if_pos rfl, if_neg h1]
      · rw [if_neg h2, if_neg h2]

/-- **C90** (found while proving): when a cached archive has changed on the disk, the entry of the cache is deleted
but, if its file name is not the whole url (it is the part behind the last slash, if the opener is a
`FileStreamOpener`), the pointer to it stays in the cache: the first call of `stat` or `isArchive` works, the next
one for the same file reads deleted memory. -/
theorem C90_dangling (fs : Opener) {cache : List (Name × Cached)} {url : List UInt8} {c : Cached} {e : Attr}
    (hc : mapFind url cache = some c) (ha : c.alive = true) (hs : fs.stat url = some e) (hf : e.isFile = true)
    (hm : c.attr.mtime ≠ e.mtime) (hname : c.attr.filename ≠ url) :
    ∃ r cache', localStat fs cache url = .ok (some r, cache') ∧
      ∀ fs' : Opener, ∀ e', fs'.stat url = some e' → e'.isFile = true →
        localStat fs' cache' url = .fault .undefined := by
  refine ⟨probe fs url e, mapErase c.attr.filename (free url cache), ?_, ?_⟩
  · unfold localStat
    rw [hs]
    simp only
    rw [if_neg (by simp [hf]), hc]
    simp only
    rw [if_neg (by simp [ha]), if_neg hm]
  · intro fs' e' h1 h2
    unfold localStat
    rw [h1]
    simp only
    rw [if_neg (by simp [h2]), mapFind_erase, if_neg (Ne.symm hname), mapFind_free hc, if_pos rfl]
    rfl

/-- **C90**: if the file name is the whole url, the entry is gone from the cache, and later calls work. -/
theorem C90_removed (fs : Opener) {cache : List (Name × Cached)} {url : List UInt8} {c : Cached} {e : Attr}
    (hc : mapFind url cache = some c) (ha : c.alive = true) (hs : fs.stat url = some e) (hf : e.isFile = true)
    (hm : c.attr.mtime ≠ e.mtime) (hname : c.attr.filename = url) :
    ∃ r cache', localStat fs cache url = .ok (some r, cache') ∧ mapFind url cache' = none ∧
      ∀ fs' : Opener, ∃ r', localStat fs' cache' url = .ok (r', cache') := by
  have hnone : mapFind url (mapErase c.attr.filename (free url cache)) = none := by
    rw [mapFind_erase, if_pos hname.symm]
  refine ⟨probe fs url e, mapErase c.attr.filename (free url cache), ?_, hnone, ?_⟩
  · unfold localStat
    rw [hs]
    simp only
    rw [if_neg (by simp [hf]), hc]
    simp only
    rw [if_neg (by simp [ha]), if_neg hm]
  · intro fs'
    unfold localStat
    rw [hnone]
    cases fs'.stat url with
    | none => exact ⟨_, rfl⟩
    | some e' =>
      simp only
      split
      · exact ⟨_, rfl⟩
      · exact ⟨_, rfl⟩

example : mapFind [100, 47, 120] [(([100, 47, 120] : Name), (⟨{ filename := [120], mtime := 1 }, true⟩ : Cached))] =
    some ⟨{ filename := [120], mtime := 1 }, true⟩ := rfl
example : ({ filename := [120], mtime := 1 } : Attr).filename ≠ [100, 47, 120] := by decide

/-- **C91**: `stat` of a new reader for a url that does not exist by itself, in an archive `file` with at most nine
levels of nested archives, in an orderly directory: it finds something exactly if the complete listing of the
archive shows an entry there, and what it finds has the last component as its name. -/
theorem C91_stat (fs : Opener) {file parent name : List UInt8} {path : List Name} {c : Contents}
    (hne : file ≠ []) (ho : fs.openStream file = some c) (hu : UrlOf file parent path) (hname : (47 : UInt8) ∉ name)
    (hlong : ∀ k, Ancestor k parent → file.length < k.length → fs.openStream k = none)
    (hstat : fs.stat (parent ++ 47 :: name) = none) (hd : c.depth ≤ 9) (hord : Orderly c path)
    {ks : List Name} (hks : ∀ k, shownAt (c.entries []).reverse (path ++ [k]) ≠ none → k ∈ ks)
    {fuel n m : Nat} (hf : c.count < fuel) (hn : c.count + 1 < n) (hm : ks.length < m) :
    ∃ o, statNew fuel n m fs (parent ++ 47 :: name) = .ok o ∧ (∀ e, o = some e → e.filename = name) ∧
      (o ≠ none ↔ shownAt (c.entries []).reverse (path ++ [name]) ≠ none) := by
  have hr : rfindSlash (parent ++ 47 :: name) = some parent.length := by
    cases h : rfindSlash (parent ++ 47 :: name) with
    | none => exact absurd (rfindSlash_none h) (by simp)
    | some p =>
      obtain ⟨a, b, h1, h2, h3⟩ := rfindSlash_some h
      have : parent = a := by
        apply ancestor_eq (url := parent ++ 47 :: name) (Or.inr ⟨name, rfl⟩) (Or.inr ⟨b, h1⟩)
        -- the last slash is the same
        apply Classical.byContradiction
        intro hl
        rcases Nat.lt_or_gt_of_ne hl with hl | hl
        · rw [List.append_eq_append_iff] at h1
          rcases h1 with ⟨as, e1, e2⟩ | ⟨bs, e1, e2⟩
          · cases as with
            | nil => rw [e1] at hl; simp at hl
            | cons x as =>
              simp only [List.cons_append, List.cons.injEq] at e2
              exact hname (by rw [e2.2]; simp)
          · rw [e1] at hl; simp at hl; omega
        · rw [List.append_eq_append_iff] at h1
          rcases h1 with ⟨as, e1, e2⟩ | ⟨bs, e1, e2⟩
          · rw [e1] at hl; simp at hl; omega
          · cases bs with
            | nil => rw [e1] at hl; simp at hl
            | cons x bs =>
              simp only [List.cons_append, List.cons.injEq] at e2
              exact h3 (by rw [e2.2]; simp)
      rw [← h2, this]
  -- the file of the parent
  have hcull : ∃ parts, cullName fs parent = .ok (some c, parts) ∧
      fileOf parent parts = file := by
    rcases hu with ⟨rfl, _⟩ | ⟨rest, rfl, _⟩
    · rcases cullName_spec fs parent with ⟨k, c', r, h1, h2, h3, h4, h5, h6⟩ | ⟨h1, _⟩
      · have hk : k = parent := by
          apply ancestor_eq h3 (Or.inl rfl)
          have e1 := h3.length
          have e2 : ¬ k.length < parent.length := fun z => by rw [h5 parent (Or.inl rfl) z] at ho; cases ho
          omega
        subst hk
        rw [h2] at ho
        cases ho
        have hr : r = [] := by
          have := congrArg List.length h1
          simp at this
          exact this
        subst hr
        exact ⟨_, h6, rfl⟩
      · rw [h1 parent (Or.inl rfl) (Or.inr hne)] at ho; cases ho
    · refine ⟨_, cullName_file fs hne ho hlong, ?_⟩
      rw [startsAt, if_pos rfl, List.reverse_cons, fileOf, List.getLast?_append]
      simp
  obtain ⟨parts, hc1, hc2⟩ := hcull
  unfold statNew
  rw [localStat_new, hstat]
  simp only [Res.bind_ok, Option.map_none, hr]
  rw [show (parent ++ 47 :: name).take parent.length = parent by simp, hc1]
  simp only [Res.bind_ok]
  rw [hc2, localStat_new]
  simp only [Res.bind_ok]
  rw [show (parent ++ 47 :: name).drop (parent.length + 1) = name by
    rw [show parent.length + 1 = (parent ++ [47]).length by simp,
      show parent ++ 47 :: name = (parent ++ [47]) ++ name by simp, List.drop_left]]
  generalize (Option.getD _ _ : Attr) = a
  have hfirst : First (tops c) path := by rw [tops_eq]; exact hord
  obtain ⟨o, h1, h2, h3⟩ := statLoop_spec (T := finalTree a c) (name := name) hu (tops_ne c) hfirst m c.count (l := {})
    (good_new a c hd) hf hn ⟨by simp, by simp, Or.inr (Or.inl ⟨rfl, rfl, rfl⟩)⟩ (by simp) (by
      have := nodup_length (final_nodup a c path) (fun k hk => hks k ((keys_shown a c path k).1 hk))
      simp only [List.length_nil]
      omega)
  exact ⟨o, h1, h2, h3.trans (keys_shown a c path name)⟩

/-- **C92**: while `DirLister`s are only constructed and destroyed, the listing lives on: the count is one (for
the reader) more than the number of `DirLister`s that exist. -/
theorem C92_counted (l : List RefEvent) (hl : RefEvent.copy ∉ l)
    (hd : ∀ l1 l2, l = l1 ++ l2 → l1.count .destroy ≤ l1.count .construct) :
    refRun l ⟨1, false⟩ = .ok ⟨1 + l.count .construct - l.count .destroy, false⟩ := by
  have key : ∀ (l : List RefEvent) (k : Nat), RefEvent.copy ∉ l →
      (∀ l1 l2, l = l1 ++ l2 → l1.count .destroy ≤ k + l1.count .construct) →
      refRun l ⟨1 + k, false⟩ = .ok ⟨1 + k + l.count .construct - l.count .destroy, false⟩ := by
    intro l
    induction l with
    | nil => intro k _ _; simp [refRun]
    | cons e l ih =>
      intro k hl hd
      cases e with
      | copy => simp at hl
      | construct =>
        rw [refRun, refStep]
        simp only [Bool.false_eq_true, if_false, Res.bind_ok]
        have := ih (k + 1) (fun z => hl (by simp [z])) (fun l1 l2 h => by
          have := hd (.construct :: l1) l2 (by rw [h]; rfl)
          simp at this
          omega)
        rw [show (1 : Int) + k + 1 = 1 + ((k + 1 : Nat) : Int) by omega, this]
        congr 2
        simp
        omega
      | destroy =>
        have h0 := hd [.destroy] l rfl
        simp at h0
        rw [refRun, refStep]
        simp only [Bool.false_eq_true, if_false, Res.bind_ok]
        have := ih (k - 1) (fun z => hl (by simp [z])) (fun l1 l2 h => by
          have := hd (.destroy :: l1) l2 (by rw [h]; rfl)
          simp at this
          omega)
        rw [show (1 : Int) + k - 1 = 1 + ((k - 1 : Nat) : Int) by omega,
          show decide (1 + ((k - 1 : Nat) : Int) = 0) = false by simp; omega, this]
        congr 2
        simp
        omega
  have := key l 0 hl (by simpa using hd)
  simpa using this

/-- **C92** (found while proving): after a `DirLister` was copied once and both were destroyed, the listing is
deleted although the reader still uses it: any further use is of deleted memory. -/
theorem C92_copy (n : Nat) :
    refRun (List.replicate n .construct ++ .construct :: .copy :: List.replicate (n + 2) .destroy) ⟨1, false⟩ =
      .ok ⟨0, true⟩ ∧
    ∀ e, e ≠ RefEvent.copy → refStep ⟨0, true⟩ e = .fault .undefined := by
  constructor
  · have h1 : ∀ (n : Nat) (k : Int) (l : List RefEvent),
        refRun (List.replicate n .construct ++ l) ⟨k, false⟩ = refRun l ⟨k + n, false⟩ := by
      intro n
      induction n with
      | zero => intro k l; simp
      | succ n ih =>
        intro k l
        rw [List.replicate_succ, List.cons_append, refRun, refStep]
        simp only [Bool.false_eq_true, if_false, Res.bind_ok]
        rw [ih]
        congr 2
        omega
    have h2 : ∀ n : Nat, refRun (List.replicate (n + 1) .destroy) ⟨(n : Int) + 1, false⟩ = .ok ⟨0, true⟩ := by
      intro n
      induction n with
      | zero => decide
      | succ n ih =>
        rw [List.replicate_succ, refRun, refStep]
        simp only [Bool.false_eq_true, if_false, Res.bind_ok]
        rw [show ((n + 1 : Nat) : Int) + 1 - 1 = (n : Int) + 1 by omega,
          show decide ((n : Int) + 1 = 0) = false by simp; omega]
        exact ih
    rw [h1]
    simp only [refRun, refStep, Bool.false_eq_true, if_false, Res.bind_ok]
    have := h2 (n + 1)
    rw [show ((n + 1 : Nat) : Int) + 1 = 1 + (n : Int) + 1 by omega] at this
    exact this
  · intro e he
    cases e with
    | copy => exact absurd rfl he
    | construct => rfl
    | destroy => rfl

example : refRun [.construct, .construct, .destroy] ⟨1, false⟩ = .ok ⟨2, false⟩ := by decide

/-- **C93** (found while proving): a `DirLister` of `x/a` that was assigned a new `DirLister` of `x/b` lists `x/a`,
since the url is not assigned.  The archive has `a/1` and `b/2`. -/
theorem C93_witness :
    ∃ l s outs, Lister.run 9 9 [120] (assign ([120, 47, 97], {}) ([120, 47, 98], {})).1 [.call]
      (assign ([120, 47, 97], {}) ([120, 47, 98], {})).2 (Listing.State.new {}
        (.entry { filename := [97, 47, 49], size := 0 } 0 .nil
          (.entry { filename := [98, 47, 50], size := 0 } 0 .nil .nil))) = .ok (l, s, outs) ∧ names outs = [[49]] :=
  ⟨_, _, _, rfl, rfl⟩

end Strigi.Props
