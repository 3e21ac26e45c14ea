import Verif.Proofs.ReaderInv
import Verif.Props.ArchiveReader

/-!
# Property C151: the use of an `ArchiveReader` over time
-/

namespace Strigi.Props

open Listing Reader

/-- What the `DirLister`s of a history have returned. -/
def logOf (calls : List Call) (outs : List (Option Attr)) : List (Name × List (Option Attr)) :=
  (openedUrls calls).mapIdx fun i u => (u, resultsOf i calls outs)

theorem openedUrls_append (a b : List Call) : openedUrls (a ++ b) = openedUrls a ++ openedUrls b := by
  simp [openedUrls]

theorem resultsOf_append {i : Nat} {a b : List Call} {x y : List (Option Attr)} (h : a.length = x.length) :
    resultsOf i (a ++ b) (x ++ y) = resultsOf i a x ++ resultsOf i b y := by
  unfold resultsOf
  rw [List.zip_append h]
  simp

theorem logOf_get {calls : List Call} {outs : List (Option Attr)} (i : Nat) :
    (logOf calls outs)[i]? = ((openedUrls calls)[i]?).map fun u => (u, resultsOf i calls outs) := by
  unfold logOf
  rw [List.getElem?_mapIdx]

theorem _root_.Strigi.Diligent.prefix {a b : List Call} (h : Diligent (a ++ b)) : Diligent a :=
  ⟨fun pre i post e => h.known pre i (post ++ b) (by rw [e]; simp),
    fun pre c post e => h.first pre c (post ++ b) (by rw [e]; simp)⟩

theorem _root_.Strigi.Diligent.used {calls : List Call} (h : Diligent calls) {i : Nat} (hi : .next i ∈ calls) :
    i < (openedUrls calls).length := by
  obtain ⟨pre, post, e⟩ := List.append_of_mem hi
  have := h.known pre i post e
  rw [e, openedUrls_append]
  simp only [List.length_append]
  omega

theorem resultsOf_unused {calls : List Call} {outs : List (Option Attr)} {i : Nat} (h : .next i ∉ calls) :
    resultsOf i calls outs = [] := by
  unfold resultsOf
  rw [List.filter_eq_nil_iff.2]
  · rfl
  · intro x hx z
    simp only [decide_eq_true_eq] at z
    exact h (by rw [← z]; exact (List.of_mem_zip hx).1)

theorem resultsOf_used : ∀ {calls : List Call} {outs : List (Option Attr)} {i : Nat}, calls.length = outs.length →
    .next i ∈ calls → resultsOf i calls outs ≠ [] := by
  intro calls
  induction calls with
  | nil => intro outs i _ h; cases h
  | cons c calls ih =>
    intro outs i hl h
    cases outs with
    | nil => cases hl
    | cons o outs =>
      rcases List.mem_cons.1 h with rfl | h
      · simp [resultsOf]
      · have := ih (by simpa using hl) h
        unfold resultsOf at this ⊢
        simp only [List.zip_cons_cons, List.filter_cons]
        split
        · simp
        · exact this

/-- Anything but `next` leaves the results alone. -/
theorem logOf_other {calls : List Call} {outs : List (Option Attr)} (hl : calls.length = outs.length) {c : Call} {o : Option Attr}
    (h1 : ∀ i, c ≠ .next i) (h2 : openedUrls [c] = []) : logOf (calls ++ [c]) (outs ++ [o]) = logOf calls outs := by
  unfold logOf
  rw [openedUrls_append, h2, List.append_nil]
  congr 1
  funext i u
  rw [resultsOf_append hl, resultsOf_unused (calls := [c]) (by simpa using fun z => h1 i z.symm), List.append_nil]

theorem logOf_open {calls : List Call} {outs : List (Option Attr)} (hl : calls.length = outs.length) (hd : Diligent calls)
    (u : Name) (o : Option Attr) :
    logOf (calls ++ [.dirEntries u]) (outs ++ [o]) = logOf calls outs ++ [(u, [])] := by
  apply List.ext_getElem?
  intro i
  rw [logOf_get, openedUrls_append, resultsOf_append hl, resultsOf_unused (calls := [.dirEntries u]) (by simp),
    List.append_nil]
  have hlen : (logOf calls outs).length = (openedUrls calls).length := by simp [logOf]
  by_cases hi : i < (openedUrls calls).length
  · rw [List.getElem?_append_left hi, List.getElem?_append_left (by omega), logOf_get]
  · rw [List.getElem?_append_right (by omega), List.getElem?_append_right (by omega), hlen]
    have : resultsOf i calls outs = [] := resultsOf_unused (fun z => hi (hd.used z))
    rw [this]
    cases i - (openedUrls calls).length with
    | zero => rfl
    | succ n => rfl

theorem logOf_next {calls : List Call} {outs : List (Option Attr)} (hl : calls.length = outs.length) {i : Nat}
    {x : Name × List (Option Attr)} (hx : (logOf calls outs)[i]? = some x) (o : Option Attr) :
    logOf (calls ++ [.next i]) (outs ++ [o]) = (logOf calls outs).set i (x.1, x.2 ++ [o]) := by
  apply List.ext_getElem?
  intro j
  rw [logOf_get, openedUrls_append, resultsOf_append hl]
  simp only [openedUrls, List.filterMap_cons, List.filterMap_nil, List.append_nil]
  by_cases hij : i = j
  · subst hij
    rw [getElem?_set_eq' hx]
    rw [logOf_get] at hx
    cases ho : (openedUrls calls)[i]? with
    | none => rw [ho] at hx; cases hx
    | some u =>
      rw [ho] at hx
      simp only [Option.map_some, Option.some.injEq] at hx
      subst hx
      unfold openedUrls at ho
      rw [ho]
      simp [resultsOf]
  · rw [List.getElem?_set_ne hij, logOf_get, resultsOf_unused (calls := [.next i]) (by simpa using Ne.symm hij),
      List.append_nil]
    rfl

/-- The results of single calls. -/
def CallResult (fs : Opener) : Call → Option Attr → Prop
  | .stat url, o => StatResult fs url o
  | .localStat url, o => o = (fs.stat url).map (statOf fs url)
  | _, _ => True

theorem history_run {fs : Opener} {B N : Nat} (hs : Steady fs B) (hN : B + 1 < N) :
    ∀ (calls pre : List Call) (r : Reader) (G : List (Attr × Contents)) (pouts : List (Option Attr)), pre.length = pouts.length →
    RInv fs r G (logOf pre pouts) → Diligent (pre ++ calls) →
    (∀ url, .stat url ∈ calls → ∀ parent name c path, url = parent ++ 47 :: name → (47 : UInt8) ∉ name →
      InArchive fs parent c path → Orderly c path) →
    ∃ r' G' outs, Reader.run N (calls.map fun c => (fs, c)) r = .ok (r', outs) ∧ outs.length = calls.length ∧
      RInv fs r' G' (logOf (pre ++ calls) (pouts ++ outs)) ∧
      ∀ (j : Nat) c o, calls[j]? = some c → outs[j]? = some o → CallResult fs c o := by
  intro calls
  induction calls with
  | nil =>
    intro pre r G pouts hl h _ _
    exact ⟨r, G, [], rfl, rfl, by simpa using h, by simp⟩
  | cons c calls ih =>
    intro pre r G pouts hl h hd hord
    have hstart : Asks c → ∀ x ∈ logOf pre pouts, x.2 ≠ [] := by
      intro ha x hx
      obtain ⟨i, hi⟩ := List.mem_iff_getElem?.1 hx
      have hlt : i < (openedUrls pre).length := by
        have := (List.getElem?_eq_some_iff.1 hi).1
        simpa [logOf] using this
      rw [logOf_get] at hi
      cases ho : (openedUrls pre)[i]? with
      | none => rw [ho] at hi; cases hi
      | some u =>
        rw [ho] at hi
        simp only [Option.map_some, Option.some.injEq] at hi
        subst hi
        exact resultsOf_used hl (hd.first pre c calls rfl ha i hlt)
    have key : ∃ r1 G1 o, r.call N fs c = .ok (r1, o) ∧ RInv fs r1 G1 (logOf (pre ++ [c]) (pouts ++ [o])) ∧ CallResult fs c o := by
      cases c with
      | dirEntries u =>
        obtain ⟨r1, G1, h1, h2⟩ := h.dirEntries hs (hstart trivial) u
        refine ⟨r1, G1, none, ?_, ?_, trivial⟩
        · simp only [Reader.call, h1, Res.bind_ok]
        · rw [logOf_open hl hd.prefix]; exact h2
      | next i =>
        have hi := hd.known pre i calls rfl
        have hx : ∃ x, (logOf pre pouts)[i]? = some x := by
          rw [logOf_get, List.getElem?_eq_getElem hi]; exact ⟨_, rfl⟩
        obtain ⟨x, hx⟩ := hx
        obtain ⟨r1, o, h1, h2⟩ := h.next hs hN hx
        exact ⟨r1, G, o, h1, by rw [logOf_next hl hx]; exact h2, trivial⟩
      | stat url =>
        obtain ⟨r1, G1, o, h1, h2, h3⟩ := h.stat hs hN (hstart trivial) url (hord url (by simp))
        exact ⟨r1, G1, o, h1, by rw [logOf_other hl (by simp) rfl]; exact h2, h3⟩
      | localStat url =>
        refine ⟨r, G, (fs.stat url).map (statOf fs url), ?_, by rw [logOf_other hl (by simp) rfl]; exact h, rfl⟩
        simp only [Reader.call, h.localStat, Res.bind_ok]
    obtain ⟨r1, G1, o, k1, k2, k3⟩ := key
    obtain ⟨r', G', outs, i1, i2, i3, i4⟩ := ih (pre ++ [c]) r1 G1 (pouts ++ [o]) (by simp [hl]) k2 (by simpa using hd)
      (fun url hu => hord url (by simp [hu]))
    refine ⟨r', G', o :: outs, ?_, by simp [i2], by simpa using i3, ?_⟩
    · simp only [List.map_cons, Reader.run, k1, Res.bind_ok, i1]
    · intro j c' o' hc ho
      cases j with
      | zero => simp at hc ho; subst hc; subst ho; exact k3
      | succ j => exact i4 j c' o' (by simpa using hc) (by simpa using ho)

/-- **C151**: let a user of an `ArchiveReader` call `dirEntries`, `stat` (also through `isArchive` and `canHandle`), and
`nextEntry` of the `DirLister`s that were returned in any order, as long as each `DirLister` is asked for its first
entry before the next listing is asked for.  The files do not change.
1. No call fails.
2. Every `DirLister` of a directory in an archive delivers what the complete listing of the archive shows there, no
   matter whether the archive was listed before, is being listed, or is in the cache.
3. In general no `DirLister` returns a name twice, or an entry after `false`; for urls that lead to no file it
   returns `false` at once.
4. `stat` returns the same at any time. -/
theorem C151_history {fs : Opener} {B N : Nat} (hs : Steady fs B) (hN : B + 1 < N) {calls : List Call} (hd : Diligent calls)
    (hord : ∀ url, .stat url ∈ calls → ∀ parent name c path, url = parent ++ 47 :: name → (47 : UInt8) ∉ name →
      InArchive fs parent c path → Orderly c path) :
    ∃ r outs, Reader.run N (calls.map fun c => (fs, c)) {} = .ok (r, outs) ∧ outs.length = calls.length ∧
      (∀ (i : Nat) u, (openedUrls calls)[i]? = some u →
        (∀ c path, InArchive fs u c path → Orderly c path → Delivers (shownIn c path) (resultsOf i calls outs)) ∧
        (namesOf (resultsOf i calls outs)).Nodup ∧
        (∀ o1 o2, resultsOf i calls outs = o1 ++ none :: o2 → ∀ o ∈ o2, o = none) ∧
        ((∀ k, Ancestor k u → fs.openStream k = none) → ∀ o ∈ resultsOf i calls outs, o = none)) ∧
      (∀ (j : Nat) (url : Name) o, calls[j]? = some (Call.stat url) → outs[j]? = some o → StatResult fs url o) ∧
      (∀ (j : Nat) (url : Name) o, calls[j]? = some (Call.localStat url) → outs[j]? = some o → o = (fs.stat url).map (statOf fs url)) := by
  obtain ⟨r, G, outs, h1, h2, h3, h4⟩ := history_run hs hN calls [] {} [] [] rfl RInv.new hd hord
  simp only [List.nil_append] at h3
  refine ⟨r, outs, h1, h2, ?_, fun j url o hc ho => h4 j _ o hc ho, fun j url o hc ho => h4 j _ o hc ho⟩
  intro i u hu
  have hx : (logOf calls outs)[i]? = some (u, resultsOf i calls outs) := by rw [logOf_get, hu]; rfl
  have hi : i < r.handles.length := by rw [h3.length]; exact (List.getElem?_eq_some_iff.1 hx).1
  exact (h3.handles i _ _ (List.getElem?_eq_getElem hi) hx).delivers hs h3.objs

/-- An archive with the file `a` and the file `d/b`. -/
def twoFiles : Contents :=
  .entry { filename := [97], isFile := true } 1 .nil (.entry { filename := [100, 47, 98], isFile := true } 1 .nil .nil)

/-- A history: `x` and `x/d` are listed in turns, `x/a` is asked for, and `x` is listed again. -/
def aHistory : List Call :=
  [.dirEntries [120], .next 0, .dirEntries [120, 47, 100], .next 1, .stat [120, 47, 97], .next 0, .next 0, .next 1,
    .dirEntries [120], .next 2, .next 2, .next 2, .localStat [120]]

theorem onlyX_steady {c : Contents} (h : c.depth ≤ 9) : Steady (onlyX c) c.count := by
  have key : ∀ k, (onlyX c).openStream k ≠ none → k = [120] := by
    intro k hk
    simp only [onlyX] at hk
    by_cases e : k = [120]
    · exact e
    · rw [if_neg e] at hk; exact absurd rfl hk
  refine ⟨fun url k k' _ _ h1 h2 => by rw [key k h1, key k' h2], rfl, ?_⟩
  intro k c' hk
  have : k = [120] := key k (by rw [hk]; simp)
  subst this
  simp only [onlyX, if_true, Option.some.injEq] at hk
  subst hk
  exact ⟨h, Nat.le_refl _⟩

example : Steady (onlyX twoFiles) 2 := onlyX_steady (by decide)

instance : DecidablePred Asks
  | .dirEntries _ => .isTrue trivial
  | .stat _ => .isTrue trivial
  | .next _ => .isFalse id
  | .localStat _ => .isFalse id

/-- For concrete histories. -/
theorem diligent_of {calls : List Call}
    (h1 : ∀ n, n < calls.length → ∀ j, j < calls.length + 1 → (openedUrls (calls.take n)).length ≤ j → ∀ c ∈ calls[n]?, c ≠ .next j)
    (h3 : ∀ c ∈ calls, ∀ j, c = .next j → j ≤ calls.length)
    (h2 : ∀ n, n < calls.length → ∀ c ∈ calls[n]?, Asks c → ∀ i, i < (openedUrls (calls.take n)).length →
      .next i ∈ calls.take n) : Diligent calls := by
  constructor
  · intro pre i post e
    have hi := h3 (.next i) (by rw [e]; simp) i rfl
    apply Decidable.byContradiction
    intro hc
    have ht : calls.take pre.length = pre := by rw [e]; exact List.take_left' rfl
    exact h1 pre.length (by rw [e]; simp) i (by omega) (by rw [ht]; omega) (.next i) (by rw [e]; simp) rfl
  · intro pre c post e ha i hi
    have := h2 pre.length (by rw [e]; simp) c (by rw [e]; simp) ha i
    rw [e, List.take_left' rfl] at this
    exact this hi

example : Diligent aHistory :=
  diligent_of (by decide) (by intro c hc j e; subst e; revert hc; simp [aHistory]; omega) (by decide)

example : InArchive (onlyX twoFiles) [120] twoFiles [] := ⟨[120], rfl, Or.inl ⟨rfl, rfl⟩⟩
example : InArchive (onlyX twoFiles) [120, 47, 100] twoFiles [[100]] := ⟨[120], rfl, Or.inr ⟨[100], rfl, rfl⟩⟩
example : shownIn twoFiles [] [97] ∧ shownIn twoFiles [] [100] ∧ shownIn twoFiles [[100]] [98] := by
  refine ⟨?_, ?_, ?_⟩ <;> exact fun z => by cases z

/-- Every directory of this archive is in order. -/
theorem twoFiles_orderly (path : List Name) : Orderly twoFiles path := by
  intro t1 x t2 e hx y hy
  have e : [[[97]], [[100], [98]]] = t1 ++ x :: t2 := e
  match t1, e with
  | [], _ => cases hy
  | [y'], e =>
    simp only [List.cons_append, List.nil_append, List.cons.injEq] at e
    obtain ⟨rfl, rfl, _⟩ := e
    simp only [List.mem_singleton] at hy
    subst hy
    obtain ⟨r, rfl⟩ := hx
    exact ⟨by simp, by simp⟩
  | _ :: _ :: t, e => simp at e

example : openedUrls aHistory = [[120], [120, 47, 100], [120]] := rfl

-- The theorem applies to this history.
example : ∃ r outs, Reader.run 4 (aHistory.map fun c => (onlyX twoFiles, c)) {} = .ok (r, outs) ∧
    Delivers (shownIn twoFiles []) (resultsOf 0 aHistory outs) := by
  obtain ⟨r, outs, h1, _, h2, _⟩ := C151_history (B := 2) (N := 4) (onlyX_steady (c := twoFiles) (by decide)) (by decide)
    (calls := aHistory)
    (diligent_of (by decide) (by intro c hc j e; subst e; revert hc; simp [aHistory]; omega) (by decide))
    (by
      intro url _ parent name c path _ _ h
      obtain ⟨k, hk, _⟩ := h
      simp only [onlyX] at hk
      split at hk
      · cases hk; exact twoFiles_orderly path
      · cases hk)
  exact ⟨r, outs, h1, (h2 0 [120] rfl).1 twoFiles [] ⟨[120], rfl, Or.inl ⟨rfl, rfl⟩⟩ (twoFiles_orderly [])⟩

-- What the history returns.
example : ∃ r outs, Reader.run 4 (aHistory.map fun c => (onlyX twoFiles, c)) {} = .ok (r, outs) ∧
    outs.map (fun o => o.map Attr.filename) =
      [none, some [97], none, some [98], some [97], some [100], none, none, none, some [97], some [100], none, some [120]] :=
  ⟨_, _, rfl, rfl⟩

/-- **C151** (found while proving): a `DirLister` that was not asked for its first entry before the listing was
completed by another one and collected asks a null pointer: `x` is listed twice, the second lister goes to the end,
`x` is listed again, and the first one is asked for its first entry. -/
theorem C151_witness_unstarted :
    Reader.run 4 ([.dirEntries [120], .dirEntries [120], .next 1, .next 1, .next 1, .dirEntries [120], .next 0].map
      fun c => (onlyX twoFiles, c)) {} = .fault .undefined := rfl

/-- The file `x` at another time. -/
def xAt (t : Nat) (c : Contents) : Opener where
  openStream u := if u = [120] then some c else none
  stat u := if u = [120] then some { filename := [120], isFile := true, mtime := t } else none

/-- **C151** (found while proving): the listing of a file that is no archive never ends: even if the file then changes
to an archive and its time changes, `stat` of the same reader goes on to tell that it is a file that is no
directory, with the old time, and listing it shows nothing. -/
theorem C151_witness_stale_listing (c : Contents) : ∃ r outs,
    Reader.run 4 [(xAt 1 .nil, .dirEntries [120]), (xAt 1 .nil, .next 0), (xAt 2 c, .localStat [120]),
      (xAt 2 c, .dirEntries [120]), (xAt 2 c, .next 1)] {} = .ok (r, outs) ∧
    outs = [none, none, some { filename := [120], isFile := true, mtime := 1 }, none, none] :=
  ⟨_, _, rfl, rfl⟩

/-- **C151** (found while proving): the archive `x` was listed and is in the cache; then it is replaced.  Listing it
goes on to show the old entries: the time of the file is not looked at. -/
theorem C151_witness_stale_cache (c : Contents) : ∃ r outs,
    Reader.run 4 [(xAt 1 twoFiles, .dirEntries [120]), (xAt 1 twoFiles, .next 0), (xAt 1 twoFiles, .next 0),
      (xAt 1 twoFiles, .next 0), (xAt 2 c, .dirEntries [120]), (xAt 2 c, .next 1), (xAt 2 c, .next 1),
      (xAt 2 c, .next 1)] {} = .ok (r, outs) ∧
    outs.map (fun o => o.map Attr.filename) = [none, some [97], some [100], none, none, some [97], some [100], none] :=
  ⟨_, _, rfl, rfl⟩

/-- **C151** (found while proving): after that, `stat` of the changed file deletes the tree; a `DirLister` that still
points into it then reads deleted memory. -/
theorem C151_witness_deleted_tree (c : Contents) :
    Reader.run 4 [(xAt 1 twoFiles, .dirEntries [120]), (xAt 1 twoFiles, .next 0), (xAt 1 twoFiles, .dirEntries [120]),
      (xAt 1 twoFiles, .next 1), (xAt 1 twoFiles, .next 1), (xAt 1 twoFiles, .next 1), (xAt 1 twoFiles, .dirEntries [120]),
      (xAt 2 c, .localStat [120]), (xAt 2 c, .next 0)] {} = .fault .undefined := by
  cases c <;> rfl

end Strigi.Props
