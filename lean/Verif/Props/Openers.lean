import Verif.Proofs.Openers
import Verif.Props.ReaderHistory

/-!
# Property C156: several `StreamOpener`s
-/

namespace Strigi.Props

open Listing Reader

/-- **C156**: with several openers that know what they can open, and open what they say to be a file, every history of
calls has the results that it has with one opener that does for each url what the first of them does that can.  The
openers and their files may change with every call, also by `addStreamOpener`; this holds from every state of the
reader. -/
theorem C156_several (N : Nat) (l : List (List Opener × Opener × Call)) (r : Reader.Reader)
    (h : ∀ x ∈ l, ActsAs x.1 x.2.1 ∧ ∀ o ∈ x.1, Honest o) :
    Several.run N (l.map fun x => (x.1, x.2.2)) r = Reader.run N (l.map fun x => x.2) r :=
  Several.run_eq N l r h

/-- **C156**: so a user of an `ArchiveReader` with several openers gets what C151 says: no call fails, every `DirLister`
delivers what the complete listing of the archive shows, and `stat` returns the same at any time; the archive is that of
the first opener that opens the url. -/
theorem C156_history {os : List Opener} {fs : Opener} (ha : ActsAs os fs) (hh : ∀ o ∈ os, Honest o) {B N : Nat} (hs : Steady fs B)
    (hN : B + 1 < N) {calls : List Call} (hd : Diligent calls)
    (hord : ∀ url, .stat url ∈ calls → ∀ parent name c path, url = parent ++ 47 :: name → (47 : UInt8) ∉ name →
      InArchive fs parent c path → Orderly c path) :
    ∃ r outs, Several.run N (calls.map fun c => (os, c)) {} = .ok (r, outs) ∧ outs.length = calls.length ∧
      (∀ (i : Nat) u, (openedUrls calls)[i]? = some u →
        (∀ c path, InArchive fs u c path → Orderly c path → Delivers (shownIn c path) (resultsOf i calls outs)) ∧
        (namesOf (resultsOf i calls outs)).Nodup ∧
        (∀ o1 o2, resultsOf i calls outs = o1 ++ none :: o2 → ∀ o ∈ o2, o = none) ∧
        ((∀ k, Ancestor k u → fs.openStream k = none) → ∀ o ∈ resultsOf i calls outs, o = none)) ∧
      (∀ (j : Nat) (url : Name) o, calls[j]? = some (Call.stat url) → outs[j]? = some o → StatResult fs url o) ∧
      (∀ (j : Nat) (url : Name) o, calls[j]? = some (Call.localStat url) → outs[j]? = some o → o = (fs.stat url).map (statOf fs url)) := by
  have key := C156_several N (calls.map fun c => (os, fs, c)) {} (by
    intro x hx
    obtain ⟨c, _, rfl⟩ := List.mem_map.1 hx
    exact ⟨ha, hh⟩)
  simp only [List.map_map, Function.comp_def] at key
  rw [key]
  exact C151_history hs hN hd hord

/-- **C156**: `openStream` opens what the first opener opens that can. -/
theorem C156_openStream_file {pre post : List Opener} {o : Opener} {url : Name} {c : Contents} (ho : o.openStream url = some c)
    (hp : ∀ p ∈ pre, p.openStream url = none) : Several.openStream (pre ++ o :: post) url = .ok (some (.file c)) := by
  unfold Several.openStream
  rw [(Several.open_iff _ _ _).2 ⟨pre, o, post, rfl, ho, hp⟩]

/-- **C156**: in general it does what it does with one opener that opens what the first of them opens that can (see C88). -/
theorem C156_openStream {os : List Opener} {fs : Opener} (ha : ActsAs os fs) (url : Name) :
    Several.openStream os url = Reader.openStream fs url :=
  Several.openStream_eq ha url

/-- What `localStat` of a new reader returns with one opener. -/
theorem localStat_newReader (fs : Opener) (url : Name) :
    Reader.Reader.localStat fs {} url = .ok ((fs.stat url).map (statOf fs url), {}) := by
  unfold Reader.Reader.localStat statOf
  cases fs.stat url with
  | none => rfl
  | some e =>
    dsimp only [mapFind, Option.map_some]
    by_cases h : e.isFile = false
    · rw [if_pos h, if_neg (by rw [h]; simp)]
    · have h' : e.isFile = true := by simpa using h
      rw [if_neg h]
      unfold probe
      split
      · rename_i h1; rw [if_neg (by rw [h1]; simp)]
      · rename_i h1; rw [if_neg (by rw [h1]; simp)]
      · rename_i h1
        rw [if_pos ⟨h', by rw [h1]; simp, by rw [h1]; simp⟩]
        cases e
        dsimp only at h'
        subst h'
        rfl

/-- **C156**: `isArchive` of a new reader asks the first opener that recognises the url, and no other. -/
theorem C156_isArchive (os : List Opener) (url : Name) :
    ∃ b, Several.isArchive os {} url = .ok (b, {}) ∧
      (b = true ↔ ∃ e, FirstOf (fun o => o.stat url) os e ∧ (e.isFile = true ∨ e.isDir = true)) := by
  unfold Several.isArchive
  induction os with
  | nil =>
    refine ⟨false, rfl, ?_⟩
    simp [firstOf_nil]
  | cons o os ih =>
    rw [Several.localStat]
    cases h : o.stat url with
    | none =>
      obtain ⟨b, h1, h2⟩ := ih
      refine ⟨b, h1, ?_⟩
      simp only [firstOf_cons, h, h2]
      simp
    | some e =>
      dsimp only
      rw [localStat_newReader, h]
      simp only [Option.map_some, Res.bind_ok]
      refine ⟨_, rfl, ?_⟩
      simp only [firstOf_cons, h]
      have : ((statOf o url e).isFile || (statOf o url e).isDir) = (e.isFile || e.isDir) := by
        unfold statOf
        split
        · rename_i h; simp [h.1]
        · rfl
      rw [this]
      simp

theorem cached_localStat (fs : Opener) (url : Name) :
    Reader.localStat fs [] url = .ok ((fs.stat url).map (statOf fs url), []) := by
  have e := localStat_newReader fs url
  unfold Reader.Reader.localStat at e
  unfold Reader.localStat
  cases h : fs.stat url with
  | none => rfl
  | some a =>
    rw [h] at e
    simp only [mapFind] at e ⊢
    split
    · rename_i h1
      rw [if_pos h1] at e
      simp only [Res.ok.injEq, Prod.mk.injEq, and_true] at e ⊢
      exact e
    · rename_i h1
      rw [if_neg h1] at e
      simp only [Res.ok.injEq, Prod.mk.injEq, and_true] at e ⊢
      exact e

theorem handleLoop_new {os : List Opener} {fs : Opener} (ha : ActsAs os fs) (hh : ∀ o ∈ os, Honest o) (url : Name) :
    ∀ (n : Nat) (p : Option Nat) (e : Option Attr), (∃ x, Several.handleLoop os url n p e {} = .ok (x, {}) ∧
      Reader.handleLoop fs url n p e [] = .ok (x, [])) ∨
      (Several.handleLoop os url n p e {} = .diverge ∧ Reader.handleLoop fs url n p e [] = .diverge) := by
  intro n
  induction n with
  | zero => intro p e; exact Or.inr ⟨rfl, rfl⟩
  | succ n ih =>
    intro p e
    unfold Several.handleLoop Reader.handleLoop
    cases p with
    | none => exact Or.inl ⟨e, rfl, rfl⟩
    | some p =>
      cases e with
      | some e => exact Or.inl ⟨some e, rfl, rfl⟩
      | none =>
        dsimp only
        by_cases hp : p = 0
        · rw [if_pos hp, if_pos hp]; exact Or.inl ⟨none, rfl, rfl⟩
        · rw [if_neg hp, if_neg hp, Several.localStat_eq ha hh, localStat_newReader, cached_localStat]
          simp only [Res.bind_ok]
          exact ih _ _

/-- **C156**: `canHandle` of a new reader is true exactly if the longest part of the url that some opener knows is an
archive, or is a file and a directory, for the first opener that knows it. -/
theorem C156_canHandle {os : List Opener} {fs : Opener} (ha : ActsAs os fs) (hh : ∀ o ∈ os, Honest o) (url : Name) :
    ∃ b, Several.canHandle os {} url = .ok (b, {}) ∧
      (b = true ↔ ∃ k e, fs.stat k = some e ∧ Ancestor k url ∧ (k = url ∨ k ≠ []) ∧
        (∀ k', Ancestor k' url → k.length < k'.length → fs.stat k' = none) ∧
        e.isFile = true ∧ (e.isDir = true ∨ ∃ a len sub rest, fs.openStream k = some (.entry a len sub rest))) := by
  obtain ⟨b, h1, h2⟩ := C89_canHandle fs url
  refine ⟨b, ?_, h2⟩
  unfold Several.canHandle
  unfold Reader.canHandle at h1
  rw [cached_localStat] at h1
  rw [Several.localStat_eq ha hh, localStat_newReader]
  simp only [Res.bind_ok] at h1 ⊢
  rcases handleLoop_new ha hh url (url.length + 1) (rfindSlash url) ((fs.stat url).map (statOf fs url)) with
    ⟨x, e1, e2⟩ | ⟨_, e2⟩
  · rw [e2] at h1
    rw [e1]
    simp only [Res.bind_ok] at h1 ⊢
    cases x with
    | none => simp only [Res.ok.injEq] at h1; subst h1; rfl
    | some a => simp only [Res.ok.injEq] at h1; subst h1; rfl
  · rw [e2] at h1
    cases h1

theorem firstOf_of_mem {β : Type} {f : Opener → Option β} {os : List Opener}
    (h : os.Pairwise fun o o' => f o = none ∨ f o' = none) {v : β} :
    FirstOf f os v ↔ ∃ o ∈ os, f o = some v := by
  induction os with
  | nil => simp [firstOf_nil]
  | cons o os ih =>
    obtain ⟨h1, h2⟩ := List.pairwise_cons.1 h
    rw [firstOf_cons, ih h2]
    constructor
    · rintro (e | ⟨_, o', ho, e⟩)
      · exact ⟨o, by simp, e⟩
      · exact ⟨o', by simp [ho], e⟩
    · rintro ⟨o', ho, e⟩
      rcases List.mem_cons.1 ho with rfl | ho
      · exact Or.inl e
      · refine Or.inr ⟨?_, o', ho, e⟩
        rcases h1 o' ho with z | z
        · exact z
        · rw [z] at e; cases e

/-- **C156**: the order of the openers does not matter if no two of them know the same url. -/
theorem C156_order {os os' : List Opener} (hp : os.Perm os') (h : Apart os) {fs : Opener} : ActsAs os fs ↔ ActsAs os' fs := by
  have h' : Apart os' := by
    unfold Apart at h ⊢
    refine (hp.pairwise_iff ?_).1 h
    intro a b hab url
    exact (hab url).symm
  have e1 : ∀ {l : List Opener}, Apart l → ∀ url, l.Pairwise fun o o' => o.openStream url = none ∨ o'.openStream url = none :=
    fun hl url => hl.imp fun hab => (hab url).imp And.left And.left
  have e2 : ∀ {l : List Opener}, Apart l → ∀ url, l.Pairwise fun o o' => o.stat url = none ∨ o'.stat url = none :=
    fun hl url => hl.imp fun hab => (hab url).imp And.right And.right
  have k1 : ∀ url c, FirstOf (fun o => o.openStream url) os c ↔ FirstOf (fun o => o.openStream url) os' c := by
    intro url c
    rw [firstOf_of_mem (e1 h url), firstOf_of_mem (e1 h' url)]
    simp only [hp.mem_iff]
  have k2 : ∀ url c, FirstOf (fun o => o.stat url) os c ↔ FirstOf (fun o => o.stat url) os' c := by
    intro url c
    rw [firstOf_of_mem (e2 h url), firstOf_of_mem (e2 h' url)]
    simp only [hp.mem_iff]
  exact ⟨fun z => ⟨fun url c => (z.opened url c).trans (k1 url c), fun url e => (z.told url e).trans (k2 url e)⟩,
    fun z => ⟨fun url c => (z.opened url c).trans (k1 url c).symm, fun url e => (z.told url e).trans (k2 url e).symm⟩⟩

/-- An opener like `os` exists. -/
theorem C156_exists (os : List Opener) : ∃ fs, ActsAs os fs := by
  induction os with
  | nil => exact ⟨⟨fun _ => none, fun _ => none⟩, by simp [firstOf_nil], by simp [firstOf_nil]⟩
  | cons o os ih =>
    obtain ⟨fs, h⟩ := ih
    refine ⟨⟨fun u => (o.openStream u).or (fs.openStream u), fun u => (o.stat u).or (fs.stat u)⟩, ?_, ?_⟩
    · intro url c
      rw [firstOf_cons, ← h.opened]
      cases hx : o.openStream url <;> simp [hx]
    · intro url c
      rw [firstOf_cons, ← h.told]
      cases hx : o.stat url <;> simp [hx]

/-- An opener of the file `y` only. -/
def onlyY (c : Contents) : Opener where
  openStream u := if u = [121] then some c else none
  stat u := if u = [121] then some { filename := [121], isFile := true } else none

/-- `onlyX` and `onlyY` together. -/
def xAndY (c d : Contents) : Opener where
  openStream u := if u = [120] then some c else if u = [121] then some d else none
  stat u := if u = [120] then some { filename := [120], isFile := true }
    else if u = [121] then some { filename := [121], isFile := true } else none

theorem xAndY_actsAs (c d : Contents) : ActsAs [onlyX c, onlyY d] (xAndY c d) := by
  constructor <;> intro url c' <;> simp only [firstOf_cons, firstOf_nil, onlyX, onlyY, xAndY] <;>
    by_cases h1 : url = [120] <;> by_cases h2 : url = [121] <;> simp [h1, h2]

theorem onlyX_honest (c : Contents) : Honest (onlyX c) := by
  constructor
  · intro url h
    simp only [onlyX] at h ⊢
    split <;> simp_all
  · intro url e h _
    simp only [onlyX] at h ⊢
    split <;> simp_all

theorem onlyY_honest (c : Contents) : Honest (onlyY c) := by
  constructor
  · intro url h
    simp only [onlyY] at h ⊢
    split <;> simp_all
  · intro url e h _
    simp only [onlyY] at h ⊢
    split <;> simp_all

example (c d : Contents) : ∀ o ∈ [onlyX c, onlyY d], Honest o := by
  intro o ho
  rcases List.mem_cons.1 ho with rfl | ho
  · exact onlyX_honest c
  · rw [List.mem_singleton] at ho
    subst ho
    exact onlyY_honest d

example (c d : Contents) : Apart [onlyX c, onlyY d] := by
  refine List.pairwise_cons.2 ⟨?_, by simp⟩
  intro o ho url
  rw [List.mem_singleton] at ho
  subst ho
  simp only [onlyX, onlyY]
  by_cases h : url = [120]
  · right; subst h; simp
  · left; simp [h]

theorem xAndY_steady {c d : Contents} {B : Nat} (hc : c.depth ≤ 9 ∧ c.count ≤ B) (hd : d.depth ≤ 9 ∧ d.count ≤ B) :
    Steady (xAndY c d) B := by
  have key : ∀ k, (xAndY c d).openStream k ≠ none → k = [120] ∨ k = [121] := by
    intro k hk
    apply Decidable.byContradiction
    intro hn
    exact hk (by simp only [xAndY]; rw [if_neg fun z => hn (Or.inl z), if_neg fun z => hn (Or.inr z)])
  refine ⟨?_, rfl, ?_⟩
  · intro url k k' h1 h2 h3 h4
    have e : ∀ {x : UInt8}, Ancestor [x] url → url.head? = some x := by
      rintro x (e | ⟨r, e⟩)
      · rw [← e]; rfl
      · rw [e]; rfl
    rcases key k h3 with rfl | rfl <;> rcases key k' h4 with rfl | rfl
    · rfl
    · have := e h1; rw [e h2] at this; simp at this
    · have := e h1; rw [e h2] at this; simp at this
    · rfl
  · intro k c' hk
    rcases key k (by rw [hk]; simp) with rfl | rfl
    · simp [xAndY] at hk; subst hk; exact hc
    · simp [xAndY] at hk; subst hk; exact hd

-- The theorem applies to two archives of two openers that are listed in turns.
example : ∃ r outs, Several.run 4 ([Call.dirEntries [120], .next 0, .dirEntries [121], .next 1, .next 0].map
      fun c => ([onlyX twoFiles, onlyY twoFiles], c)) {} = .ok (r, outs) := by
  obtain ⟨r, outs, h1, _⟩ := C156_history (xAndY_actsAs twoFiles twoFiles)
    (fun o ho => by
      rcases List.mem_cons.1 ho with rfl | ho
      · exact onlyX_honest _
      · rw [List.mem_singleton] at ho
        subst ho
        exact onlyY_honest _)
    (B := 2) (N := 4) (xAndY_steady ⟨by decide, by decide⟩ ⟨by decide, by decide⟩) (by decide)
    (calls := [Call.dirEntries [120], .next 0, .dirEntries [121], .next 1, .next 0])
    (diligent_of (by decide) (by simp) (by decide))
    (by simp)
  exact ⟨r, outs, h1⟩

/-- Files of both openers are listed in turns, and a third one that would open `x` otherwise is added. -/
example : ∃ r outs, Several.run 4 [([onlyX twoFiles], .dirEntries [120]), ([onlyX twoFiles], .next 0),
      ([onlyX twoFiles, onlyY twoFiles], .dirEntries [121, 47, 100]), ([onlyX twoFiles, onlyY twoFiles], .next 1),
      ([onlyX twoFiles, onlyY twoFiles, onlyX .nil], .stat [120, 47, 97]),
      ([onlyX twoFiles, onlyY twoFiles, onlyX .nil], .next 0), ([onlyX twoFiles, onlyY twoFiles, onlyX .nil], .localStat [120])] {} =
        .ok (r, outs) ∧
    outs.map (fun o => o.map fun a => (a.filename, a.isDir)) =
      [none, some ([97], false), none, some ([98], false), some ([97], false), some ([100], true), some ([120], true)] :=
  ⟨_, _, rfl, rfl⟩

/-- An opener that knows the file `x`, but cannot open it: it may not be read. -/
def unreadableX : Opener where
  openStream _ := none
  stat u := if u = [120] then some { filename := [120], isFile := true } else none

/-- **C156** (found while proving): the first opener knows `x`, but cannot open it; the second one opens it.  Then `stat`
(and so `canHandle`) tell that `x` is no archive, as only the first opener is asked; but `dirEntries` lists the
entries, and after that `stat` of the same reader tells that `x` is an archive. -/
theorem C156_witness_unreadable : ∃ r outs,
    Several.run 4 ([.localStat [120], .dirEntries [120], .next 0, .localStat [120]].map
      fun c => ([unreadableX, onlyX twoFiles], c)) {} = .ok (r, outs) ∧
    outs.map (fun o => o.map fun a => (a.filename, a.isDir)) =
      [some ([120], false), none, some ([97], false), some ([120], true)] :=
  ⟨_, _, rfl, rfl⟩

theorem C156_witness_canHandle : Several.canHandle [unreadableX, onlyX twoFiles] {} [120, 47, 97] = .ok (false, {}) ∧
    Several.openStream [unreadableX, onlyX twoFiles] [120, 47, 97] = .ok (some (.entry twoFiles)) := by
  refine ⟨rfl, ?_⟩
  decide +kernel

example : ¬ Honest unreadableX := fun h => h.kept [120] _ rfl rfl rfl

end Strigi.Props
