import Verif.Proofs.ZipCut
import Verif.Props.Zip
import Verif.Props.Cut

/-!
# Property C145: zip archives of which the end is missing
-/

namespace Strigi.Props

open ZipSpec Zip

variable {σ ζ : Type}

section

variable {P : StreamOps σ UInt8} {D : Decompressor ζ} {R : ζ → List UInt8 → List UInt8 → Prop} {c : List UInt8} {soft : Prop} {input : σ}

theorem zip_ready (hP : IsStream P c Failure.never soft input) {bytes : List UInt8} (hc : c.drop (P.position input).toNat = bytes)
    (N fuel : Nat) : Ready P D c soft N fuel (Zip.new input) bytes := by
  refine ⟨rfl, input, rfl, ?_⟩
  have := At.of_isStream hP
  rw [hc] at this
  exact this

/-- The bytes of a member before its data. -/
def headLength (m : Member) : Nat := 30 + m.name.length + m.extra.length

theorem intro_length {m : Member} {inflates : List UInt8 → List UInt8 → Prop} (hm : m.WellFormed inflates) :
    (Zip.intro m).length = headLength m := by
  obtain ⟨head, _, _, _, h1, h2, _⟩ := member_header hm
  rw [h1, List.length_append, List.length_append, h2, headLength]
  omega

theorem take_data {m : Member} {inflates : List UInt8 → List UInt8 → Prop} (hm : m.WellFormed inflates) {j : Nat} (hj : j < m.data.length) :
    m.bytes.take (headLength m + j) = Zip.intro m ++ m.data.take j := by
  rw [bytes_eq, ← intro_length hm, List.take_length_add_append, List.take_append_of_le_length (by omega)]

theorem no_signature {m : Member} {k : Nat} (hk : 16 ≤ k) (h16 : 16 ≤ m.bytes.length) :
    16 ≤ (m.bytes.take k).length ∧ ¬ signature <+: m.bytes.take k := by
  constructor
  · rw [List.length_take]; omega
  · intro z
    have := z.trans (List.take_prefix _ _)
    revert this
    simp [Member.bytes, signature]

theorem member_long {m : Member} {inflates : List UInt8 → List UInt8 → Prop} (hm : m.WellFormed inflates) : 30 ≤ m.bytes.length := by
  rw [bytes_eq, List.length_append, intro_length hm, headLength]; omega

/-- The iteration ends with `Error` at a header that is cut off. -/
theorem zip_header_ends {mktime : TextUtils.Tm → Int} {N fuel : Nat} {s : State σ ζ} {m : Member}
    {inflates : List UInt8 → List UInt8 → Prop} (hm : m.WellFormed inflates) {k : Nat} (hk1 : 1 ≤ k) (hk2 : k < headLength m)
    (hR : Ready P D c soft N fuel s (m.bytes.take k)) : EndsWith (Zip.ops P D mktime N fuel) .error s := by
  have h30 := member_long hm
  refine ends_of_next (Q := fun i => At P c soft i (m.bytes.take k)) (by decide) hR (fun i hA => ?_)
  by_cases hk : k < 30
  · refine next_short (s := { s with entry := none, input := i }) hA ?_ (by rw [List.length_take]; omega) rfl
    rw [hA.status_ok (by intro z; have := congrArg List.length z; rw [List.length_take, List.length_nil] at this; omega)]
    decide
  · obtain ⟨head, me, co, si, h1, h2, hh, hco, hme, _⟩ := member_header hm
    have hin := intro_length hm
    have e : m.bytes.take k = head ++ (m.name ++ m.extra).take (k - 30) := by
      rw [bytes_eq, List.take_append_of_le_length (by omega), h1, ← List.take_length_add_append, h2, show 30 + (k - 30) = k by omega]
    rw [e] at hA
    have hnm : 1 ≤ m.name.length := by
      have := hm.name.2.1
      cases hn : m.name with
      | nil => exact absurd hn this
      | cons _ _ => simp
    refine next_names (s := { s with entry := none, input := i }) (show s.status = .ok from hR.1) rfl hh hco hme hnm (extra_lt hm) ?_ hA
    rw [List.length_take, List.length_append]
    unfold headLength at hk2
    omega

/-- **C145**: complete members, and then the first bytes of a header, of a name or of an extra field: exactly the complete
members are presented and the iteration ends with `Error`.  (Behind a deflated member without data descriptor at least 16 bytes
have to be there, see `C145_swallowed`.) -/
theorem C145_header (hP : IsStream P c Failure.never soft input) (hD : Unpacks D False R) (mktime : TextUtils.Tm → Int)
    (ms : List Member) (hms : ∀ m ∈ ms, m.WellFormed (R D.init)) (m : Member) (hm : m.WellFormed (R D.init))
    (k : Nat) (hk1 : 1 ≤ k) (hk2 : k < headLength m)
    (hk3 : ∀ m', ms.getLast? = some m' → m'.kind = .deflated → m'.descriptor = [] → 16 ≤ k)
    (hc : c.drop (P.position input).toNat = ms.flatMap Member.bytes ++ m.bytes.take k)
    (N fuel : Nat) (hN : ∀ m ∈ ms, 2 * (m.data.length + m.content.length) + 1 < N ∧ m.content.length + 2 < fuel) :
    Presents (Zip.ops P D mktime N fuel) Failure.never soft .error (Zip.new input) (ms.map (Member.entry (mktimeOf mktime))) := by
  have h30 := member_long hm
  refine PresentsThen.presents _ _ (PresentsThen.mono (fun s hs => zip_header_ends hm hk1 hk2 hs) _ _
    (presentsThen (mktime := mktime) hD ?_ ms _ (fun m' h1 h2 h3 => no_signature (hk3 m' h1 h2 h3) (by omega))
      (fun m hm => ⟨hms m hm, hN m hm⟩) (zip_ready hP hc N fuel)))
  intro z
  have := congrArg List.length z
  rw [List.length_take, List.length_nil] at this; omega

/-- **C145**: less than 30 bytes of the directory: the iteration ends with `Error` too. -/
theorem C145_directory (hP : IsStream P c Failure.never soft input) (hD : Unpacks D False R) (mktime : TextUtils.Tm → Int)
    (ms : List Member) (hms : ∀ m ∈ ms, m.WellFormed (R D.init)) (dir : List UInt8) (hdir : Directory dir)
    (k : Nat) (hk1 : 1 ≤ k) (hk2 : k < 30)
    (hk3 : ∀ m', ms.getLast? = some m' → m'.kind = .deflated → m'.descriptor = [] → 16 ≤ k)
    (hc : c.drop (P.position input).toNat = ms.flatMap Member.bytes ++ dir.take k)
    (N fuel : Nat) (hN : ∀ m ∈ ms, 2 * (m.data.length + m.content.length) + 1 < N ∧ m.content.length + 2 < fuel) :
    Presents (Zip.ops P D mktime N fuel) Failure.never soft .error (Zip.new input) (ms.map (Member.entry (mktimeOf mktime))) := by
  obtain ⟨⟨t, ht⟩, h46⟩ := hdir
  have hlen : (dir.take k).length = k := by rw [List.length_take]; omega
  have hne : dir.take k ≠ [] := by intro z; rw [z] at hlen; simp at hlen; omega
  refine PresentsThen.presents _ _ (PresentsThen.mono (fun s hs => ?_) _ _
    (presentsThen (mktime := mktime) hD hne ms _ (fun m' h1 h2 h3 => ⟨by rw [hlen]; exact hk3 m' h1 h2 h3, fun z => ?_⟩)
      (fun m hm => ⟨hms m hm, hN m hm⟩) (zip_ready hP hc N fuel)))
  · refine ends_of_next (Q := fun i => At P c soft i (dir.take k)) (by decide) hs (fun i hA => ?_)
    refine next_short (s := { s with entry := none, input := i }) hA ?_ (by rw [hlen]; omega) rfl
    rw [hA.status_ok hne]; decide
  · have := z.trans (List.take_prefix _ _)
    rw [← ht] at this
    revert this
    simp [signature]

/-- **C145**: complete members, the last of which is deflated and has no data descriptor, and then less than 16 bytes,
whatever they are: all of these members are presented and the iteration ends with `Eof`, as if nothing were missing. -/
theorem C145_swallowed (hP : IsStream P c Failure.never soft input) (hpr : Prompt P) (hD : Unpacks D False R)
    (mktime : TextUtils.Tm → Int) (ms : List Member) (hms : ∀ m ∈ ms, m.WellFormed (R D.init))
    (m : Member) (hm : m.WellFormed (R D.init)) (hk : m.kind = .deflated) (hd : m.descriptor = [])
    (rest : List UInt8) (hl : rest.length < 16)
    (hc : c.drop (P.position input).toNat = ms.flatMap Member.bytes ++ (m.bytes ++ rest))
    (N fuel : Nat) (hN : ∀ m' ∈ m :: ms, 2 * (m'.data.length + m'.content.length) + 1 < N ∧ m'.content.length + 2 < fuel) :
    Presents (Zip.ops P D mktime N fuel) Failure.never soft .eof (Zip.new input)
      (ms.map (Member.entry (mktimeOf mktime)) ++ [m.entry (mktimeOf mktime)]) := by
  have h30 := member_long hm
  have hnb : m.bytes ++ rest ≠ [] := by
    intro z; have := congrArg List.length z; rw [List.length_append, List.length_nil] at this; omega
  refine PresentsThen.presents _ _ (PresentsThen.append _ _ (PresentsThen.mono (fun s hs => ?_) _ _
    (presentsThen (mktime := mktime) hD hnb ms _ (fun _ _ _ _ => member_start rest hm)
      (fun m' hm' => ⟨hms m' hm', hN m' (by simp [hm'])⟩) (zip_ready hP hc N fuel))))
  have hdata : m.data ≠ [] := by
    have he := hm.encoded
    unfold Member.Encoded at he
    rw [hk] at he
    exact he.2.2.2.2.2.1
  obtain ⟨hNm, hfm⟩ := hN m (by simp)
  obtain ⟨s', e, x1, x2, x3, x4, x5, x6, x7, x8⟩ := nextEntry_gen (mktime := mktime) hD hm hNm hfm (Q := fun i => P.status i = .eof)
    (fun _ z hAt => by
      rw [hd, List.nil_append] at hAt
      obtain ⟨i, n, d, er, hA2, ha, hb⟩ := hAt.read_short (n := 16) (by omega) (by omega)
      have hn : n < 16 := by
        by_cases hz : rest = []
        · have := (hb hz).1; omega
        · have := (ha hz).1; omega
      refine ⟨i, ?_, ?_⟩
      · unfold skipSignature
        simp only
        rw [er]
        simp only [Res.bind_ok]
        rw [if_neg (by omega)]
      · have h1 := hpr _ _ _ _ _ _ (by omega) (Or.inr (Int.le_refl _)) er hn
        cases hs : P.status i with
        | ok => exact absurd hs h1
        | eof => rfl
        | error => exact absurd hs hA2.status_ne)
    (fun z => absurd hk z) (by simp [hdata]) hs
  refine ⟨s', e, x1, x2, x3, x4, x5, x6, x7, fun e' lo hi hu => ?_⟩
  refine ends_of_next (by decide) (x8 e' lo hi hu) (fun i hi => ?_)
  rw [next, if_pos hi]
  exact ⟨_, rfl, rfl, rfl⟩

/-- **C145**: the file ends behind a member (not one of the members of `C145_swallowed`): all members are presented, and the
iteration ends with `Eof` or with `Error`, depending on whether the input notices its end as soon as it is reached. -/
theorem C145_boundary (hP : IsStream P c Failure.never soft input) (hD : Unpacks D False R)
    (mktime : TextUtils.Tm → Int) (ms : List Member) (hms : ∀ m ∈ ms, m.WellFormed (R D.init))
    (m : Member) (hm : m.WellFormed (R D.init)) (hk : m.kind = .deflated → m.descriptor ≠ []) (hd : m.data ++ m.descriptor ≠ [])
    (hc : c.drop (P.position input).toNat = ms.flatMap Member.bytes ++ m.bytes)
    (N fuel : Nat) (hN : ∀ m' ∈ m :: ms, 2 * (m'.data.length + m'.content.length) + 1 < N ∧ m'.content.length + 2 < fuel) :
    PresentsThen (Zip.ops P D mktime N fuel) Failure.never soft
      (fun s => EndsWith (Zip.ops P D mktime N fuel) .eof s ∨ EndsWith (Zip.ops P D mktime N fuel) .error s) (Zip.new input)
      (ms.map (Member.entry (mktimeOf mktime)) ++ [m.entry (mktimeOf mktime)]) := by
  have h30 := member_long hm
  have hnb : m.bytes ++ [] ≠ [] := by
    intro z; have := congrArg List.length z; rw [List.length_append, List.length_nil] at this; omega
  rw [← List.append_nil m.bytes] at hc
  refine PresentsThen.append _ _ (PresentsThen.mono (fun s hs => ?_) _ _
    (presentsThen (mktime := mktime) hD hnb ms _ (fun _ _ _ _ => by
        rw [List.append_nil]
        have := no_signature (m := m) (k := m.bytes.length) (by omega) (by omega)
        rwa [List.take_length] at this)
      (fun m' hm' => ⟨hms m' hm', hN m' (by simp [hm'])⟩) (zip_ready hP hc N fuel)))
  obtain ⟨hNm, hfm⟩ := hN m (by simp)
  obtain ⟨s', e, x1, x2, x3, x4, x5, x6, x7, x8⟩ := nextEntry_spec (mktime := mktime) hD hm hNm hfm
    (fun h1 h2 => absurd h2 (hk h1)) (by simpa using hd) hs
  exact ⟨s', e, x1, x2, x3, x4, x5, x6, x7, fun e' lo hi hu => ends_at_end (x8 e' lo hi hu)⟩

/-- How the iteration goes on up to a member of which the data is cut off. -/
theorem zip_before (hP : IsStream P c Failure.never soft input) (hD : Unpacks D False R) (mktime : TextUtils.Tm → Int)
    (ms : List Member) (hms : ∀ m ∈ ms, m.WellFormed (R D.init)) (m : Member) (hm : m.WellFormed (R D.init))
    (j : Nat) (hj : j < m.data.length)
    (hc : c.drop (P.position input).toNat = ms.flatMap Member.bytes ++ m.bytes.take (headLength m + j))
    (N fuel : Nat) (hN : ∀ m' ∈ m :: ms, 2 * (m'.data.length + m'.content.length) + 1 < N ∧ m'.content.length + 2 < fuel)
    {K : State σ ζ → Prop} (h : ∀ s, Ready P D c soft N fuel s (Zip.intro m ++ m.data.take j) → K s) :
    PresentsThen (Zip.ops P D mktime N fuel) Failure.never soft K (Zip.new input) (ms.map (Member.entry (mktimeOf mktime))) := by
  have h30 := member_long hm
  have hh : 30 ≤ headLength m := by unfold headLength; omega
  refine PresentsThen.mono h _ _
    (presentsThen (mktime := mktime) hD (by rw [← take_data hm hj]; intro z; have := congrArg List.length z; rw [List.length_take, List.length_nil] at this; omega)
      ms _ (fun _ _ _ _ => by rw [← take_data hm hj]; exact no_signature (by omega) (by omega))
      (fun m' hm' => ⟨hms m' hm', hN m' (by simp [hm'])⟩) (zip_ready hP (by rw [hc, take_data hm hj]) N fuel))

/-- **C145**: the cut is in the data of a stored member, of which `j` bytes are there.  The members before it are presented; the
entry itself is shown with its full size, its stream delivers these bytes and then reports an error, never `Eof`, and the iteration
ends (with `Eof` or `Error`, depending on whether the input notices its end as soon as it is reached). -/
theorem C145_stored (hP : IsStream P c Failure.never soft input) (hD : Unpacks D False R) (mktime : TextUtils.Tm → Int)
    (ms : List Member) (hms : ∀ m ∈ ms, m.WellFormed (R D.init)) (m : Member) (hm : m.WellFormed (R D.init)) (hk : m.kind = .stored)
    (j : Nat) (hj1 : 1 ≤ j) (hj : j < m.data.length)
    (hc : c.drop (P.position input).toNat = ms.flatMap Member.bytes ++ m.bytes.take (headLength m + j))
    (N fuel : Nat) (hN : ∀ m' ∈ m :: ms, 2 * (m'.data.length + m'.content.length) + 1 < N ∧ m'.content.length + 2 < fuel) :
    PresentsThen (Zip.ops P D mktime N fuel) Failure.never soft
      (ShowsPartThen (Zip.ops P D mktime N fuel) soft (m.entry (mktimeOf mktime)).info (m.content.take j)
        (fun s => EndsWith (Zip.ops P D mktime N fuel) .eof s ∨ EndsWith (Zip.ops P D mktime N fuel) .error s))
      (Zip.new input) (ms.map (Member.entry (mktimeOf mktime))) := by
  refine zip_before hP hD mktime ms hms m hm j hj hc N fuel hN (fun s hs => ?_)
  have hdata : m.data = m.content := by
    have he := hm.encoded
    unfold Member.Encoded at he
    rw [hk] at he
    exact he.2.2.2.2.1
  have h2 := (hN m (by simp)).2
  have hlen : (m.data.take j).length = j := by rw [List.length_take]; omega
  rw [← hdata]
  exact shows_stored (by rw [hdata] at hj; omega) hm hk (by intro z; rw [z] at hlen; simp at hlen; omega) (by rw [hlen, ← hdata]; omega) hs

/-- **C145**: the cut is in the data of a deflated member with the sizes behind the data.  The members before it are presented; the
entry delivers bytes of its content, as far as they can be had, and then reports an error, never `Eof`, and the iteration ends
with `Error`. -/
theorem C145_streamed (hP : IsStream P c Failure.never soft input) (hD : Unpacks D False R) (mktime : TextUtils.Tm → Int)
    (ms : List Member) (hms : ∀ m ∈ ms, m.WellFormed (R D.init)) (m : Member) (hm : m.WellFormed (R D.init)) (hk : m.kind = .streamed)
    (j : Nat) (hj1 : 1 ≤ j) (hj : j < m.data.length)
    (hc : c.drop (P.position input).toNat = ms.flatMap Member.bytes ++ m.bytes.take (headLength m + j))
    (N fuel : Nat) (hN : ∀ m' ∈ m :: ms, 2 * (m'.data.length + m'.content.length) + 1 < N ∧ m'.content.length + 2 < fuel) :
    PresentsThen (Zip.ops P D mktime N fuel) Failure.never soft
      (ShowsPart (Zip.ops P D mktime N fuel) soft (m.entry (mktimeOf mktime)).info m.content .error)
      (Zip.new input) (ms.map (Member.entry (mktimeOf mktime))) := by
  refine zip_before hP hD mktime ms hms m hm j hj hc N fuel hN (fun s hs => ?_)
  obtain ⟨h1, h2⟩ := hN m (by simp)
  have hlen : (m.data.take j).length = j := by rw [List.length_take]; omega
  exact shows_streamed hD hm hk h1 h2 (by intro z; rw [z] at hlen; simp at hlen; omega) (List.take_prefix _ _) (by omega) hs

/-- **C145**: the cut is in the data of a deflated member with the sizes in the header.  The members before it are presented; the
entry delivers bytes of its content, up to an error -- and the iteration ends with `Eof`, as if nothing were missing. -/
theorem C145_deflated (hP : IsStream P c Failure.never soft input) (hD : Unpacks D False R) (mktime : TextUtils.Tm → Int)
    (ms : List Member) (hms : ∀ m ∈ ms, m.WellFormed (R D.init)) (m : Member) (hm : m.WellFormed (R D.init)) (hk : m.kind = .deflated)
    (j : Nat) (hj1 : 1 ≤ j) (hj : j < m.data.length)
    (hc : c.drop (P.position input).toNat = ms.flatMap Member.bytes ++ m.bytes.take (headLength m + j))
    (N fuel : Nat) (hN : ∀ m' ∈ m :: ms, 2 * (m'.data.length + m'.content.length) + 1 < N ∧ m'.content.length + 2 < fuel) :
    PresentsThen (Zip.ops P D mktime N fuel) Failure.never soft
      (ShowsUpToError (Zip.ops P D mktime N fuel) soft (m.entry (mktimeOf mktime)).info m.content
        (EndsWith (Zip.ops P D mktime N fuel) .eof))
      (Zip.new input) (ms.map (Member.entry (mktimeOf mktime))) := by
  refine zip_before hP hD mktime ms hms m hm j hj hc N fuel hN (fun s hs => ?_)
  obtain ⟨h1, h2⟩ := hN m (by simp)
  have hlen : (m.data.take j).length = j := by rw [List.length_take]; omega
  exact shows_deflated hD hm hk h1 (by intro z; rw [z] at hlen; simp at hlen; omega) (List.take_prefix _ _) (by omega) hs

end

/-! ## Examples: the members of `Props/Zip.lean`, cut off at several places -/

/-- A member of the example. -/
def zipMember (i : Nat) : Member := zipMembers.getD i zipCut

theorem zipMember_wellFormed {i : Nat} (h : i < 4) : (zipMember i).WellFormed (fun x y => x = y ++ [0] ∧ 0 ∉ y) := by
  apply zipMembers_wellFormed
  match i, h with
  | 0, _ | 1, _ | 2, _ | 3, _ => simp [zipMember, zipMembers]

theorem zipTake_wellFormed (n : Nat) : ∀ m ∈ zipMembers.take n, m.WellFormed (fun x y => x = y ++ [0] ∧ 0 ∉ y) :=
  fun m hm => zipMembers_wellFormed m (List.mem_of_mem_take hm)

abbrev zipExample := Zip.ops StringStream.ops storedDecompressor (fun t => t.tm_sec) 100 100

/-- Within the fourth header. -/
example : Presents zipExample Failure.never True .error
    (Zip.new (StringStream.new ((zipMembers.take 3).flatMap Member.bytes ++ (zipMember 3).bytes.take 20)))
    [⟨⟨[97], 2, 30, .file⟩, [1, 2]⟩, ⟨⟨[98], 0, 30, .dir⟩, []⟩, ⟨⟨[99], 3, 30, .file⟩, [5, 6, 7]⟩] :=
  C145_header (C01_isStream _) stored_unpacks _ (zipMembers.take 3) (zipTake_wellFormed 3) (zipMember 3) (zipMember_wellFormed (by decide))
    20 (by decide) (by decide) (fun _ _ _ _ => by decide) rfl 100 100 (by decide)

/-- Within the name of the second member. -/
example : Presents zipExample Failure.never True .error
    (Zip.new (StringStream.new ((zipMembers.take 1).flatMap Member.bytes ++ (zipMember 1).bytes.take 31)))
    [⟨⟨[97], 2, 30, .file⟩, [1, 2]⟩] :=
  C145_header (C01_isStream _) stored_unpacks _ (zipMembers.take 1) (zipTake_wellFormed 1) (zipMember 1) (zipMember_wellFormed (by decide))
    31 (by decide) (by decide) (fun _ _ _ _ => by decide) rfl 100 100 (by decide)

/-- Ten bytes of the fourth header: nobody is told. -/
example : Presents zipExample Failure.never True .eof
    (Zip.new (StringStream.new ((zipMembers.take 2).flatMap Member.bytes ++ ((zipMember 2).bytes ++ (zipMember 3).bytes.take 10))))
    [⟨⟨[97], 2, 30, .file⟩, [1, 2]⟩, ⟨⟨[98], 0, 30, .dir⟩, []⟩, ⟨⟨[99], 3, 30, .file⟩, [5, 6, 7]⟩] :=
  C145_swallowed (C01_isStream _) prompt_stringStream stored_unpacks _ (zipMembers.take 2) (zipTake_wellFormed 2) (zipMember 2)
    (zipMember_wellFormed (by decide)) rfl rfl ((zipMember 3).bytes.take 10) (by decide) rfl 100 100 (by decide)

/-- Nothing but the directory is missing. -/
example : PresentsThen zipExample Failure.never True (fun s => EndsWith zipExample .eof s ∨ EndsWith zipExample .error s)
    (Zip.new (StringStream.new ((zipMembers.take 3).flatMap Member.bytes ++ (zipMember 3).bytes)))
    [⟨⟨[97], 2, 30, .file⟩, [1, 2]⟩, ⟨⟨[98], 0, 30, .dir⟩, []⟩, ⟨⟨[99], 3, 30, .file⟩, [5, 6, 7]⟩, ⟨⟨[100], -1, 30, .file⟩, [8, 9]⟩] :=
  C145_boundary (C01_isStream _) stored_unpacks _ (zipMembers.take 3) (zipTake_wellFormed 3) (zipMember 3)
    (zipMember_wellFormed (by decide)) (by decide) (by decide) rfl 100 100 (by decide)

def zipDirectory : List UInt8 := [0x50, 0x4b, 1, 2] ++ List.replicate 60 0

/-- A part of the directory. -/
example : Presents zipExample Failure.never True .error
    (Zip.new (StringStream.new (zipMembers.flatMap Member.bytes ++ zipDirectory.take 5)))
    [⟨⟨[97], 2, 30, .file⟩, [1, 2]⟩, ⟨⟨[98], 0, 30, .dir⟩, []⟩, ⟨⟨[99], 3, 30, .file⟩, [5, 6, 7]⟩, ⟨⟨[100], -1, 30, .file⟩, [8, 9]⟩] :=
  C145_directory (C01_isStream _) stored_unpacks _ zipMembers zipMembers_wellFormed zipDirectory
    ⟨⟨_, rfl⟩, by decide⟩ 5 (by decide) (by decide)
    (fun m h1 h2 _ => by simp [zipMembers] at h1; rw [← h1] at h2; cases h2) rfl 100 100 (by decide)

/-- One byte of the first member. -/
example : ShowsPartThen zipExample True ⟨[97], 2, 30, .file⟩ [1] (fun s => EndsWith zipExample .eof s ∨ EndsWith zipExample .error s)
    (Zip.new (StringStream.new ((zipMember 0).bytes.take 33))) :=
  C145_stored (C01_isStream ((zipMember 0).bytes.take 33)) stored_unpacks _ [] (by simp) (zipMember 0) (zipMember_wellFormed (by decide)) rfl 1 (by decide) (by decide)
    rfl 100 100 (by decide)

/-- Two of four bytes of the third. -/
example : PresentsThen zipExample Failure.never True (ShowsUpToError zipExample True ⟨[99], 3, 30, .file⟩ [5, 6, 7] (EndsWith zipExample .eof))
    (Zip.new (StringStream.new ((zipMembers.take 2).flatMap Member.bytes ++ (zipMember 2).bytes.take 33)))
    [⟨⟨[97], 2, 30, .file⟩, [1, 2]⟩, ⟨⟨[98], 0, 30, .dir⟩, []⟩] :=
  C145_deflated (C01_isStream _) stored_unpacks _ (zipMembers.take 2) (zipTake_wellFormed 2) (zipMember 2)
    (zipMember_wellFormed (by decide)) rfl 2 (by decide) (by decide) rfl 100 100 (by decide)

/-- Two of three bytes of the fourth. -/
example : PresentsThen zipExample Failure.never True (ShowsPart zipExample True ⟨[100], -1, 30, .file⟩ [8, 9] .error)
    (Zip.new (StringStream.new ((zipMembers.take 3).flatMap Member.bytes ++ (zipMember 3).bytes.take 33)))
    [⟨⟨[97], 2, 30, .file⟩, [1, 2]⟩, ⟨⟨[98], 0, 30, .dir⟩, []⟩, ⟨⟨[99], 3, 30, .file⟩, [5, 6, 7]⟩] :=
  C145_streamed (C01_isStream _) stored_unpacks _ (zipMembers.take 3) (zipTake_wellFormed 3) (zipMember 3)
    (zipMember_wellFormed (by decide)) rfl 2 (by decide) (by decide) rfl 100 100 (by decide)

end Strigi.Props
