import Verif.Proofs.Lifecycle
import Verif.Props.GZipCompress
import Verif.Props.Lzma

/-!
# The life of a decompressor: constructed, used, destroyed
-/

namespace Strigi

open BufferedStream (view Follows Same)

namespace Unpack

variable {σ ζ : Type} {P : StreamOps σ UInt8} {D : Decompressor ζ} {keep : Bool}

/-- The memory while the stream exists: one block in addition to those of `L` until the end of the data, none after it. -/
def Owns (L : List Nat) (keep : Bool) (o : Owner σ ζ) : Prop :=
  (o.st.isOpen = true ∧ o.started = true ∧ ∃ b, o.ptr = .to b ∧ o.heap.live = b :: L) ∨
  (o.st.isOpen = false ∧ o.ptr = .null ∧ o.heap.live = L ∧ (keep = true → o.started = false))

theorem dealloc_owned {L : List Nat} {o : Owner σ ζ} {b : Nat} (hs : o.started = true) (hp : o.ptr = .to b) (hl : o.heap.live = b :: L) :
    ∃ o', dealloc keep o = .ok o' ∧ o'.heap.live = L ∧ o'.ptr = .null ∧ (keep = true → o'.started = false) ∧
      o'.st = { o.st with isOpen := false } := by
  unfold dealloc libEnd Heap.free
  have hm : b ∈ o.heap.live := by rw [hl]; exact List.mem_cons_self
  have he : o.heap.live.erase b = L := by rw [hl, List.erase_cons_head]
  cases keep
  · rw [if_neg (by decide), hp]
    simp only [if_pos hm, Res.bind_ok]
    exact ⟨_, rfl, he, rfl, (fun z => by cases z), rfl⟩
  · rw [if_pos rfl, if_pos hs, hp]
    simp only [if_pos hm, Res.bind_ok]
    exact ⟨_, rfl, he, rfl, fun _ => rfl, rfl⟩

theorem decompressOwned_follows {L : List Nat} {o : Owner σ ζ} (h1 : o.st.isOpen = true) (h2 : o.started = true)
    (h3 : ∃ b, o.ptr = .to b ∧ o.heap.live = b :: L) (space : Int) :
    Res.Like (fun x y => y = (x.1.st, x.2) ∧ Owns L keep x.1) (decompressOwned P D keep o space) (decompress P D keep o.st space) := by
  obtain ⟨b, hp, hl⟩ := h3
  have hu : o.heap.use o.ptr = .ok () := by
    unfold Heap.use
    rw [hp]
    exact if_pos (by rw [hl]; exact List.mem_cons_self)
  unfold decompressOwned
  rw [hu, Res.bind_ok]
  have hid : decompress P D keep o.st space = (decompress P D keep o.st space >>= fun x => .ok x) := by
    cases decompress P D keep o.st space <;> rfl
  conv => arg 3; rw [hid]
  refine (Res.Like.same _).bind ?_
  rintro ⟨st, r⟩ _ rfl
  simp only
  cases ho : st.isOpen
  · rw [if_neg (by decide)]
    obtain ⟨o', e, g1, g2, g3, g4⟩ := dealloc_owned (keep := keep) (L := L) (o := { o with st := st }) h2 hp hl
    rw [e, Res.bind_ok]
    have : o'.st = st := by
      rw [g4]
      cases st
      simp only at ho
      subst ho
      rfl
    exact ⟨by rw [this], Or.inr ⟨by rw [this, ho], g2, g1, g3⟩⟩
  · rw [if_pos rfl]
    exact ⟨rfl, Or.inl ⟨ho, h2, b, hp, hl⟩⟩

theorem owned_follows (L : List Nat) (N : Nat) : Follows (producerOwned P D keep N) (producer P D keep N) Owner.st (Owns L keep) where
  fuel _ _ := rfl
  step o space h := by
    show Res.Like _ (fillOwned P D keep o space) (fill P D keep o.st space)
    unfold fillOwned fill
    rcases h with ⟨h1, h2, h3⟩ | h
    · have hno : ¬ o.st.isOpen = false := by rw [h1]; decide
      rw [if_neg hno, if_neg hno]
      by_cases ha : o.st.availOut ≠ 0
      · rw [if_pos ha, if_pos ha]
        unfold readFromStream
        cases hr : P.read o.st.input 1 0 with
        | fault x => exact rfl
        | diverge => exact trivial
        | ok x =>
          rw [Res.bind_ok]
          obtain ⟨i, n, d⟩ := x
          simp only
          by_cases hn : n < 1
          · rw [if_pos hn, Res.bind_ok, Res.bind_ok]
            simp only
            rw [if_pos trivial, if_pos trivial]
            exact ⟨rfl, Or.inl ⟨h1, h2, h3⟩⟩
          · rw [if_neg hn, Res.bind_ok, Res.bind_ok]
            simp only
            by_cases hf : o.st.failed = true
            · rw [if_pos hf, if_pos hf]
              exact ⟨rfl, Or.inl ⟨h1, h2, h3⟩⟩
            · rw [if_neg hf, if_neg hf]
              exact decompressOwned_follows (o := { o with st := { o.st with input := i, availIn := slice d 0 n } }) h1 h2 h3 space
      · rw [if_neg ha, if_neg ha]
        exact decompressOwned_follows h1 h2 h3 space
    · rw [if_pos h.1, if_pos h.1]
      exact ⟨rfl, Or.inr h⟩

theorem destroy_owned {L : List Nat} {s : BufferedStream (Owner σ ζ) UInt8} (h : Owns L keep s.prod) :
    ∃ h', destroy keep s = .ok h' ∧ h'.live = L := by
  unfold destroy
  rcases h with ⟨h1, h2, b, h3, h4⟩ | ⟨h1, h2, h3, h4⟩
  · obtain ⟨o', e, g1, _⟩ := dealloc_owned (keep := keep) h2 h3 h4
    rw [e, Res.bind_ok]
    exact ⟨_, rfl, g1⟩
  · unfold dealloc libEnd Heap.free
    cases hk : keep
    · rw [if_neg (by decide), h2]
      exact ⟨_, rfl, h3⟩
    · rw [if_pos rfl, if_neg (by rw [h4 hk]; decide)]
      exact ⟨_, rfl, h3⟩

theorem openOwned_good (D : Decompressor ζ) (guard keep : Bool) (h : Heap) (input : σ) :
    ∃ s, openOwned D guard true h input = .ok s ∧ openStream D input = .ok (view Owner.st s) ∧ Owns h.live keep s.prod ∧ s.status = .ok := by
  unfold openOwned openStream BufferedStream.setMinBufSize
  obtain ⟨b, space, e, _⟩ := StreamBuffer.makeSpace_spec (α := UInt8) (b := StreamBuffer.empty) ⟨Int.le_refl _, Int.le_refl _, Int.le_refl _⟩ 262144
  simp only [Heap.alloc, if_true, BufferedStream.new, e, Res.bind_ok]
  exact ⟨_, rfl, rfl, Or.inl ⟨rfl, rfl, _, rfl, rfl⟩, rfl⟩

end Unpack

/-! ## `LZMAInputStream` -/

namespace LzmaStream

variable {σ ζ : Type} {P : StreamOps σ UInt8} {D : LzmaDecoder ζ}

/-- The memory while the stream exists: two blocks in addition to those of `L`. -/
def Owns (L : List Nat) (o : Owner σ ζ) : Prop := ∃ a b, o.probs = .to a ∧ o.dic = .to b ∧ a ≠ b ∧ o.heap.live = b :: a :: L

theorem decompressOwned_follows {L : List Nat} {o : Owner σ ζ} (h : Owns L o) (space : Int) :
    Res.Like (fun x y => y = (x.1.st, x.2) ∧ Owns L x.1) (decompressOwned D o space) (decompress D o.st space) := by
  obtain ⟨a, b, h1, h2, h3, h4⟩ := h
  have hu1 : o.heap.use o.probs = .ok () := by
    unfold Heap.use
    rw [h1]
    exact if_pos (by rw [h4]; simp)
  have hu2 : o.heap.use o.dic = .ok () := by
    unfold Heap.use
    rw [h2]
    exact if_pos (by rw [h4]; simp)
  unfold decompressOwned
  rw [hu1, Res.bind_ok, hu2, Res.bind_ok]
  have hid : decompress D o.st space = (decompress D o.st space >>= fun x => .ok x) := by
    cases decompress D o.st space <;> rfl
  conv => arg 3; rw [hid]
  refine (Res.Like.same _).bind ?_
  rintro ⟨st, r⟩ _ rfl
  exact ⟨rfl, a, b, h1, h2, h3, h4⟩

theorem owned_follows (L : List Nat) (N : Nat) : Follows (producerOwned P D N) (producer P D N) Owner.st (Owns L) where
  fuel _ _ := rfl
  step o space h := by
    show Res.Like _ (fillOwned P D o space) (fill P D o.st space)
    unfold fillOwned fill
    by_cases hf : o.st.failed = true
    · rw [if_pos hf, if_pos hf]; exact ⟨rfl, h⟩
    rw [if_neg hf, if_neg hf]
    by_cases hd : o.st.msize = o.st.done
    · rw [if_pos hd, if_pos hd]; exact ⟨rfl, h⟩
    rw [if_neg hd, if_neg hd]
    by_cases ha : o.st.availIn = []
    · rw [if_pos ha, if_pos ha]
      refine (Res.Like.same _).bind ?_
      rintro st _ rfl
      by_cases hg : st.failed = true
      · rw [if_pos hg, if_pos hg]; exact ⟨rfl, h⟩
      · rw [if_neg hg, if_neg hg]
        exact decompressOwned_follows (o := { o with st := st }) h space
    · rw [if_neg ha, if_neg ha]
      exact decompressOwned_follows h space

theorem destroy_owned {L : List Nat} {s : BufferedStream (Owner σ ζ) UInt8} (h : Owns L s.prod) : ∃ h', destroy s = .ok h' ∧ h'.live = L := by
  obtain ⟨a, b, h1, h2, h3, h4⟩ := h
  unfold destroy Heap.free
  rw [h1, h2]
  simp only
  rw [if_pos (by rw [h4]; simp), Res.bind_ok]
  have he : s.prod.heap.live.erase a = b :: L := by
    rw [h4, List.erase_cons_tail (by simpa using fun z => h3 z.symm), List.erase_cons_head]
  simp only [he]
  rw [if_pos (by simp)]
  exact ⟨_, rfl, by simp⟩

theorem allocate_cases (h : Heap) (m₁ m₂ : Bool) : ∃ h' p d g, allocate h m₁ m₂ .null .null = .ok (h', p, d, g) ∧ g = (m₁ && m₂) ∧
    (g = false → p = .null ∧ d = .null ∧ h'.live = h.live) ∧
    (g = true → ∃ a b, p = .to a ∧ d = .to b ∧ a ≠ b ∧ h'.live = b :: a :: h.live) := by
  cases m₁ <;> cases m₂
  · exact ⟨_, _, _, _, rfl, rfl, fun _ => ⟨rfl, rfl, rfl⟩, fun z => by cases z⟩
  · exact ⟨_, _, _, _, rfl, rfl, fun _ => ⟨rfl, rfl, rfl⟩, fun z => by cases z⟩
  · refine ⟨⟨h.next + 1, h.live⟩, .null, .null, false, ?_, rfl, fun _ => ⟨rfl, rfl, rfl⟩, fun z => by cases z⟩
    simp [allocate, Heap.alloc, Heap.free]
  · refine ⟨⟨h.next + 1 + 1, (h.next + 1) :: h.next :: h.live⟩, .to h.next, .to (h.next + 1), true, ?_, rfl, (fun z => by cases z), fun _ => ⟨_, _, rfl, rfl, by omega, rfl⟩⟩
    simp [allocate, Heap.alloc, Heap.free]

end LzmaStream

/-! ## `GZipCompressInputStream` -/

namespace GZipCompress

variable {σ ζ : Type} {P : StreamOps σ UInt8} {K : Compressor ζ}

/-- The memory while the stream exists: two blocks in addition to those of `L` until everything was written, none after it. -/
def Owns (L : List Nat) (o : Owner σ ζ) : Prop :=
  (o.st.z.isSome = true ∧ ∃ a b, o.zs = .to a ∧ o.ptr = .to b ∧ a ≠ b ∧ o.heap.live = b :: a :: L) ∨
  (o.st.z = none ∧ o.zs = .null ∧ o.heap.live = L)

theorem dealloc_owned {L : List Nat} {o : Owner σ ζ} {a b : Nat} (h1 : o.zs = .to a) (h2 : o.ptr = .to b) (h3 : a ≠ b)
    (h4 : o.heap.live = b :: a :: L) : ∃ o', dealloc o = .ok o' ∧ o'.heap.live = L ∧ o'.zs = .null ∧ o'.st = { o.st with z := none } := by
  unfold dealloc
  rw [if_neg (by rw [h1]; simp)]
  have hu : o.heap.use o.zs = .ok () := by
    unfold Heap.use
    rw [h1]
    exact if_pos (by rw [h4]; simp)
  rw [hu, Res.bind_ok]
  unfold Heap.free
  rw [h1, h2]
  simp only
  rw [if_pos (by rw [h4]; simp), Res.bind_ok]
  simp only
  have he : o.heap.live.erase b = a :: L := by rw [h4, List.erase_cons_head]
  simp only [he]
  rw [if_pos (by simp), Res.bind_ok]
  exact ⟨_, rfl, by simp, rfl, rfl⟩

theorem deflated_follows {L : List Nat} {o : Owner σ ζ} (h : ∃ a b, o.zs = .to a ∧ o.ptr = .to b ∧ a ≠ b ∧ o.heap.live = b :: a :: L)
    (x : State σ ζ × Fill UInt8) : Res.Like (fun x y => y = (x.1.st, x.2) ∧ Owns L x.1) (deflated o x) (.ok x) := by
  obtain ⟨a, b, h1, h2, h3, h4⟩ := h
  have hu1 : o.heap.use o.zs = .ok () := by
    unfold Heap.use
    rw [h1]
    exact if_pos (by rw [h4]; simp)
  have hu2 : o.heap.use o.ptr = .ok () := by
    unfold Heap.use
    rw [h2]
    exact if_pos (by rw [h4]; simp)
  unfold deflated
  rw [hu1, Res.bind_ok, hu2, Res.bind_ok]
  simp only
  cases hz : x.1.z with
  | some z =>
    rw [if_pos (by rfl)]
    exact ⟨rfl, Or.inl ⟨by simp [hz], a, b, h1, h2, h3, h4⟩⟩
  | none =>
    rw [if_neg (by simp)]
    obtain ⟨o', e, g1, g2, g3⟩ := dealloc_owned (L := L) (o := { o with st := x.1 }) h1 h2 h3 h4
    rw [e, Res.bind_ok]
    have : o'.st = x.1 := by
      rw [g3]
      obtain ⟨⟨i, z, av⟩, r⟩ := x
      simp only at hz
      subst hz
      rfl
    exact ⟨by rw [this], Or.inr ⟨by rw [this, hz], g2, g1⟩⟩

theorem owned_follows (L : List Nat) (N : Nat) : Follows (producerOwned P K N) (producer P K N) Owner.st (Owns L) where
  fuel _ _ := rfl
  step o space h := by
    show Res.Like _ (fillOwned P K o space) (fill P K o.st space)
    unfold fillOwned fill
    rcases h with ⟨h0, hm⟩ | h
    · obtain ⟨z, hz⟩ := Option.isSome_iff_exists.1 h0
      rw [hz]
      simp only
      have hu : o.heap.use o.zs = .ok () := by
        obtain ⟨a, b, h1, h2, h3, h4⟩ := hm
        unfold Heap.use
        rw [h1]
        exact if_pos (by rw [h4]; simp)
      rw [hu, Res.bind_ok]
      by_cases ha : o.st.availIn = []
      · rw [if_pos ha, if_pos ha]
        refine (Res.Like.same _).bind ?_
        rintro r _ rfl
        by_cases hr : r.2.1 < -1
        · rw [if_pos hr, if_pos hr]
          exact ⟨by rw [← hz], Or.inl ⟨h0, hm⟩⟩
        rw [if_neg hr, if_neg hr]
        by_cases hq : r.2.1 < 1
        · rw [if_pos hq, if_pos hq]
          exact deflated_follows (o := { o with st := { o.st with input := r.1 } }) hm _
        · rw [if_neg hq, if_neg hq]
          exact deflated_follows (o := { o with st := { o.st with input := r.1 } }) hm _
      · rw [if_neg ha, if_neg ha]
        exact deflated_follows hm _
    · rw [h.1]
      exact ⟨rfl, Or.inr h⟩

theorem destroy_owned {L : List Nat} {s : BufferedStream (Owner σ ζ) UInt8} (h : Owns L s.prod) : ∃ h', destroy s = .ok h' ∧ h'.live = L := by
  unfold destroy
  rcases h with ⟨_, a, b, h1, h2, h3, h4⟩ | ⟨_, h2, h3⟩
  · obtain ⟨o', e, g1, _⟩ := dealloc_owned h1 h2 h3 h4
    rw [e, Res.bind_ok]
    exact ⟨_, rfl, g1⟩
  · unfold dealloc
    rw [if_pos h2, Res.bind_ok]
    exact ⟨_, rfl, h3⟩

end GZipCompress

namespace Props

open BufferedStream (bind_eq_ok)
open Unpack (Owner producerOwned destroy brokenOwned openOwned)

section

variable {σ ζ : Type} {P : StreamOps σ UInt8} {D : Decompressor ζ}

theorem run_view {φ ψ : Type} {P' : Producer φ UInt8} {Q : Producer ψ UInt8} {e : φ → ψ} {J : φ → Prop} (F : Follows P' Q e J)
    {s : BufferedStream φ UInt8} (h : J s.prod ∨ s.status = .error) (l : List Op) :
    (run (BufferedStream.ops P') s l >>= fun s => .ok (view e s)) = run (BufferedStream.ops Q) (view e s) l := by
  have : Res.Like (fun x y => view e x = y) (run (BufferedStream.ops P') s l) (run (BufferedStream.ops Q) (view e s) l) := by
    rcases h with h | h
    · exact (BufferedStream.run_follows F l s h).mono (fun x y z => z.1.symm)
    · exact (BufferedStream.run_error_view e l s h).mono (fun x y z => by rw [z.1, z.2])
  revert this
  cases run (BufferedStream.ops P') s l <;> cases run (BufferedStream.ops Q) (view e s) l <;> intro this <;> simp only [Res.Like] at this
  · rw [Res.bind_ok, this]
  · rw [this]; rfl
  · rfl

theorem openOwned_new (h : Heap) (keep : Bool) {input : σ} {s : BufferedStream (Owner σ ζ) UInt8} (e : openOwned D keep true h input = .ok s) :
    Unpack.openStream D input = .ok (view Owner.st s) ∧ Unpack.Owns h.live keep s.prod ∧ s.status = .ok := by
  obtain ⟨s', e', h1, h2, h3⟩ := Unpack.openOwned_good D keep keep h input
  rw [e] at e'
  cases e'
  exact ⟨h1, h2, h3⟩

/-- **C149**: a `GZipInputStream` on whatever stream, however it is used (all calls returned), gives back the memory of the decompressor
when it is destroyed, exactly once; whether the magic bytes are right, the data is complete, broken or not read to the end. -/
theorem C149_gzip {gzip : Bool} {h : Heap} {input : σ} {s s' : BufferedStream (Owner σ ζ) UInt8} {l : List Op} {N : Nat}
    (hn : GZip.newOwned P D gzip true h input = .ok s) (hr : run (BufferedStream.ops (producerOwned P D true N)) s l = .ok s') :
    ∃ h', destroy true s' = .ok h' ∧ h'.live = h.live := by
  have key : Unpack.Owns h.live true s.prod ∨ s = brokenOwned D h s.prod.st.input := by
    unfold GZip.newOwned at hn
    cases gzip
    · exact Or.inl (openOwned_new h true hn).2.1
    · rw [if_pos rfl] at hn
      obtain ⟨⟨i, ok⟩, e, hn⟩ := bind_eq_ok hn
      cases ok
      · cases hn; exact Or.inr rfl
      · exact Or.inl (openOwned_new h true hn).2.1
  rcases key with key | key
  · exact Unpack.destroy_owned (BufferedStream.run_keeps (Unpack.owned_follows h.live N).keeps l key hr)
  · have := BufferedStream.run_error l s s' (by rw [key]; rfl) hr
    rw [this, key]
    exact ⟨h, rfl, rfl⟩

/-- **C149**: until then the decompressor is only called while it has its memory: construction and use with the memory taken into account are,
fault for fault, those of the model without it. -/
theorem C149_gzip_same (gzip : Bool) (h : Heap) (input : σ) (l : List Op) (N : Nat) :
    (do let s ← GZip.newOwned P D gzip true h input
        let s ← run (BufferedStream.ops (producerOwned P D true N)) s l
        .ok (view Owner.st s)) =
      (do let s ← GZip.new P D gzip input
          run (GZip.ops P D N) s l) := by
  have hopen : ∀ i : σ, (do let s ← openOwned D true true h i
                            let s ← run (BufferedStream.ops (producerOwned P D true N)) s l
                            .ok (view Owner.st s)) = (do let s ← Unpack.openStream D i
                                                         run (GZip.ops P D N) s l) := by
    intro i
    obtain ⟨s, e1, e2, ho, _⟩ := Unpack.openOwned_good D true true h i
    rw [e1, e2, Res.bind_ok, Res.bind_ok]
    exact run_view (Unpack.owned_follows h.live N) (Or.inl ho) l
  unfold GZip.newOwned GZip.new
  cases gzip
  · exact hopen input
  · rw [if_pos rfl, if_pos rfl]
    cases hm : GZip.checkMagic P input with
    | fault x => rfl
    | diverge => rfl
    | ok x =>
      obtain ⟨i, ok⟩ := x
      cases ok
      · exact run_view (Unpack.owned_follows h.live N) (s := brokenOwned D h i) (Or.inr rfl) l
      · exact hopen i

/-- **C149**: the same for `BZ2InputStream` if the magic bytes are right. -/
theorem C149_bz2 {h : Heap} {input : σ} {s s' : BufferedStream (Owner σ ζ) UInt8} {l : List Op} {N : Nat}
    (hn : BZ2.newOwned P D true h input = .ok s) (hs : s.status = .ok)
    (hr : run (BufferedStream.ops (producerOwned P D false N)) s l = .ok s') :
    ∃ h', destroy false s' = .ok h' ∧ h'.live = h.live := by
  unfold BZ2.newOwned at hn
  obtain ⟨⟨i, ok⟩, e, hn⟩ := bind_eq_ok hn
  cases ok
  · cases hn; cases hs
  · exact Unpack.destroy_owned (BufferedStream.run_keeps (Unpack.owned_follows h.live N).keeps l (openOwned_new h false hn).2.1 hr)

theorem C149_bz2_same (h : Heap) (input : σ) (l : List Op) (N : Nat) :
    (do let s ← BZ2.newOwned P D true h input
        let s ← run (BufferedStream.ops (producerOwned P D false N)) s l
        .ok (view Owner.st s)) =
      (do let s ← BZ2.new P D input
          run (BZ2.ops P D N) s l) := by
  unfold BZ2.newOwned BZ2.new
  cases hm : BZ2.checkMagic P input with
  | fault x => rfl
  | diverge => rfl
  | ok x =>
    obtain ⟨i, ok⟩ := x
    cases ok
    · exact run_view (Unpack.owned_follows h.live N) (s := brokenOwned D h i) (Or.inr rfl) l
    · obtain ⟨s, e1, e2, ho, _⟩ := Unpack.openOwned_good D false false h i
      show (openOwned D false true h i >>= _) = (Unpack.openStream D i >>= _)
      rw [e1, e2, Res.bind_ok, Res.bind_ok]
      exact run_view (Unpack.owned_follows h.live N) (Or.inl ho) l

/-- **C149** (defect): a `BZ2InputStream` whose constructor reports an error (the magic bytes are wrong) has no defined end: whatever is done with
it, its destructor hands memory that was never written to the library. -/
theorem C149_bz2_wrong_magic {memory : Bool} {h : Heap} {input : σ} {s s' : BufferedStream (Owner σ ζ) UInt8} {l : List Op} {N : Nat}
    (hn : BZ2.newOwned P D memory h input = .ok s) (hs : s.status = .error)
    (hr : run (BufferedStream.ops (producerOwned P D false N)) s l = .ok s') : destroy false s' = .fault .undefined := by
  rw [BufferedStream.run_error l s s' hs hr]
  unfold BZ2.newOwned at hn
  obtain ⟨⟨i, ok⟩, e, hn⟩ := bind_eq_ok hn
  cases ok
  · cases hn; rfl
  · cases memory
    · have hn : (Unpack.dealloc false _ >>= _) = _ := hn
      cases hn
    · have := (openOwned_new h false hn).2.2
      rw [this] at hs
      cases hs

/-- **C149** (defect): if there is no memory for the decompressor, the constructor of neither class gets to reporting it: the pointer that it
frees was never written. -/
theorem C149_no_memory (h : Heap) {input i : σ} :
    GZip.newOwned P D false false h input = .fault .undefined ∧
    (GZip.checkMagic P input = .ok (i, true) → GZip.newOwned P D true false h input = .fault .undefined) ∧
    (BZ2.checkMagic P input = .ok (i, true) → BZ2.newOwned P D false h input = .fault .undefined) := by
  refine ⟨rfl, fun e => ?_, fun e => ?_⟩
  · unfold GZip.newOwned
    rw [if_pos rfl, e]
    rfl
  · unfold BZ2.newOwned
    rw [e]
    rfl

end

section

variable {σ ζ : Type} {P : StreamOps σ UInt8} {D : LzmaDecoder ζ}

/-- **C149**: a `LZMAInputStream` on whatever stream, however it is used, gives back all its memory when it is destroyed, every block exactly
once; also if there was no memory for one of the two blocks (`m₁`, `m₂`), or the header is wrong. -/
theorem C149_lzma {m₁ m₂ : Bool} {z0 : ζ} {h : Heap} {input : σ} {s s' : BufferedStream (LzmaStream.Owner σ ζ) UInt8} {l : List Op} {N : Nat}
    (hn : LzmaStream.newOwned P D z0 m₁ m₂ h input = .ok s)
    (hr : run (BufferedStream.ops (LzmaStream.producerOwned P D N)) s l = .ok s') :
    (∃ h', LzmaStream.destroy s' = .ok h' ∧ h'.live = h.live) ∧ ((m₁ && m₂) = false → s.status = .error) := by
  have key : (LzmaStream.Owns h.live s.prod ∧ (m₁ && m₂) = true) ∨
      (s.status = .error ∧ s.prod.probs = .null ∧ s.prod.dic = .null ∧ s.prod.heap.live = h.live) := by
    unfold LzmaStream.newOwned at hn
    obtain ⟨r, _, hn⟩ := bind_eq_ok hn
    obtain ⟨ok, _, hn⟩ := bind_eq_ok hn
    cases ok
    · cases hn; exact Or.inr ⟨rfl, rfl, rfl, rfl⟩
    · simp only [if_true] at hn
      obtain ⟨z, _, hn⟩ := bind_eq_ok hn
      obtain ⟨size, _, hn⟩ := bind_eq_ok hn
      obtain ⟨h', p, d, g, e, hg, h1, h2⟩ := LzmaStream.allocate_cases h m₁ m₂
      rw [e, Res.bind_ok] at hn
      simp only at hn
      cases g
      · obtain ⟨rfl, rfl, h5⟩ := h1 rfl
        cases hn
        exact Or.inr ⟨rfl, rfl, rfl, h5⟩
      · rw [if_pos rfl] at hn
        unfold BufferedStream.setMinBufSize at hn
        obtain ⟨⟨b, sp⟩, _, hn⟩ := bind_eq_ok hn
        cases hn
        exact Or.inl ⟨h2 rfl, hg.symm⟩
  rcases key with ⟨k1, k2⟩ | ⟨k0, k1, k2, k3⟩
  · exact ⟨LzmaStream.destroy_owned (BufferedStream.run_keeps (LzmaStream.owned_follows h.live N).keeps l k1 hr), fun z => by rw [k2] at z; cases z⟩
  · rw [BufferedStream.run_error l s s' k0 hr]
    refine ⟨⟨s.prod.heap, ?_, k3⟩, fun _ => k0⟩
    unfold LzmaStream.destroy
    rw [k1, k2]
    rfl

/-- **C149**: until then the decoder is only called while it has its memory. -/
theorem C149_lzma_same (z0 : ζ) (h : Heap) (input : σ) (l : List Op) (N : Nat) :
    (do let s ← LzmaStream.newOwned P D z0 true true h input
        let s ← run (BufferedStream.ops (LzmaStream.producerOwned P D N)) s l
        .ok (view LzmaStream.Owner.st s)) =
      (do let s ← LzmaStream.new P D z0 input
          run (BufferedStream.ops (LzmaStream.producer P D N)) s l) := by
  unfold LzmaStream.newOwned LzmaStream.new
  cases hr : P.read input 13 13 with
  | fault x => rfl
  | diverge => rfl
  | ok r =>
    simp only [Res.bind_ok]
    cases hok : (if r.2.1 = 13 then Lzma.checkHeader r.2.2 13 else .ok false) with
    | fault x => rfl
    | diverge => rfl
    | ok ok =>
      simp only [Res.bind_ok]
      cases ok
      · exact run_view (LzmaStream.owned_follows h.live N) (s := { BufferedStream.new _ with status := .error }) (Or.inr rfl) l
      · simp only [if_true]
        cases hz : D.init (r.2.2.take 5) with
        | fault x => rfl
        | diverge => rfl
        | ok z =>
          simp only [Res.bind_ok]
          cases hsz : TextUtils.readLittleEndianInt64 (r.2.2.drop 5) with
          | fault x => rfl
          | diverge => rfl
          | ok size =>
            simp only [Res.bind_ok]
            obtain ⟨h', p, d, g, e, hg, _, h2⟩ := LzmaStream.allocate_cases h true true
            cases hg
            rw [e, Res.bind_ok]
            simp only [Bool.and_self, if_true]
            unfold BufferedStream.setMinBufSize
            obtain ⟨b, space, eb, _⟩ := StreamBuffer.makeSpace_spec (α := UInt8) (b := StreamBuffer.empty) ⟨Int.le_refl _, Int.le_refl _, Int.le_refl _⟩ 262144
            simp only [BufferedStream.new, eb, Res.bind_ok]
            have ho : LzmaStream.Owns h.live (⟨{ input := r.1, z := z, availIn := [], msize := size, done := 0, failed := false, marked := false }, p, d, h'⟩ : LzmaStream.Owner σ ζ) := h2 rfl
            exact run_view (LzmaStream.owned_follows h.live N)
              (s := ⟨⟨{ input := r.1, z := z, availIn := [], msize := size, done := 0, failed := false, marked := false }, p, d, h'⟩, b, false, 0, size, .ok⟩) (Or.inl ho) l

end

section

variable {σ ζ : Type} {P : StreamOps σ UInt8} {K : Compressor ζ}

/-- **C149**: the same for `GZipCompressInputStream`, if there is memory. -/
theorem C149_compress {h : Heap} {input : σ} {s s' : BufferedStream (GZipCompress.Owner σ ζ) UInt8} {l : List Op} {N : Nat}
    (hn : GZipCompress.newOwned K true true h input = .ok s)
    (hr : run (BufferedStream.ops (GZipCompress.producerOwned P K N)) s l = .ok s') :
    ∃ h', GZipCompress.destroy s' = .ok h' ∧ h'.live = h.live := by
  have key : GZipCompress.Owns h.live s.prod := by
    simp only [GZipCompress.newOwned, Heap.alloc, if_true, Heap.use, List.mem_cons_self, Res.bind_ok] at hn
    cases hn
    exact Or.inl ⟨rfl, _, _, rfl, rfl, by omega, rfl⟩
  exact GZipCompress.destroy_owned (BufferedStream.run_keeps (GZipCompress.owned_follows h.live N).keeps l key hr)

theorem C149_compress_same (h : Heap) (input : σ) (l : List Op) (N : Nat) :
    (do let s ← GZipCompress.newOwned K true true h input
        let s ← run (BufferedStream.ops (GZipCompress.producerOwned P K N)) s l
        .ok (view GZipCompress.Owner.st s)) = run (GZipCompress.ops P K N) (GZipCompress.new K input) l := by
  simp only [GZipCompress.newOwned, Heap.alloc, if_true, Heap.use, List.mem_cons_self, Res.bind_ok]
  exact run_view (GZipCompress.owned_follows h.live N) (Or.inl (Or.inl ⟨rfl, _, _, rfl, rfl, by omega, rfl⟩)) l

/-- **C149** (defect): without memory the constructor does not return in a defined way. -/
theorem C149_compress_no_memory (m : Bool) (h : Heap) (input : σ) :
    GZipCompress.newOwned K false m h input = .fault .undefined ∧ GZipCompress.newOwned K true false h input = .fault .undefined := by
  constructor
  · rfl
  · simp [GZipCompress.newOwned, Heap.alloc, Heap.use, GZipCompress.dealloc, Heap.free]

end

/-! ## Examples -/

/-- A heap with one block of somebody else. -/
def someHeap : Heap := ⟨8, [3]⟩

/-- A file that is not bz2: the constructor returns, a `read` fails, the destructor is undefined. -/
example : ∃ s s', BZ2.newOwned StringStream.ops storedDecompressor true someHeap (StringStream.new [1, 2, 3]) = .ok s ∧ s.status = .error ∧
    run (BufferedStream.ops (producerOwned StringStream.ops storedDecompressor false 9)) s [.read 1 0] = .ok s' :=
  ⟨_, _, rfl, rfl, rfl⟩

/-- Compressing three bytes: after a read of everything the memory is back before the stream is destroyed, after a short one it is not. -/
example : (do
      let s ← GZipCompress.newOwned storedCompressor true true someHeap (StringStream.new [5, 6, 7])
      let s₁ ← run (BufferedStream.ops (GZipCompress.producerOwned StringStream.ops storedCompressor 20)) s [.read 2 2]
      let s₂ ← run (BufferedStream.ops (GZipCompress.producerOwned StringStream.ops storedCompressor 20)) s₁ [.read 9 9, .reset 0, .skip 3]
      let h ← GZipCompress.destroy s₂
      (.ok (s.prod.heap.live, s₁.prod.heap.live, s₂.prod.heap.live, h.live) : Res _)) = .ok ([9, 8, 3], [9, 8, 3], [3], [3]) := by
  decide +kernel

/-- The hypotheses of `C149_gzip` are met: a gzip file is opened and read. -/
example (h : Heap) : ∃ s s', GZip.newOwned StringStream.ops storedDecompressor true true h (StringStream.new [0x1f, 0x8b, 5, 6, 0, 7, 7]) = .ok s ∧
    run (BufferedStream.ops (producerOwned StringStream.ops storedDecompressor true 30)) s [.read 3 0] = .ok s' := by
  obtain ⟨s, e, hp, hi, _⟩ := C55_gzip_file (x := [0x1f, 0x8b, 5, 6, 0]) (y := [0x1f, 0x8b, 5, 6]) (rest := [7, 7])
    (C01_isStream [0x1f, 0x8b, 5, 6, 0, 7, 7]) stored_unpacks rfl ⟨rfl, by decide⟩ ⟨[5, 6, 0], rfl⟩ 30 (by decide)
  obtain ⟨s1, n, d, e1, _⟩ := (hi [.read 3 0]).2 (by omega) (Or.inl rfl)
  have := C149_gzip_same (P := StringStream.ops) (D := storedDecompressor) true h (StringStream.new [0x1f, 0x8b, 5, 6, 0, 7, 7]) [.read 3 0] 30
  rw [e, Res.bind_ok] at this
  have hrun : run (GZip.ops StringStream.ops storedDecompressor 30) s [.read 3 0] = .ok s1 := by
    show ((GZip.ops StringStream.ops storedDecompressor 30).read s 3 0 >>= _) = _
    rw [e1]
    rfl
  rw [hrun] at this
  obtain ⟨t, e2, this⟩ := bind_eq_ok this
  obtain ⟨t', e3, _⟩ := bind_eq_ok this
  exact ⟨t, t', e2, e3⟩

end Props
end Strigi
