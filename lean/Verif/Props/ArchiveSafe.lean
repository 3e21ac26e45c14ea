import Verif.Proofs.Within
import Verif.Proofs.RobustStreams
import Verif.Proofs.Opener

/-!
# Archive readers on arbitrary bytes: C125 (`ar`), C126 (`tar`), C127 (`cpio`), C128 (which streams they may be used on)
-/

namespace Strigi.Props

variable {σ : Type} {P : StreamOps σ UInt8} {c : List UInt8} {input : σ}

/-! ## C128: the streams -/

/-- **C128**: the in-memory stream, the mapped file, the file read with `fseeko`, and the buffered file (whatever its
buffer size; the size of the file may be unknown) may be used in any way: `read` with a first argument from `lo` on
(the mapped file: not negative), `skip` and `reset` with numbers that are not negative. -/
theorem C128_streams (c : List UInt8) (lo : Int) :
    (c.length < 2 ^ 31 → ∃ H, Robust StringStream.ops c lo H ∧ H (StringStream.new c)) ∧
    (∃ H, Robust MMapStream.ops c 0 H ∧ H (MMapStream.new c)) ∧
    (∃ H, Robust SkippingFile.ops c lo H ∧ H (SkippingFile.new c)) ∧
    (∀ (bufsize : Int) (seekable : Bool), ∃ s H, FileInputStream.new c bufsize seekable = .ok s ∧
      Robust (BufferedStream.ops FileInputStream.producer) c lo H ∧ H s) := by
  refine ⟨fun h => ⟨_, StringStream.robust c h lo, ?_⟩, ⟨_, MMapStream.robust c, MMapStream.Inv.new c⟩,
    ⟨_, SkippingFile.robust c lo, SkippingFile.Inv.new c⟩, ?_⟩
  · simp [StringStream.new]
  · intro bufsize seekable
    have hR : FileInputStream.Rest (some ⟨c, 0⟩) c (c.length + 2) := ⟨by simp, by simp, by simp, by simp⟩
    unfold FileInputStream.new
    dsimp only
    obtain ⟨sz, hsz⟩ : ∃ sz : Int, sz = (if ¬ seekable then -1 else
      if (c.length : Int) = 0 ∧ c.length ≥ 1 then -1 else (c.length : Int)) := ⟨_, rfl⟩
    rw [← hsz]
    have hs : sz = -1 ∨ sz = c.length := by
      split at hsz
      · omega
      · split at hsz <;> omega
    by_cases h0 : sz = 0
    · rw [if_pos h0]
      have hc : c = [] := List.eq_nil_of_length_eq_zero (by omega)
      subst hc
      have hh := BufferedStream.healthy_new (m := 0) (show FileInputStream.Rest (α := UInt8) none [] 0 from ⟨rfl, rfl⟩) 0
      exact ⟨_, _, rfl, BufferedStream.robust FileInputStream.produces [] 0 (by simp) lo, hh.1, hh.2.1⟩
    · rw [if_neg h0]
      obtain ⟨s, e, _, hh⟩ := BufferedStream.setMinBufSize_healthy hR sz (if sz ≤ bufsize then sz + 1 else bufsize)
      exact ⟨s, _, e, BufferedStream.robust FileInputStream.produces c sz hs lo, hh.1, hh.2.1⟩

/-- **C128**, the exception: a negative number of bytes moves a mapped file backwards, in front of its first byte,
and the next `read` touches memory in front of the mapping. -/
theorem C128_mmap_negative : ∃ s, MMapStream.read (MMapStream.new [1, 2, 3]) (-2) (-2) = .ok (s, -2, []) ∧
    s.pos = -2 ∧ s.read 1 1 = .fault .outOfBounds := ⟨_, rfl, rfl, rfl⟩

/-! ## C125: `ar` -/

/-- **C125**: whatever the bytes of the file are, and whatever a client does, `ArInputStream` never touches memory
outside of objects, fails an assertion or loops for ever; and there are at most as many entries as headers of 60
bytes fit into the file. -/
theorem C125_ar {H : σ → Prop} (R : Robust P c 0 H) (hi : H input) (fuel : Nat) (hf : c.length < fuel) :
    ∃ p₀, Ar.new P input = .ok p₀ ∧ ∀ n p, Visits (Ar.ops P fuel) p₀ n p → Smooth (Ar.ops P fuel) p ∧ 60 * n ≤ c.length := by
  obtain ⟨p₀, e, h⟩ := Ar.new_total R.sturdy (by omega) hi
  refine ⟨p₀, e, fun n p hv => ?_⟩
  obtain ⟨h1, h2⟩ := (Ar.tame R.sturdy (by omega) (Or.inl (by omega)) hf).smooth R.sturdy (by omega) (fun _ => trivial) h hv
  exact ⟨h2, h1.bound⟩

/-! ## C126: `tar` -/

/-- **C126**: the same for `TarInputStream` and headers of 512 bytes, provided that the file nowhere contains
`././@LongLink`. -/
theorem C126_tar {H : σ → Prop} {lo : Int} (hlo : lo ≤ 1) (R : Robust P c lo H) (hi : H input)
    (hc : ∀ p, (c.drop p).take 13 ≠ [46, 47, 46, 47, 64, 76, 111, 110, 103, 76, 105, 110, 107]) (fuel : Nat)
    (hf : c.length < fuel) :
    ∀ n p, Visits (Tar.ops P fuel) (Tar.new input) n p → Smooth (Tar.ops P fuel) p ∧ 512 * n ≤ c.length := by
  intro n p hv
  obtain ⟨h1, h2⟩ := (Tar.tame R.sturdy hlo (Tar.within Robust.within hc) hf).smooth R.sturdy hlo (fun _ => trivial) (Tar.new_ok R.sturdy hi) hv
  exact ⟨h2, h1.1.bound⟩

/-- `././@LongLink`, filled up to 512 bytes; the size field is as given. -/
def longLinkHeader (size : List UInt8) : List UInt8 :=
  [46, 47, 46, 47, 64, 76, 111, 110, 103, 76, 105, 110, 107] ++ List.replicate 87 0 ++ [48, 48, 48, 48, 48, 48, 48, 0] ++
    List.replicate 16 0 ++ size ++ List.replicate (388 - size.length) 0

/-- **C126**, why `././@LongLink` is excluded: the block behind such an entry is not checked, and numbers are read
from it with `sscanf`, past its end if it consists of digits. -/
theorem C126_longlink_digits :
    Tar.nextEntry StringStream.ops 5 (Tar.new (StringStream.new
      (longLinkHeader [49, 0] ++ [97] ++ List.replicate 511 0 ++ List.replicate 512 49 ++ [0]))) = .fault .outOfBounds := by
  decide +kernel

/-- **C126**, the other reason: an entry `././@LongLink` of size zero, read from a mapped file, makes the reader look at
the byte in front of the first one of an empty name. -/
theorem C126_longlink_empty :
    Tar.nextEntry MMapStream.ops 5 (Tar.new (MMapStream.new
      (longLinkHeader [48, 0] ++ List.replicate 300 48 ++ List.replicate 213 0))) = .fault .outOfBounds := by
  decide +kernel

/-! ## C127: `cpio` -/

/-- **C127**: the same for `CpioInputStream` and headers of 110 bytes, provided that wherever the file contains the magic
number followed by a complete header, the size of the content and the length of the name are hexadecimal numbers
below 2 GB, and a name that starts with `./` is terminated (see C40, C65 and below for the other files). -/
theorem C127_cpio {H : σ → Prop} {lo : Int} (hlo : lo ≤ 1) (R : Robust P c lo H) (hi : H input) (hc : CpioSpec.Sane c) (fuel : Nat)
    (hf : c.length + 1 < fuel) :
    ∀ n p, Visits (Cpio.ops P fuel) (Cpio.new input) n p → Smooth (Cpio.ops P fuel) p ∧ 110 * n ≤ c.length := by
  intro n p hv
  obtain ⟨h1, h2⟩ := (Cpio.tame R.sturdy hlo (Cpio.within Robust.within hc) hf).smooth R.sturdy hlo (fun _ => trivial) (Cpio.new_ok R.sturdy hi) hv
  exact ⟨h2, h1.1.bound⟩

/-- Header of a `cpio` entry with the given fields for the size and the length of the name. -/
def cpioHeader (size nameSize : List UInt8) : List UInt8 :=
  Cpio.magic ++ List.replicate 48 48 ++ size ++ List.replicate 32 48 ++ nameSize ++ List.replicate 8 48

/-- **C127**, another reason for the condition: a negative length of the name (`fffffc18`) moves a mapped file backwards;
the entry that is then presented makes `read` touch memory in front of the mapping. -/
theorem C127_negative_name :
    (do
      let p ← Cpio.nextEntry MMapStream.ops 5 (Cpio.new (MMapStream.new
        (cpioHeader [48, 48, 48, 48, 48, 48, 48, 53] [102, 102, 102, 102, 102, 99, 49, 56] ++ [97, 0, 0, 0])))
      match p.entry with
      | some e => SubInputStream.read MMapStream.ops e 1 1
      | none => .diverge) = .fault .outOfBounds := by
  decide +kernel

/-- The file of `C127_endless`: 111 bytes; the length of the name is given as `ffffff92`, that is -110. -/
def endless : List UInt8 :=
  cpioHeader [48, 48, 48, 48, 48, 48, 48, 48] [102, 102, 102, 102, 102, 102, 57, 50] ++ [0]

/-- **C127**, endless archives: a negative length of the name moves a mapped file back to the header, and the same
entry is presented again and again: there is no bound on the number of entries. -/
theorem C127_endless (n : Nat) : ∃ p, Visits (Cpio.ops MMapStream.ops 5) (Cpio.new (MMapStream.new endless)) n p := by
  let m : MMapStream UInt8 := ⟨endless, 0, .ok⟩
  let p1 : Cpio.State (MMapStream UInt8) :=
    ⟨⟨.ok, m, some ⟨m, 0, 0, 0, .ok⟩, { filename := [], size := 0, mtime := 0, type := .file }⟩, 0⟩
  have h0 : Cpio.nextEntry MMapStream.ops 5 (Cpio.new (MMapStream.new endless)) = .ok p1 := by decide +kernel
  have h1 : Cpio.nextEntry MMapStream.ops 5 p1 = .ok p1 := by decide +kernel
  match n with
  | 0 => exact ⟨_, .start⟩
  | n + 1 =>
    refine ⟨p1, ?_⟩
    induction n with
    | zero => exact .next .start h0 rfl
    | succ n ih => exact .next ih h1 rfl

/-! ## Examples: the theorems say something about real archives -/

/-- An `ar` file with the entry `a/`, 3 bytes, and rubbish behind it. -/
def rubbishAr : List UInt8 :=
  [33, 60, 97, 114, 99, 104, 62, 10] ++ ([97, 47] ++ List.replicate 14 32 ++ [49] ++ List.replicate 11 32 ++
    List.replicate 20 32 ++ [51] ++ List.replicate 9 32 ++ [96, 10]) ++ [1, 2, 3, 10] ++ List.replicate 70 255

/-- A client reaches its entry and reads from it; then the rubbish ends the archive. -/
example : ∃ p₀ p, Ar.new MMapStream.ops (MMapStream.new rubbishAr) = .ok p₀ ∧ Visits (Ar.ops MMapStream.ops 200) p₀ 1 p ∧
    Smooth (Ar.ops MMapStream.ops 200) p := by
  obtain ⟨H, R, hi⟩ := (C128_streams rubbishAr 0).2.1
  obtain ⟨p₀, e, h⟩ := C125_ar R hi 200 (by decide +kernel)
  have hv : ∃ p, Ar.nextEntry MMapStream.ops 200 p₀ = .ok p ∧ ∃ e, p.entry = some e := by
    have : (Ar.new MMapStream.ops (MMapStream.new rubbishAr) >>= fun q =>
        Ar.nextEntry MMapStream.ops 200 q >>= fun p => .ok p.entry.isSome) = .ok true := by decide +kernel
    rw [e, Res.bind_ok] at this
    cases h1 : Ar.nextEntry MMapStream.ops 200 p₀ with
    | ok p =>
      rw [h1, Res.bind_ok] at this
      injection this with h2
      exact ⟨p, rfl, Option.isSome_iff_exists.1 h2⟩
    | fault _ => rw [h1] at this; cases this
    | diverge => rw [h1] at this; cases this
  obtain ⟨p, h1, _, h2⟩ := hv
  have hv := VisitsBy.next (ok := AnyRead) (A := Ar.ops MMapStream.ops 200) .start h1 h2
  exact ⟨p₀, p, e, hv, (h _ _ hv).1⟩

/-- A `tar` header for `a` of 3 bytes. -/
def plainTar : List UInt8 :=
  [97] ++ List.replicate 99 0 ++ [48, 48, 48, 48, 54, 52, 52, 0] ++ List.replicate 16 0 ++
    [48, 48, 48, 48, 48, 48, 48, 48, 48, 48, 51, 0] ++ [48, 48, 48, 48, 48, 48, 48, 48, 48, 48, 53, 0] ++
    List.replicate 364 0 ++ [1, 2, 3] ++ List.replicate 700 255

/-- The condition of C126 is met, and there is an entry. -/
example : (∀ p, (plainTar.drop p).take 13 ≠ [46, 47, 46, 47, 64, 76, 111, 110, 103, 76, 105, 110, 107]) ∧
    (Tar.nextEntry MMapStream.ops 2000 (Tar.new (MMapStream.new plainTar)) >>= fun p =>
      .ok (p.entry.isSome, p.info.size)) = .ok (true, 3) := by
  refine ⟨fun p => ?_, by decide +kernel⟩
  by_cases h : p < plainTar.length
  · exact (show ∀ p < plainTar.length, (plainTar.drop p).take 13 ≠ [46, 47, 46, 47, 64, 76, 111, 110, 103, 76, 105, 110, 107]
      by decide +kernel) p h
  · rw [List.drop_eq_nil_of_le (by omega)]; simp

/-- A `cpio` file with the entry `a` (5 bytes), an entry with a name of 0 bytes, and rubbish. -/
def plainCpio : List UInt8 :=
  cpioHeader [48, 48, 48, 48, 48, 48, 48, 53] [48, 48, 48, 48, 48, 48, 48, 50] ++ [97, 0] ++ [1, 2, 3, 4, 5, 0, 0, 0] ++
  cpioHeader [48, 48, 48, 48, 48, 48, 48, 48] [48, 48, 48, 48, 48, 48, 48, 48] ++ [0, 0] ++ List.replicate 200 7

/-- The condition of C127 is met, and there are entries. -/
example : CpioSpec.Sane plainCpio ∧
    (Cpio.nextEntry MMapStream.ops 2000 (Cpio.new (MMapStream.new plainCpio)) >>= fun p =>
      Cpio.nextEntry MMapStream.ops 2000 p >>= fun q =>
      .ok (p.info.size, q.entry.isSome, q.info.size)) = .ok (5, true, 0) := by
  refine ⟨fun p h1 h2 => ?_, by decide +kernel⟩
  have hp : p = 0 ∨ p = 120 :=
    (show ∀ p < 500, (plainCpio.drop p).take 6 = [48, 55, 48, 55, 48, 49] → p = 0 ∨ p = 120 by decide +kernel) p
      (by have : plainCpio.length < 500 := by decide +kernel
          omega) h1
  rcases hp with rfl | rfl
  · exact ⟨5, 2, ⟨rfl, by decide +kernel⟩, by omega, ⟨rfl, by decide +kernel⟩, by omega, by decide +kernel⟩
  · exact ⟨0, 0, ⟨rfl, by decide +kernel⟩, by omega, ⟨rfl, by decide +kernel⟩, by omega, by decide +kernel⟩

end Strigi.Props
