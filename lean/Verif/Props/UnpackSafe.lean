import Verif.Proofs.ZipSafe
import Verif.Props.ArchiveSafe
import Verif.Props.Decompress

/-!
# Decompressing streams (C129) and the zip reader (C130) on arbitrary bytes
-/

namespace Strigi.Props

variable {σ ζ : Type} {P : StreamOps σ UInt8} {D : Decompressor ζ} {c : List UInt8} {input : σ} {H : σ → Prop} {lo : Int} {g : Nat} {w : ζ → Nat}

/-! ## C129 -/

/-- **C129**: whatever the bytes of the input are, a `GZipInputStream` (with or without looking for the magic number of
gzip) can be constructed, and then every call returns, also after an error; all that it ever delivers are parts of one
content, of at most `w D.init + g * c.length` bytes. -/
theorem C129_gzip (R : Robust P c lo H) (hlo : lo ≤ 1) (hi : H input) (hs : P.status input ≠ .error) (hD : Tidy D g w)
    (gzip : Bool) (N : Nat) (hN : 2 * (w D.init + (g + 1) * c.length) < N) :
    ∃ s G, GZip.new P D gzip input = .ok s ∧ Growing (GZip.ops P D N) (w D.init + g * c.length) G ∧ G [] s := by
  obtain ⟨s, e, h⟩ := GZip.new_any (D := D) (g := g) (w := w) R.sturdy hlo hi hs gzip hN (Nat.le_refl (w D.init + g * c.length))
  exact ⟨s, _, e, Unpack.runs_growing R.sturdy hlo hD true (Int.le_refl 0) N _, h⟩

/-- **C129** for `BZ2InputStream`. -/
theorem C129_bz2 (R : Robust P c lo H) (hlo : lo ≤ 1) (hi : H input) (hs : P.status input ≠ .error) (hD : Tidy D g w)
    (N : Nat) (hN : 2 * (w D.init + (g + 1) * c.length) < N) :
    ∃ s G, BZ2.new P D input = .ok s ∧ Growing (BZ2.ops P D N) (w D.init + g * c.length) G ∧ G [] s := by
  obtain ⟨s, e, h⟩ := BZ2.new_any (D := D) (g := g) (w := w) R.sturdy hlo hi hs hN (Nat.le_refl (w D.init + g * c.length))
  exact ⟨s, _, e, Unpack.runs_growing R.sturdy hlo hD false (Int.le_refl 0) N _, h⟩

/-! ## C130 -/

/-- **C130**: whatever the bytes of a file are, provided that no local file header in it has an empty name (C77) or tells
a size of 2 GB or more, and whatever a client does: `ZipInputStream` never touches memory outside of objects, fails an
assertion or loops for ever; and there are at most as many entries as headers of 30 bytes fit into the file. -/
theorem C130_zip (R : Robust P c lo H) (hlo : lo ≤ 1) (hi : H input) (hc : ZipSpec.Sane c) (hD : Tidy D g w)
    (mktime : TextUtils.Tm → Int) (N fuel : Nat) (hN : 2 * (w D.init + (g + 1) * c.length) < N)
    (hf : c.length + (w D.init + g * c.length) + 1 < fuel) :
    ∀ n p, Visits (Zip.ops P D mktime N fuel) (Zip.new input) n p →
      Smooth (Zip.ops P D mktime N fuel) p ∧ 30 * n ≤ c.length := by
  intro n p hv
  obtain ⟨h1, h2⟩ := ((Zip.nests hD R.sturdy hlo (Zip.within Robust.within hc) mktime hN (Nat.le_refl _) hf).tame (fun _ => trivial)).smooth (Zip.new_ok R.sturdy hi) hv
  exact ⟨h2, h1.bound⟩

/-! ## Examples -/

/-- The decompressor of the examples in Props/Decompress writes what it reads up to a NUL. -/
theorem stored_tidy : Tidy storedDecompressor 1 (fun _ => 0) := by
  intro z inp space hs
  have h1 : ((inp.takeWhile (· ≠ 0)).take space.toNat).length ≤ inp.length := by
    rw [List.length_take]
    have := (List.takeWhile_prefix (p := (· ≠ 0)) (l := inp)).length_le
    omega
  have h2 : (((inp.takeWhile (· ≠ 0)).take space.toNat).length : Int) ≤ space := by
    rw [List.length_take]; omega
  simp only [storedDecompressor]
  split
  · exact ⟨_, _, _, _, rfl, h1, h2, by omega⟩
  · split
    · rename_i h3
      exact ⟨_, _, _, _, rfl, by omega, h2, by omega⟩
    · exact ⟨_, _, _, _, rfl, h1, h2, by omega⟩

/-- Any file, mapped. -/
example (c : List UInt8) (gzip : Bool) (N : Nat) (hN : 4 * c.length < N) :
    ∃ s G, GZip.new MMapStream.ops storedDecompressor gzip (MMapStream.new c) = .ok s ∧
      Growing (GZip.ops MMapStream.ops storedDecompressor N) c.length G ∧ G [] s := by
  obtain ⟨H, R, hi⟩ := (C128_streams c 0).2.1
  have h := C129_gzip R (by omega) hi (by simp [MMapStream.ops, MMapStream.new]) stored_tidy gzip N (by simp; omega)
  simpa using h

/-- A zip file with a stored member `a` of 5 bytes, a deflated member `b` (4 bytes, 5 compressed ones), a streamed one
without a data descriptor, and rubbish. -/
def plainZip : List UInt8 :=
  [0x50, 0x4b, 3, 4, 20, 0, 0, 0, 0, 0, 0, 0, 0, 0, 0, 0, 0, 0, 5, 0, 0, 0, 5, 0, 0, 0, 1, 0, 0, 0, 97] ++ [1, 2, 3, 4, 5] ++
  [0x50, 0x4b, 3, 4, 20, 0, 0, 0, 8, 0, 0, 0, 0, 0, 0, 0, 0, 0, 5, 0, 0, 0, 4, 0, 0, 0, 1, 0, 0, 0, 98] ++ [1, 2, 3, 4, 0] ++
  [0x50, 0x4b, 3, 4, 20, 0, 8, 0, 8, 0, 0, 0, 0, 0, 0, 0, 0, 0, 0, 0, 0, 0, 0, 0, 0, 0, 1, 0, 0, 0, 99] ++ [1, 2, 0] ++
  List.replicate 10 255

/-- The condition of C130 is met, and there are three entries. -/
example : ZipSpec.Sane plainZip ∧
    (Zip.nextEntry MMapStream.ops storedDecompressor (fun t => t.tm_sec) 600 600 (Zip.new (MMapStream.new plainZip)) >>= fun p =>
      Zip.nextEntry MMapStream.ops storedDecompressor (fun t => t.tm_sec) 600 600 p >>= fun q =>
      .ok (p.info.size, q.info.size)) = .ok (5, 4) := by
  refine ⟨fun p h1 h2 => ?_, ?_⟩
  · exact (show ∀ p < 200, (plainZip.drop p).take 4 = [0x50, 0x4b, 0x03, 0x04] → p + 30 ≤ plainZip.length →
      Text.leValue ((plainZip.drop (p + 26)).take 2) ≠ 0 ∧ Text.leValue ((plainZip.drop (p + 22)).take 4) < 2 ^ 31 by decide +kernel) p
      (by have : plainZip.length < 200 := by decide +kernel
          omega) h1 h2
  · decide +kernel

end Strigi.Props
