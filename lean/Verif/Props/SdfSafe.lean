import Verif.Proofs.SdfSafe
import Verif.Proofs.RobustStreams

/-!
# The reader of SD files on arbitrary bytes: C131
-/

namespace Strigi.Props

variable {σ : Type} {P : StreamOps σ UInt8} {c : List UInt8} {input : σ}

/-- **C131**: whatever the bytes of the file are (less than 2 GB), whatever a client does, and although a `reset` of the
input may be refused, `SdfInputStream` never touches memory outside of objects, fails an assertion or loops for ever;
and there are at most as many entries as delimiters of four bytes fit into the file. -/
theorem C131_sdf {H : σ → Prop} {lo : Int} (hlo : lo ≤ 1) (R : Robust P c lo H) (hi : H input) (hc : c.length < 2 ^ 31) (fuel : Nat)
    (hf : c.length + 1 < fuel) :
    ∀ n p, Visits (Sdf.ops P fuel) (Sdf.new input) n p → Smooth (Sdf.ops P fuel) p ∧ 4 * n ≤ c.length := by
  intro n p hv
  obtain ⟨h1, h2⟩ := (Sdf.tame (sharp := True) R.sturdy hlo (Or.inr fun _ => trivial) trivial (fun _ _ _ z w => z.resolve_left w) hc fuel hf).smooth
    R.sturdy hlo (fun _ => trivial) (Sdf.new_ok hi) hv
  exact ⟨h2, h1.count trivial⟩

/-- A file with two entries; of the second one the first byte is lost (C51). -/
def sdfSample : List UInt8 := [97, 10, 36, 36, 36, 36, 10, 13, 98, 99, 36, 36, 36, 36]

/-- A case that meets the hypotheses; three calls of `nextEntry()` present two entries and then the end. -/
example : (∃ H, Robust StringStream.ops sdfSample 1 H ∧ H (StringStream.new sdfSample)) ∧
    (do
      let p : Sdf.State (StringStream UInt8) ← Sdf.nextEntry StringStream.ops 20 (Sdf.new (StringStream.new sdfSample))
      let q ← Sdf.nextEntry StringStream.ops 20 p
      let r ← Sdf.nextEntry StringStream.ops 20 q
      .ok (p.entry.map SubInputStream.size, q.entry.map SubInputStream.size, r.entry.map SubInputStream.size, r.status)) = .ok (some 2, some 1, none, .eof) :=
  ⟨⟨_, StringStream.robust _ (by decide) 1, by simp [StringStream.new]⟩, by decide +kernel⟩

end Strigi.Props
