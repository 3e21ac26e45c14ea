import Verif.Proofs.SdfSafe

/-!
# Inputs inside of a file with known content
-/

namespace Strigi

variable {σ : Type} {P : StreamOps σ UInt8} {V : View σ} {c : List UInt8} {H : σ → Prop}

/-- What is delivered are bytes of `c`. -/
def View.Within (V : View σ) (c : List UInt8) : Prop := ∃ o : Int, ∀ p d, V.gives p d → 0 ≤ p + o ∧ d = slice c (p + o) d.length

theorem Robust.within : (Robust.view P c H).Within c :=
  ⟨0, fun p d h => by rw [Int.add_zero]; exact h⟩

theorem View.Within.part {τ : Type} {W : View τ} (h : V.Within c) (hw : ∃ o, ∀ q d, W.gives q d → V.gives (q + o) d) : W.Within c := by
  obtain ⟨o, h⟩ := h
  obtain ⟨u, hw⟩ := hw
  exact ⟨u + o, fun p d g => by rw [← Int.add_assoc]; exact h _ _ (hw p d g)⟩

/-- A part of what was delivered. -/
theorem take_drop_slice {d : List UInt8} {q : Int} (hd : d = slice c q d.length) {i k : Nat} (h : i + k ≤ d.length) :
    (d.drop i).take k = (c.drop (q.toNat + i)).take k := by
  rw [hd]
  unfold slice
  rw [List.drop_take, List.take_take, List.drop_drop]
  congr 1
  omega

/-- There is as much in `c`. -/
theorem slice_fits {d : List UInt8} {q : Int} (hd : d = slice c q d.length) (h : 0 < d.length) : q.toNat + d.length ≤ c.length := by
  have := congrArg List.length hd
  unfold slice at this
  rw [List.length_take, List.length_drop] at this
  omega

theorem Tar.within (h : V.Within c) (hc : ∀ p, (c.drop p).take 13 ≠ [46, 47, 46, 47, 64, 76, 111, 110, 103, 76, 105, 110, 107]) :
    ∀ p d, V.gives p d → d.take 13 ≠ Tar.longLink := by
  obtain ⟨o, h⟩ := h
  intro p d g e
  obtain ⟨_, hd⟩ := h p d g
  have hl := congrArg List.length e
  rw [List.length_take, show Tar.longLink.length = 13 from rfl] at hl
  have := take_drop_slice hd (i := 0) (k := 13) (by omega)
  rw [List.drop_zero, Nat.add_zero, e] at this
  exact hc _ this.symm

theorem Cpio.within (h : V.Within c) (hc : CpioSpec.Sane c) : Cpio.SaneV V := by
  obtain ⟨o, h⟩ := h
  intro p b g hl hm
  obtain ⟨hp, hb⟩ := h p b g
  have e0 := take_drop_slice hb (i := 0) (k := 6) (by omega)
  rw [List.drop_zero, Nat.add_zero, hm] at e0
  have hfit := slice_fits hb (by omega)
  obtain ⟨size, ns, f1, f2, f3, f4, f5⟩ := hc (p + o).toNat (by rw [← e0]; rfl) (by omega)
  rw [← take_drop_slice hb (by omega)] at f1 f3
  refine ⟨size, ns, f1, f2, f3, f4, fun b' g' hn h2 => ?_⟩
  obtain ⟨hp', hb'⟩ := h _ b' g'
  rw [show p + 110 + o = p + o + 110 by omega] at hb'
  have hl2 := congrArg List.length h2
  simp only [List.length_take, List.length_cons, List.length_nil] at hl2
  have e2 := take_drop_slice hb' (i := 0) (k := 2) (by omega)
  have e3 := take_drop_slice hb' (i := 0) (k := ns) (by omega)
  rw [List.drop_zero, Nat.add_zero, show (p + o + 110).toNat = (p + o).toNat + 110 by omega] at e2 e3
  rw [e3]
  exact f5 (by rw [← e2]; exact h2)

theorem Zip.within (h : V.Within c) (hc : ZipSpec.Sane c) : Zip.SaneV V := by
  obtain ⟨o, h⟩ := h
  intro p b g hl hm
  obtain ⟨hp, hb⟩ := h p b g
  have e0 := take_drop_slice hb (i := 0) (k := 4) (by omega)
  rw [List.drop_zero, Nat.add_zero, hm] at e0
  have hfit := slice_fits hb (by omega)
  have := hc (p + o).toNat e0.symm (by omega)
  rw [← take_drop_slice hb (by omega), ← take_drop_slice hb (by omega)] at this
  exact this

end Strigi
