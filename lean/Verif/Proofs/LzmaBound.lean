import Verif.Proofs.LzmaAll

/-!
# How much a sequence of bytes can stand for at most
-/

namespace Strigi
namespace LzmaDec

open Lzma

theorem tree_all {c : Nat → Ctx} : ∀ n node, All (fun v => v < (node + 1) * 2 ^ n) (tree c n node) := by
  intro n
  induction n with
  | zero => intro node; show node < (node + 1) * 2 ^ 0; omega
  | succ n ih =>
    intro node
    show ∀ b, All _ _
    intro b
    have e : (2 : Nat) ^ (n + 1) = 2 * 2 ^ n := by rw [Nat.pow_succ]; omega
    have h := All.bind (f := fun v => (pure v : Parse Ctx Nat)) (ih (2 * node + b.toNat)) (Q := fun v => v < (node + 1) * 2 ^ (n + 1)) (by
      intro a ha
      show a < _
      refine Nat.lt_of_lt_of_le ha ?_
      rw [e, ← Nat.mul_assoc]
      refine Nat.mul_le_mul_right _ ?_
      cases b <;> simp only [Bool.toNat_true, Bool.toNat_false] <;> omega)
    have e2 : ∀ p : Parse Ctx Nat, (p >>= fun v => (pure v : Parse Ctx Nat)) = p := by
      intro p
      show p.bind _ = p
      induction p with
      | done x => rfl
      | bit x k ih => show Parse.bit x _ = _; congr 1; funext b; exact ih b
      | plain k ih => show Parse.plain _ = _; congr 1; funext b; exact ih b
    rw [e2] at h
    exact h

theorem length_all (rep : Bool) (ps : Nat) : All (fun v => v ≤ 271) (Lzma.length rep ps) := by
  unfold Lzma.length
  intro b; dsimp only
  split
  · exact All.bind (tree_all _ _) (fun a ha => by show a - 8 ≤ 271; omega)
  · intro b; dsimp only
    split
    · exact All.bind (tree_all _ _) (fun a ha => by show a - 8 + 8 ≤ 271; omega)
    · exact All.bind (tree_all _ _) (fun a ha => by show a - 256 + 16 ≤ 271; omega)

/-- No symbol stands for more than 273 bytes. -/
def Short : Symbol → Prop
  | .copy len _ => len ≤ 271
  | .rep _ len => len ≤ 271
  | _ => True

theorem symbol_all (state ps ls : Nat) (m : Option Nat) : All Short (Lzma.symbol state ps ls m) := by
  unfold Lzma.symbol
  intro b; dsimp only
  split
  · exact All.bind (All.trivial _) (fun a _ => trivial)
  · intro b; dsimp only
    split
    · exact All.bind (length_all _ _) (fun a ha => All.bind (All.trivial _) (fun _ _ => ha))
    · intro b; dsimp only
      split
      · intro b; dsimp only
        split
        · trivial
        · exact All.bind (length_all _ _) (fun a ha => ha)
      · intro b; dsimp only
        split
        · exact All.bind (length_all _ _) (fun a ha => ha)
        · intro b; dsimp only
          exact All.bind (length_all _ _) (fun a ha => ha)

theorem step_length {P : Params} {s s' : State} {x x' : List UInt8} (h : s.step P x = .next s' x') : s'.past.length ≤ s.past.length + 273 := by
  rcases hr : run (s.parser P) s.probs ⟨s.range, s.code, x⟩ with _ | ⟨sym, probs, c⟩
  · unfold State.step at h
    rw [hr] at h
    simp at h
  · have hs : Short sym := run_all (symbol_all _ _ _ _) hr
    rw [step_eq hr] at h
    unfold State.apply recode at h
    cases sym with
    | literal b => cases h; simp only [List.length_cons]; omega
    | copy len dist =>
      have hs : len ≤ 271 := hs
      dsimp only at h
      split at h
      · cases h
      · split at h
        · cases h; simp only [repeatPast_length]; omega
        · cases h
    | shortRep =>
      dsimp only at h
      split at h
      · cases h
      · cases h; simp only [repeatPast_length]; omega
    | rep i len =>
      have hs : len ≤ 271 := hs
      dsimp only at h
      split at h
      · cases h
      · rcases i with _ | _ | _ | i <;> cases h <;> simp only [repeatPast_length] <;> omega

theorem arith {a b c u v : Nat} (h : u < v) (hl : a + b ≤ b + 273) (ih : c ≤ 273 * u) : a + c ≤ 273 * v := by omega

theorem begins_length {P : Params} (hP : POk P) {s : State} {x y : List UInt8} (h : Begins P s x y) (W : Wf P s) :
    y.length ≤ 273 * (x.length * 2 ^ 32 + s.range) := by
  induction h with
  | stop => simp
  | @next s s' x x' new y hs e _ ih =>
    have W' := (step_wf W hP hs).1
    have hw := step_weight W hs
    have hl := step_length hs
    have ih := ih W'
    rw [e] at hl
    simp only [List.length_append, List.length_reverse] at hl ⊢
    exact arith hw hl ih

theorem most_mono {m n : Nat} (h : m ≤ n) : most m ≤ most n := Nat.mul_le_mul_left _ (by omega)

theorem startsWith_length {P : Params} (hP : POk P) (hd : DicOk P) {x y : List UInt8} (h : StartsWith P x y) : y.length ≤ most x.length := by
  rcases h with rfl | ⟨hdr, code, w, rfl, hh, hb⟩
  · simp
  · have := begins_length hP hb (start_wf hd.low (header_code hh).1)
    unfold most
    rw [List.length_append]
    have e : (State.start code).range ≤ 2 ^ 32 := by show 2 ^ 32 - 1 ≤ 2 ^ 32; decide
    generalize (State.start code).range = r at *
    have : 273 * (w.length * 2 ^ 32 + r) ≤ 273 * (w.length * 2 ^ 32 + 2 ^ 32) := Nat.mul_le_mul_left _ (by omega)
    have e2 : 273 * 2 ^ 32 * (hdr.length + w.length + 1) = 273 * (w.length * 2 ^ 32 + 2 ^ 32) + 273 * 2 ^ 32 * hdr.length := by
      generalize (2 : Nat) ^ 32 = t
      simp only [Nat.mul_add, Nat.mul_one]
      rw [Nat.mul_comm w.length t, ← Nat.mul_assoc]
      omega
    omega

end LzmaDec
end Strigi
