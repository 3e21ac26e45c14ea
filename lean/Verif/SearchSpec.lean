/-!
# Specification of string search

Independent of any implementation.
-/

namespace Strigi

variable {α : Type}

/-- `q` occurs in `hay` at index `p`. -/
def OccursAt (q hay : List α) (p : Nat) : Prop := ∃ pre post, hay = pre ++ q ++ post ∧ pre.length = p

/-- `r` is the first occurrence of `q` in `hay` (`none`: there is none). -/
def IsFirst (q hay : List α) : Option Int → Prop
  | some p => 0 ≤ p ∧ OccursAt q hay p.toNat ∧ ∀ p' : Nat, (p' : Int) < p → ¬ OccursAt q hay p'
  | none => ∀ p', ¬ OccursAt q hay p'

/-- `q` has a border of length `n`: its first and its last `n` bytes agree. -/
def Border (q : List α) (n : Nat) : Prop := n < q.length ∧ q.take n = q.drop (q.length - n)

/-- A window of the text agrees with `q` right of index `i`, but not at `i`: it is possible that `q` occurs `t` bytes further to
the right. -/
def Fits (q : List α) (i t : Nat) : Prop :=
  (∀ k, k < q.length → i < k → t ≤ k → q[k - t]? = q[k]?) ∧ (t ≤ i → q[i - t]? ≠ q[i]?)

/-- `t` is the shift of the good-suffix rule of Boyer and Moore: the least one that fits. -/
def GoodShift (q : List α) (i t : Nat) : Prop := 1 ≤ t ∧ Fits q i t ∧ ∀ t', t' < t → 1 ≤ t' → ¬ Fits q i t'

/-- `l` is the last index at which `q` without its last byte has `c` (the bad-character rule). -/
def LastAt (q : List α) (c : Option α) (l : Nat) : Prop :=
  l < q.length - 1 ∧ q[l]? = c ∧ ∀ k, k < q.length - 1 → l < k → q[k]? ≠ c

/-- The query can be missed.  After a mismatch at `j` the window moves such that the first `u` bytes of the query (a border) are
known to match, and these have the period `t ≤ u`.  Then there is a mismatch at `i`, where the text has `q[i - t]`; so `q` may
occur `t` bytes further to the right.  But the bad-character rule gives more than both the good-suffix rule and the `turbo`
shift `u - (m - 1 - i)`, and the algorithm moves by at least `u + 1`. -/
def Slips (q : List α) : Prop :=
  ∃ u, u < q.length ∧ 0 < u ∧ (∃ j, j < q.length - u ∧ GoodShift q j (q.length - u)) ∧
    ∃ t, t < u + 1 ∧ 1 ≤ t ∧ (∀ k, k < u → t ≤ k → q[k - t]? = q[k]?) ∧
      ∃ i, i < q.length ∧ u ≤ i ∧ Fits q i t ∧
        ∃ l, l < q.length ∧ LastAt q q[i - t]? l ∧ u + l < q.length - 1 ∧ ∃ g, g < i - l ∧ GoodShift q i g

instance [DecidableEq α] (q : List α) (i t : Nat) : Decidable (Fits q i t) := by unfold Fits; infer_instance
instance [DecidableEq α] (q : List α) (i t : Nat) : Decidable (GoodShift q i t) := by unfold GoodShift; infer_instance
instance [DecidableEq α] (q : List α) (c : Option α) (l : Nat) : Decidable (LastAt q c l) := by unfold LastAt; infer_instance
instance [DecidableEq α] (q : List α) : Decidable (Slips q) := by unfold Slips; infer_instance

/-- `w` is the part of `d` before the first occurrence of `q`; all of `d` if `q` does not occur. -/
def BeforeFirst (q d w : List α) : Prop :=
  (∃ rest, d = w ++ q ++ rest ∧ ∀ p, p < w.length → ¬ OccursAt q d p) ∨
    (w = d ∧ ∀ p, ¬ OccursAt q d p)

end Strigi
