import Verif.Model.BufferedStream

/-!
# Specification of `fillBuffer` (bufferedstream.h:44-63)

What a subclass of `BufferedStream<T>` has to do.  This is an assumption of the theorems about
`BufferedStream`, and a theorem for the subclasses that are modelled.
-/

namespace Strigi

variable {φ α : Type}

/-- `R f rest m` means: in state `f` the producer has still to deliver exactly the items `rest`, and
will do so within `m` calls.  A call with some space stores a (possibly empty) prefix of `rest` that
fits into the space and returns its length; or, if nothing is left, returns a negative number; or, if it
may fail, sets the status to `Error` and returns a negative number — at once, or (last case) after
having delivered a prefix of the items (if that did not fill the space, the next call returns a negative
number). -/
structure Produces (P : Producer φ α) (mayFail : Prop) (R : φ → List α → Nat → Prop) : Prop where
  fuel : ∀ {f rest m}, R f rest m → m < P.fuel f
  step : ∀ {f rest m}, R f rest m → ∀ {space : Int}, 0 < space →
    ∃ f' r, P.fill f space = .ok (f', r) ∧
      ((r.error = false ∧ r.n = r.data.length ∧ r.n ≤ space ∧
          ∃ rest' m', rest = r.data ++ rest' ∧ m' < m ∧ R f' rest' m') ∨
        (r.error = false ∧ r.n < 0 ∧ r.data = [] ∧ rest = []) ∨
        (mayFail ∧ r.error = true ∧ r.n < 0 ∧ (r.data.length : Int) ≤ space) ∨
        (mayFail ∧ r.error = true ∧ r.n = r.data.length ∧ r.n ≤ space ∧ 0 < m ∧
          (∃ rest', rest = r.data ++ rest') ∧
          (r.n < space → ∀ space' : Int, 0 < space' →
            ∃ f'' r', P.fill f' space' = .ok (f'', r') ∧ r'.n < 0 ∧ r'.data = [])))

end Strigi
