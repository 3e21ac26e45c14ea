/-!
# Basic vocabulary of the libstreams model

* `Res` : the outcome of running a piece of C++ code: a value, a fault (failed `assert`,
  out-of-bounds access, other undefined behaviour) or divergence.
* `Status` : `enum StreamStatus` (include/strigi/streambase.h:32-36).
* `narrow32` : the C cast `(int32_t)x`.
-/

namespace Strigi

/-- Ways in which C++ code can go wrong.  They are outcomes of the model, not assumptions. -/
inductive Fault
  /-- an `assert(...)` fails -/
  | assertion
  /-- memory outside an object is read or written -/
  | outOfBounds
  /-- any other undefined behaviour (null pointer, signed overflow, …) -/
  | undefined
deriving DecidableEq, Repr

/-- Outcome of executing a function of the library. -/
inductive Res (α : Type) where
  | ok (a : α)
  | fault (f : Fault)
  | diverge
deriving DecidableEq, Repr

namespace Res

/-- Sequencing: a fault or divergence ends the execution. -/
def bind {α β : Type} : Res α → (α → Res β) → Res β
  | ok a, f => f a
  | fault e, _ => fault e
  | diverge, _ => diverge

instance : Monad Res where
  pure := ok
  bind := bind

@[simp] theorem pure_eq {α : Type} (a : α) : (pure a : Res α) = ok a := rfl
@[simp] theorem bind_ok {α β : Type} (a : α) (f : α → Res β) : (ok a >>= f) = f a := rfl
@[simp] theorem bind_fault {α β : Type} (e : Fault) (f : α → Res β) :
    (fault e >>= f) = fault e := rfl
@[simp] theorem bind_diverge {α β : Type} (f : α → Res β) :
    ((diverge : Res α) >>= f) = diverge := rfl

/-- `assert(b)` of `<cassert>`. -/
def assert (b : Bool) : Res Unit := if b then ok () else fault .assertion

@[simp] theorem assert_true : assert true = ok () := rfl
@[simp] theorem assert_false : assert false = fault .assertion := rfl
theorem assert_of {b : Bool} (h : b = true) : assert b = ok () := by simp [assert, h]

/-- the execution produces a value -/
def isOk {α : Type} : Res α → Prop
  | ok _ => True
  | _ => False

end Res

/-- include/strigi/streambase.h:32-36 `enum StreamStatus { Ok, Eof, Error }`. -/
inductive Status
  | ok | eof | error
deriving DecidableEq, Repr

/-- The C conversion `(int32_t)x` of a wider integer (two's complement narrowing). -/
def narrow32 (x : Int) : Int := Int.bmod x (2 ^ 32)

theorem narrow32_of_range {x : Int} (h0 : -(2 ^ 31) ≤ x) (h1 : x < 2 ^ 31) : narrow32 x = x := by
  unfold narrow32
  rw [Int.bmod_eq_of_le] <;> omega

/-- The contents of an array: `n` items of `c` from index `p` on. -/
def slice {α : Type} (c : List α) (p n : Int) : List α := (c.drop p.toNat).take n.toNat

theorem slice_length {α : Type} {c : List α} {p n : Int} (hp : 0 ≤ p) (hn : 0 ≤ n)
    (h : p + n ≤ c.length) : ((slice c p n).length : Int) = n := by
  unfold slice
  rw [List.length_take, List.length_drop]
  omega

theorem slice_append {α : Type} {c : List α} {p n m : Int} (hp : 0 ≤ p) (hn : 0 ≤ n) (hm : 0 ≤ m) :
    slice c p n ++ slice c (p + n) m = slice c p (n + m) := by
  unfold slice
  have h1 : (p + n).toNat = p.toNat + n.toNat := by omega
  have h2 : (n + m).toNat = n.toNat + m.toNat := by omega
  rw [h1, h2, ← List.drop_drop, List.take_add]

theorem slice_slice {α : Type} {c : List α} {o l p n : Int} (ho : 0 ≤ o) (hp : 0 ≤ p)
    (hn : 0 ≤ n) (h : p + n ≤ l) : slice (slice c o l) p n = slice c (o + p) n := by
  unfold slice
  have h1 : (o + p).toNat = o.toNat + p.toNat := by omega
  rw [h1, ← List.drop_drop, List.drop_take, List.take_take]
  congr 1
  omega

theorem slice_zero {α : Type} (c : List α) (p : Int) : slice c p 0 = [] := by simp [slice]

theorem slice_all {α : Type} (c : List α) : slice c 0 c.length = c := by simp [slice]

theorem slice_take {α : Type} {c : List α} {p n m : Int} (h : m ≤ n) :
    (slice c p n).take m.toNat = slice c p m := by
  unfold slice
  rw [List.take_take]
  congr 1
  omega

end Strigi
