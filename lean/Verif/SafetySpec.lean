import Verif.ArchiveSpec

/-!
# Specification of safety on arbitrary inputs

Nothing is assumed about what the input contains: whatever a client does, no call touches memory outside of objects,
fails an assertion or loops for ever.
-/

namespace Strigi

/-- The call returns, or its outcome is undefined behaviour other than an access outside of an object (in the code
that is meant: an overflow of a signed number). -/
def Sound {α : Type} (r : Res α) : Prop := r ≠ .fault .outOfBounds ∧ r ≠ .fault .assertion ∧ r ≠ .diverge

/-- `Reach A p₀ n p`: a client that calls `nextEntry()` and the functions of the entry streams in any order brought
the provider from `p₀` to `p`; `n` calls of `nextEntry()` returned a stream. -/
inductive Reach {π ε : Type} (A : ProviderOps π ε) (p₀ : π) : Nat → π → Prop
  | start : Reach A p₀ 0 p₀
  | next {n : Nat} {p p' : π} {e : ε} : Reach A p₀ n p → A.nextEntry p = .ok p' → A.entry p' = some e → Reach A p₀ (n + 1) p'
  | last {n : Nat} {p p' : π} : Reach A p₀ n p → A.nextEntry p = .ok p' → A.entry p' = none → Reach A p₀ n p'
  | read {n : Nat} {p : π} {e e' : ε} {mn mx k : Int} {d : List UInt8} : Reach A p₀ n p → A.entry p = some e → 1 ≤ mn →
      A.stream.read e mn mx = .ok (e', k, d) → Reach A p₀ n (A.setEntry p e')
  | skip {n : Nat} {p : π} {e e' : ε} {k r : Int} : Reach A p₀ n p → A.entry p = some e → 0 ≤ k →
      A.stream.skip e k = .ok (e', r) → Reach A p₀ n (A.setEntry p e')
  | reset {n : Nat} {p : π} {e e' : ε} {q r : Int} : Reach A p₀ n p → A.entry p = some e → 0 ≤ q →
      A.stream.reset e q = .ok (e', r) → Reach A p₀ n (A.setEntry p e')

/-- All calls that are possible in a state are sound. -/
def AllSound {π ε : Type} (A : ProviderOps π ε) (p : π) : Prop :=
  Sound (A.nextEntry p) ∧ ∀ e, A.entry p = some e →
    (∀ mn mx, 1 ≤ mn → Sound (A.stream.read e mn mx)) ∧ (∀ k, 0 ≤ k → Sound (A.stream.skip e k)) ∧
      ∀ q, 0 ≤ q → Sound (A.stream.reset e q)

/-! ## Inputs that may be used in any way -/

/-- `Robust P c lo H`: a stream over the content `c` whose calls return, whatever the arguments (for `read` numbers of
32 bits of which the first is at least `lo`, for `skip` and `reset` numbers that are not negative), also after an
error; `H` holds for its states.  Once the status is `Error` it stays so and nothing more is delivered. -/
structure Robust {σ : Type} (P : StreamOps σ UInt8) (c : List UInt8) (lo : Int) (H : σ → Prop) : Prop where
  range : ∀ {s : σ}, H s → P.status s ≠ .error → 0 ≤ P.position s ∧ P.position s ≤ c.length
  read : ∀ {s : σ}, H s → ∀ mn mx : Int, lo ≤ mn → mn < 2 ^ 31 → ∃ s' n d, P.read s mn mx = .ok (s', n, d) ∧ H s' ∧
    (P.status s = .error → n < 0 ∧ P.status s' = .error) ∧
    (1 ≤ mn → mn ≤ mx → n ≤ mx ∧ (n < mn → P.status s' ≠ .ok)) ∧
    (0 ≤ n → P.status s' ≠ .error ∧ d = slice c (P.position s) n ∧ P.position s' = P.position s + n ∧
      (mn ≤ mx ∨ mx < 1 → n < mn → P.position s' = c.length)) ∧
    (n < 0 → P.status s' = .error ∨ P.position s' = P.position s)
  short : ∀ {s s' : σ} {mn mx n : Int} {d : List UInt8}, H s → 1 ≤ mn → mn < 2 ^ 31 → mn ≤ mx ∨ mx < 1 →
    P.read s mn mx = .ok (s', n, d) → n < mn → P.status s' ≠ .ok ∧ (P.status s' = .error ∨ P.position s' = c.length)
  skip : ∀ {s : σ}, H s → ∀ k : Int, 0 ≤ k → ∃ s' r, P.skip s k = .ok (s', r) ∧ H s' ∧
    (P.status s = .error → P.status s' = .error) ∧
    (P.status s' ≠ .error → r ≤ k ∧ P.position s' = P.position s + max r 0 ∧
      (r ≤ 0 → 0 < k → P.position s = c.length)) ∧
    (P.status s ≠ .error → k ≤ r → P.status s' ≠ .error)
  reset : ∀ {s : σ}, H s → ∀ q : Int, 0 ≤ q → ∃ s' r, P.reset s q = .ok (s', r) ∧ H s' ∧
    (P.status s = .error → P.status s' = .error ∧ r < 0) ∧
    (P.status s ≠ .error → P.status s' ≠ .error ∧ P.position s' = r ∧
      (r = q ∨ r = P.position s ∨ (c.length < q ∧ r = c.length)))

/-- `Growing P T H`: a stream whose content becomes known while it is read, at most `T` bytes; `H c s` says that in
state `s` it begins with `c`.  Every call (`read` with a positive minimum; `skip` and `reset` with numbers that are
not negative) returns, also after an error.  What was known of the content stays so (`c <+: c'`): all bytes that are
ever delivered are those of one content.  A `read` that delivers less than the minimum has met the end or an error. -/
structure Growing {σ : Type} (P : StreamOps σ UInt8) (T : Nat) (H : List UInt8 → σ → Prop) : Prop where
  range : ∀ {c : List UInt8} {s : σ}, H c s → P.status s ≠ .error → 0 ≤ P.position s ∧ P.position s ≤ c.length ∧ c.length ≤ T
  read : ∀ {c : List UInt8} {s : σ}, H c s → ∀ mn mx : Int, 1 ≤ mn → ∃ s' n d c', P.read s mn mx = .ok (s', n, d) ∧
    c <+: c' ∧ H c' s' ∧
    (P.status s = .error → n < 0 ∧ P.status s' = .error) ∧ (P.status s = .eof → n < 0 ∧ P.status s' = .eof) ∧
    (mn ≤ mx → n ≤ mx) ∧ (n < mn → P.status s' ≠ .ok) ∧
    (0 ≤ n → P.status s' ≠ .error ∧ d = slice c' (P.position s) n ∧ P.position s' = P.position s + n) ∧
    (n < 0 → P.status s' = .error ∨ P.position s' = P.position s)
  skip : ∀ {c : List UInt8} {s : σ}, H c s → ∀ k : Int, 0 ≤ k → ∃ s' r c', P.skip s k = .ok (s', r) ∧ c <+: c' ∧ H c' s' ∧
    (P.status s = .error → P.status s' = .error) ∧ (P.status s = .eof → P.status s' = .eof ∧ r = 0) ∧
    (P.status s' ≠ .error → 0 ≤ r ∧ r ≤ k ∧ P.position s' = P.position s + r ∧ (r < k → P.status s' = .eof)) ∧
    (P.status s ≠ .error → k ≤ r → P.status s' ≠ .error)
  reset : ∀ {c : List UInt8} {s : σ}, H c s → ∀ q : Int, 0 ≤ q → ∃ s' r, P.reset s q = .ok (s', r) ∧ H c s' ∧
    (P.status s = .error → P.status s' = .error ∧ r < 0) ∧
    (P.status s ≠ .error → P.status s' ≠ .error ∧ P.position s' = r ∧ (r = q ∨ (r = P.position s ∧ s' = s)))

/-- `VisitsBy ok A p₀ n p`: a client that calls `nextEntry()` and, in any order, `read` with a minimum and a maximum as `ok` says, `skip`
forwards and `reset` inside of the entry (or anywhere while its size is unknown) on the entry streams, whatever the results, brings the provider
from `p₀` to `p`; `n` calls of `nextEntry()` returned a stream. -/
inductive VisitsBy (ok : Int → Int → Prop) {π ε : Type} (A : ProviderOps π ε) (p₀ : π) : Nat → π → Prop
  | start : VisitsBy ok A p₀ 0 p₀
  | next {n : Nat} {p p' : π} {e : ε} : VisitsBy ok A p₀ n p → A.nextEntry p = .ok p' → A.entry p' = some e →
      VisitsBy ok A p₀ (n + 1) p'
  | last {n : Nat} {p p' : π} : VisitsBy ok A p₀ n p → A.nextEntry p = .ok p' → A.entry p' = none → VisitsBy ok A p₀ n p'
  | read {n : Nat} {p : π} {e e' : ε} {mn mx k : Int} {d : List UInt8} : VisitsBy ok A p₀ n p → A.entry p = some e → ok mn mx →
      A.stream.read e mn mx = .ok (e', k, d) → VisitsBy ok A p₀ n (A.setEntry p e')
  | skip {n : Nat} {p : π} {e e' : ε} {k r : Int} : VisitsBy ok A p₀ n p → A.entry p = some e → 0 ≤ k →
      A.stream.skip e k = .ok (e', r) → VisitsBy ok A p₀ n (A.setEntry p e')
  | reset {n : Nat} {p : π} {e e' : ε} {q r : Int} : VisitsBy ok A p₀ n p → A.entry p = some e → 0 ≤ q → A.stream.size e = -1 ∨ q ≤ A.stream.size e →
      A.stream.reset e q = .ok (e', r) → VisitsBy ok A p₀ n (A.setEntry p e')

/-- All those calls return: nothing outside of objects is touched, no assertion fails, nothing loops for ever. -/
def SmoothBy (ok : Int → Int → Prop) {π ε : Type} (A : ProviderOps π ε) (p : π) : Prop :=
  (∃ p', A.nextEntry p = .ok p') ∧ ∀ e, A.entry p = some e →
    (∀ mn mx, ok mn mx → ∃ r, A.stream.read e mn mx = .ok r) ∧
    (∀ k, 0 ≤ k → ∃ r, A.stream.skip e k = .ok r) ∧
    ∀ q, 0 ≤ q → A.stream.size e = -1 ∨ q ≤ A.stream.size e → ∃ r, A.stream.reset e q = .ok r

/-- A `read` with a positive minimum (a number of 32 bits) and any maximum. -/
def AnyRead (mn _mx : Int) : Prop := 1 ≤ mn ∧ mn < 2 ^ 31

/-- A `read` with a positive minimum of at most 1 GB, and no maximum or one that is not below the minimum. -/
def MildRead (mn mx : Int) : Prop := 1 ≤ mn ∧ mn ≤ 2 ^ 30 ∧ (mx = 0 ∨ mn ≤ mx)

/-- A client that reads in any way. -/
abbrev Visits {π ε : Type} (A : ProviderOps π ε) (p₀ : π) : Nat → π → Prop := VisitsBy AnyRead A p₀

/-- All calls of such a client return. -/
abbrev Smooth {π ε : Type} (A : ProviderOps π ε) (p : π) : Prop := SmoothBy AnyRead A p

/-- `Rewinds P H W`: in which cases a `reset` is not refused.  `W s a b` says that the stream in state `s` can go to every position from `a`
to `b`; this is so for the bytes that the last `read` delivered, and `reset` does not change it. -/
structure Rewinds {σ : Type} (P : StreamOps σ UInt8) (H : σ → Prop) (W : σ → Int → Int → Prop) : Prop where
  read : ∀ {s s' : σ} {mn mx n : Int} {d : List UInt8}, H s → 1 ≤ mn → P.read s mn mx = .ok (s', n, d) →
    W s' (P.position s) (P.position s')
  reset : ∀ {s s' : σ} {a b q r : Int}, H s → W s a b → a ≤ q → q ≤ b → P.reset s q = .ok (s', r) → r = q ∧ W s' a b

end Strigi
