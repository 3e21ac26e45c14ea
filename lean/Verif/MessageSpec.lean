import Verif.Spec

/-!
# What `error()` is for

`error()` of a stream returns a text (streambase.h:78); it is empty as long as nothing was stored in it.
-/

namespace Strigi

/-- `Explains P err H`: a stream that says why it fails.  `err` is its `error()`; `H` holds for its states, whatever calls are
made.  Whenever a `read` fails (the result is below -1) and whenever the status is `Error`, the text is not empty. -/
structure Explains {σ α : Type} (P : StreamOps σ α) (err : σ → String) (H : σ → Prop) : Prop where
  read : ∀ {s s' mn mx n d}, H s → P.read s mn mx = .ok (s', n, d) → H s' ∧ (n < -1 → err s' ≠ "")
  skip : ∀ {s s' k r}, H s → P.skip s k = .ok (s', r) → H s'
  reset : ∀ {s s' q r}, H s → P.reset s q = .ok (s', r) → H s'
  error : ∀ {s}, H s → P.status s = .error → err s ≠ ""

end Strigi
