import Verif.SafetySpec

/-!
# Inputs that fail

What an archive reader may rely on when its input meets a read error: the error is told, and it lasts.
-/

namespace Strigi

/-- `FailStop P H`: a stream whose failures show and last.  A `read` that delivers something (or nothing, but no negative number) leaves the
status different from `Error`; once the status is `Error`, no call changes that; and `reset` does not make an error out of nothing.  `H` holds
for the states of the stream. -/
structure FailStop {σ : Type} (P : StreamOps σ UInt8) (H : σ → Prop) : Prop where
  read : ∀ {s s' : σ} {mn mx n : Int} {d : List UInt8}, H s → P.read s mn mx = .ok (s', n, d) →
    H s' ∧ (0 ≤ n → P.status s' ≠ .error) ∧ (P.status s = .error → P.status s' = .error)
  skip : ∀ {s s' : σ} {k r : Int}, H s → P.skip s k = .ok (s', r) → H s' ∧ (P.status s = .error → P.status s' = .error)
  reset : ∀ {s s' : σ} {q r : Int}, H s → P.reset s q = .ok (s', r) → H s' ∧ (P.status s = .error ↔ P.status s' = .error)

/-- `TellsErrors A cur P p₀`: whatever a client does with the archive reader `A` (`cur p` is the state of the input): as long as the reader
says that the archive has ended, its input is not in error; and once the input is in error, the status of the reader is `Error` after the
next call of `nextEntry()`, which returns no entry (a reader whose status is not `Ok` does nothing in `nextEntry()`); the input stays in
error. -/
def TellsErrors {π ε σ : Type} (A : ProviderOps π ε) (cur : π → σ) (P : StreamOps σ UInt8) (p₀ : π) : Prop :=
  ∀ n p, Reach A p₀ n p → (A.status p = .eof → P.status (cur p) ≠ .error) ∧
    ∀ p', P.status (cur p) = .error → A.nextEntry p = .ok p' →
      A.status p' = .error ∧ (A.status p = .ok → A.entry p' = none) ∧ P.status (cur p') = .error

end Strigi
