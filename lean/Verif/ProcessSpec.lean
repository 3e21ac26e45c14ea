import Verif.Spec
import Verif.Model.Process

/-!
# Specification of pipes and child processes

Assumptions about the machine behind the system calls, and the notions used in the theorems about
`ProcessInputStream`.
-/

namespace Strigi

variable {σ κ : Type}

/-- The bookkeeping of the child's standard input: `received k` are the bytes put into the pipe so far, `closed k`
tells whether the writing end has been closed. -/
structure Pipes.Lawful (E : Pipes κ) (received : κ → List UInt8) (closed : κ → Prop) : Prop where
  write : ∀ {k d k' m}, E.write k d = .ok (k', m) →
    m ≤ d.length ∧ received k' = received k ++ d.take m.toNat ∧ (closed k' ↔ closed k)
  read : ∀ {k space k' n d}, E.read k space = .ok (k', n, d) → received k' = received k ∧ (closed k' ↔ closed k)
  close : ∀ k, received (E.closeIn k) = received k ∧ closed (E.closeIn k)

/-- Writes that return have taken all bytes (as for blocking pipes without signals). -/
def Pipes.Whole (E : Pipes κ) : Prop := ∀ {k d k' m}, E.write k d = .ok (k', m) → m = d.length

/-- How an input answers when `read(b, 1, 0)` is called again and again, starting with status `Ok`: `chunks` are
what the calls return as long as the status is not `Eof` afterwards; `final` is what the last call returns, which
reports the end. -/
inductive Answers (P : StreamOps σ UInt8) : σ → (chunks : List (List UInt8)) → (final : List UInt8) → Prop
  | last {s s' : σ} {n : Int} {d : List UInt8} : P.status s = .ok → P.read s 1 0 = .ok (s', n, d) → P.status s' = .eof →
      Answers P s [] d
  | cons {s s' : σ} {n : Int} {d final : List UInt8} {chunks : List (List UInt8)} : P.status s = .ok →
      P.read s 1 0 = .ok (s', n, d) → 0 < n → n = d.length → P.status s' = .ok → Answers P s' chunks final →
      Answers P s (d :: chunks) final

/-- A child that delivers nothing before its standard input is closed, such as `sort`. -/
def Pipes.Waits (E : Pipes κ) (closed : κ → Prop) : Prop := ∀ k space, ¬ closed k → E.read k space = .diverge

/-- `R k out`: the child in state `k` is going to deliver `out`, and then ends.  What it delivers may not depend on
what it gets. -/
structure Pipes.Outputs (E : Pipes κ) (R : κ → List UInt8 → Prop) : Prop where
  read : ∀ {k out}, R k out → ∀ {space : Int}, 0 < space → ∃ k' n d, E.read k space = .ok (k', n, d) ∧
    ((0 < n ∧ n = d.length ∧ n ≤ space ∧ ∃ out', out = d ++ out' ∧ R k' out') ∨ (n = 0 ∧ out = []))
  write : ∀ {k out}, R k out → ∀ d, ∃ k' m, E.write k d = .ok (k', m) ∧ 0 ≤ m ∧ R k' out
  close : ∀ {k out}, R k out → R (E.closeIn k) out

end Strigi
