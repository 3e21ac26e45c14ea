import Verif.Model.DataEvent

/-!
# Specification of data events (dataeventinputstream.h:26-100)

A log is the list of the calls made on the handler.
-/

namespace Strigi

variable {α : Type}

/-- The items passed to `handleData`, in order. -/
def sentData : List (Event α) → List α
  | [] => []
  | .data d :: l => d ++ sentData l
  | .finished :: l => sentData l

/-- The handler has answered "no more" to one of the calls. -/
def Declined (h : Handler α) (log : List (Event α)) : Prop :=
  ∃ l1 d l2, log = l1 ++ .data d :: l2 ∧ h l1 d = false

/-- A log is right for the content `c`:
* what was sent is a prefix of the content: every item at most once and in order;
* after the handler has declined no data is sent;
* `handleEnd` is called at most once, and when it is called, all the content had been sent unless the
  handler has declined. -/
structure LogOk (h : Handler α) (c : List α) (log : List (Event α)) : Prop where
  sent : sentData log <+: c
  silent : ∀ l1 d l2, log = l1 ++ .data d :: l2 → h l1 d = false → sentData l2 = [] ∧ ∀ d, .data d ∉ l2
  once : ∀ l1 l2, log = l1 ++ .finished :: l2 → .finished ∉ l1 ∧ .finished ∉ l2
  complete : ∀ l1 l2, log = l1 ++ .finished :: l2 → ¬ Declined h l1 → sentData l1 = c ∧ l2 = []

end Strigi

namespace Strigi

/-- The largest position observed before, between and after the calls `l`, up to the first error. -/
def furthest {σ α : Type} (ops : StreamOps σ α) : σ → List Op → Int
  | s, [] => ops.position s
  | s, op :: l =>
    if ops.status s = .error then ops.position s
    else match op.exec ops s with
      | .ok s' => max (ops.position s) (furthest ops s' l)
      | _ => ops.position s

end Strigi
