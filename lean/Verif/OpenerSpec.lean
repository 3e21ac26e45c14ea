import Verif.Model.ArchiveReader

/-!
# Specification of several `StreamOpener`s
-/

namespace Strigi

open Reader (Opener)

/-- Of the values `f o` for `o` in the list `v` is the first that is something. -/
def FirstOf {α β : Type} (f : α → Option β) (os : List α) (v : β) : Prop :=
  ∃ pre o post, os = pre ++ o :: post ∧ f o = some v ∧ ∀ p ∈ pre, f p = none

/-- `fs` opens and tells about what one of the openers does: the first one that can. -/
structure ActsAs (os : List Opener) (fs : Opener) : Prop where
  opened : ∀ url c, fs.openStream url = some c ↔ FirstOf (fun o => o.openStream url) os c
  told : ∀ url e, fs.stat url = some e ↔ FirstOf (fun o => o.stat url) os e

/-- An opener that knows what it can open, and opens what it says to be a file. -/
structure Honest (o : Opener) : Prop where
  known : ∀ url, o.openStream url ≠ none → o.stat url ≠ none
  kept : ∀ url e, o.stat url = some e → e.isFile = true → o.openStream url ≠ none

/-- No two openers of the list know the same url. -/
def Apart (os : List Opener) : Prop :=
  os.Pairwise fun o o' => ∀ url, (o.openStream url = none ∧ o.stat url = none) ∨ (o'.openStream url = none ∧ o'.stat url = none)

end Strigi
