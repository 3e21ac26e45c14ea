import Verif.Model.MailText
import Verif.Model.Magic
import Verif.Model.Sdf

/-!
# Model of `SubStreamProviderProvider` (lib/substreamproviderprovider.cpp)
-/

namespace Strigi

namespace Sniff

/-- The class of the returned object. -/
inductive Kind
  | mail | zip | sdf
deriving DecidableEq, Repr

/-- substreamproviderprovider.cpp:41-54: the decision.  Line 41 prints four bytes of the header. -/
def decide' (header : List UInt8) (headersize : Int) : Res (Option Kind) := do
  let _ ← aget header 0
  let _ ← aget header 1
  let _ ← aget header 2
  let _ ← aget header 3
  if ← MailText.checkHeader header headersize then .ok (some .mail)
  else if ← Zip.checkHeader header headersize then .ok (some .zip)
  else if ← Sdf.checkHeader header headersize then .ok (some .sdf)
  else .ok none

/-- substreamproviderprovider.cpp:31-55.  The memory `header` points to is used after `reset`. -/
def subStreamProvider {σ : Type} (P : StreamOps σ UInt8) (input : σ) : Res (σ × Option Kind) := do
  let pos := P.position input
  let (input, headersize, header) ← P.read input 1024 0
  let (input, _) ← P.reset input pos
  if headersize ≤ 0 then .ok (input, none)
  else do
    let k ← decide' header headersize
    .ok (input, k)

end Sniff
end Strigi
