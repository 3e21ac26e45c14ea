import Verif.Props.LzmaDec

/-!
# C115, the exception: data of known size at the very end of the input
-/

namespace Strigi.Props
open LzmaDec LzmaStream

/-- Read `n` times what the stream offers: the state, and all bytes. -/
def readTimes {σ : Type} (L : StreamOps σ UInt8) : Nat → σ → List UInt8 → Res (σ × List UInt8)
  | 0, s, got => .ok (s, got)
  | n + 1, s, got => do
    let r ← L.read s 1 0
    readTimes L n r.1 (got ++ r.2.2)

set_option maxRecDepth 1000000 in
/-- **C115** (refuted claim: a complete file of known size can be read to its end if nothing follows it): a valid file of 4097 bytes, `exSized` by
`exSized_stream`, is read in pieces of 250 bytes; after 4000 correct bytes the stream fails, because the last match, which is only partly
written, has used up the input.  (With the buffer of the real program the same happens if the last match crosses a multiple of 262144
bytes.) -/
theorem C115_pending_lost : (do
    let s ← LzmaStream.new StringStream.ops decoder (LzmaDec.init exParams) (StringStream.new (sizedHeader ++ exSized))
    let s ← BufferedStream.setMinBufSize { s with buf := StreamBuffer.empty } 250
    let L := LzmaStream.ops StringStream.ops decoder 100
    let r ← readTimes L 16 s []
    let q ← L.read r.1 1 0
    Res.ok (r.2 == exBytes.take 4000, q.2.1, q.1.status)) = .ok (true, -2, .error) := by decide +kernel

end Strigi.Props
