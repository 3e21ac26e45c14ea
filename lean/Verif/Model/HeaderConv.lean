import Verif.Model.MailText
import Verif.CharsetSpec

/-!
# Model of the conversion of mail headers to UTF-8 (lib/mailinputstream.cpp:55-203) with the converters it keeps

In `Model/MailText` and `Model/Mail` the conversion `Decoder::decode` is a function of the name of the encoding and the bytes.  Here it is
modelled itself: a mail keeps one converter per encoding, which has a state.
-/

namespace Strigi

namespace MailText

/-- mailinputstream.cpp:55-69: `iconvs`, the state of the converter for each name that was used. (`buffer` is only memory.) -/
structure Decoder (τ : Type) where
  iconvs : List UInt8 → Option τ

variable {τ : Type}

/-- mailinputstream.cpp:59 -/
def Decoder.new : Decoder τ := ⟨fun _ => none⟩

/-- mailinputstream.cpp:73, and the change of a state by `iconv` -/
def Decoder.set (d : Decoder τ) (enc : List UInt8) (st : τ) : Decoder τ :=
  ⟨fun e => if e = enc then some st else d.iconvs e⟩

/-- mailinputstream.cpp:70-95: `Decoder::decode(enc, data)`, where `avail enc` is the conversion `iconv_open("UTF-8", enc)` stands for, if
there is one.  Lines 85-86: there is room for four times as many bytes.  (The number of steps of `iconv` is bounded as in `Model/Iconv`.) -/
def Decoder.decode (avail : List UInt8 → Option (Charset τ UInt8)) (d : Decoder τ) (enc data : List UInt8) : Decoder τ × List UInt8 :=
  match avail enc with
  | none => (d, data)
  | some cs =>
    let st := (d.iconvs enc).getD cs.init
    if 4 * data.length > 0 then
      match cs.iconv (2 * data.length + 2) st data (4 * data.length) with
      | (_, out, st, .done) => (d.set enc st, out)
      | (_, _, st, _) => (d.set enc st, data)
    else (d.set enc st, data)

/-- mailinputstream.cpp:169-186, as `decodeWord`, with the converters. -/
def decodeWordWith (avail : List UInt8 → Option (Charset τ UInt8)) (d : Decoder τ) (m : List UInt8) (s q1 q2 e : Int) :
    Res (Decoder τ × List UInt8) := do
  let c ← aget m q1
  let data := slice m q2 (e - q2)
  if c = 98 ∨ c = 66 then do
    let str ← if data = [] then Res.ok [] else Base64.decode data
    .ok (if isUtf8 (m.drop s.toNat) then (d, str) else d.decode avail (slice m s (q1 - s - 1)) str)
  else if c = 113 ∨ c = 81 then
    let str := decodeQuotedPrintable data
    .ok (if isUtf8 (m.drop s.toNat) then (d, str) else d.decode avail (slice m s (q1 - s - 1)) str)
  else .ok (d, [])

/-- The loop of mailinputstream.cpp:150-198, as `headerLoop`, with the converters. -/
def headerLoopWith (avail : List UInt8 → Option (Charset τ UInt8)) (m : List UInt8) (e : Int) :
    Nat → Decoder τ → (s p : Int) → List UInt8 → Res (Decoder τ × List UInt8)
  | 0, _, _, _, _ => .diverge
  | fuel + 1, d, s, p, decoded =>
    if s < e then do
      let c0 ← aget m s
      if ← wordStart m e s c0 then
        let q1 ← findMark m (e - (s + 2)).toNat (s + 2)
        let q2 ← findMark m (e - (q1 + 1)).toNat (q1 + 1)
        let stop ← findMark m (e - (q2 + 1)).toNat (q2 + 1)
        if ← wordEnd m e stop then
          let (d, str) ← decodeWordWith avail d m (s + 2) (q1 + 1) (q2 + 1) stop
          headerLoopWith avail m e fuel d (stop + 2) (stop + 2) (decoded ++ slice m p (s - p) ++ str)
        else headerLoopWith avail m e fuel d (s + 1) p decoded
      else if ← foldStart m e s c0 then
        headerLoopWith avail m e fuel d (s + 4) (s + 4) (decoded ++ slice m p (s - p))
      else headerLoopWith avail m e fuel d (s + 1) p decoded
    else if p < e then .ok (d, decoded ++ slice m p (e - p))
    else .ok (d, decoded)

/-- mailinputstream.cpp:141-203, as `decodedHeaderValue`, with the converters. -/
def decodedHeaderValueWith (avail : List UInt8 → Option (Charset τ UInt8)) (d : Decoder τ) (m : List UInt8) (len : Nat) :
    Res (Decoder τ × List UInt8) :=
  headerLoopWith avail m len (len + 1) d 0 0 []

end MailText
end Strigi
