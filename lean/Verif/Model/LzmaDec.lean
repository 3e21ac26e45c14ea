import Verif.Base
import Verif.LzmaSpec
import Verif.LzmaFormat

/-!
# Model of the LZMA decoder (lib/lzma/LzmaDec.c)

Everything that `LZMAInputStream` uses: `LzmaDec_Allocate`, `LzmaDec_Init` and `LzmaDec_DecodeToBuf` with all they call.  Not
modelled: `malloc` and `free`, and the one-call interface `LzmaDecode`, which nobody calls.

* Numbers are natural; where a C expression of type `UInt32` (or `unsigned`) could wrap it is reduced modulo 2^32.  `SizeT`
  does not wrap.
* The control flow of the code that reads bits is a tree (`Prog`) whose nodes are the macros `IF_BIT_0` with `UPDATE_0` and
  `UPDATE_1` (a node of kind `bit`; the number is the index into `probs`) and the reading of a bit without a probability
  (`plain`); the interpretation `exec` models the macros as `LzmaDec_DecodeReal` uses them, `execCheck` the macros ending in
  `_CHECK` that `LzmaDec_TryDummy` uses.  Functions that read bits get the rest of the program as their last argument.
* `buf` is the list of the bytes between the pointer `buf` and the end of the input; reading more is a fault.
* `probs` and `dic` are functions of the index; accesses are checked.
-/

namespace Strigi
namespace LzmaDec

open Lzma (Parse Params)

/-- The conversion to `UInt32`. -/
def u32 (x : Int) : Nat := (x % 2 ^ 32).toNat

/-! ## The range decoder -/

/-- A program that reads bits. -/
abbrev Prog (α : Type) := Parse Nat (Res α)

/-- What the macros work on: `range`, `code`, `buf` and `probs`. -/
structure Rc where
  range : Nat
  code : Nat
  buf : List UInt8
  probs : Nat → Nat

/-- Write `probs[i] = v`. -/
def setProb (probs : Nat → Nat) (i v : Nat) : Nat → Nat := fun j => if j = i then v else probs j

/-- LzmaDec.c:17: `NORMALIZE`.  (`x << 8 | b` is `256 x + b`.) -/
def normalize (m : Rc) : Res Rc :=
  if m.range < 2 ^ 24 then
    match m.buf with
    | [] => .fault .outOfBounds
    | b :: t => .ok { m with range := u32 (m.range * 256), code := u32 (m.code * 256 + b.toNat), buf := t }
  else .ok m

/-- LzmaDec.c:19-25: `IF_BIT_0`, `UPDATE_0`, `UPDATE_1`, `GET_BIT2`; 330-341: a bit without a probability.  There are `n`
probabilities. -/
def exec {α : Type} (n : Nat) : Prog α → Rc → Res (α × Rc)
  | .done r, m => do
    let a ← r
    .ok (a, m)
  | .bit i k, m =>
    if i < n then do
      let m ← normalize m
      let ttt := m.probs i
      let bound := u32 (m.range / 2048 * ttt)
      if m.code < bound then
        exec n (k false) { m with range := bound, probs := setProb m.probs i ((ttt + u32 (2048 - ttt) / 32) % 2 ^ 16) }
      else
        exec n (k true) { m with range := u32 (m.range - bound), code := u32 (m.code - bound), probs := setProb m.probs i ((ttt - ttt / 32) % 2 ^ 16) }
    else .fault .outOfBounds
  | .plain k, m => do
    let m ← normalize m
    let range := m.range / 2
    let code := u32 (m.code - range)
    if code / 2 ^ 31 = 0 then exec n (k true) { m with range := range, code := code }
    else exec n (k false) { m with range := range, code := u32 (code + range) }

/-- LzmaDec.c:47: `NORMALIZE_CHECK`; `none` is `return DUMMY_ERROR`. -/
def normalizeCheck (m : Rc) : Option Rc :=
  if m.range < 2 ^ 24 then
    match m.buf with
    | [] => none
    | b :: t => some { m with range := u32 (m.range * 256), code := u32 (m.code * 256 + b.toNat), buf := t }
  else some m

/-- LzmaDec.c:49-55: `IF_BIT_0_CHECK`, `UPDATE_0_CHECK`, `UPDATE_1_CHECK`, `GET_BIT2_CHECK`; 658-664: a bit without a
probability (where both branches of the program are the same). -/
def execCheck {α : Type} (n : Nat) : Prog α → Rc → Res (Option (α × Rc))
  | .done r, m => do
    let a ← r
    .ok (some (a, m))
  | .bit i k, m =>
    if i < n then
      match normalizeCheck m with
      | none => .ok none
      | some m =>
        let ttt := m.probs i
        let bound := u32 (m.range / 2048 * ttt)
        if m.code < bound then execCheck n (k false) { m with range := bound }
        else execCheck n (k true) { m with range := u32 (m.range - bound), code := u32 (m.code - bound) }
    else .fault .outOfBounds
  | .plain k, m =>
    match normalizeCheck m with
    | none => .ok none
    | some m =>
      let range := m.range / 2
      if u32 (m.code - range) / 2 ^ 31 = 0 then execCheck n (k true) { m with range := range, code := u32 (m.code - range) }
      else execCheck n (k false) { m with range := range }

/-! ## The layout of `probs` (LzmaDec.c:60-108) -/

/-- LzmaDec.c:70-75 -/
def LenChoice : Nat := 0
def LenChoice2 : Nat := LenChoice + 1
def LenLow : Nat := LenChoice2 + 1
def LenMid : Nat := LenLow + 16 * 8
def LenHigh : Nat := LenMid + 16 * 8
def kNumLenProbs : Nat := LenHigh + 256
/-- LzmaDec.c:94-105 -/
def IsMatch : Nat := 0
def IsRep : Nat := IsMatch + 12 * 16
def IsRepG0 : Nat := IsRep + 12
def IsRepG1 : Nat := IsRepG0 + 12
def IsRepG2 : Nat := IsRepG1 + 12
def IsRep0Long : Nat := IsRepG2 + 12
def PosSlot : Nat := IsRep0Long + 12 * 16
def SpecPos : Nat := PosSlot + 4 * 64
def Align : Nat := SpecPos + 128 - 14
def LenCoder : Nat := Align + 16
def RepLenCoder : Nat := LenCoder + kNumLenProbs
def Literal : Nat := RepLenCoder + kNumLenProbs
/-- LzmaDec.c:92 -/
def kMatchSpecLenStart : Nat := 2 + 8 + 8 + 256

/-! ## The state -/

/-- LzmaDec.h:53-72: `CLzmaDec`.  `nprobs` is the number of elements of `probs` that have been written; `dic` has `dicBufSize`
elements, of which those that have not been written are `none`; `temp` is `tempBuf` up to `tempBufSize`. -/
structure Dec where
  prop : Params
  nprobs : Nat
  probs : Nat → Nat
  dic : Nat → Option UInt8
  dicBufSize : Nat
  range : Nat
  code : Nat
  dicPos : Nat
  processedPos : Nat
  checkDicSize : Nat
  state : Nat
  rep0 : Nat
  rep1 : Nat
  rep2 : Nat
  rep3 : Nat
  remainLen : Nat
  needFlush : Bool
  needInitState : Bool
  temp : List UInt8

/-- `dic[i]` -/
def dicGet (p : Dec) (i : Int) : Res UInt8 :=
  if 0 ≤ i ∧ i < p.dicBufSize then
    match p.dic i.toNat with
    | some b => .ok b
    | none => .fault .undefined
  else .fault .outOfBounds

/-- `dic[i] = b` -/
def dicSet (p : Dec) (i : Nat) (b : UInt8) : Res Dec :=
  if i < p.dicBufSize then .ok { p with dic := fun j => if j = i then some b else p.dic j } else .fault .outOfBounds

/-- LzmaDec.c:183, 227, 391, 455, 531: the place of the byte `rep0` bytes ago. -/
def backIndex (p : Dec) (rep0 : Nat) : Int := (p.dicPos : Int) - rep0 + (if p.dicPos < rep0 then p.dicBufSize else 0)

/-! ## A symbol -/

/-- A step that may fail, then the rest of the program. -/
def lift {α β : Type} : Res α → (α → Prog β) → Prog β
  | .ok a, k => k a
  | .fault f, _ => .done (.fault f)
  | .diverge, _ => .done .diverge

/-- LzmaDec.c:28-29 `TREE_DECODE` without the subtraction, 179, 526: the loop `do { GET_BIT(prob + i, i) } while (i < limit)`. -/
def treeLoop {α : Type} (prob limit : Nat) : Nat → Nat → (Nat → Prog α) → Prog α
  | 0, _, _ => .done .diverge
  | n + 1, i, k => .bit (prob + i) fun b =>
    let i := i + i + b.toNat
    if i < limit then treeLoop prob limit n i k else k i

/-- LzmaDec.c:184-195, 533-543: a literal after a match. -/
def matchedLoop {α : Type} (prob : Nat) : Nat → Nat → Nat → Nat → (Nat → Prog α) → Prog α
  | 0, _, _, _, _ => .done .diverge
  | n + 1, symbol, offs, matchByte, k =>
    let matchByte := matchByte * 2
    let bit := matchByte &&& offs
    .bit (prob + offs + bit + symbol) fun b =>
      let symbol := symbol + symbol + b.toNat
      let offs := if b then offs &&& bit else offs &&& (bit ^^^ (2 ^ 32 - 1))
      if symbol < 0x100 then matchedLoop prob n symbol offs matchByte k else k symbol

/-- LzmaDec.c:172-175, 517-521: where the probabilities of a literal begin. -/
def litProb {α : Type} (p : Dec) (k : Nat → Prog α) : Prog α :=
  if p.checkDicSize ≠ 0 ∨ p.processedPos ≠ 0 then
    lift (dicGet p ((if p.dicPos = 0 then p.dicBufSize else p.dicPos) - 1 : Int)) fun b =>
      k (Literal + 768 * (((p.processedPos &&& (2 ^ p.prop.lp - 1)) <<< p.prop.lc) + (b.toNat >>> (8 - p.prop.lc))))
  else k Literal

/-- LzmaDec.c:169-195, 513-543: a literal. -/
def literal {α : Type} (p : Dec) (k : Nat → Prog α) : Prog α :=
  litProb p fun prob =>
    if p.state < 7 then treeLoop prob 0x100 8 1 k
    else lift (dicGet p (backIndex p p.rep0)) fun m => matchedLoop prob 8 1 0x100 m.toNat k

/-- LzmaDec.c:268-299, 605-636: a length. -/
def length {α : Type} (prob posState : Nat) (k : Nat → Prog α) : Prog α :=
  .bit (prob + LenChoice) fun b =>
    if b = false then treeLoop (prob + LenLow + posState * 8) 8 3 1 fun len => k (len - 8 + 0)
    else .bit (prob + LenChoice2) fun b =>
      if b = false then treeLoop (prob + LenMid + posState * 8) 8 3 1 fun len => k (len - 8 + 8)
      else treeLoop (prob + LenHigh) 256 8 1 fun len => k (len - 256 + (8 + 8))

/-- LzmaDec.c:316-325: the loop; 355-359: the same four times without a loop. -/
def specLoop {α : Type} (prob : Nat) : Nat → Nat → Nat → Nat → (Nat → Prog α) → Prog α
  | 0, _, _, _, _ => .done .diverge
  | n + 1, i, mask, distance, k => .bit (prob + i) fun b =>
    let distance := if b then distance ||| mask else distance
    if n ≠ 0 then specLoop prob n (i + i + b.toNat) (mask * 2) distance k else k distance

/-- LzmaDec.c:330-351: the loop that reads bits without probabilities. -/
def directLoop {α : Type} : Nat → Nat → (Nat → Prog α) → Prog α
  | 0, _, _ => .done .diverge
  | n + 1, distance, k => .plain fun b =>
    let distance := u32 (distance * 2 + b.toNat)
    if n ≠ 0 then directLoop n distance k else k distance

/-- LzmaDec.c:303-366: a distance. -/
def distance {α : Type} (len : Nat) (k : Nat → Prog α) : Prog α :=
  treeLoop (PosSlot + (if len < 4 then len else 4 - 1) * 64) 64 6 1 fun i =>
    let slot := i - 0x40
    if slot ≥ 4 then
      let numDirectBits := slot / 2 - 1
      let d := 2 ||| (slot &&& 1)
      if slot < 14 then
        let d := d <<< numDirectBits
        specLoop (SpecPos + d - slot - 1) numDirectBits 1 1 d k
      else
        directLoop (numDirectBits - 4) d fun d => specLoop Align 4 1 1 (u32 (d * 16)) k
    else k slot

/-- What remains to be done when the bits of a symbol have been read. -/
inductive Act
  /-- lines 196-201 -/
  | literal (symbol : Nat)
  /-- lines 227-231 -/
  | short
  /-- lines 361-365, with the value of `len` -/
  | finished (len : Nat)
  /-- lines 384-416, with the values of `state`, `rep0` … `rep3` and `len` -/
  | copy (state rep0 rep1 rep2 rep3 len : Nat)
  /-- `return SZ_ERROR_DATA` (lines 218, 376, 379) -/
  | bad
deriving DecidableEq, Repr

/-- LzmaDec.c:267-384: from the length on. -/
def lengthAndDistance (p : Dec) (prob posState state rep0 rep1 rep2 rep3 : Nat) : Prog Act :=
  length prob posState fun len =>
    if state ≥ 12 then
      distance len fun d =>
        if d = 0xFFFFFFFF then .done (.ok (.finished (len + kMatchSpecLenStart)))
        else if (if p.checkDicSize = 0 then d ≥ p.processedPos else d ≥ p.checkDicSize) then .done (.ok .bad)
        else .done (.ok (.copy (if state < 12 + 7 then 7 else 7 + 3) (u32 (d + 1)) rep0 rep1 rep2 (len + 2)))
    else .done (.ok (.copy state rep0 rep1 rep2 rep3 (len + 2)))

/-- LzmaDec.c:159-384: the bits of a symbol.  (`distance == 0xFFFFFFFF` is tested at line 361 only; after the branches at 304 and
312 it does not hold.) -/
def symbol (p : Dec) : Prog Act :=
  let posState := p.processedPos &&& (2 ^ p.prop.pb - 1)
  .bit (IsMatch + p.state * 16 + posState) fun b =>
    if b = false then literal p fun s => .done (.ok (.literal s))
    else .bit (IsRep + p.state) fun b =>
      if b = false then lengthAndDistance p LenCoder posState (p.state + 12) p.rep0 p.rep1 p.rep2 p.rep3
      else if p.checkDicSize = 0 ∧ p.processedPos = 0 then .done (.ok .bad)
      else
        let state := if p.state < 7 then 8 else 11
        .bit (IsRepG0 + p.state) fun b =>
          if b = false then .bit (IsRep0Long + p.state * 16 + posState) fun b =>
            if b = false then .done (.ok .short)
            else lengthAndDistance p RepLenCoder posState state p.rep0 p.rep1 p.rep2 p.rep3
          else .bit (IsRepG1 + p.state) fun b =>
            if b = false then lengthAndDistance p RepLenCoder posState state p.rep1 p.rep0 p.rep2 p.rep3
            else .bit (IsRepG2 + p.state) fun b =>
              if b = false then lengthAndDistance p RepLenCoder posState state p.rep2 p.rep0 p.rep1 p.rep3
              else lengthAndDistance p RepLenCoder posState state p.rep3 p.rep0 p.rep1 p.rep2

/-- LzmaDec.c:116-120 -/
def kLiteralNextStates : List Nat :=
  [0, 0, 0, 0, 1, 2, 3, 4, 5, 6, 4, 5, 7, 7, 7, 7, 7, 7, 7, 10, 10, 10, 10, 10]

/-- LzmaDec.c:397-405: the loop that copies `n ≥ 1` bytes from `pos` on to `dest`. -/
def copyStraight : Nat → Nat → Nat → Dec → Res Dec
  | 0, _, _, _ => .diverge
  | n + 1, dest, pos, p => do
    let b ← dicGet p pos
    let p ← dicSet p dest b
    if n ≠ 0 then copyStraight n (dest + 1) (pos + 1) p else .ok p

/-- LzmaDec.c:408-414: the loop that copies `n ≥ 1` bytes around the end of the dictionary. -/
def copyAround : Nat → Nat → Dec → Res Dec
  | 0, _, _ => .diverge
  | n + 1, pos, p => do
    let b ← dicGet p pos
    let p ← dicSet p p.dicPos b
    let p : Dec := { p with dicPos := p.dicPos + 1 }
    let pos := if pos + 1 = p.dicBufSize then 0 else pos + 1
    if n ≠ 0 then copyAround n pos p else .ok p

/-- LzmaDec.c:386-416: copy a match of `len` bytes, as much of it as fits; the rest of `len`.  `none`: `return SZ_ERROR_DATA`. -/
def copyMatch (p : Dec) (limit len : Nat) : Res (Option (Dec × Nat)) :=
  if limit = p.dicPos then .ok none
  else
    let rem := limit - p.dicPos
    let curLen := if rem < len then rem else len
    let pos := backIndex p p.rep0
    let p : Dec := { p with processedPos := u32 (p.processedPos + curLen) }
    if pos + curLen ≤ p.dicBufSize then do
      let q ← copyStraight curLen p.dicPos pos.toNat p
      .ok (some ({ q with dicPos := p.dicPos + curLen }, len - curLen))
    else do
      let q ← copyAround curLen pos.toNat p
      .ok (some (q, len - curLen))

/-- LzmaDec.c:196-201, 227-231: write one byte. -/
def writeByte (p : Dec) (b : UInt8) (state : Nat) : Res Dec := do
  let p ← dicSet p p.dicPos b
  .ok { p with dicPos := p.dicPos + 1, processedPos := u32 (p.processedPos + 1), state := state }

/-- LzmaDec.c:420-433: the end of `LzmaDec_DecodeReal`. -/
def finishReal (p : Dec) (buf : List UInt8) (len : Nat) : Res (Dec × List UInt8 × Bool) := do
  let m ← normalize ⟨p.range, p.code, buf, p.probs⟩
  .ok ({ p with range := m.range, code := m.code, remainLen := len }, m.buf, true)

/-- LzmaDec.c:159-433: the loop and the end of `LzmaDec_DecodeReal`.  `p` holds the local variables and `p0` the values they were
initialised with, which are those that `*p` keeps if the function returns an error (the result is `false` then).  There are
`keep` bytes between `bufLimit` and the end of the input. -/
def realLoop (limit keep : Nat) (p0 : Dec) : Nat → Dec → List UInt8 → Nat → Res (Dec × List UInt8 × Bool)
  | 0, _, _, _ => .diverge
  | n + 1, p, buf, len => do
    let r ← exec p.nprobs (symbol p) ⟨p.range, p.code, buf, p.probs⟩
    let buf := r.2.buf
    let p : Dec := { p with range := r.2.range, code := r.2.code, probs := r.2.probs }
    match r.1 with
    | .literal s =>
      if h : p.state < kLiteralNextStates.length then do
        let p ← writeByte p (UInt8.ofNat s) kLiteralNextStates[p.state]
        if p.dicPos < limit ∧ keep < buf.length then realLoop limit keep p0 n p buf len else finishReal p buf len
      else .fault .outOfBounds
    | .short => do
      let b ← dicGet p (backIndex p p.rep0)
      let p ← writeByte p b (if p.state < 7 then 9 else 11)
      if p.dicPos < limit ∧ keep < buf.length then realLoop limit keep p0 n p buf len else finishReal p buf len
    | .finished len => finishReal p buf len
    | .copy state rep0 rep1 rep2 rep3 len =>
      let p : Dec := { p with state := state, rep0 := rep0, rep1 := rep1, rep2 := rep2, rep3 := rep3 }
      match ← copyMatch p limit len with
      | none => .ok ({ p0 with probs := p.probs, dic := p.dic }, buf, false)
      | some (p, len) =>
        if p.dicPos < limit ∧ keep < buf.length then realLoop limit keep p0 n p buf len else finishReal p buf len
    | .bad => .ok ({ p0 with probs := p.probs, dic := p.dic }, buf, false)

/-- LzmaDec.c:137-434: `LzmaDec_DecodeReal`. -/
def decodeReal (p : Dec) (limit keep : Nat) (buf : List UInt8) : Res (Dec × List UInt8 × Bool) :=
  realLoop limit keep p (limit - p.dicPos + 1) p buf 0

/-- LzmaDec.c:453-457: the loop of `LzmaDec_WriteRem`. -/
def remLoop : Nat → Dec → Res Dec
  | 0, p => .ok p
  | n + 1, p => do
    let b ← dicGet p (backIndex p p.rep0)
    let p ← dicSet p p.dicPos b
    remLoop n { p with dicPos := p.dicPos + 1 }

/-- LzmaDec.c:436-460: `LzmaDec_WriteRem`. -/
def writeRem (p : Dec) (limit : Nat) : Res Dec :=
  if p.remainLen ≠ 0 ∧ p.remainLen < kMatchSpecLenStart then
    let len := if limit - p.dicPos < p.remainLen then limit - p.dicPos else p.remainLen
    let check := if p.checkDicSize = 0 ∧ u32 (p.prop.dicSize - p.processedPos) ≤ len then p.prop.dicSize else p.checkDicSize
    remLoop len { p with checkDicSize := check, processedPos := u32 (p.processedPos + len), remainLen := p.remainLen - len }
  else .ok p

/-- LzmaDec.c:464-484: the loop and the end of `LzmaDec_DecodeReal2`. -/
def real2Loop (limit keep : Nat) : Nat → Dec → List UInt8 → Res (Dec × List UInt8 × Bool)
  | 0, _, _ => .diverge
  | n + 1, p, buf => do
    let limit2 :=
      if p.checkDicSize = 0 then
        let rem := u32 (p.prop.dicSize - p.processedPos)
        if limit - p.dicPos > rem then p.dicPos + rem else limit
      else limit
    let r ← decodeReal p limit2 keep buf
    if r.2.2 then do
      let p := r.1
      let p : Dec := if p.processedPos ≥ p.prop.dicSize then { p with checkDicSize := p.prop.dicSize } else p
      let p ← writeRem p limit
      if p.dicPos < limit ∧ keep < r.2.1.length ∧ p.remainLen < kMatchSpecLenStart then real2Loop limit keep n p r.2.1
      else .ok ({ p with remainLen := if p.remainLen > kMatchSpecLenStart then kMatchSpecLenStart else p.remainLen }, r.2.1, true)
    else .ok r

/-- LzmaDec.c:462-485: `LzmaDec_DecodeReal2`. -/
def decodeReal2 (p : Dec) (limit keep : Nat) (buf : List UInt8) : Res (Dec × List UInt8 × Bool) :=
  real2Loop limit keep (limit - p.dicPos + 1) p buf

/-! ## The trial -/

/-- LzmaDec.c:487-493: `ELzmaDummy` without `DUMMY_ERROR`. -/
inductive Dummy
  | lit | match_ | rep
deriving DecidableEq, Repr

/-- LzmaDec.c:671-675 -/
def dummySpecLoop (prob : Nat) : Nat → Nat → Prog Dummy
  | 0, _ => .done .diverge
  | n + 1, i => .bit (prob + i) fun b => if n ≠ 0 then dummySpecLoop prob n (i + i + b.toNat) else .done (.ok .match_)

/-- LzmaDec.c:658-665 -/
def dummyDirectLoop (k : Prog Dummy) : Nat → Prog Dummy
  | 0 => .done .diverge
  | n + 1 => .plain fun _ => if n ≠ 0 then dummyDirectLoop k n else k

/-- LzmaDec.c:605-678: from the length on; `res` is `DUMMY_MATCH` if `state` is 0, and `DUMMY_REP` if it is 12. -/
def dummyLength (prob posState state : Nat) : Prog Dummy :=
  length prob posState fun len =>
    if state < 4 then
      treeLoop (PosSlot + (if len < 4 then len else 4 - 1) * 64) 64 64 1 fun i =>
        let slot := i - 64
        if slot ≥ 4 then
          let numDirectBits := slot / 2 - 1
          if slot < 14 then
            dummySpecLoop (SpecPos + (2 ||| (slot &&& 1)) <<< numDirectBits - slot - 1) numDirectBits 1
          else dummyDirectLoop (dummySpecLoop Align 4 1) (numDirectBits - 4)
        else .done (.ok .match_)
    else .done (.ok .rep)

/-- LzmaDec.c:504-680: the bits of a symbol, as `LzmaDec_TryDummy` reads them. -/
def dummySymbol (p : Dec) : Prog Dummy :=
  let posState := p.processedPos &&& (2 ^ p.prop.pb - 1)
  .bit (IsMatch + p.state * 16 + posState) fun b =>
    if b = false then literal p fun _ => .done (.ok .lit)
    else .bit (IsRep + p.state) fun b =>
      if b = false then dummyLength LenCoder posState 0
      else .bit (IsRepG0 + p.state) fun b =>
        if b = false then .bit (IsRep0Long + p.state * 16 + posState) fun b =>
          if b = false then .done (.ok .rep)
          else dummyLength RepLenCoder posState 12
        else .bit (IsRepG1 + p.state) fun b =>
          if b = false then dummyLength RepLenCoder posState 12
          else .bit (IsRepG2 + p.state) fun _ => dummyLength RepLenCoder posState 12

/-- LzmaDec.c:495-683: `LzmaDec_TryDummy`; `none` is `DUMMY_ERROR`. -/
def tryDummy (p : Dec) (buf : List UInt8) : Res (Option Dummy) := do
  match ← execCheck p.nprobs (dummySymbol p) ⟨p.range, p.code, buf, p.probs⟩ with
  | none => .ok none
  | some (d, m) =>
    match normalizeCheck m with
    | none => .ok none
    | some _ => .ok (some d)

/-! ## The interface -/

/-- LzmaDec.c:686-691: `LzmaDec_InitRc`. -/
def initRc (p : Dec) (data : List UInt8) : Res Dec :=
  match data with
  | _ :: b1 :: b2 :: b3 :: b4 :: _ =>
    .ok { p with code := b1.toNat * 2 ^ 24 + b2.toNat * 2 ^ 16 + b3.toNat * 2 ^ 8 + b4.toNat, range := 0xFFFFFFFF, needFlush := false }
  | _ => .fault .outOfBounds

/-- LzmaDec.c:715-725: `LzmaDec_InitStateReal`. -/
def initStateReal (p : Dec) : Dec :=
  { p with nprobs := Literal + 768 <<< (p.prop.lc + p.prop.lp), probs := fun _ => 2048 / 2, rep0 := 1, rep1 := 1, rep2 := 1, rep3 := 1,
           state := 0, needInitState := false }

/-- LzmaDec.h: `ELzmaStatus`, as far as it matters. -/
inductive LStatus
  | notFinished | needsMoreInput | maybeFinished | finishedWithMark
deriving DecidableEq, Repr

/-- A result of `LzmaDec_DecodeToDic`: the state, the value of `*srcLen`, and the status (`none`: an error). -/
abbrev DicResult := Dec × Nat × Option LStatus

/-- LzmaDec.c:775-799: an iteration with an empty `tempBuf`.  The result is either that of the function or the new state and the
number of bytes consumed. -/
def fromSource (p : Dec) (limit : Nat) (checkEnd : Bool) (src : List UInt8) : Res (DicResult ⊕ (Dec × Nat)) := do
  let go (keep : Nat) : Res (DicResult ⊕ (Dec × Nat)) := do
    let r ← decodeReal2 p limit keep src
    if r.2.2 then .ok (.inr (r.1, src.length - r.2.1.length)) else .ok (.inl (r.1, 0, none))
  if src.length < 20 ∨ checkEnd then do
    match ← tryDummy p src with
    | none =>
      if src.length ≤ 20 then .ok (.inl ({ p with temp := src }, src.length, some .needsMoreInput)) else .fault .outOfBounds
    | some d => if checkEnd ∧ d ≠ .match_ then .ok (.inl (p, 0, none)) else go src.length
  else go 20

/-- LzmaDec.c:811-841: an iteration with bytes in `tempBuf`. -/
def fromTemp (p : Dec) (limit : Nat) (checkEnd : Bool) (src : List UInt8) : Res (DicResult ⊕ (Dec × Nat)) := do
  let look := min (20 - p.temp.length) src.length
  let temp := p.temp ++ src.take look
  let go : Res (DicResult ⊕ (Dec × Nat)) := do
    let r ← decodeReal2 { p with temp := temp } limit temp.length temp
    if r.2.2 then
      if r.2.1.length ≤ look then .ok (.inr ({ r.1 with temp := [] }, look - r.2.1.length)) else .fault .undefined
    else .ok (.inl (r.1, 0, none))
  if temp.length < 20 ∨ checkEnd then do
    match ← tryDummy p temp with
    | none => .ok (.inl ({ p with temp := temp }, look, some .needsMoreInput))
    | some d => if checkEnd ∧ d ≠ .match_ then .ok (.inl ({ p with temp := temp }, 0, none)) else go
  else go

/-- LzmaDec.c:738-753: fill the first five bytes.  `none`: there are not enough of them; `some false`: the first one is not 0. -/
def flush (p : Dec) (src : List UInt8) : Res (Dec × Nat × Option Bool) :=
  if p.needFlush then
    let k := min (5 - p.temp.length) src.length
    let temp := p.temp ++ src.take k
    if temp.length < 5 then .ok ({ p with temp := temp }, k, none)
    else if temp.head? ≠ some 0 then .ok ({ p with temp := temp }, k, some false)
    else do
      let q ← initRc p temp
      .ok ({ q with temp := [] }, k, some true)
  else .ok (p, 0, some true)

/-- LzmaDec.c:736-845: the loop and the end of `LzmaDec_DecodeToDic`; `finish` is `finishMode == LZMA_FINISH_END`, and `used` the
number of bytes consumed so far. -/
def dicLoop (limit : Nat) (finish : Bool) : Nat → Dec → List UInt8 → Nat → Res DicResult
  | 0, _, _, _ => .diverge
  | n + 1, p, src, used =>
    if p.remainLen ≠ kMatchSpecLenStart then do
      let f ← flush p src
      let p := f.1
      let src := src.drop f.2.1
      let used := used + f.2.1
      match f.2.2 with
      | none => .ok (p, used, some .needsMoreInput)
      | some false => .ok (p, used, none)
      | some true =>
        if p.dicPos ≥ limit ∧ p.remainLen = 0 ∧ p.code = 0 then .ok (p, used, some .maybeFinished)
        else if p.dicPos ≥ limit ∧ finish = false then .ok (p, used, some .notFinished)
        else if p.dicPos ≥ limit ∧ p.remainLen ≠ 0 then .ok (p, used, none)
        else
          let checkEnd := decide (p.dicPos ≥ limit)
          let p := if p.needInitState then initStateReal p else p
          match ← (if p.temp = [] then fromSource p limit checkEnd src else fromTemp p limit checkEnd src) with
          | .inl (p, k, st) => .ok (p, used + k, st)
          | .inr (p, k) => dicLoop limit finish n p (src.drop k) (used + k)
    else .ok (p, used, if p.code = 0 then some .finishedWithMark else none)

/-- LzmaDec.c:727-846: `LzmaDec_DecodeToDic`. -/
def decodeToDic (p : Dec) (limit : Nat) (src : List UInt8) (finish : Bool) : Res DicResult := do
  let p ← writeRem p limit
  dicLoop limit finish (limit - p.dicPos + 3) p src 0

/-- `memcpy` from the dictionary: `n` bytes from `i` on. -/
def dicCopy (p : Dec) : Nat → Nat → Res (List UInt8)
  | _, 0 => .ok []
  | i, n + 1 => do
    let b ← dicGet p i
    let l ← dicCopy p (i + 1) n
    .ok (b :: l)

/-- LzmaDec.c:853-885: the loop of `LzmaDec_DecodeToBuf`. -/
def bufLoop (finish : Bool) : Nat → Dec → List UInt8 → Nat → Nat → List UInt8 → Res (Dec × Nat × List UInt8 × Option LStatus)
  | 0, _, _, _, _, _ => .diverge
  | n + 1, p, src, outSize, used, out => do
    let p : Dec := if p.dicPos = p.dicBufSize then { p with dicPos := 0 } else p
    let r ← (if outSize > p.dicBufSize - p.dicPos then decodeToDic p p.dicBufSize src false
      else decodeToDic p (p.dicPos + outSize) src finish)
    let cur := r.1.dicPos - p.dicPos
    let new ← dicCopy r.1 p.dicPos cur
    match r.2.2 with
    | none => .ok (r.1, used + r.2.1, out ++ new, none)
    | some st =>
      if cur = 0 ∨ outSize - cur = 0 then .ok (r.1, used + r.2.1, out ++ new, some st)
      else bufLoop finish n r.1 (src.drop r.2.1) (outSize - cur) (used + r.2.1) (out ++ new)

/-- LzmaDec.c:848-886: `LzmaDec_DecodeToBuf`. -/
def decodeToBuf (p : Dec) (outSize : Nat) (src : List UInt8) (finish : Bool) : Res (Dec × Nat × List UInt8 × Option LStatus) :=
  bufLoop finish (outSize + 1) p src outSize 0 []

/-- LzmaDec.c:906-930: `LzmaProps_Decode`; `none` is `SZ_ERROR_UNSUPPORTED`. -/
def propsDecode (data : List UInt8) : Option Params :=
  match data with
  | d :: b1 :: b2 :: b3 :: b4 :: _ =>
    let dicSize := b1.toNat + b2.toNat * 2 ^ 8 + b3.toNat * 2 ^ 16 + b4.toNat * 2 ^ 24
    if d.toNat ≥ 9 * 5 * 5 then none
    else some { lc := d.toNat % 9, lp := d.toNat / 9 % 5, pb := d.toNat / 9 / 5, dicSize := if dicSize < 4096 then 4096 else dicSize }
  | _ => none

/-- LzmaDec.c:955-975 `LzmaDec_Allocate` and 693-713 `LzmaDec_Init`.  What is not initialised gets an arbitrary value. -/
def init (P : Params) : Dec where
  prop := P
  nprobs := 0
  probs := fun _ => 0
  dic := fun _ => none
  dicBufSize := P.dicSize
  range := 0
  code := 0
  dicPos := 0
  processedPos := 0
  checkDicSize := 0
  state := 0
  rep0 := 0
  rep1 := 0
  rep2 := 0
  rep3 := 0
  remainLen := 0
  needFlush := true
  needInitState := true
  temp := []

/-- The decoder as `LZMAInputStream` uses it.  (Properties that are not supported do not pass `checkHeader`.) -/
def decoder : LzmaDecoder Dec where
  init props :=
    match propsDecode props with
    | some P => .ok (init P)
    | none => .fault .assertion
  run p inp space finish := do
    let r ← decodeToBuf p space.toNat inp finish
    .ok (r.1, r.2.1, r.2.2.1, match r.2.2.2 with
      | none => .failed
      | some .finishedWithMark => .mark
      | some _ => .more)

end LzmaDec
end Strigi
