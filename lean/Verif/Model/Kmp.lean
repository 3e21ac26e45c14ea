import Verif.Base

/-!
# Model of `KmpSearcher` (lib/kmpsearcher.cpp, lib/kmpsearcher.h)

Arrays are lists; every access is checked.  Memory that was not written yet is `none`; reading it is
undefined behaviour.  32-bit overflow is not modelled.
-/

namespace Strigi

/-- Read `l[i]`. -/
def aget {α : Type} (l : List α) (i : Int) : Res α :=
  if 0 ≤ i then
    match l[i.toNat]? with
    | some a => .ok a
    | none => .fault .outOfBounds
  else .fault .outOfBounds

/-- Read `l[i]` from memory that may not have been written. -/
def agetInit {α : Type} (l : List (Option α)) (i : Int) : Res α := do
  match ← aget l i with
  | some a => .ok a
  | none => .fault .undefined

/-- Write `l[i] = a`. -/
def aset {α : Type} (l : List α) (i : Int) (a : α) : Res (List α) :=
  if 0 ≤ i ∧ i < l.length then .ok (l.set i.toNat a) else .fault .outOfBounds

/-- `memcmp(l, m, sizeof(m)) == 0` where `l` is the memory from the pointer on: all of it has to exist. -/
def memEq (l m : List UInt8) : Res Bool :=
  if m.length ≤ l.length then .ok (l.take m.length == m) else .fault .outOfBounds

namespace Kmp

/-- kmpsearcher.cpp:39-41: the loop `for (i = 0; i < m - 1; ++i) bmBc[x[i]] = -i`; `n` iterations are
left, starting with `i`. -/
def bmBcLoop (x : List UInt8) : Nat → Int → List Int → Res (List Int)
  | 0, _, t => .ok t
  | n + 1, i, t => do
    let c ← aget x i
    let t ← aset t c.toNat (-i)
    bmBcLoop x n (i + 1) t

/-- kmpsearcher.cpp:32-42. -/
def preBmBc (x : List UInt8) : Res (List Int) :=
  bmBcLoop x (x.length - 1) 0 (List.replicate 256 1)

/-- kmpsearcher.cpp:58-60: `while (g >= 0 && x[g] == x[g + m - 1 - f]) --g;`.  The first argument is
`g + 1` (at least as many steps as the loop can take). -/
def suffixScan (x : List UInt8) (f : Int) : Nat → Int → Res Int
  | 0, g => .ok g
  | n + 1, g =>
    if g ≥ 0 then do
      let a ← aget x g
      let b ← aget x (g + x.length - 1 - f)
      if a = b then suffixScan x f n (g - 1) else .ok g
    else .ok g

/-- kmpsearcher.cpp:50-63: the loop body for `i = n - 1` down to `0`. -/
def suffixLoop (x : List UInt8) : Nat → Int → Int → List (Option Int) → Res (List (Option Int))
  | 0, _, _, suff => .ok suff
  | n + 1, f, g, suff => do
    let i : Int := n
    let m : Int := x.length
    let short ← if i > g then do
        let k ← agetInit suff (i + m - 1 - f)
        .ok (decide (k < i - g))
      else .ok false
    if short then do
      let k ← agetInit suff (i + m - 1 - f)
      let suff ← aset suff i (some k)
      suffixLoop x n f g suff
    else do
      let g := if i < g then i else g
      let f := i
      let g ← suffixScan x f (g + 1).toNat g
      let suff ← aset suff i (some (f - g))
      suffixLoop x n f g suff

/-- kmpsearcher.cpp:43-64. -/
def suffixes (x : List UInt8) : Res (List (Option Int)) := do
  let m : Int := x.length
  let suff ← aset (List.replicate x.length none) (m - 1) (some m)
  suffixLoop x (m - 1).toNat 0 (m - 1) suff

/-- kmpsearcher.cpp:80-84: `for (; j < lim; ++j) if (bmGs[j] == m) bmGs[j] = lim;`, `n` iterations. -/
def gsInner (m lim : Int) : Nat → Int → List Int → Res (List Int)
  | 0, _, gs => .ok gs
  | n + 1, j, gs => do
    let a ← aget gs j
    let gs ← if a = m then aset gs j lim else .ok gs
    gsInner m lim n (j + 1) gs

/-- kmpsearcher.cpp:77-86: the loop for `i = n - 1` down to `0`. -/
def gsBorderLoop (m : Int) (suff : List (Option Int)) : Nat → Int → List Int → Res (List Int)
  | 0, _, gs => .ok gs
  | n + 1, j, gs => do
    let i : Int := n
    let k ← agetInit suff i
    if k = i + 1 then do
      let gs ← gsInner m (m - 1 - i) (m - 1 - i - j).toNat j gs
      gsBorderLoop m suff n (if j < m - 1 - i then m - 1 - i else j) gs
    else gsBorderLoop m suff n j gs

/-- kmpsearcher.cpp:87-89: `for (i = 0; i <= m - 2; ++i) bmGs[m - 1 - suff[i]] = m - 1 - i;`, `n`
iterations are left. -/
def gsSuffixLoop (m : Int) (suff : List (Option Int)) : Nat → Int → List Int → Res (List Int)
  | 0, _, gs => .ok gs
  | n + 1, i, gs => do
    let k ← agetInit suff i
    let gs ← aset gs (m - 1 - k) (m - 1 - i)
    gsSuffixLoop m suff n (i + 1) gs

/-- kmpsearcher.cpp:65-92.  The model gives the table only `m` entries (the code allocates one more). -/
def preBmGs (x : List UInt8) : Res (List Int) := do
  let m : Int := x.length
  let suff ← suffixes x
  let gs := List.replicate x.length m
  let gs ← gsBorderLoop m suff x.length 0 gs
  gsSuffixLoop m suff (m - 1).toNat 0 gs

/-- State of a `KmpSearcher` (kmpsearcher.h): `m_query` and the two tables.  That `table` is reused for
shorter queries is not modelled; both tables are rewritten. -/
structure Searcher where
  query : List UInt8
  bc : List Int
  gs : List Int
deriving DecidableEq, Repr

/-- kmpsearcher.cpp:96-114. -/
def setQuery (q : List UInt8) : Res Searcher := do
  let gs ← preBmGs q
  let bc ← preBmBc q
  .ok ⟨q, bc, gs⟩

/-- kmpsearcher.cpp:132-137: compare from the right, jumping over the remembered factor.  `n` bounds the
number of steps; the initial `i` is `n - 1`. -/
def compare (q hay : List UInt8) (jp u shift : Int) : Nat → Int → Res Int
  | 0, i => .ok i
  | n + 1, i =>
    if i ≥ 0 then do
      let a ← aget q i
      let b ← aget hay (jp + i)
      if a = b then
        let i := i - 1
        let i := if u ≠ 0 ∧ i = q.length - 1 - shift then i - u else i
        compare q hay jp u shift n i
      else .ok i
    else .ok i

/-- kmpsearcher.cpp:130-156, the Turbo-BM loop (the branch that is compiled: `TURBOBM` is not
defined).  Returns the final `i` and `jp`.  The first argument bounds the number of windows. -/
def searchLoop (s : Searcher) (hay : List UInt8) : Nat → Int → Int → Int → Int → Res (Int × Int)
  | 0, _, _, _, _ => .diverge
  | n + 1, jp, u, shift, i0 =>
    let len : Int := s.query.length
    if jp ≤ (hay.length : Int) - len then do
      let i ← compare s.query hay jp u shift s.query.length (len - 1)
      if i < 0 then .ok (i, jp)
      else do
        let v := len - 1 - i
        let turboShift := u - v
        let c ← aget hay (jp + i)
        let b ← aget s.bc c.toNat
        let bcShift := b + i
        let shift := max turboShift bcShift
        let g ← aget s.gs i
        let shift := max shift g
        if shift = g then searchLoop s hay n (jp + shift) (min (len - shift) v) shift i
        else
          let shift := if turboShift < bcShift then max shift (u + 1) else shift
          searchLoop s hay n (jp + shift) 0 shift i
    else .ok (i0, jp)

/-- kmpsearcher.cpp:115-172.  The result is the offset of the returned pointer, `none` for the null
pointer. -/
def search (s : Searcher) (hay : List UInt8) : Res (Option Int) := do
  let (i, jp) ← searchLoop s hay (hay.length + 1) 0 0 s.query.length 0
  if i = -1 then .ok (some jp) else .ok none

/-- Building a searcher and searching with it. -/
def find (q hay : List UInt8) : Res (Option Int) := do
  let s ← setQuery q
  search s hay

end Kmp
end Strigi
