import Verif.Spec

/-!
# Model of the inherited `StreamBase<T>::skip` (include/strigi/streambase.h:202-227)
-/

namespace Strigi

variable {σ α : Type}

/-- The loop of streambase.h:208-225.  `fuel` bounds the number of iterations; running out of it is
reported as divergence. -/
def baseSkipLoop (read : σ → Int → Int → Res (σ × Int × List α)) :
    Nat → σ → Int → Int → Res (σ × Int)
  | 0, _, _, _ => .diverge
  | fuel + 1, s, ntoskip, skipped =>
    if ntoskip > 0 then do
      let maxstep := if ntoskip > 10000000 then 10000000 else ntoskip
      let (s', nread, _) ← read s 1 maxstep
      if nread < -1 then .ok (s', nread)
      else if nread < 1 then .ok (s', skipped)
      else baseSkipLoop read fuel s' (ntoskip - nread) (skipped + nread)
    else .ok (s, skipped)

/-- streambase.h:204-227, for a stream whose `read` is given.  Every iteration but the last skips at
least one item, so `ntoskip + 1` iterations suffice. -/
def baseSkip (read : σ → Int → Int → Res (σ × Int × List α)) (s : σ) (ntoskip : Int) :
    Res (σ × Int) :=
  baseSkipLoop read (ntoskip.toNat + 1) s ntoskip 0

end Strigi
