import Verif.Model.CLib
import Verif.Model.MailText

/-!
# Model of lib/compat.cpp

Replacements for functions of the C library, compiled only on platforms that lack them.  A string is given by the
memory from its first byte on.  `tolower` is that of the C locale; it is called with the value of a `char`, which
for the values from -128 to -2 is undefined by the C standard: assumed is that those are returned unchanged, as
the usual implementations do.  `setenv` and `mkstemp` are not modelled.
-/

namespace Strigi.Compat

open MailText (toLower)

/-- compat.cpp:55-69: `strcasecmp` of different pointers (for equal pointers the result is 0). -/
def strcasecmp : List UInt8 → List UInt8 → Res Int
  | a :: sa, b :: sb =>
    if toLower a ≠ 0 ∧ toLower a = toLower b then strcasecmp sa sb
    else .ok (schar (toLower a) - schar (toLower b))
  | _, _ => .fault .outOfBounds

/-- compat.cpp:77-88: the loop of `strncasecmp`; `n` is `l - i`, `prev` is `ca - cb`, or nothing while these are
not initialised. -/
def strncasecmpLoop : Nat → Option Int → List UInt8 → List UInt8 → Res Int
  | 0, none, _, _ => .fault .undefined
  | 0, some d, _, _ => .ok d
  | n + 1, _, a :: sa, b :: sb =>
    let d := schar (toLower a) - schar (toLower b)
    if toLower a ≠ 0 ∧ toLower a = toLower b then strncasecmpLoop n (some d) sa sb else .ok d
  | _ + 1, _, _, _ => .fault .outOfBounds

/-- compat.cpp:73-89: `strncasecmp` of different pointers (for equal pointers the result is 0). -/
def strncasecmp (sa sb : List UInt8) (l : Int) : Res Int := strncasecmpLoop l.toNat none sa sb

/-- `strstr`, as an offset; for strings without their zero. -/
def strstr (big little : List UInt8) : Option Nat :=
  if little.isPrefixOf big then some 0 else
  match big with
  | [] => none
  | _ :: l => (strstr l little).map (· + 1)

/-- compat.cpp:94-124: `strcasestr`, as an offset; `strlwr` says whether the platform has that function.  If not,
the loops at lines 101-110 call `tolower` and drop its result.  `strdup` is assumed to succeed. -/
def strcasestr (strlwr : Bool) (big little : List UInt8) : Option Nat :=
  let tmp1 := if strlwr then big.map toLower else big
  let tmp2 := if strlwr then little.map toLower else little
  strstr tmp1 tmp2

/-- compat.cpp:128-133 -/
def isblank (c : UInt8) : Bool := c == 32 || c == 9 || c == 10 || c == 13

end Strigi.Compat
