import Verif.Common.Str

/-! # Model of `strLstMergeAnti`, src/common/type/stringList.c:352-410 -/

namespace Verif.StrLst

/-- Look for a match in what is left of `anti`, lines 377-398: is the item added, and what is left. -/
def antiSkip (x : Str) : List Str → Bool × List Str
  | [] => (true, [])
  | a :: anti =>
    if x < a then (true, a :: anti)
    else if x = a then (false, anti)
    else antiSkip x anti

/-- `strLstMergeAnti`, lines 370-403. -/
def mergeAnti : List Str → List Str → List Str
  | [], _ => []
  | x :: this, anti => if (antiSkip x anti).1 then x :: mergeAnti this (antiSkip x anti).2 else mergeAnti this (antiSkip x anti).2

end Verif.StrLst
