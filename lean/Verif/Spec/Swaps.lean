/-!
# Adjacent exchanges in a list
-/

namespace Wagyu.Spec

/-- `AdjSwaps l ss r`: `r` comes from `l` by exchanging, one after the other, the pairs `ss`; at the moment of its
exchange the first element of a pair is immediately left of the second. -/
inductive AdjSwaps {α : Type} : List α → List (α × α) → List α → Prop
  | refl (l : List α) : AdjSwaps l [] l
  | step {p s : List α} {a b : α} {ss : List (α × α)} {r : List α} :
      AdjSwaps (p ++ b :: a :: s) ss r → AdjSwaps (p ++ a :: b :: s) ((a, b) :: ss) r

/-- `a` occurs somewhere before an occurrence of `b`. -/
def Before {α : Type} (l : List α) (a b : α) : Prop := [a, b].Sublist l

end Wagyu.Spec
