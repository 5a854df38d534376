import Mathlib.Data.List.Perm.Basic

/-!
# Specification: comparisons and stable sorting
-/

namespace Wagyu.Spec

/-- `lt` is a strict weak order on the values with `P`: it sorts them into levels, and one level is below another. -/
structure StrictWeak {α : Type} (P : α → Prop) (lt : α → α → Bool) : Prop where
  irrefl : ∀ a, P a → lt a a = false
  trans : ∀ a b c, P a → P b → P c → lt a b = true → lt b c = true → lt a c = true
  levels : ∀ a b c, P a → P b → P c → lt a b = false → lt b a = false → lt b c = false → lt c b = false → lt a c = false ∧ lt c a = false

/-- Neither of the two is before the other. -/
def level {α : Type} (lt : α → α → Bool) (a b : α) : Bool := !lt a b && !lt b a

/-- `l'` is `l` sorted in a stable way: nothing comes before something smaller, and the elements of every level come in the same
order as in `l`. -/
structure StableSort {α : Type} (lt : α → α → Bool) (l l' : List α) : Prop where
  perm : l'.Perm l
  sorted : l'.Pairwise fun a b => lt b a = false
  stable : ∀ a ∈ l, l'.filter (level lt a) = l.filter (level lt a)

end Wagyu.Spec
