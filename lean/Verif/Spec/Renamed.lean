import Verif.Model.LocalMinimum
import Mathlib.Data.List.Rotate

/-!
# Specification: the same local minima under other names

Bounds are objects that refer to one another; in the model they have numbers. Only the data types are taken from the model.
-/

namespace Wagyu.Spec

/-- The bound, when `name i` is the number of the bound with the number `i`. -/
def renamedBound (name : Nat → Nat) (b : Bound) : Bound := { b with maximumBound := b.maximumBound.map name }

/-- The local minimum, when `name i` is the number of the bound with the number `i`. -/
def renamedMinimum (name : Nat → Nat) (v : LocalMinimum) : LocalMinimum := { v with left := name v.left, right := name v.right }

/-- The local minima and bounds added from `before` to `after` are those added from `before'` to `after'`, except that they may start at
another one of them: same attributes, same bounds, with the same partners at the maxima. -/
structure SameAdded (before after before' after' : Minimums) (name : Nat → Nat) : Prop where
  minima : ∃ new new', after.values = before.values ++ new ∧ after'.values = before'.values ++ new' ∧ new.map (renamedMinimum name) ~r new'
  count : ∃ n, after.nb = before.nb + n ∧ after'.nb = before'.nb + n
  into : ∀ i, before.nb ≤ i → i < after.nb → before'.nb ≤ name i ∧ name i < after'.nb
  apart : ∀ i j, before.nb ≤ i → i < after.nb → before.nb ≤ j → j < after.nb → name i = name j → i = j
  bounds : ∀ i, before.nb ≤ i → i < after.nb → after'.bounds (name i) = renamedBound name (after.bounds i)
  old : ∀ i < before.nb, after.bounds i = before.bounds i
  old' : ∀ i < before'.nb, after'.bounds i = before'.bounds i

end Wagyu.Spec
