import Verif.Model.State
import Mathlib.Data.List.Chain

/-!
# Specification: circular doubly linked lists

Only the record of a point node (two coordinates, two links, the ring it belongs to) is taken from the model.
-/

namespace Wagyu.Spec

/-- In the heap `h`, `b` comes right after `a`. -/
def Link (h : Nat → Node) (a b : Nat) : Prop := (h a).next = some b ∧ (h b).prev = some a

/-- The distinct nodes `l`, in this order, form a circular doubly linked list. -/
def IsCycle (h : Nat → Node) : List Nat → Prop
  | [] => False
  | a :: t => (a :: t).Nodup ∧ (a :: t ++ [a]).IsChain (Link h)

/-- Where a node is. -/
def locOf (h : Nat → Node) (i : Nat) : Point := ⟨(h i).x, (h i).y⟩

/-- The heaps agree on the coordinates and the rings of all nodes, and on everything about the nodes outside `l`. -/
def OnlyLinksOf (l : List Nat) (h h' : Nat → Node) : Prop :=
  (∀ i, (h' i).x = (h i).x ∧ (h' i).y = (h i).y ∧ (h' i).ring = (h i).ring) ∧ ∀ i, i ∉ l → h' i = h i

/-- The circular list of the joined ring: the nodes of the removed ring are put in front if the kept ring ends on its
left side, else behind, and they are reversed if both rings end on the same side. -/
def joinedNodes (keepSide removeSide : EdgeSide) (K R : List Nat) : List Nat :=
  let R' := if keepSide = removeSide then R.reverse else R
  if keepSide = .left then R' ++ K else K ++ R'

end Wagyu.Spec
