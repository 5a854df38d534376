import Verif.Spec.Rings

/-!
# Specification: forests of rings and the polygons they stand for
-/

namespace Wagyu.Spec

/-- A ring with its children. -/
inductive Tree where
  | mk (ring : Nat) (children : List Tree)

/-- The ring at the root. -/
def Tree.root : Tree → Nat
  | .mk i _ => i

mutual
/-- All rings of a tree. -/
def Tree.ids : Tree → List Nat
  | .mk i cs => i :: idsOf cs
/-- All rings of a forest. -/
def idsOf : List Tree → List Nat
  | [] => []
  | t :: ts => t.ids ++ idsOf ts
end

mutual
/-- All rings of a tree, each with its depth; the root has depth `d`. -/
def Tree.depths (d : Nat) : Tree → List (Nat × Nat)
  | .mk i cs => (i, d) :: depthsOf (d + 1) cs
/-- All rings of a forest, each with its depth. -/
def depthsOf (d : Nat) : List Tree → List (Nat × Nat)
  | [] => []
  | t :: ts => t.depths d ++ depthsOf d ts
end

mutual
/-- The rings record the tree: the children of the root, disregarding `None`s, are the roots of its subtrees, in order, and
so on. -/
def Recorded (rings : Nat → Ring) : Tree → Prop
  | .mk i cs => (rings i).children.filterMap id = cs.map Tree.root ∧ RecordedAll rings cs
/-- All the trees are recorded. -/
def RecordedAll (rings : Nat → Ring) : List Tree → Prop
  | [] => True
  | t :: ts => Recorded rings t ∧ RecordedAll rings ts
end

mutual
/-- The number of levels of a tree. -/
def Tree.height : Tree → Nat
  | .mk _ cs => heightOf cs + 1
/-- The number of levels of a forest. -/
def heightOf : List Tree → Nat
  | [] => 0
  | t :: ts => max t.height (heightOf ts)
end

mutual
/-- The polygons of a tree whose root is the exterior of a polygon: the polygon of the root, whose holes are the roots of
the subtrees, and the polygons inside of the holes. -/
def Tree.asExterior {α : Type} (f : Nat → α) : Tree → List (List α)
  | .mk i cs => (f i :: cs.map fun t => f t.root) :: insideHoles f cs
/-- The polygons inside of a hole: its children are exteriors. -/
def Tree.asHole {α : Type} (f : Nat → α) : Tree → List (List α)
  | .mk _ cs => polygonsOf f cs
/-- The polygons inside of some holes. -/
def insideHoles {α : Type} (f : Nat → α) : List Tree → List (List α)
  | [] => []
  | t :: ts => t.asHole f ++ insideHoles f ts
/-- The polygons of a forest whose roots are exteriors. -/
def polygonsOf {α : Type} (f : Nat → α) : List Tree → List (List α)
  | [] => []
  | t :: ts => t.asExterior f ++ polygonsOf f ts
end

/-- The closed list of points of the ring `i`: backwards from its first node (or forwards, for a reversed output). -/
def closedRing (h : Nat → Node) (lists : Nat → List Nat) (reverseOutput : Bool) (i : Nat) : List Point :=
  match pointsOf h (lists i) with
  | [] => []
  | p :: t => if reverseOutput then p :: t ++ [p] else p :: t.reverse ++ [p]

/-- The children list of a ring, or the top level. -/
def childrenIn (top : List (Option Nat)) (kids : Nat → List (Option Nat)) : Option Nat → List (Option Nat)
  | none => top
  | some p => kids p

/-- A ring that is listed as a child is listed once, and only by the parent it records. -/
def ListedOnce (top : List (Option Nat)) (kids : Nat → List (Option Nat)) (parent : Nat → Option Nat) : Prop :=
  ∀ i p, some i ∈ childrenIn top kids p → parent i = p ∧ (childrenIn top kids p).count (some i) = 1

/-- `i` has exactly `d` ancestors: its parent, the parent of its parent, and so on. -/
def HasDepth (parent : Nat → Option Nat) (i : Nat) : Nat → Prop
  | 0 => parent i = none
  | d + 1 => ∃ q, parent i = some q ∧ HasDepth parent q d

end Wagyu.Spec
