import Verif.Spec.Chain
import Verif.Model.LocalMinimum

/-!
# Specification: what it means for local minima to represent a ring

Only the data types of edges, bounds and local minima are taken from the model.
-/

namespace Wagyu.Spec

/-- `e` is the edge `f`, or the horizontal edge `f` with its ends exchanged. -/
def SameEdge (e f : Edge) : Prop :=
  e = f ∨ (f.bottom.y = f.top.y ∧ e = { f with bottom := f.top, top := f.bottom })

/-- A bound goes up from its first point to its last one: every edge starts where the previous one ended, none goes down,
and not all are horizontal. -/
structure Rising (es : List Edge) : Prop where
  nonempty : es ≠ []
  chain : es.IsChain fun e f => e.top = f.bottom
  rises : ∀ e ∈ es, e.top.y ≤ e.bottom.y
  proper : ∃ e ∈ es, e.top.y < e.bottom.y

/-- Where a bound starts. -/
def startOf (es : List Edge) : Option Point := es.head?.map Edge.bottom

/-- Where a bound ends. -/
def endOf (es : List Edge) : Option Point := es.getLast?.map Edge.top

/-- The local minimum `v` is well formed: its two bounds start at the same point, whose `y` is the recorded one; they have
opposite winding deltas; the left one is marked as left and starts with an edge that is not horizontal; the right one is
marked as right; if a horizontal edge was recorded, the right one starts with it and it points to the right, otherwise
neither starts with a horizontal edge and the right one does not start to the left of the left one (a slope is `dx / dy`
and the `y` axis points down, so that a smaller slope is further to the right). -/
structure GoodMinimum (bounds : Nat → Bound) (v : LocalMinimum) : Prop where
  start : ∃ p, startOf (bounds v.left).edges = some p ∧ startOf (bounds v.right).edges = some p ∧ p.y = v.y
  delta : (bounds v.left).windingDelta = -(bounds v.right).windingDelta
  leftSide : (bounds v.left).side = .left
  rightSide : (bounds v.right).side = .right
  leftRises : ∃ e l, (bounds v.left).edges = e :: l ∧ e.top.y < e.bottom.y
  horizontal : v.hasHorizontal = true →
    ∃ e l, (bounds v.right).edges = e :: l ∧ e.top.y = e.bottom.y ∧ e.bottom.x < e.top.x
  noHorizontal : v.hasHorizontal = false →
    ∃ e l f l', (bounds v.left).edges = e :: l ∧ (bounds v.right).edges = f :: l' ∧ f.top.y < f.bottom.y
      ∧ ¬ F64.lt e.slope f.slope = true

/-- The edges of the bounds of local minima. -/
def edgesOfMinima (bounds : Nat → Bound) (vs : List LocalMinimum) : List Edge :=
  vs.flatMap fun v => (bounds v.left).edges ++ (bounds v.right).edges

/-- The local minima `new` and their bounds were added to `before`, giving `after`, and represent the closed chain of edges
`es` of a ring of the polygon `kind`. -/
structure Decomposes (before after : Minimums) (es : List Edge) (kind : PolygonKind) (new : List LocalMinimum) : Prop where
  /-- Nothing else changed. -/
  values : after.values = before.values ++ new
  grows : before.nb ≤ after.nb
  old : ∀ i < before.nb, after.bounds i = before.bounds i
  /-- Every new bound belongs to exactly one of the new minima, on one side. -/
  ids : (new.flatMap fun v => [v.left, v.right]).Perm (List.range' before.nb (after.nb - before.nb))
  /-- Every edge is used exactly once, a horizontal one possibly reversed. -/
  edges : ∃ used, used.Perm es ∧ List.Forall₂ SameEdge (edgesOfMinima after.bounds new) used
  rising : ∀ v ∈ new, Rising (after.bounds v.left).edges ∧ Rising (after.bounds v.right).edges
  minima : ∀ v ∈ new, GoodMinimum after.bounds v
  kinds : ∀ i, before.nb ≤ i → i < after.nb →
    (after.bounds i).polygonKind = kind ∧ ((after.bounds i).windingDelta = 1 ∨ (after.bounds i).windingDelta = -1)
  /-- The bounds are matched in pairs at the maxima: the partner of the partner is the bound itself, it ends at the same
  point and has the opposite winding delta. -/
  pairs : ∀ i, before.nb ≤ i → i < after.nb →
    ∃ j p, before.nb ≤ j ∧ j < after.nb ∧ (after.bounds i).maximumBound = some j ∧ (after.bounds j).maximumBound = some i
      ∧ (after.bounds j).windingDelta = -(after.bounds i).windingDelta
      ∧ endOf (after.bounds i).edges = some p ∧ endOf (after.bounds j).edges = some p
  /-- A bound that runs against the direction of the ring does not end with a horizontal edge; so, of the two bounds of a
  maximum, at most one does. -/
  steep : ∀ i, before.nb ≤ i → i < after.nb → (after.bounds i).windingDelta = -1 →
    ∃ e, (after.bounds i).edges.getLast? = some e ∧ e.top.y < e.bottom.y

/-- The sum of `c` over the edges of a bound, from its start to its end, counted with its winding delta. -/
def boundSum (c : Point → Point → ℤ) (b : Bound) : ℤ :=
  b.windingDelta * (b.edges.map fun e => c e.bottom e.top).sum

/-- The sum of `boundSum` over the bounds of local minima. -/
def minimaSum (c : Point → Point → ℤ) (bounds : Nat → Bound) (vs : List LocalMinimum) : ℤ :=
  (vs.map fun v => boundSum c (bounds v.left) + boundSum c (bounds v.right)).sum

end Wagyu.Spec
