import Verif.Spec.Rings

/-!
# Specification: rings in rings
-/

namespace Wagyu.Spec

/-- `inner` lies in `outer` as far as its vertices tell: none is outside the bounding box of `outer`, and one of them is
inside `outer` (not on its sides, and surrounded an odd number of times), or all of them are on the sides of `outer`. -/
structure VertexInside (inner outer : List Point) : Prop where
  left : ∀ p ∈ inner, ∃ q ∈ outer, q.x ≤ p.x
  right : ∀ p ∈ inner, ∃ q ∈ outer, p.x ≤ q.x
  top : ∀ p ∈ inner, ∃ q ∈ outer, q.y ≤ p.y
  bottom : ∀ p ∈ inner, ∃ q ∈ outer, p.y ≤ q.y
  vertex : (∃ p ∈ inner, ¬ OnRing p outer ∧ Odd (windingNumber p outer)) ∨ ∀ p ∈ inner, OnRing p outer

end Wagyu.Spec
