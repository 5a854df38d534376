import Verif.Spec.Scanlines

/-!
# Specification: bounds that have not ended, and their partners

The two bounds that meet at a local maximum are partners (`maximum_bound`).  They should end together.
-/

namespace Wagyu.Spec

/-- The bound is active, or belongs to a local minimum not yet inserted. -/
def Waiting (t : St) (rest : List LocalMinimum) (b : Nat) : Prop := some b ∈ t.abl ∨ ∃ v ∈ rest, b = v.left ∨ b = v.right

/-- No bound has ended without its partner. -/
def AllPaired (t : St) (rest : List LocalMinimum) : Prop :=
  ∀ b m, Waiting t rest b → (t.bounds b).maximumBound = some m → Waiting t rest m

/-- The last edge of the bound is horizontal: the bound ends in a flat top. -/
def EndsFlat (t : St) (b : Nat) : Prop := ∃ e, (t.bounds b).edges.getLast? = some e ∧ e.top.y = e.bottom.y

end Wagyu.Spec
