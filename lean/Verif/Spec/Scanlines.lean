import Verif.Model.Sweep

/-!
# Specification: the scanlines a sweep visits

Both sweeps (ring_manager.py:397-408, 711-734) are a loop `while scanbeams or minimums_left: ...` whose body moves to
a scanline `y'` and does everything there.
-/

namespace Wagyu.Spec

/-- `Visits step y rest s ys r`: started in state `s` with the minima `rest` left, the loop visits the scanlines `ys`
and then ends with the outcome `r`: normally when nothing is left, or with the exception the step on the next scanline
raises. -/
inductive Visits (step : Int → List LocalMinimum → M (Int × List LocalMinimum)) :
    Int → List LocalMinimum → St → List Int → Res Unit → Prop
  | done {y s} : s.scan = [] → Visits step y [] s [] (.ok () s)
  | next {y rest s y' rest' s' ys r} : ¬ (s.scan = [] ∧ rest = []) → step y rest s = .ok (y', rest') s' →
      Visits step y' rest' s' ys r → Visits step y rest s (y' :: ys) r
  | stop {y rest s e s'} : ¬ (s.scan = [] ∧ rest = []) → step y rest s = .err e s' → Visits step y rest s [] (.err e s')

/-- `Passes step y₀ rest₀ s₀ y rest s`: started in state `s₀` with the minima `rest₀` left, the loop passes, at the end of
zero or more scanlines, through the state `s` with the minima `rest` left. -/
inductive Passes (step : Int → List LocalMinimum → M (Int × List LocalMinimum)) (y₀ : Int) (rest₀ : List LocalMinimum) (s₀ : St) :
    Int → List LocalMinimum → St → Prop
  | start : Passes step y₀ rest₀ s₀ y₀ rest₀ s₀
  | next {y rest s y' rest' s'} : Passes step y₀ rest₀ s₀ y rest s → ¬ (s.scan = [] ∧ rest = []) →
      step y rest s = .ok (y', rest') s' → Passes step y₀ rest₀ s₀ y' rest' s'

/-- Number of edges of the bounds of the minima. -/
def edgeCount (bounds : Nat → Bound) (minimums : List LocalMinimum) : Nat :=
  (minimums.map fun m => (bounds m.left).edges.length + (bounds m.right).edges.length).sum

end Wagyu.Spec
