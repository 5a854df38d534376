import Mathlib.Data.Set.Card
import Mathlib.Algebra.Order.Field.Rat

/-!
# Specification: IEEE-754 binary64 numbers, distance in units in the last place, nearest integers

Nothing here refers to the model.
-/

namespace Wagyu.Spec

/-- `q` is a finite binary64 number: a 53-bit integer times a power of two in the exponent range. -/
def IsDouble (q : ℚ) : Prop :=
  ∃ n e : ℤ, |n| < 2 ^ 53 ∧ -1074 ≤ e ∧ e ≤ 971 ∧ q = n * 2 ^ e

/-- The doubles met when stepping from the smaller of `x`, `y` (excluded) to the larger one (included). -/
def doublesBetween (x y : ℚ) : Set ℚ := {z | IsDouble z ∧ min x y < z ∧ z ≤ max x y}

/-- At most four steps lead from `x` to `y`. -/
def WithinFourUlps (x y : ℚ) : Prop := (doublesBetween x y).Finite ∧ (doublesBetween x y).ncard ≤ 4

/-- `n` is the integer nearest to `q`, ties away from zero. -/
def IsNearest (n : ℤ) (q : ℚ) : Prop := |(n : ℚ) - q| < 1 / 2 ∨ (|(n : ℚ) - q| = 1 / 2 ∧ |q| < |(n : ℚ)|)

end Wagyu.Spec
