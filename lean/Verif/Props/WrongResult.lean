import Verif.Props.Failures
import Verif.Spec.Region

/-!
# C47: an operation returns the wrong region

The quadrilaterals of C39 again.  `symmetric_subtract` does not raise for them, but the bound left without its partner makes it
return the intersection of the two as a polygon of the result, on top of the union.
-/

namespace Wagyu

open Spec

/-- What `symmetric_subtract` returns for the two quadrilaterals. -/
def wrongDifference : Multipolygon :=
  [[[⟨1, 0⟩, ⟨-6, 1⟩, ⟨-6, -3⟩, ⟨-20, -10⟩, ⟨-20, -50⟩, ⟨-1, -98⟩, ⟨0, -49⟩, ⟨1, 0⟩]],
    [[⟨1, 0⟩, ⟨-6, -3⟩, ⟨-5, -49⟩, ⟨0, -49⟩, ⟨1, 0⟩]]]

theorem quads_difference : (match (twoQuads.symmetricSubtract 200).2 with
    | .ok m => decide (m = wrongDifference) | .error _ => false) = true := by decide +kernel

theorem quads_difference_more (fuel : Nat) (hf : 200 ≤ fuel) : (twoQuads.symmetricSubtract fuel).2 = .ok wrongDifference := by
  have h := quads_difference
  unfold Wagyu.symmetricSubtract at h ⊢
  cases hr : (twoQuads.execute 200 .xor .evenOdd .evenOdd).2 with
  | error e => rw [hr] at h; cases h
  | ok m =>
    rw [hr] at h
    have h1 : m = wrongDifference := of_decide_eq_true h
    rw [execute_more twoQuads .xor .evenOdd .evenOdd 200 fuel hf (fun e he => by rw [hr] at he; cases he), hr, h1]

def windsTest : Polygon → Point → Bool
  | [], _ => false
  | exterior :: holes, z => decide (windingNumber z exterior ≠ 0) && holes.all fun hole => decide (windingNumber z hole = 0)

def insideTest (ring : LinearRing) (z : Point) : Bool :=
  (ring.zip (ring.drop 1 ++ ring.take 1)).all fun pq =>
    decide (0 < (pq.2.x - pq.1.x) * (z.y - pq.1.y) - (pq.2.y - pq.1.y) * (z.x - pq.1.x))

theorem windsTest_iff (p : Polygon) (z : Point) : windsTest p z = true ↔ WindsAround p z := by
  cases p with
  | nil => simp [windsTest, WindsAround]
  | cons e hs => simp [windsTest, WindsAround, List.all_eq_true]

theorem insideTest_iff (r : LinearRing) (z : Point) : insideTest r z = true ↔ StrictlyInside r z := by
  simp only [insideTest, StrictlyInside, List.all_eq_true, decide_eq_true_eq]

theorem wrong_everywhere : ∀ i ∈ List.range 8, ∀ j ∈ List.range 52,
    (insideTest leaningQuad ⟨(i : Int) - 6, (j : Int) - 50⟩ && insideTest touchingQuad ⟨(i : Int) - 6, (j : Int) - 50⟩) = true →
      wrongDifference.all (fun p => windsTest p ⟨(i : Int) - 6, (j : Int) - 50⟩) = true := by
  decide +kernel

/-- **C47** (violation).  Of two convex quadrilaterals with coordinates below 100, both accepted by `add_linear_ring`, `symmetric_subtract`
returns, without an exception, a multipolygon that covers every integer point strictly inside both of them: all the points of the
intersection, none of which belongs to the symmetric difference, and each of them twice.  There are such points. -/
theorem C47_difference_wrong : turnsOneWay leaningQuad = true ∧ turnsOneWay touchingQuad = true
    ∧ (StrictlyInside leaningQuad ⟨-3, -25⟩ ∧ StrictlyInside touchingQuad ⟨-3, -25⟩)
    ∧ ∀ fuel ≥ 200, ∃ p q, (twoQuads.symmetricSubtract fuel).2 = .ok [p, q]
      ∧ ∀ z, StrictlyInside leaningQuad z → StrictlyInside touchingQuad z → WindsAround p z ∧ WindsAround q z := by
  refine ⟨by decide +kernel, by decide +kernel, ⟨(insideTest_iff _ _).1 (by decide +kernel), (insideTest_iff _ _).1 (by decide +kernel)⟩,
    fun fuel hf => ⟨_, _, quads_difference_more fuel hf, fun z h1 h2 => ?_⟩⟩
  have hx : -6 ≤ z.x ∧ z.x ≤ 1 ∧ -50 ≤ z.y ∧ z.y ≤ 1 := by
    have g := h1
    simp only [StrictlyInside, leaningQuad, List.drop, List.take, List.cons_append, List.nil_append, List.zip_cons_cons, List.zip_nil_right,
      List.forall_mem_cons, List.not_mem_nil, false_imp_iff, implies_true, and_true] at g
    omega
  have hw := wrong_everywhere (z.x + 6).toNat (List.mem_range.2 (by omega)) (z.y + 50).toNat (List.mem_range.2 (by omega))
  rw [show (⟨((z.x + 6).toNat : Int) - 6, ((z.y + 50).toNat : Int) - 50⟩ : Point) = z by
    rcases z with ⟨x, y⟩; dsimp only at hx ⊢; congr 1 <;> omega] at hw
  have h3 := List.all_eq_true.1 (hw (by rw [Bool.and_eq_true]; exact ⟨(insideTest_iff _ _).2 h1, (insideTest_iff _ _).2 h2⟩))
  exact ⟨(windsTest_iff _ _).1 (h3 _ (by simp [wrongDifference])), (windsTest_iff _ _).1 (h3 _ (by simp [wrongDifference]))⟩

end Wagyu
