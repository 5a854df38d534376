import Verif.Proofs.TwoRun
import Verif.Spec.History

/-!
# Operations do not depend on earlier operations (C04)

The bounds of a `Wagyu` object are mutated in place while an operation runs and are used again by the next one.
-/

namespace Wagyu

/-- **C04.** An operation, whether it returns or raises, leaves the stored geometry as it was: the list of local minima, and
of every bound its edges, its winding delta, its polygon kind and its partner at the maximum. -/
theorem C04_input_kept (fuel : Nat) (w : Wagyu) (op : OperationKind) (sf cf : FillKind) :
    let w' := (w.execute fuel op sf cf).1
    w'.reverseOutput = w.reverseOutput ∧ w'.minimums.values = w.minimums.values ∧ w'.minimums.nb = w.minimums.nb
      ∧ ∀ b, (w'.minimums.bounds b).edges = (w.minimums.bounds b).edges
        ∧ (w'.minimums.bounds b).windingDelta = (w.minimums.bounds b).windingDelta
        ∧ (w'.minimums.bounds b).polygonKind = (w.minimums.bounds b).polygonKind
        ∧ (w'.minimums.bounds b).maximumBound = (w.minimums.bounds b).maximumBound := by
  obtain ⟨h1, h2, h3, h4⟩ := execute_input fuel w op sf cf
  exact ⟨h3, h1, h2, fun b => ⟨(h4 b).edges, (h4 b).delta, (h4 b).kind, (h4 b).partner⟩⟩

theorem WSim.refl {w : Wagyu} (h : HasEdges w.minimums) : WSim w w := ⟨⟨rfl, rfl, fun _ => SameInput.refl _⟩, rfl, h⟩

theorem WSim.calls (fuel : Nat) : ∀ (cs : List Call) (w w' : Wagyu), WSim w w' →
    (w'.calls fuel cs).2 = (w.calls fuel cs).2 ∧ WSim (w.calls fuel cs).1 (w'.calls fuel cs).1 := by
  intro cs
  induction cs with
  | nil => intro w w' h; exact ⟨rfl, h⟩
  | cons c cs ih =>
    intro w w' h
    obtain ⟨h1, h2⟩ := WSim.call fuel w w' c h
    obtain ⟨h3, h4⟩ := ih _ _ h2
    rw [Wagyu.calls, Wagyu.calls]
    refine ⟨?_, h4⟩
    show _ :: _ = _ :: _
    rw [h1, h3]

theorem calls_append (fuel : Nat) (cs ds : List Call) (w : Wagyu) :
    (w.calls fuel (cs ++ ds)).1 = ((w.calls fuel cs).1.calls fuel ds).1 := by
  induction cs generalizing w with
  | nil => rfl
  | cons c cs ih => exact ih _

theorem additions_sim (fuel : Nat) (rev : Bool) : ∀ (cs acc : List Call) (w : Wagyu), WSim ((Wagyu.new rev).calls fuel acc).1 w →
    WSim ((Wagyu.new rev).calls fuel (additionsAfter acc cs)).1 (w.calls fuel cs).1 := by
  intro cs
  induction cs with
  | nil => intro acc w h; exact h
  | cons c cs ih =>
    intro acc w h
    rw [Wagyu.calls]
    have step := (WSim.call fuel _ w c h).2
    cases c with
    | addLinearRing ring kind =>
      refine ih _ _ ?_
      rw [calls_append]
      exact step
    | addPolygon polygon kind =>
      refine ih _ _ ?_
      rw [calls_append]
      exact step
    | clear =>
      refine ih _ _ ?_
      show WSim (Wagyu.new rev) w.clear
      have e : ∀ (cs : List Call) (v : Wagyu), (v.calls fuel cs).1.reverseOutput = v.reverseOutput := by
        intro cs
        induction cs with
        | nil => intro v; rfl
        | cons c cs ih =>
          intro v
          refine (ih _).trans ?_
          cases c with
          | addLinearRing ring kind => rfl
          | addPolygon polygon kind =>
            have : ∀ (l : Polygon) (r : Bool) (v : Wagyu), (v.addPolygonFrom fuel r kind l).1.reverseOutput = v.reverseOutput := by
              intro l
              induction l with
              | nil => intro r v; rfl
              | cons ring l ih =>
                intro r v
                rw [Wagyu.addPolygonFrom]
                split
                · next heq =>
                  have := congrArg (fun x => x.1.reverseOutput) heq
                  exact this.symm
                · next heq =>
                  have := congrArg (fun x => x.1.reverseOutput) heq
                  rw [ih]
                  exact this.symm
            exact this _ _ _
          | clear => simp only [clear_eq]
          | execute op sf cf => exact (execute_input fuel v op sf cf).2.2.1
      rw [clear_eq]
      refine ⟨⟨rfl, rfl, fun _ => SameInput.refl _⟩, h.rev.trans (e acc _), fun v hv => by cases hv⟩
    | execute op sf cf => exact ih _ _ (h.executed fuel _ _ op sf cf)

/-- **C04.** What a client sees from some moment on depends on the past only through the geometry added since the last
`clear()`: after any history of additions, operations (successful or not) and `clear()`s, all replies to all later calls
are those of a new object to which just that geometry was added. -/
theorem C04_only_the_geometry_counts (fuel : Nat) (reverseOutput : Bool) (before after : List Call) :
    (((Wagyu.new reverseOutput).calls fuel before).1.calls fuel after).2
      = (((Wagyu.new reverseOutput).calls fuel (additions before)).1.calls fuel after).2 :=
  (WSim.calls fuel after _ _ (additions_sim fuel reverseOutput before [] _ (WSim.refl fun v hv => by cases hv))).1

/-- **C04.** In particular an operation returns, or raises, the same before and after any number of other operations. -/
theorem C04_operations_do_not_interfere (fuel : Nat) (reverseOutput : Bool) (history : List Call)
    (operations : List (OperationKind × FillKind × FillKind)) (op : OperationKind) (sf cf : FillKind) :
    let w := ((Wagyu.new reverseOutput).calls fuel history).1
    ((w.calls fuel (operations.map fun o => .execute o.1 o.2.1 o.2.2)).1.execute fuel op sf cf).2 = (w.execute fuel op sf cf).2 := by
  dsimp only
  have h : ∀ (l : List (OperationKind × FillKind × FillKind)) (acc : List Call),
      additionsAfter acc (l.map fun o => Call.execute o.1 o.2.1 o.2.2) = acc := by
    intro l
    induction l with
    | nil => intro acc; rfl
    | cons o l ih => intro acc; exact ih acc
  have h2 : ∀ (cs ds acc : List Call), additionsAfter acc (cs ++ ds) = additionsAfter (additionsAfter acc cs) ds := by
    intro cs
    induction cs with
    | nil => intro ds acc; rfl
    | cons c cs ih => intro ds acc; cases c <;> exact ih _ _
  have a1 := C04_only_the_geometry_counts fuel reverseOutput
    (history ++ operations.map fun o => Call.execute o.1 o.2.1 o.2.2) [.execute op sf cf]
  have a2 := C04_only_the_geometry_counts fuel reverseOutput history [.execute op sf cf]
  have e : additions (history ++ operations.map fun o => Call.execute o.1 o.2.1 o.2.2) = additions history := by
    unfold additions
    rw [h2, h]
  rw [e, ← a2, calls_append] at a1
  injection a1 with a1
  injection a1

/-- Two overlapping triangles: three operations in between leave ring references, winding counts and positions behind in
the bounds, and the intersection is what it was. -/
def independenceHistory : List Call :=
  [.addLinearRing [⟨0, 0⟩, ⟨4, 0⟩, ⟨0, 4⟩, ⟨0, 0⟩] .subject, .addPolygon [[⟨1, 1⟩, ⟨5, 1⟩, ⟨1, 5⟩, ⟨1, 1⟩]] .clip]

example :
    let w := ((Wagyu.new false).calls 60 independenceHistory).1
    let w' := (w.calls 60 [.execute .union .evenOdd .nonZero, .execute .xor .positive .negative, .execute .difference .nonZero .nonZero]).1
    (w.execute 60 .intersection .evenOdd .evenOdd).2.toOption = some [[[⟨3, 1⟩, ⟨1, 3⟩, ⟨1, 1⟩, ⟨3, 1⟩]]]
      ∧ (w'.execute 60 .intersection .evenOdd .evenOdd).2.toOption = some [[[⟨3, 1⟩, ⟨1, 3⟩, ⟨1, 1⟩, ⟨3, 1⟩]]]
      ∧ (w'.minimums.bounds 0).windingCount ≠ (w.minimums.bounds 0).windingCount := by decide +kernel

end Wagyu
