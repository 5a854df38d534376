import Verif.Proofs.OneOperand
import Verif.Props.Symmetry

/-!
# Operations with an empty polygon (C50)

`heldKind k cs` (Spec/PlaneWinding) are the rings that a history `cs` has added as polygon `k` since its last `clear()`.
-/

namespace Wagyu

open Spec

theorem calls_only_new (fuel : Nat) (rev : Bool) (cs : List Call) (k : PolygonKind) (h : heldKind (otherKind k) cs = []) :
    OnlyKind k ((Wagyu.new rev).calls fuel cs).1.minimums :=
  calls_only fuel k cs _ [] (fun _ _ hb => (hb rfl).elim) h

theorem calls_edges_new (fuel : Nat) (rev : Bool) (cs : List Call) : HasEdges ((Wagyu.new rev).calls fuel cs).1.minimums :=
  (WSwap.calls fuel cs _ _ (WSwap.new rev)).2.edges

/-- **C50.** With an empty clip polygon, union, difference and symmetric difference are one operation, whatever the fill kind given for
the clip: they all return (or raise) the same. -/
theorem C50_empty_clip (fuel fuel' : Nat) (reverseOutput : Bool) (cs : List Call) (h : heldKind .clip cs = [])
    (op op' : OperationKind) (sf cf cf' : FillKind) (ho : op ≠ .intersection) (ho' : op' ≠ .intersection) :
    (((Wagyu.new reverseOutput).calls fuel cs).1.execute fuel' op sf cf).2 = (((Wagyu.new reverseOutput).calls fuel cs).1.execute fuel' op' sf cf').2 :=
  execute_solo fuel' _ sf cf cf' (calls_edges_new fuel reverseOutput cs) (calls_only_new fuel reverseOutput cs .subject h) ho ho'

/-- The rings held as one polygon are those held, with the roles exchanged, as the other. -/
theorem heldKind_exchanged (k : PolygonKind) : ∀ (cs : List Call) (held : List LinearRing),
    heldKindAfter (otherKind k) held (cs.map Call.exchanged) = heldKindAfter k held cs := by
  intro cs
  induction cs with
  | nil => intro held; rfl
  | cons c cs ih =>
    intro held
    have e : ∀ l : PolygonKind, (l.exchanged = otherKind k) = (l = k) := fun l => by rw [exchanged_other, other_eq]
    cases c with
    | addLinearRing ring l => rw [List.map_cons, Call.exchanged, heldKindAfter, heldKindAfter, ih]; simp only [e]
    | addPolygon polygon l => rw [List.map_cons, Call.exchanged, heldKindAfter, heldKindAfter, ih]; simp only [e]
    | clear => exact ih []
    | execute op sf cf => exact ih held

/-- **C50.** With an empty subject, union and symmetric difference are one operation, whatever the fill kind given for the subject. -/
theorem C50_empty_subject (fuel fuel' : Nat) (reverseOutput : Bool) (cs : List Call) (h : heldKind .subject cs = [])
    (sf sf' cf : FillKind) :
    (((Wagyu.new reverseOutput).calls fuel cs).1.execute fuel' .union sf cf).2
      = (((Wagyu.new reverseOutput).calls fuel cs).1.execute fuel' .xor sf' cf).2 := by
  have hs := (WSwap.calls fuel cs _ _ (WSwap.new reverseOutput)).2
  rw [← WSwap.execute fuel' _ _ (by decide) sf cf hs, ← WSwap.execute fuel' _ _ (by decide) sf' cf hs]
  refine C50_empty_clip fuel fuel' reverseOutput (cs.map Call.exchanged) ?_ _ _ cf sf sf' (by decide) (by decide)
  exact (heldKind_exchanged .subject cs []).trans h

/-- Nothing can be in the result: an intersection with an empty polygon, or a difference with an empty subject. -/
def NothingLeft (op : OperationKind) (cs : List Call) : Prop :=
  (op = .intersection ∧ (heldKind .subject cs = [] ∨ heldKind .clip cs = [])) ∨ (op = .difference ∧ heldKind .subject cs = [])

/-- **C50.** The intersection with an empty polygon and the difference with an empty subject are empty whenever they return, and do not
raise "DoMaxima error". -/
theorem C50_nothing (fuel fuel' : Nat) (reverseOutput : Bool) (cs : List Call) (op : OperationKind) (sf cf : FillKind) (h : NothingLeft op cs) :
    (∀ r, (((Wagyu.new reverseOutput).calls fuel cs).1.execute fuel' op sf cf).2 = .ok r → r = [])
      ∧ (((Wagyu.new reverseOutput).calls fuel cs).1.execute fuel' op sf cf).2 ≠ .error (.runtime "DoMaxima error") := by
  have key : match (((Wagyu.new reverseOutput).calls fuel cs).1.execute fuel' op sf cf).2 with
      | .ok r => r = []
      | .error e => e ≠ .runtime "DoMaxima error" := by
    have he := calls_edges_new fuel reverseOutput cs
    have ho := calls_only_new fuel reverseOutput cs
    rcases h with ⟨rfl, h | h⟩ | ⟨rfl, h⟩
    · exact execute_dark fuel' _ he (ho .clip h)
    · exact execute_dark fuel' _ he (ho .subject h)
    · exact execute_dark fuel' _ he (ho .clip h)
  revert key
  cases (((Wagyu.new reverseOutput).calls fuel cs).1.execute fuel' op sf cf).2 with
  | ok r => exact fun h => ⟨fun r' e => (Except.ok.inj e) ▸ h, fun e => (by cases e)⟩
  | error e => exact fun h => ⟨fun r' e => (by cases e), fun e' => h (Except.error.inj e')⟩

/-- A ring that crosses itself as subject, once a clip ring has been cleared away: union, difference and symmetric difference give the same
two triangles, whatever the fill kind of the clip, and the intersection is empty; as clip, the difference is empty. -/
example :
    let ring : LinearRing := [⟨0, 0⟩, ⟨4, 0⟩, ⟨0, 4⟩, ⟨4, 4⟩, ⟨0, 0⟩]
    let cs : List Call := [.addLinearRing [⟨0, 0⟩, ⟨9, 1⟩, ⟨1, 9⟩] .clip, .clear, .addLinearRing ring .subject, .addPolygon [] .clip]
    let w := ((Wagyu.new false).calls 60 cs).1
    let w' := ((Wagyu.new false).calls 60 [.addLinearRing ring .clip]).1
    heldKind .clip cs = [] ∧ heldKind .subject cs = [ring]
      ∧ (w.execute 60 .union .evenOdd .positive).2.toOption = some [[[⟨2, 2⟩, ⟨0, 0⟩, ⟨4, 0⟩, ⟨2, 2⟩]], [[⟨2, 2⟩, ⟨4, 4⟩, ⟨0, 4⟩, ⟨2, 2⟩]]]
      ∧ (w.execute 60 .difference .evenOdd .negative).2.toOption = some [[[⟨2, 2⟩, ⟨0, 0⟩, ⟨4, 0⟩, ⟨2, 2⟩]], [[⟨2, 2⟩, ⟨4, 4⟩, ⟨0, 4⟩, ⟨2, 2⟩]]]
      ∧ (w.execute 60 .intersection .evenOdd .evenOdd).2.toOption = some []
      ∧ (w'.execute 60 .difference .evenOdd .evenOdd).2.toOption = some []
      ∧ (w'.execute 60 .union .evenOdd .evenOdd).2.toOption ≠ some [] := by decide +kernel

end Wagyu
