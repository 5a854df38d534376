import Verif.Proofs.Symmetry
import Verif.Spec.Exchange
import Verif.Props.Independence

/-!
# Intersection, union and symmetric difference are commutative (C49)
-/

namespace Wagyu

open Spec

theorem exchanged_other (k : PolygonKind) : k.exchanged = otherKind k := by cases k <;> rfl

/-- Every call but a difference has the same reply with the roles exchanged. -/
theorem WSwap.call (fuel : Nat) (w w' : Wagyu) (c : Call) (h : WSwap w w') :
    ((∀ sf cf, c ≠ .execute .difference sf cf) → (w'.call fuel c.exchanged).2 = (w.call fuel c).2)
      ∧ WSwap (w.call fuel c).1 (w'.call fuel c.exchanged).1 := by
  cases c with
  | addLinearRing ring kind =>
    rw [Call.exchanged, exchanged_other]
    obtain ⟨h1, h2⟩ := addLinearRing_swap fuel _ _ ring kind h.min
    exact ⟨fun _ => congrArg Reply.added h1, h2, h.rev, addLinearRing_edges fuel _ ring kind h.edges⟩
  | addPolygon polygon kind =>
    rw [Call.exchanged, exchanged_other]
    obtain ⟨h1, h2⟩ := WSwap.polygon fuel kind polygon w w' false h
    exact ⟨fun _ => congrArg Reply.added h1, h2⟩
  | clear =>
    refine ⟨fun _ => rfl, ?_⟩
    show WSwap w.clear w'.clear
    rw [clear_eq, clear_eq]
    exact ⟨⟨rfl, rfl, fun _ => ⟨rfl, fun hn => (hn rfl).elim⟩⟩, h.rev, fun v hv => by cases hv⟩
  | execute op sf cf =>
    exact ⟨fun hd => congrArg Reply.result (WSwap.execute fuel w w' (fun e => hd sf cf (by rw [e])) sf cf h), h.executed fuel _ _ _ _ _ _ _ _⟩

theorem WSwap.calls (fuel : Nat) : ∀ (cs : List Call) (w w' : Wagyu), WSwap w w' →
    ((∀ sf cf, Call.execute .difference sf cf ∉ cs) → (w'.calls fuel (cs.map Call.exchanged)).2 = (w.calls fuel cs).2)
      ∧ WSwap (w.calls fuel cs).1 (w'.calls fuel (cs.map Call.exchanged)).1 := by
  intro cs
  induction cs with
  | nil => intro w w' h; exact ⟨fun _ => rfl, h⟩
  | cons c cs ih =>
    intro w w' h
    obtain ⟨h1, h2⟩ := WSwap.call fuel w w' c h
    obtain ⟨h3, h4⟩ := ih _ _ h2
    rw [List.map_cons, Wagyu.calls, Wagyu.calls]
    refine ⟨fun hd => ?_, h4⟩
    show _ :: _ = _ :: _
    rw [h1 fun sf cf e => hd sf cf (by simp [e]), h3 fun sf cf hm => hd sf cf (by simp [hm])]

theorem WSwap.new (rev : Bool) : WSwap (Wagyu.new rev) (Wagyu.new rev) :=
  ⟨⟨rfl, rfl, fun _ => ⟨rfl, fun hn => (hn rfl).elim⟩⟩, rfl, fun v hv => by cases hv⟩

/-- **C49.** Which polygon is called the subject and which the clip does not matter to intersection, union and symmetric difference:
after any history, and after the same history with the roles (and the fill kinds) exchanged throughout, all replies to later calls among
which there is no difference are the same, be they results or exceptions. -/
theorem C49_roles_do_not_matter (fuel : Nat) (reverseOutput : Bool) (before after : List Call)
    (h : ∀ sf cf, Call.execute .difference sf cf ∉ after) :
    (((Wagyu.new reverseOutput).calls fuel (before.map Call.exchanged)).1.calls fuel (after.map Call.exchanged)).2
      = (((Wagyu.new reverseOutput).calls fuel before).1.calls fuel after).2 :=
  (WSwap.calls fuel after _ _ (WSwap.calls fuel before _ _ (WSwap.new reverseOutput)).2).1 h

/-- **C49.** In particular, for two polygons `a` and `b`: an intersection, union or symmetric difference with `a` as subject and `b` as
clip returns (or raises) what the one with `a` as clip and `b` as subject does. -/
theorem C49_commutative (fuel : Nat) (reverseOutput : Bool) (a b : Polygon) (op : OperationKind) (fa fb : FillKind) (h : op ≠ .difference) :
    (((Wagyu.new reverseOutput).calls fuel [.addPolygon a .subject, .addPolygon b .clip]).1.execute fuel op fa fb).2
      = (((Wagyu.new reverseOutput).calls fuel [.addPolygon a .clip, .addPolygon b .subject]).1.execute fuel op fb fa).2 := by
  have := C49_roles_do_not_matter fuel reverseOutput [.addPolygon a .subject, .addPolygon b .clip] [.execute op fa fb]
    (fun sf cf hm => h (by simp at hm; exact hm.1.symm))
  injection this with this
  injection this with this
  exact this.symm

/-- Two overlapping triangles with different fill kinds: the intersection is the same, non-empty, either way; the difference is not. -/
example :
    let a : Polygon := [[⟨0, 0⟩, ⟨4, 0⟩, ⟨0, 4⟩, ⟨0, 0⟩]]
    let b : Polygon := [[⟨1, 1⟩, ⟨5, 1⟩, ⟨1, 5⟩, ⟨1, 1⟩]]
    let w := ((Wagyu.new false).calls 60 [.addPolygon a .subject, .addPolygon b .clip]).1
    let w' := ((Wagyu.new false).calls 60 [.addPolygon a .clip, .addPolygon b .subject]).1
    (w.execute 60 .intersection .evenOdd .nonZero).2.toOption = some [[[⟨3, 1⟩, ⟨1, 3⟩, ⟨1, 1⟩, ⟨3, 1⟩]]]
      ∧ (w'.execute 60 .intersection .nonZero .evenOdd).2.toOption = some [[[⟨3, 1⟩, ⟨1, 3⟩, ⟨1, 1⟩, ⟨3, 1⟩]]]
      ∧ (w.execute 60 .union .positive .negative).2.toOption = (w'.execute 60 .union .negative .positive).2.toOption
      ∧ (w.execute 60 .difference .evenOdd .evenOdd).2.toOption ≠ (w'.execute 60 .difference .evenOdd .evenOdd).2.toOption
      ∧ (w.execute 60 .difference .evenOdd .evenOdd).2.toOption ≠ some [] := by decide +kernel

end Wagyu
