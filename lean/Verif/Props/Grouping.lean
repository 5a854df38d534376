import Verif.Props.OneHill

/-!
# C64: how rings are grouped into polygons does not matter
-/

namespace Wagyu

open Spec

/-- Adding a polygon ring by ring; other calls are left as they are. -/
def Call.ringByRing : Call → List Call
  | .addPolygon polygon kind => polygon.map fun ring => .addLinearRing ring kind
  | c => [c]

/-- The answer is `True`. -/
def Reply.isTrue : Reply → Bool
  | .added (.ok b) => b
  | _ => false

/-- The reply is the outcome of an operation. -/
def Reply.isResult : Reply → Bool
  | .result _ => true
  | _ => false

theorem calls_append_eq (fuel : Nat) (cs cs' : List Call) (w : Wagyu) : w.calls fuel (cs ++ cs')
    = (((w.calls fuel cs).1.calls fuel cs').1, (w.calls fuel cs).2 ++ ((w.calls fuel cs).1.calls fuel cs').2) := by
  induction cs generalizing w with
  | nil => rfl
  | cons c cs ih => simp only [List.cons_append, Wagyu.calls, ih]

theorem addPolygonFrom_rings (fuel : Nat) (kind : PolygonKind) : ∀ (polygon : Polygon) (w : Wagyu) (r : Bool), (∀ ring ∈ polygon, Fits fuel ring) →
    w.addPolygonFrom fuel r kind polygon = ((w.calls fuel (polygon.map fun ring => .addLinearRing ring kind)).1,
      .ok (r || (w.calls fuel (polygon.map fun ring => .addLinearRing ring kind)).2.any Reply.isTrue))
    ∧ (w.calls fuel (polygon.map fun ring => .addLinearRing ring kind)).2.filter Reply.isResult = []
  | [], w, r, _ => by
    refine ⟨?_, rfl⟩
    rw [Wagyu.addPolygonFrom]
    simp [Wagyu.calls]
  | ring :: polygon, w, r, h => by
    obtain ⟨b, hb⟩ : ∃ b, (w.addLinearRing fuel ring kind).2 = .ok b := by
      obtain ⟨es, -, h2⟩ := C15_decomposes fuel w.minimums ring kind (h ring (by simp)).1 (h ring (by simp)).2
      rcases h2 with ⟨-, h2⟩ | ⟨-, m', new, h2, -⟩
      · exact ⟨false, by unfold Wagyu.addLinearRing; rw [h2]⟩
      · exact ⟨true, by unfold Wagyu.addLinearRing; rw [h2]⟩
    have hw : w.addLinearRing fuel ring kind = ((w.addLinearRing fuel ring kind).1, .ok b) := by rw [← hb]
    have ih := addPolygonFrom_rings fuel kind polygon (w.addLinearRing fuel ring kind).1 (if b && !r then true else r)
      fun x hx => h x (by simp [hx])
    have hc : w.call fuel (.addLinearRing ring kind) = ((w.addLinearRing fuel ring kind).1, .added (.ok b)) := by
      unfold Wagyu.call
      simp only
      rw [hb]
    rw [Wagyu.addPolygonFrom, hw, List.map_cons, Wagyu.calls, hc]
    simp only
    refine ⟨?_, ih.2⟩
    rw [ih.1, List.any_cons, Reply.isTrue]
    cases b <;> cases r <;> simp

/-- **C64.** Adding a polygon is adding its rings one after the other: the object afterwards is the same, and the answer is `True` if it is
for one of the rings. -/
theorem C64_polygon (fuel : Nat) (w : Wagyu) (polygon : Polygon) (kind : PolygonKind) (hf : ∀ ring ∈ polygon, Fits fuel ring) :
    w.addPolygon fuel polygon kind = ((w.calls fuel (polygon.map fun ring => .addLinearRing ring kind)).1,
      .ok ((w.calls fuel (polygon.map fun ring => .addLinearRing ring kind)).2.any Reply.isTrue)) := by
  have := (addPolygonFrom_rings fuel kind polygon w false hf).1
  rwa [Bool.false_or] at this

theorem calls_ringByRing (fuel : Nat) : ∀ (cs : List Call) (w : Wagyu), (∀ c ∈ cs, ∀ ring ∈ c.rings, Fits fuel ring) →
    (w.calls fuel (cs.flatMap Call.ringByRing)).1 = (w.calls fuel cs).1
    ∧ (w.calls fuel (cs.flatMap Call.ringByRing)).2.filter Reply.isResult = (w.calls fuel cs).2.filter Reply.isResult
  | [], _, _ => ⟨rfl, rfl⟩
  | c :: cs, w, hf => by
    have ih := fun w => calls_ringByRing fuel cs w fun c hc => hf c (by simp [hc])
    have one : (w.calls fuel c.ringByRing).1 = (w.call fuel c).1
        ∧ (w.calls fuel c.ringByRing).2.filter Reply.isResult = [(w.call fuel c).2].filter Reply.isResult := by
      cases c with
      | addPolygon polygon kind =>
        have h := addPolygonFrom_rings fuel kind polygon w false (hf (.addPolygon polygon kind) (by simp))
        have hc : w.call fuel (.addPolygon polygon kind) = ((w.addPolygon fuel polygon kind).1, .added (w.addPolygon fuel polygon kind).2) := rfl
        rw [hc]
        refine ⟨?_, h.2⟩
        unfold Wagyu.addPolygon
        rw [h.1]
        rfl
      | addLinearRing ring kind => exact ⟨rfl, rfl⟩
      | clear => exact ⟨rfl, rfl⟩
      | execute op sf cf => exact ⟨rfl, rfl⟩
    rw [List.flatMap_cons, calls_append_eq, Wagyu.calls]
    simp only
    rw [one.1, List.filter_append, one.2]
    refine ⟨(ih _).1, ?_⟩
    rw [(ih _).2, ← List.filter_append]
    rfl

/-- **C64.** Two histories of an object that are the same ring by ring, however the rings are grouped into polygons or added alone, leave
the same object, and their operations have the same results. -/
theorem C64_grouping (fuel : Nat) (w : Wagyu) {cs cs' : List Call} (h : cs.flatMap Call.ringByRing = cs'.flatMap Call.ringByRing)
    (hf : ∀ c ∈ cs, ∀ ring ∈ c.rings, Fits fuel ring) (hf' : ∀ c ∈ cs', ∀ ring ∈ c.rings, Fits fuel ring) :
    (w.calls fuel cs).1 = (w.calls fuel cs').1
    ∧ (w.calls fuel cs).2.filter Reply.isResult = (w.calls fuel cs').2.filter Reply.isResult := by
  have h1 := calls_ringByRing fuel cs w hf
  have h2 := calls_ringByRing fuel cs' w hf'
  rw [h] at h1
  exact ⟨h1.1.symm.trans h2.1, h1.2.symm.trans h2.2⟩

/-! ## Examples -/

/-- A square with a hole and a triangle, as one polygon, as two, and the hole first added to another polygon. -/
def groupedCalls : List Call := [.addPolygon [[⟨0, 0⟩, ⟨9, 0⟩, ⟨9, 9⟩, ⟨0, 9⟩], [⟨2, 2⟩, ⟨2, 4⟩, ⟨4, 4⟩]] .subject,
  .addPolygon [[⟨1, 1⟩, ⟨8, 1⟩, ⟨8, 8⟩]] .subject, .execute .union .evenOdd .evenOdd]
def regroupedCalls : List Call := [.addLinearRing [⟨0, 0⟩, ⟨9, 0⟩, ⟨9, 9⟩, ⟨0, 9⟩] .subject, .addPolygon [] .clip,
  .addPolygon [[⟨2, 2⟩, ⟨2, 4⟩, ⟨4, 4⟩], [⟨1, 1⟩, ⟨8, 1⟩, ⟨8, 8⟩]] .subject, .execute .union .evenOdd .evenOdd]

example : (((Wagyu.new false).calls 100 groupedCalls).2.map Reply.isTrue, ((Wagyu.new false).calls 100 regroupedCalls).2.map Reply.isTrue)
    = ([true, true, false], [true, false, true, false]) := by decide +kernel

example : ((Wagyu.new false).calls 100 groupedCalls).1 = ((Wagyu.new false).calls 100 regroupedCalls).1 := by
  refine (C64_grouping 100 (Wagyu.new false) (cs := groupedCalls) (cs' := regroupedCalls) rfl ?_ ?_).1
  · intro c hc ring hr
    refine ⟨?_, noOverflow_small ?_⟩
    · revert hr ring; revert hc c; decide
    · revert hr ring; revert hc c; decide
  · intro c hc ring hr
    refine ⟨?_, noOverflow_small ?_⟩
    · revert hr ring; revert hc c; decide
    · revert hr ring; revert hc c; decide

end Wagyu
