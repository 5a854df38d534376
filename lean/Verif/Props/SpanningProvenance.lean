import Verif.Props.HorizontalExtent

/-!
# C51, without left-over bounds: the rounded edge points lie on edges that reach their row
-/

namespace Wagyu

open Spec

/-- Where a vertex comes from when no active bound is left over: as `Provenance`, and the edge that it lies on spans its row. -/
inductive SpanProvenance (fuel : Nat) (held : List LinearRing) (p : Point) : Prop
  /-- It is a corner of one of the rings, or has the row of one corner and the column of another. -/
  | grid (a b : Point) : HeldCorner held a → HeldCorner held b → p = ⟨a.x, b.y⟩ → SpanProvenance fuel held p
  /-- It is the rounded crossing of two edges. -/
  | crossing (e f : Edge) (q : FPoint) : HeldEdge fuel held e → HeldEdge fuel held f → e.and f = some q → q.round = .ok p →
      SpanProvenance fuel held p
  /-- It is the rounded point, on the row of a corner, of an edge that spans this row. -/
  | onEdge (e : Edge) (c : Point) : HeldEdge fuel held e → HeldCorner held c → p.y = c.y → e.top.y ≤ p.y → p.y ≤ e.bottom.y →
      roundHalfUp (e.getCurrentX p.y) = some p.x → SpanProvenance fuel held p

/-- The current x of a bound on the row `y`. -/
def SpanX (fuel : Nat) (held : List LinearRing) (y : Int) (x : F64) : Prop :=
  (∃ e, HeldEdge fuel held e ∧ e.top.y ≤ y ∧ y ≤ e.bottom.y ∧ x = e.getCurrentX y)
    ∨ ∃ a, HeldCorner held a ∧ (x = .ofInt a.x ∨ x = .floatOfInt a.x)

section
variable {fuel : Nat} {held : List LinearRing}

theorem span_vrule (hfit : ∀ ring ∈ held, RingFits fuel ring) :
    VRule (SpanProvenance fuel held) (HeldEdge fuel held) (HeldRow held) where
  bot h := .grid _ _ (h.origin hfit).1 (h.origin hfit).1 rfl
  top h := .grid _ _ (h.origin hfit).2.1 (h.origin hfit).2.1 rfl
  row h := ⟨_, (h.origin hfit).2.1, rfl⟩
  meet h k h1 h2 := .crossing _ _ _ h k h1 h2

theorem span_xrule (hfit : ∀ ring ∈ held, RingFits fuel ring) {y : Int} (hy : HeldRow held y) :
    XRule (SpanProvenance fuel held) (HeldEdge fuel held) (SpanX fuel held y) y where
  start h := .inr ⟨_, (h.origin hfit).1, .inl rfl⟩
  start' h := .inr ⟨_, (h.origin hfit).1, .inr rfl⟩
  stop h := .inr ⟨_, (h.origin hfit).2.1, .inl rfl⟩
  round := by
    intro x r hx hr
    obtain ⟨c, hc, hcy⟩ := hy
    rcases hx with ⟨e, he, h1, h2, rfl⟩ | ⟨a, ⟨ring, hring, ha⟩, hx⟩
    · exact .onEdge e c he hc hcy.symm h1 h2 hr
    · have := round_int ((hfit ring hring).2 a ha).1 hx hr
      exact .grid a c ⟨ring, hring, ha⟩ hc (by rw [this, hcy])

end

section
variable {fuel : Nat} {rev : Bool} {cs : List Call} {w w' : Wagyu} {op : OperationKind} {sf cf : FillKind} {result : Multipolygon}

/-- **C51.** Provided no active bound is left over at the end of the sweep, the edges of `C51_provenance` span the rows of
their vertices: no vertex lies on the extension of an edge. -/
theorem C51_spanning (hw : ((Wagyu.new rev).calls fuel cs).1 = w) (hfit : ∀ ring ∈ heldRings cs, RingFits fuel ring)
    (hend : ∀ s, sweeps w.minimums op sf cf (St.init fuel w.minimums.bounds) = .ok () s → ∀ b, some b ∉ s.abl)
    (hrun : w.execute fuel op sf cf = (w', .ok result)) : ∀ p ∈ result.vertices, SpanProvenance fuel (heldRings cs) p := by
  refine result_of_sweeps (fun _ s e => ?_) hrun
  refine ((sweeps_box hw hfit (span_vrule hfit) (fun y hy => span_xrule hfit hy) fun y _ _ he h1 h2 => .inl ⟨_, he, h1, h2, rfl⟩).elim e).resolve_right ?_
  rintro ⟨b, m, -, -, -, -, -, h | h, -⟩
  · exact hend s e m (mem_act.1 h)
  · cases h

/-- **C51.** Unconditionally when no stored bound ends in a horizontal edge. -/
theorem C51_spanning_no_flat_tops (hw : ((Wagyu.new rev).calls fuel cs).1 = w) (hfit : ∀ ring ∈ heldRings cs, RingFits fuel ring)
    (hflat : NoFlatTops w.minimums) (hrun : w.execute fuel op sf cf = (w', .ok result)) :
    ∀ p ∈ result.vertices, SpanProvenance fuel (heldRings cs) p := by
  refine result_of_sweeps (fun _ s e => ?_) hrun
  refine ((sweeps_box hw hfit (span_vrule hfit) (fun y hy => span_xrule hfit hy) fun y _ _ he h1 h2 => .inl ⟨_, he, h1, h2, rfl⟩).elim e).resolve_right ?_
  have hm : MatesOk w.minimums := by rw [← hw]; exact calls_mates fuel cs (Wagyu.new rev) [] (fun _ => MatesOk.empty) hfit
  rintro ⟨b, m, hb, -, -, -, -, -, f, hf, hh⟩
  rw [(mates_of hm hflat fuel).steep b hb f hf] at hh
  cases hh

end

/-- `twoTrianglesHistory` meets the hypotheses of `C51_spanning`; the vertex `(3, 1)` of its intersection is not a corner, and
the edge that it lies on spans the row. -/
example : (∀ ring ∈ heldRings twoTrianglesHistory, RingFits 60 ring) ∧ leftOver twoTrianglesHistory .intersection .evenOdd .evenOdd = some 0
    ∧ (((Wagyu.new false).calls 60 twoTrianglesHistory).1.execute 60 .intersection .evenOdd .evenOdd).2.toOption
      = some [[[⟨3, 1⟩, ⟨1, 3⟩, ⟨1, 1⟩, ⟨3, 1⟩]]]
    ∧ SpanProvenance 60 (heldRings twoTrianglesHistory) ⟨3, 1⟩ := by
  refine ⟨by unfold RingFits; decide +kernel, by decide +kernel, twoTrianglesHistory_result, .onEdge (Edge.mk' ⟨4, 0⟩ ⟨0, 4⟩) ⟨1, 1⟩ ?_ ?_ rfl ?_ ?_ ?_⟩
  · exact ⟨[⟨0, 0⟩, ⟨4, 0⟩, ⟨0, 4⟩, ⟨0, 0⟩], by decide +kernel, _, rfl, Edge.mk' ⟨4, 0⟩ ⟨0, 4⟩, by decide +kernel, .inl rfl⟩
  · exact ⟨[⟨1, 1⟩, ⟨5, 1⟩, ⟨1, 5⟩, ⟨1, 1⟩], by decide +kernel, by decide +kernel⟩
  · decide +kernel
  · decide +kernel
  · decide +kernel

end Wagyu
