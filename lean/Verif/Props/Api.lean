import Verif.Proofs.AddRing
import Verif.Spec.History

/-!
# C01, C16, C27, C28: the public object
-/

namespace Wagyu

/-! ## C01 -/

/-- The object was freshly created, or cleared, or only operations and adds that returned `False` came after that. -/
inductive HoldsNoRings (fuel : Nat) : Wagyu → Prop
  | fresh (reverseOutput : Bool) : HoldsNoRings fuel (Wagyu.new reverseOutput)
  | clear (w : Wagyu) : HoldsNoRings fuel w.clear
  | addLinearRing (w w' : Wagyu) (ring : LinearRing) (kind : PolygonKind) : HoldsNoRings fuel w →
      w.addLinearRing fuel ring kind = (w', .ok false) → HoldsNoRings fuel w'
  | addPolygon (w w' : Wagyu) (polygon : Polygon) (kind : PolygonKind) : HoldsNoRings fuel w →
      w.addPolygon fuel polygon kind = (w', .ok false) → HoldsNoRings fuel w'
  | execute (w w' : Wagyu) (op : OperationKind) (sf cf : FillKind) (r : Except Err Multipolygon) :
      HoldsNoRings fuel w → w.execute fuel op sf cf = (w', r) → HoldsNoRings fuel w'

theorem HoldsNoRings.values_eq {fuel : Nat} {w : Wagyu} (h : HoldsNoRings fuel w) : w.minimums.values = [] := by
  induction h with
  | fresh => rfl
  | clear w => rw [clear_eq_new]; rfl
  | addLinearRing w w' ring kind _ e ih =>
    rw [Wagyu.addLinearRing_false e]; exact ih
  | addPolygon w w' polygon kind _ e ih =>
    rw [Wagyu.addPolygon_false e]; exact ih
  | execute w w' op sf cf r _ e ih =>
    unfold Wagyu.execute at e
    rw [if_pos ih] at e
    cases e
    exact ih

/-- **C01.** On an object that holds no rings every operation returns the empty multipolygon. -/
theorem C01_no_input_no_output (fuel : Nat) (w : Wagyu) (h : HoldsNoRings fuel w) (sf cf : FillKind) :
    (w.intersect fuel sf cf).2 = .ok [] ∧ (w.unite fuel sf cf).2 = .ok []
      ∧ (w.subtract fuel sf cf).2 = .ok [] ∧ (w.symmetricSubtract fuel sf cf).2 = .ok [] := by
  have := h.values_eq
  simp [Wagyu.intersect, Wagyu.unite, Wagyu.subtract, Wagyu.symmetricSubtract, Wagyu.execute, this]

/-- A history with a non-degenerate ring, a clear, a degenerate ring and an operation is covered. -/
example : HoldsNoRings 100
    ((((Wagyu.new true).addLinearRing 100 [⟨0, 0⟩, ⟨6, 0⟩, ⟨3, 3⟩] .subject).1.clear).addLinearRing 100
      [⟨0, 0⟩, ⟨1, 1⟩, ⟨2, 2⟩] .clip).1 :=
  .addLinearRing _ _ [⟨0, 0⟩, ⟨1, 1⟩, ⟨2, 2⟩] .clip (.clear _)
    (by rw [clear_eq_new, show ((Wagyu.new true).addLinearRing 100 [⟨0, 0⟩, ⟨6, 0⟩, ⟨3, 3⟩] .subject).1.reverseOutput
      = true from rfl]; rfl)

/-! ## C16 -/

/-- `w'` is `w` with `added` local minima appended: earlier minima and earlier bounds are as they were. -/
def Extends (w w' : Wagyu) : Prop :=
  w'.reverseOutput = w.reverseOutput
    ∧ (∃ added, w'.minimums.values = w.minimums.values ++ added)
    ∧ w.minimums.nb ≤ w'.minimums.nb
    ∧ ∀ b < w.minimums.nb, w'.minimums.bounds b = w.minimums.bounds b

/-- **C16** (one ring). -/
theorem C16_add_linear_ring (fuel : Nat) (w w' : Wagyu) (ring : LinearRing) (kind : PolygonKind) (b : Bool)
    (h : w.addLinearRing fuel ring kind = (w', .ok b)) :
    Extends w w' ∧ (b = true ↔ w.minimums.values.length < w'.minimums.values.length) ∧ (b = false → w' = w) :=
  Wagyu.addLinearRing_ok h

/-- **C16.** `add_polygon` adds the rings in order, never alters existing geometry, returns `True` iff the stored
geometry grew, and with `False` the object is unchanged. -/
theorem C16_add_polygon_reports (fuel : Nat) (w w' : Wagyu) (polygon : Polygon) (kind : PolygonKind) (b : Bool)
    (h : w.addPolygon fuel polygon kind = (w', .ok b)) :
    Extends w w'
      ∧ (b = true ↔ w.minimums.values.length < w'.minimums.values.length)
      ∧ (b = false → w' = w)
      ∧ w' = polygon.foldl (fun w ring => (w.addLinearRing fuel ring kind).1) w :=
  Wagyu.addPolygon_ok h

/-- **C16** (existing geometry is never altered by adding, also when the add raises). -/
theorem C16_add_extends (fuel : Nat) (w : Wagyu) (polygon : Polygon) (kind : PolygonKind) :
    Extends w (w.addPolygon fuel polygon kind).1 :=
  Wagyu.addPolygon_extends fuel w polygon kind

example : ∃ w', (Wagyu.new false).addPolygon 100 [[⟨0, 0⟩, ⟨1, 1⟩], [⟨0, 0⟩, ⟨6, 0⟩, ⟨3, 3⟩, ⟨0, 0⟩]] .subject
    = (w', .ok true) := ⟨_, Prod.ext rfl (by decide +kernel)⟩

/-! ## C27 -/

theorem Wagyu.call_reverseOutput (fuel : Nat) (w : Wagyu) (c : Call) :
    (w.call fuel c).1.reverseOutput = w.reverseOutput := by
  cases c with
  | addLinearRing ring kind => rfl
  | addPolygon polygon kind => exact (Wagyu.addPolygon_extends fuel w polygon kind).1
  | clear => rfl
  | execute op sf cf =>
    simp only [Wagyu.call, Wagyu.execute]
    split
    · rfl
    · cases runOperation w.minimums w.reverseOutput op sf cf (St.init fuel w.minimums.bounds) <;> rfl

theorem Wagyu.calls_reverseOutput (fuel : Nat) (w : Wagyu) (cs : List Call) :
    (w.calls fuel cs).1.reverseOutput = w.reverseOutput := by
  induction cs generalizing w with
  | nil => rfl
  | cons c cs ih => simp only [Wagyu.calls]; rw [ih, Wagyu.call_reverseOutput]

theorem Wagyu.calls_append (fuel : Nat) (w : Wagyu) (cs ds : List Call) :
    w.calls fuel (cs ++ ds)
      = (((w.calls fuel cs).1.calls fuel ds).1, (w.calls fuel cs).2 ++ ((w.calls fuel cs).1.calls fuel ds).2) := by
  induction cs generalizing w with
  | nil => rfl
  | cons c cs ih => simp [Wagyu.calls, ih]

/-- **C27.** After `clear()` the object is a fresh one with the same `reverse_output`, and every later history has the
replies and the final object it has on a fresh object, whatever came before. -/
theorem C27_clear_forgets (fuel : Nat) (reverseOutput : Bool) (before after : List Call) :
    ((Wagyu.new reverseOutput).calls fuel (before ++ .clear :: after)).1
        = ((Wagyu.new reverseOutput).calls fuel after).1
      ∧ ((Wagyu.new reverseOutput).calls fuel (before ++ .clear :: after)).2
        = ((Wagyu.new reverseOutput).calls fuel before).2 ++ .cleared :: ((Wagyu.new reverseOutput).calls fuel after).2 := by
  rw [Wagyu.calls_append]
  have h : ((Wagyu.new reverseOutput).calls fuel before).1.clear = Wagyu.new reverseOutput := by
    rw [clear_eq_new, Wagyu.calls_reverseOutput]; rfl
  simp [Wagyu.calls, Wagyu.call, h]

/-- The prefix may store geometry: here it stores two minima. -/
example : (((Wagyu.new false).calls 100 [.addPolygon [[⟨0, 0⟩, ⟨6, 0⟩, ⟨3, 3⟩, ⟨0, 0⟩]] .subject,
    .addPolygon [[⟨3, 1⟩, ⟨6, 4⟩, ⟨0, 4⟩, ⟨3, 1⟩]] .clip]).1.minimums.values.length) = 2 := by decide +kernel

/-! ## C28 -/

/-- **C28 (negative).** `insert`, `append` and `extend` of a `LocalMinimumList` never store the value: whatever the depth of
the interpreter's stack, it is exhausted (`insert` calls itself with unchanged arguments, local_minimum.py:170-171). -/
theorem C28_insert_never_returns (m : Minimums) (index : Int) (value : LocalMinimum) (depth : Nat) :
    m.insert index value depth = .error .recursion := by
  induction depth with
  | zero => rfl
  | succ n ih => exact ih

theorem C28_append_never_returns (m : Minimums) (value : LocalMinimum) (depth : Nat) :
    m.append value depth = .error .recursion :=
  C28_insert_never_returns m _ value depth

theorem C28_extend_never_returns (m : Minimums) (value : LocalMinimum) (values : List LocalMinimum) (depth : Nat) :
    m.extend depth (value :: values) = .error .recursion := by
  simp [Minimums.extend, C28_append_never_returns]

/-- The contract itself, refuted: there are a list and a value which `insert` does not store, at any stack depth. -/
theorem C28_mutable_sequence_contract_fails :
    ¬ ∀ (m : Minimums) (index : Int) (value : LocalMinimum), ∃ depth m',
      m.insert index value depth = .ok m' ∧ value ∈ m'.values := by
  intro h
  obtain ⟨d, m', h, _⟩ := h Minimums.empty 0 ⟨0, 1, 0, false⟩
  rw [C28_insert_never_returns] at h
  cases h

end Wagyu
