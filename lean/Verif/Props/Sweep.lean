import Verif.Proofs.SweepMaxima
import Verif.Spec.Winding

/-!
# C06, C07, C25, C26: winding numbers, output and open rings during the sweep

The events of the sweep and the states reached by them are in `Verif.Spec.Events`, winding numbers and the boolean
combination of the two polygons in `Verif.Spec.Winding`.
-/

namespace Wagyu

open Spec

section
variable {op : OperationKind} {sf cf : FillKind} {s : St}

/-- **C06.** In every state reached by any sequence of events, the winding counts of every active bound are those
determined by the true winding numbers of the two polygons left and right of it. -/
theorem C06_winding_counts (h : Reached op sf cf s) (before after : List Nat) (b : Nat) (hb : act s = before ++ b :: after) :
    WindingRight sf cf (before.map s.bounds) (s.bounds b) := by
  have := (allOk_iff _).1 (reached_inv h).ok (before.map s.bounds) (s.bounds b) (after.map s.bounds) (by rw [hb]; simp)
  exact this.2.1

/-- **C06.** Every active bound is a step of one in the winding number of its polygon. -/
theorem C06_unit_steps (h : Reached op sf cf s) (b : Nat) (hb : b ∈ act s) :
    (s.bounds b).windingDelta = 1 ∨ (s.bounds b).windingDelta = -1 :=
  allOk_unit _ (reached_inv h).ok _ (List.mem_map.2 ⟨b, hb, rfl⟩)

/-- **C07.** In every state reached by any sequence of events, an active bound carries an output ring if and only if the
regions left and right of it differ in belonging to the result of the operation. -/
theorem C07_output_on_boundary (h : Reached op sf cf s) (before after : List Nat) (b : Nat) (hb : act s = before ++ b :: after) :
    OutputRight op sf cf (before.map s.bounds) (s.bounds b) := by
  have := (allOk_iff _).1 (reached_inv h).ok (before.map s.bounds) (s.bounds b) (after.map s.bounds) (by rw [hb]; simp)
  exact this.2.2

/-- **C25.** In every state reached by any sequence of events, a ring is carried by no active bound or by exactly two,
one as left and the other as right side. -/
theorem C25_two_ends (h : Reached op sf cf s) (r : Nat) :
    (act s).filter (fun b => decide ((s.bounds b).ring = some r)) = []
    ∨ ∃ b c, (act s).filter (fun b => decide ((s.bounds b).ring = some r)) = [b, c] ∧ b ≠ c
      ∧ (((s.bounds b).side = .left ∧ (s.bounds c).side = .right) ∨ ((s.bounds b).side = .right ∧ (s.bounds c).side = .left)) := by
  have hi := reached_inv h
  generalize hl : (act s).filter (fun b => decide ((s.bounds b).ring = some r)) = l
  have hnd : l.Nodup := hl ▸ hi.nodup.filter _
  have hmem : ∀ x, x ∈ l ↔ x ∈ act s ∧ (s.bounds x).ring = some r := by
    intro x; rw [← hl, List.mem_filter, decide_eq_true_eq]
  match l, hnd, hmem with
  | [], _, _ => exact Or.inl rfl
  | b :: t, hnd, hmem =>
    right
    obtain ⟨hb, hbr⟩ := (hmem b).1 (by simp)
    obtain ⟨-, d, h1, h2, h3, h4, h5⟩ := hi.ends b hb r hbr
    have hd : d ∈ t := by
      rcases List.mem_cons.1 ((hmem d).2 ⟨h1, h3⟩) with e | e
      · exact absurd e h2
      · exact e
    rw [List.nodup_cons] at hnd
    have ht : t = [d] := by
      obtain ⟨p, q, rfl⟩ := List.append_of_mem hd
      have hall : ∀ x ∈ p ++ d :: q, x = d := by
        intro x hx
        obtain ⟨k1, k2⟩ := (hmem x).1 (List.mem_cons_of_mem _ hx)
        rcases h5 x k1 k2 with e | e
        · exact absurd (e ▸ hx) hnd.1
        · exact e
      have hn2 := hnd.2
      rw [(List.perm_middle).nodup_iff, List.nodup_cons] at hn2
      have hp : p = [] := by
        cases p with
        | nil => rfl
        | cons x p => exact absurd (hall x (by simp) ▸ (by simp : x ∈ (x :: p) ++ q)) hn2.1
      have hq : q = [] := by
        cases q with
        | nil => rfl
        | cons x q => exact absurd (hall x (by simp) ▸ (by simp : x ∈ p ++ (x :: q))) hn2.1
      rw [hp, hq]; rfl
    refine ⟨b, d, by rw [ht], h2.symm, ?_⟩
    revert h4
    cases (s.bounds b).side <;> cases (s.bounds d).side <;> simp

/-- **C25.** Rings carried by active bounds have been created. -/
theorem C25_rings_exist (h : Reached op sf cf s) (b : Nat) (hb : b ∈ act s) (r : Nat) (hr : (s.bounds b).ring = some r) :
    r < s.nr := ((reached_inv h).ends b hb r hr).1

/-- **C26.** In every state reached by any sequence of events, two adjacent bounds of the same polygon with opposite
winding deltas either both carry an output ring or neither does. -/
theorem C26_both_or_neither (h : Reached op sf cf s) (i j a b : Nat) (hadj : Adjacent s i j a b) (hp : Partners s a b) :
    (s.bounds a).ring.isSome = (s.bounds b).ring.isSome := (adjacent_agree (reached_inv h) hadj hp.kind hp.delta).symm

/-- **C26.** Ending a bound at a local maximum together with its partner further right, whatever bounds are in between:
neither "DoMaxima error" nor any other `RuntimeError` is raised. -/
theorem C26_no_maxima_error (h : Reached op sf cf s) (bi mi b m : Nat) (hb : s.abl[bi]? = some (some b))
    (hm : s.abl[mi]? = some (some m)) (hlt : bi < mi) (hp : Partners s b m) (msg : String) (s' : St) :
    doMaxima op sf cf bi mi s ≠ .err (.runtime msg) s' := fun e =>
  (doMaxima_ok h hb hm hlt hp).err e msg rfl

/-- **C26.** And the state afterwards is again one reached by events: the bound crosses those in between, then the two
end. -/
theorem C26_maxima_reached (h : Reached op sf cf s) (bi mi b m : Nat) (hb : s.abl[bi]? = some (some b))
    (hm : s.abl[mi]? = some (some m)) (hlt : bi < mi) (hp : Partners s b m) (k : Nat) (s' : St)
    (e : doMaxima op sf cf bi mi s = .ok k s') : Reached op sf cf s' :=
  ((doMaxima_ok h hb hm hlt hp).ok e).1

end

/-! ## A concrete sweep -/

/-- The state a statement ends in. -/
def endState (m : M Unit) (s : St) : St := match m s with | .ok _ t => t | .err _ t => t

/-- Does a statement return? -/
def returns (m : M Unit) (s : St) : Bool := match m s with | .ok _ _ => true | .err _ _ => false

theorem returns_eq {m : M Unit} {s : St} (h : returns m s = true) : m s = .ok () (endState m s) := by
  unfold returns at h
  unfold endState
  cases e : m s with
  | ok _ t => rfl
  | err _ t => rw [e] at h; cases h

/-- A subject triangle (bounds 0 and 1) and a clip triangle (bounds 2 and 3), both with their lowest point below. -/
def sweepStart : St :=
  { (default : St) with
    bounds := fun i =>
      if i = 0 then { Bound.ofEdges [Edge.mk' ⟨10, 20⟩ ⟨0, 0⟩] with windingDelta := 1, maximumBound := some 1 }
      else if i = 1 then { Bound.ofEdges [Edge.mk' ⟨10, 20⟩ ⟨16, 0⟩] with windingDelta := -1, maximumBound := some 0 }
      else if i = 2 then
        { Bound.ofEdges [Edge.mk' ⟨14, 20⟩ ⟨8, 0⟩] with windingDelta := 1, maximumBound := some 3, polygonKind := .clip }
      else { Bound.ofEdges [Edge.mk' ⟨14, 20⟩ ⟨24, 0⟩] with windingDelta := -1, maximumBound := some 2, polygonKind := .clip }
    fuel := 100 }

def sweepSubject : M Unit := do
  initializeMinimum ⟨0, 1, 20, false⟩
  insertLmLeftAndRightBound .intersection .evenOdd .nonZero 0 1

def sweepClip : M Unit := do
  initializeMinimum ⟨2, 3, 20, false⟩
  insertLmLeftAndRightBound .intersection .evenOdd .nonZero 2 3

def sweepCross : M Unit := do
  intersectBounds ⟨12, 12⟩ .intersection .evenOdd .nonZero 1 2
  ablSwap 1 2

def sweep1 : St := endState sweepSubject sweepStart
def sweep2 : St := endState sweepClip sweep1
def sweep3 : St := endState sweepCross sweep2

theorem sweep3_reached : Reached .intersection .evenOdd .nonZero sweep3 := by
  refine .step (s := sweep2) (.step (s := sweep1) (.step (.start sweepStart rfl) ?_) ?_) ?_
  · exact .minimum ⟨0, 1, 20, false⟩ (by decide) (by decide) (by decide) (by decide +kernel) (by decide +kernel)
      ⟨by decide +kernel, by decide +kernel, by decide +kernel⟩ (returns_eq (m := sweepSubject) (by decide +kernel))
  · exact .minimum ⟨2, 3, 20, false⟩ (by decide) (by decide +kernel) (by decide +kernel) (by decide +kernel) (by decide +kernel)
      ⟨by decide +kernel, by decide +kernel, by decide +kernel⟩ (returns_eq (m := sweepClip) (by decide +kernel))
  · exact .crossing ⟨12, 12⟩ 1 2 1 2 ⟨by decide, by decide +kernel, by decide +kernel, by omega⟩
      (returns_eq (m := sweepCross) (by decide +kernel))

/-- After the crossing the two triangles overlap between the bounds 2 and 1, which have been attached to the two ends of
a new ring; the outer bounds 0 and 3 carry none. -/
example : act sweep3 = [0, 2, 1, 3] ∧ ([0, 2, 1, 3].map fun b => (sweep3.bounds b).ring) = [none, some 0, some 0, none]
    ∧ ([0, 2, 1, 3].map fun b => ((sweep3.bounds b).windingCount, (sweep3.bounds b).oppositeWindingCount))
      = [(1, 0), (1, 1), (1, 1), (1, 0)] := by decide +kernel

/-- From here the subject's bound 0 ends with its partner 1 at position 2, across bound 2: the hypotheses of
`C26_no_maxima_error`. -/
example : Reached .intersection .evenOdd .nonZero sweep3 ∧ sweep3.abl[0]? = some (some 0) ∧ sweep3.abl[2]? = some (some 1)
    ∧ Partners sweep3 0 1 :=
  ⟨sweep3_reached, by decide +kernel, by decide +kernel, by decide +kernel, by decide +kernel, by decide +kernel⟩

end Wagyu
