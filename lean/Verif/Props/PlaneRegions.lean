import Verif.Props.FlatTops
import Verif.Proofs.PlaneInput
import Verif.Proofs.PlaneSweep

/-!
# C48: the sweep's inside and outside is that of the plane
-/

namespace Wagyu

open Spec

section
variable {fuel₀ fuel : Nat} {rev : Bool} {cs : List Call} {w : Wagyu} {op : OperationKind} {sf cf : FillKind} {s : St}

/-- What adds up along lines and is seen only where the row is crossed: its sum over the rings of a polygon is the sum over the current
edges of the polygon's active bounds. -/
theorem held_winds (hw : ((Wagyu.new rev).calls fuel₀ cs).1 = w) (hfit : ∀ ring ∈ heldRings cs, RingFits fuel₀ ring)
    (hot : buildHotPixels w.minimums.values w.minimums.scanbeams (St.init fuel w.minimums.bounds) = .ok () s)
    {y : Int} {rest : List LocalMinimum} {t : St}
    (h : Passes (vattiStep op sf cf) 0 (sortedMinimums w.minimums.values) (vattiInitial w.minimums s) y rest t)
    {v : ℚ} (hz : v < y) (hscan : ∀ u ∈ t.scan, (u : ℚ) ≤ v) {c : Point → Point → ℤ} (hc : OnRow v c) (hadd : AddsUpOnLines c) (k : PolygonKind) :
    ((heldKind k cs).map (ringSum c)).sum
      = ((act t).map fun b => if (t.bounds b).polygonKind = k then (t.bounds b).windingDelta * curSum c (t.bounds b) else 0).sum := by
  obtain ⟨hG, h1, h2, h3, h4, h5, h6, h7⟩ := fair_start (op := op) (sf := sf) (cf := cf) hw hfit hot
  obtain ⟨i0, -, -, -, -, -, i6⟩ := fair_passes hG (fun v => extent_abs) h1 h2 h3 h4 (.inr h5) h6 (sortedMinimums_order _) (.inl h7) h
  have hm : MatesOk w.minimums := by rw [← hw]; exact calls_mates fuel₀ cs (Wagyu.new rev) [] (fun _ => MatesOk.empty) hfit
  have hadds : Adds k (heldKind k cs) w.minimums := by
    rw [← hw]
    exact calls_adds fuel₀ k cs (Wagyu.new rev) [] [] (fun _ => ⟨MatesOk.empty, Adds.empty k⟩) hfit
  rw [← hadds c hadd]
  rcases i6 with ⟨rfl, rfl, rfl⟩ | ⟨hk, hV⟩
  · obtain ⟨Y, -, hV⟩ := i0
    have hperm : (sortedMinimums w.minimums.values).Perm w.minimums.values := sortedMinimums_perm _
    show kindSum c w.minimums.bounds (idsOf w.minimums.values) k = 0
    unfold kindSum
    refine List.sum_eq_zero fun x hx => ?_
    obtain ⟨b, hb, rfl⟩ := List.mem_map.1 hx
    split
    · exact Walk.pending_none (s0 := St.init fuel w.minimums.bounds) hc h1 h2 (fun m h => hperm.mem_iff.1 h)
        (fun m hm => hscan _ ((hV.restScan m hm).resolve_left (hV.later m hm))) ((hperm.flatMap_right _).mem_iff.2 hb)
    · rfl
  · exact hk.winds hc h1 h2 hm.input.ids hV hz hscan k

/-- **C48.** After any history of calls, whatever the stored rings, at the end of a scanline `y`, for a point strictly between this
scanline and the next: the winding number of either polygon around the point, the number of times its rings go around it, is the sum
over the active bounds of the polygon whose current edge passes right of the point, of minus their winding delta.  (No other edge
of the rings meets the horizontal line through the point.) -/
theorem C48_winding (hw : ((Wagyu.new rev).calls fuel₀ cs).1 = w) (hfit : ∀ ring ∈ heldRings cs, RingFits fuel₀ ring)
    (hot : buildHotPixels w.minimums.values w.minimums.scanbeams (St.init fuel w.minimums.bounds) = .ok () s)
    {y : Int} {rest : List LocalMinimum} {t : St}
    (h : Passes (vattiStep op sf cf) 0 (sortedMinimums w.minimums.values) (vattiInitial w.minimums s) y rest t)
    {z : QPoint} (hz : z.2 < y) (hscan : ∀ u ∈ t.scan, (u : ℚ) ≤ z.2) (k : PolygonKind) :
    windingAt z (heldKind k cs)
      = ((act t).map fun b => if (t.bounds b).polygonKind = k then (t.bounds b).windingDelta * currentCrossing z (t.bounds b) else 0).sum := by
  have := held_winds hw hfit hot h hz hscan (crossingAt_onRow z) (crossingAt_addsUp z) k
  exact this

theorem PassesLeft.crossing {e : Edge} {z : QPoint} (h : PassesLeft e z) : crossingAt z e.bottom e.top = 0 ∧ rowCrossing z.2 e.bottom e.top = -1 := by
  obtain ⟨h1, h2, t, h3, h4⟩ := h
  have h0 : (e.top.y : ℚ) < e.bottom.y := h1.trans_lt h2
  constructor
  · unfold crossingAt
    have n1 : ¬ (e.bottom.y : ℚ) ≤ z.2 := not_le.2 h2
    rw [if_neg (fun h => n1 h.1), if_neg]
    rintro ⟨-, -, h⟩
    have : ((e.top.x : ℚ) - e.bottom.x) * (z.2 - e.bottom.y) - (z.1 - e.bottom.x) * (e.top.y - e.bottom.y)
        = (e.bottom.x + t * (e.top.x - e.bottom.x) - z.1) * (e.top.y - e.bottom.y) := by rw [h3]; ring
    rw [this] at h
    nlinarith
  · unfold rowCrossing
    rw [if_neg (not_lt.2 h1), if_pos h2]; rfl

theorem PassesRight.crossing {e : Edge} {z : QPoint} (h : PassesRight e z) : crossingAt z e.bottom e.top = -1 ∧ rowCrossing z.2 e.bottom e.top = -1 := by
  obtain ⟨h1, h2, t, h3, h4⟩ := h
  have h0 : (e.top.y : ℚ) < e.bottom.y := h1.trans_lt h2
  constructor
  · unfold crossingAt
    have n1 : ¬ (e.bottom.y : ℚ) ≤ z.2 := not_le.2 h2
    rw [if_neg (fun h => n1 h.1), if_pos]
    refine ⟨h1, h2, ?_⟩
    have : ((e.top.x : ℚ) - e.bottom.x) * (z.2 - e.bottom.y) - (z.1 - e.bottom.x) * (e.top.y - e.bottom.y)
        = (e.bottom.x + t * (e.top.x - e.bottom.x) - z.1) * (e.top.y - e.bottom.y) := by rw [h3]; ring
    rw [this]
    nlinarith
  · unfold rowCrossing
    rw [if_neg (not_lt.2 h1), if_pos h2]; rfl

theorem windingAfter_ids (t : St) (k : PolygonKind) (ids : List Nat) :
    windingAfter (ids.map t.bounds) k = (ids.map fun b => if (t.bounds b).polygonKind = k then (t.bounds b).windingDelta else 0).sum := by
  unfold windingAfter
  induction ids with
  | nil => rfl
  | cons b ids ih =>
    rw [List.map_cons, List.map_cons, List.sum_cons, ← ih]
    by_cases hk : (t.bounds b).polygonKind = k
    · rw [List.filter_cons_of_pos (by simpa using hk), if_pos hk]; rfl
    · rw [List.filter_cons_of_neg (by simpa using hk), if_neg hk, zero_add]

theorem sum_current {t : St} {k : PolygonKind} {c : Point → Point → ℤ} {a : ℤ} : ∀ {ids : List Nat}, (∀ b ∈ ids, curSum c (t.bounds b) = a) →
    (ids.map fun b => if (t.bounds b).polygonKind = k then (t.bounds b).windingDelta * curSum c (t.bounds b) else 0).sum = a * windingAfter (ids.map t.bounds) k := by
  intro ids h
  rw [windingAfter_ids]
  induction ids with
  | nil => simp
  | cons b ids ih =>
    rw [List.map_cons, List.map_cons, List.sum_cons, List.sum_cons, ih fun b hb => h b (by simp [hb]), h b (by simp)]
    split <;> ring

/-- **C48.** If the current edges of the first active bounds pass left of the point and those of the others right of it, then the winding
number of either polygon around the point is the one the sweep counts: the sum of the winding deltas of the bounds left of the point. -/
theorem C48_split (hw : ((Wagyu.new rev).calls fuel₀ cs).1 = w) (hfit : ∀ ring ∈ heldRings cs, RingFits fuel₀ ring)
    (hot : buildHotPixels w.minimums.values w.minimums.scanbeams (St.init fuel w.minimums.bounds) = .ok () s)
    {y : Int} {rest : List LocalMinimum} {t : St}
    (h : Passes (vattiStep op sf cf) 0 (sortedMinimums w.minimums.values) (vattiInitial w.minimums s) y rest t)
    {z : QPoint} (hz : z.2 < y) (hscan : ∀ u ∈ t.scan, (u : ℚ) ≤ z.2)
    {before after : List Nat} (hb : act t = before ++ after) (hp : Between t before after z) (k : PolygonKind) :
    windingAfter (before.map t.bounds) k = windingAt z (heldKind k cs) := by
  have e1 := held_winds hw hfit hot h hz hscan (crossingAt_onRow z) (crossingAt_addsUp z) k
  have e2 := held_winds hw hfit hot h hz hscan (rowCrossing_onRow z.2) (rowCrossing_addsUp z.2) k
  have e0 : ((heldKind k cs).map (ringSum (rowCrossing z.2))).sum = 0 := by
    refine List.sum_eq_zero fun x hx => ?_
    obtain ⟨r, -, rfl⟩ := List.mem_map.1 hx
    exact ringSum_row _ _
  rw [e0] at e2
  rw [hb, List.map_append, List.sum_append] at e1 e2
  have l : ∀ b ∈ before, curSum (crossingAt z) (t.bounds b) = 0 ∧ curSum (rowCrossing z.2) (t.bounds b) = -1 := by
    intro b hb
    obtain ⟨e, he, hl⟩ := hp.1 b hb
    unfold curSum; rw [he]; exact PassesLeft.crossing hl
  have r : ∀ b ∈ after, curSum (crossingAt z) (t.bounds b) = -1 ∧ curSum (rowCrossing z.2) (t.bounds b) = -1 := by
    intro b hb
    obtain ⟨e, he, hl⟩ := hp.2 b hb
    unfold curSum; rw [he]; exact PassesRight.crossing hl
  rw [sum_current fun b hb => (l b hb).1, sum_current fun b hb => (r b hb).1] at e1
  rw [sum_current fun b hb => (l b hb).2, sum_current fun b hb => (r b hb).2] at e2
  show _ = ((heldKind k cs).map (ringSum (crossingAt z))).sum
  omega

/-- **C48.** So what the sweep takes to be inside or outside of the result, between two active bounds, is inside or outside of the
boolean combination of the two filled polygons. -/
theorem C48_region (hw : ((Wagyu.new rev).calls fuel₀ cs).1 = w) (hfit : ∀ ring ∈ heldRings cs, RingFits fuel₀ ring)
    (hot : buildHotPixels w.minimums.values w.minimums.scanbeams (St.init fuel w.minimums.bounds) = .ok () s)
    {y : Int} {rest : List LocalMinimum} {t : St}
    (h : Passes (vattiStep op sf cf) 0 (sortedMinimums w.minimums.values) (vattiInitial w.minimums s) y rest t)
    {z : QPoint} (hz : z.2 < y) (hscan : ∀ u ∈ t.scan, (u : ℚ) ≤ z.2)
    {before after : List Nat} (hb : act t = before ++ after) (hp : Between t before after z) :
    inResult op sf cf (before.map t.bounds) = belongs op sf cf cs z := by
  unfold inResult belongs
  rw [C48_split hw hfit hot h hz hscan hb hp .subject, C48_split hw hfit hot h hz hscan hb hp .clip]

/-- **C48.** An active bound carries an output ring if and only if it separates the boolean combination from its outside: of two points
between this scanline and the next, left and right of the bound's current edge with no other current edge between them, one belongs to the
combination and the other does not.  (At the end of every scanline followed by one at whose end no bound has ended without its partner.) -/
theorem C48_output_boundary (hw : ((Wagyu.new rev).calls fuel₀ cs).1 = w) (hfit : ∀ ring ∈ heldRings cs, RingFits fuel₀ ring)
    (hot : buildHotPixels w.minimums.values w.minimums.scanbeams (St.init fuel w.minimums.bounds) = .ok () s)
    {y y' : Int} {rest rest' : List LocalMinimum} {t t' : St}
    (h : Passes (vattiStep op sf cf) 0 (sortedMinimums w.minimums.values) (vattiInitial w.minimums s) y rest t)
    (h' : Passes (vattiStep op sf cf) y rest t y' rest' t') (hp : AllPaired t' rest')
    {zl zr : QPoint} (hl : zl.2 < y) (hl' : ∀ u ∈ t.scan, (u : ℚ) ≤ zl.2) (hr : zr.2 < y) (hr' : ∀ u ∈ t.scan, (u : ℚ) ≤ zr.2)
    {before after : List Nat} {b : Nat} (hb : act t = before ++ b :: after)
    (hbl : Between t before (b :: after) zl) (hbr : Between t (before ++ [b]) after zr) :
    (t.bounds b).ring.isSome = true ↔ belongs op sf cf cs zl ≠ belongs op sf cf cs zr := by
  have h1 := C07_paired_scanlines hw hfit hot h h' hp before after b hb
  unfold OutputRight at h1
  have h2 := C48_region hw hfit hot h hl hl' hb hbl
  have h3 := C48_region hw hfit hot h hr hr' (before := before ++ [b]) (after := after) (by rw [hb]; simp) hbr
  rw [List.map_append] at h3
  rw [h1, h2, ← h3]
  rfl

end

/-! ## The hypotheses are met: between two scanlines of two overlapping squares -/

/-- Where the edge, which is not horizontal, meets the line at height `v`. -/
def xAt (e : Edge) (v : ℚ) : ℚ := e.bottom.x + (v - e.bottom.y) / (e.top.y - e.bottom.y) * (e.top.x - e.bottom.x)

/-- A test for `Between`. -/
def betweenTest (t : St) (before after : List Nat) (z : QPoint) : Bool :=
  let on (e : Edge) : Bool := decide ((e.top.y : ℚ) ≤ z.2) && decide (z.2 < e.bottom.y)
  (before.all fun b => (t.bounds b).currentEdge?.any fun e => on e && decide (xAt e z.2 < z.1))
  && after.all fun b => (t.bounds b).currentEdge?.any fun e => on e && decide (z.1 < xAt e z.2)

theorem xAt_meets {e : Edge} {v : ℚ} (h1 : (e.top.y : ℚ) ≤ v) (h2 : v < e.bottom.y) :
    v = e.bottom.y + (v - e.bottom.y) / (e.top.y - e.bottom.y) * (e.top.y - e.bottom.y) := by
  rw [div_mul_cancel₀ _ (by linarith)]; ring

theorem between_of_test {t : St} {before after : List Nat} {z : QPoint} (h : betweenTest t before after z = true) : Between t before after z := by
  unfold betweenTest at h
  simp only [Bool.and_eq_true, List.all_eq_true, Option.any_eq_true, decide_eq_true_eq] at h
  refine ⟨fun b hb => ?_, fun b hb => ?_⟩
  · obtain ⟨e, he, ⟨h1, h2⟩, h3⟩ := h.1 b hb
    exact ⟨e, he, h1, h2, _, xAt_meets h1 h2, h3⟩
  · obtain ⟨e, he, ⟨h1, h2⟩, h3⟩ := h.2 b hb
    exact ⟨e, he, h1, h2, _, xAt_meets h1 h2, h3⟩

/-- At the end of the scanline number `k`, with the active bounds split after the first `n`: is the point between this scanline and
the next, and between the two parts? -/
def meetsC48 (cs : List Call) (op : OperationKind) (k n : Nat) (z : QPoint) : Bool :=
  let w := ((Wagyu.new false).calls 60 cs).1
  match buildHotPixels w.minimums.values w.minimums.scanbeams (St.init 60 w.minimums.bounds) with
  | .err _ _ => false
  | .ok _ s => match scanlines op .evenOdd .evenOdd k 0 (sortedMinimums w.minimums.values) (vattiInitial w.minimums s) with
    | none => false
    | some (y, _, t) => decide (z.2 < y) && (t.scan.all fun u => decide ((u : ℚ) ≤ z.2)) && betweenTest t ((act t).take n) ((act t).drop n) z

/-- Around the point (15, 31/2), in both squares, the four active bounds of the scanline `y = 20` are split two by two; around (25, 31/2), in
the clip only, three to one; one point is in the difference of clip and subject, that is to say not in the intersection. -/
example : (∀ ring ∈ heldRings squaresHistory, RingFits 60 ring)
    ∧ meetsC48 squaresHistory .intersection 2 2 (15, 31 / 2) = true ∧ meetsC48 squaresHistory .intersection 2 3 (25, 31 / 2) = true
    ∧ windingAt (15, 31 / 2) (heldKind .subject squaresHistory) = 1 ∧ windingAt (25, 31 / 2) (heldKind .subject squaresHistory) = 0
    ∧ belongs .intersection .evenOdd .evenOdd squaresHistory (15, 31 / 2) = true
    ∧ belongs .intersection .evenOdd .evenOdd squaresHistory (25, 31 / 2) = false := by
  refine ⟨by unfold RingFits; decide +kernel, by decide +kernel, by decide +kernel, by decide +kernel, by decide +kernel, by decide +kernel, by decide +kernel⟩

end Wagyu
