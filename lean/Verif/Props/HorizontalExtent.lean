import Verif.Proofs.BoxSweep
import Verif.Props.FlatTops
import Verif.Props.Rectilinear

/-!
# C35: horizontal extent of the results

A bound that is left without its partner is still drawn above its last edge, so that its points leave the extent of the
input; as long as no bound is, every point of the sweeps lies between the columns of the input.
-/

namespace Wagyu

open Spec

section
variable {fuel : Nat} {rev : Bool} {cs : List Call} {w : Wagyu} {op : OperationKind} {sf cf : FillKind} {s : St}

/-- Both sweeps of an operation. -/
theorem sweeps_box (hw : ((Wagyu.new rev).calls fuel cs).1 = w) (hfit : ∀ ring ∈ heldRings cs, RingFits fuel ring) {V : Point → Prop}
    (hR : VRule V (HeldEdge fuel (heldRings cs)) (HeldRow (heldRings cs))) {XR : Int → F64 → Prop}
    (hX : ∀ y, HeldRow (heldRings cs) y → XRule V (HeldEdge fuel (heldRings cs)) (XR y) y)
    (hN : ∀ y, HeldRow (heldRings cs) y → ∀ {e : Edge}, HeldEdge fuel (heldRings cs) e → e.top.y ≤ y → y ≤ e.bottom.y → XR y (e.getCurrentX y)) :
    Ok (sweeps w.minimums op sf cf) (St.init fuel w.minimums.bounds) fun _ s' => HV V s' ∨ Orphan (St.init fuel w.minimums.bounds) w.minimums.values [] s' := by
  obtain ⟨h0, hscan, hsne⟩ := start_box (V := V) hw hfit
  have hG := given_of hw hfit (within_of_fits hfit)
  unfold sweeps
  refine Post.bind (Post.imp ((bs_fairHot hG hR hX hN h0 hscan).and (Ok.intro (Q := fun _ s' => buildHotPixels w.minimums.values w.minimums.scanbeams (St.init fuel w.minimums.bounds) = .ok () s') fun _ _ e => e)) ?_)
  rintro _ s1 ⟨h1, hot⟩
  obtain ⟨hG, g1, g2, g3, g4, g5, g6, g7⟩ := fair_start (op := op) (sf := sf) (cf := cf) hw hfit hot
  have hb : BS V (HeldEdge fuel (heldRings cs)) (HeldRow (heldRings cs)) w.minimums.values (vattiInitial w.minimums s1) := h1.start hscan
  unfold executeVatti
  refine Post.bind (Post.modify (Post.bind (Post.modify ?_)))
  refine Post.loopM (fun x s => Passes (vattiStep op sf cf) 0 (sortedMinimums w.minimums.values) (vattiInitial w.minimums s1) x.1 x.2 s) ?_ (fun _ _ _ => trivial) .start
  rintro ⟨y, l⟩ s hp
  refine Post.bind (Post.gets (Post.ite (fun hd => ?_) fun hne => ?_))
  · have := bs_fairVatti hG (fun v => extent_abs) g1 g2 g3 hR hX hN g4 (.inr g5) g6 (sortedMinimums_order _) g7 hb hp
    dsimp only at this hd
    rw [hd.2] at this
    exact Post.pure (this.imp BS.heap id)
  · exact Post.bind (Ok.intro fun r s' e => Post.pure (.next hp hne e))

theorem column_vrule {held : List LinearRing} (hfit : ∀ ring ∈ held, RingFits fuel ring) {lo hi : Int} (hcol : ∀ ring ∈ held, ∀ p ∈ ring, lo ≤ p.x ∧ p.x ≤ hi) :
    VRule (fun p => lo ≤ p.x ∧ p.x ≤ hi) (HeldEdge fuel held) (HeldRow held) where
  bot h := by obtain ⟨⟨r, h1, h2⟩, -⟩ := h.origin hfit; exact hcol r h1 _ h2
  top h := by obtain ⟨-, ⟨r, h1, h2⟩, -⟩ := h.origin hfit; exact hcol r h1 _ h2
  row h := ⟨_, (h.origin hfit).2.1, rfl⟩
  meet := by
    intro e f p q h k h1 h2
    obtain ⟨⟨r, a1, a2⟩, ⟨r', b1, b2⟩, -⟩ := h.origin hfit
    obtain ⟨q', h3, h4, h5, -⟩ := C29_rounded_crossing_in_box e f p ⟨((hfit r a1).2 _ a2).1, ((hfit r a1).2 _ a2).2, ((hfit r' b1).2 _ b2).1, ((hfit r' b1).2 _ b2).2⟩ h1
    rw [h2] at h3; cases h3
    have := hcol r a1 _ a2
    have := hcol r' b1 _ b2
    simp only [Edge.box] at h4 h5
    omega

theorem column_xrule {held : List LinearRing} (hfit : ∀ ring ∈ held, RingFits fuel ring) {lo hi : Int} (hcol : ∀ ring ∈ held, ∀ p ∈ ring, lo ≤ p.x ∧ p.x ≤ hi) (y : Int) :
    XRule (fun p => lo ≤ p.x ∧ p.x ≤ hi) (HeldEdge fuel held) (XOk ⟨lo, hi, 0, 0⟩) y where
  start h := by obtain ⟨⟨r, h1, h2⟩, -⟩ := h.origin hfit; exact XOk.ofInt (hcol r h1 _ h2)
  start' h := by
    obtain ⟨⟨r, h1, h2⟩, -⟩ := h.origin hfit
    rw [show F64.floatOfInt _ = .ofInt _ from fl_int (le_trans ((hfit r h1).2 _ h2).1 (by norm_num))]
    exact XOk.ofInt (hcol r h1 _ h2)
  stop h := by obtain ⟨-, ⟨r, h1, h2⟩, -⟩ := h.origin hfit; exact XOk.ofInt (hcol r h1 _ h2)
  round hx hr := hx.round hr

theorem column_between {held : List LinearRing} (hfit : ∀ ring ∈ held, RingFits fuel ring) {lo hi : Int} (hcol : ∀ ring ∈ held, ∀ p ∈ ring, lo ≤ p.x ∧ p.x ≤ hi) {y : Int}
    {e : Edge} (h : HeldEdge fuel held e) (h1 : e.top.y ≤ y) (h2 : y ≤ e.bottom.y) : XOk ⟨lo, hi, 0, 0⟩ (e.getCurrentX y) := by
  obtain ⟨⟨r, a1, a2⟩, ⟨r', b1, b2⟩, -⟩ := h.origin hfit
  have k1 := hcol r a1 _ a2
  have k2 := hcol r' b1 _ b2
  have hb : e.Bounded 52 := ⟨((hfit r a1).2 _ a2).1, ((hfit r a1).2 _ a2).2, ((hfit r' b1).2 _ b2).1, ((hfit r' b1).2 _ b2).2⟩
  rcases h.slope hfit with ⟨k, -⟩ | ⟨-, k⟩
  · have hy : y = e.top.y := by omega
    unfold Edge.getCurrentX
    rw [if_pos hy, show F64.floatOfInt _ = .ofInt _ from fl_int (le_trans ((hfit r' b1).2 _ b2).1 (by norm_num))]
    exact XOk.ofInt k2
  · obtain ⟨q, hq, q1, q2⟩ := getCurrentX_between hb k h1 h2
    refine ⟨q, hq, le_trans ?_ q1, q2.trans ?_⟩
    · exact_mod_cast le_min k1.1 k2.1
    · exact_mod_cast max_le k1.2 k2.2

/-- Whatever holds of the nodes after the sweeps holds of the vertices of the result. -/
theorem result_of_sweeps {V : Point → Prop} {w' : Wagyu} {result : Multipolygon}
    (h : w.minimums.values ≠ [] → ∀ s, sweeps w.minimums op sf cf (St.init fuel w.minimums.bounds) = .ok () s → HV V s)
    (hrun : w.execute fuel op sf cf = (w', .ok result)) : ∀ p ∈ result.vertices, V p := by
  unfold Wagyu.execute at hrun
  split at hrun
  · cases hrun; simp [Multipolygon.vertices]
  · next hne =>
    have hne : w.minimums.values ≠ [] := by simpa using hne
    split at hrun
    · next a s e =>
      cases hrun
      have hall : Ok (runOperation w.minimums w.reverseOutput op sf cf) (St.init fuel w.minimums.bounds)
          fun mp _ => ∀ poly ∈ mp, ∀ lr ∈ poly, ∀ p ∈ lr, V p := by
        unfold runOperation
        refine Post.bind (Ok.intro fun _ s1 e1 => Post.bind (Ok.intro fun _ s2 e2 => ?_))
        obtain ⟨n, h2⟩ := h hne s2 (by unfold sweeps; rw [run_bind, e1]; exact e2)
        refine Post.bind ((keep_correctTopology.run s2 h2).imp fun _ s3 h3 => ?_)
        exact (keep_buildResult.run s3 h3.1).imp fun mp s4 h4 => h4.2
      exact vertices_iff (hall.elim e)
    · cases hrun

/-- **C35.** After any history of calls (coordinates up to `2 ^ 52`), every vertex of a result lies between the columns that
contain all points of the rings the object holds, provided no active bound is left over at the end of the sweep. -/
theorem C35_horizontal_extent {w' : Wagyu} {result : Multipolygon} {lo hi : Int} (hw : ((Wagyu.new rev).calls fuel cs).1 = w)
    (hfit : ∀ ring ∈ heldRings cs, RingFits fuel ring) (hcol : ∀ ring ∈ heldRings cs, ∀ p ∈ ring, lo ≤ p.x ∧ p.x ≤ hi)
    (hend : ∀ s, sweeps w.minimums op sf cf (St.init fuel w.minimums.bounds) = .ok () s → ∀ b, some b ∉ s.abl)
    (hrun : w.execute fuel op sf cf = (w', .ok result)) : ∀ p ∈ result.vertices, lo ≤ p.x ∧ p.x ≤ hi := by
  refine result_of_sweeps (fun _ s e => ?_) hrun
  refine ((sweeps_box hw hfit (column_vrule hfit hcol) (fun y _ => column_xrule hfit hcol y) fun y _ _ he h1 h2 => column_between hfit hcol he h1 h2).elim e).resolve_right ?_
  rintro ⟨b, m, -, -, -, -, -, h | h, -⟩
  · exact hend s e m (mem_act.1 h)
  · cases h

/-- **C35.** Unconditionally when no stored bound ends in a horizontal edge (every local maximum of the rings held is a single
point): every vertex of a result lies between the columns that contain all points of the rings the object holds. -/
theorem C35_horizontal_extent_no_flat_tops {w' : Wagyu} {result : Multipolygon} {lo hi : Int} (hw : ((Wagyu.new rev).calls fuel cs).1 = w)
    (hfit : ∀ ring ∈ heldRings cs, RingFits fuel ring) (hcol : ∀ ring ∈ heldRings cs, ∀ p ∈ ring, lo ≤ p.x ∧ p.x ≤ hi)
    (hflat : NoFlatTops w.minimums) (hrun : w.execute fuel op sf cf = (w', .ok result)) : ∀ p ∈ result.vertices, lo ≤ p.x ∧ p.x ≤ hi := by
  refine result_of_sweeps (fun _ s e => ?_) hrun
  refine ((sweeps_box hw hfit (column_vrule hfit hcol) (fun y _ => column_xrule hfit hcol y) fun y _ _ he h1 h2 => column_between hfit hcol he h1 h2).elim e).resolve_right ?_
  have hm : MatesOk w.minimums := by rw [← hw]; exact calls_mates fuel cs (Wagyu.new rev) [] (fun _ => MatesOk.empty) hfit
  rintro ⟨b, m, hb, -, -, -, -, -, f, hf, hh⟩
  rw [(mates_of hm hflat fuel).steep b hb f hf] at hh
  cases hh

end

/-- The number of active bounds left over by the sweep. -/
def leftOver (cs : List Call) (op : OperationKind) (sf cf : FillKind) : Option Nat :=
  let w := ((Wagyu.new false).calls 60 cs).1
  match sweeps w.minimums op sf cf (St.init 60 w.minimums.bounds) with
  | .ok _ s => some s.abl.length
  | .err _ _ => none

/-- The two overlapping squares, with flat tops, meet the hypotheses of `C35_horizontal_extent`, and their union
has vertices in the first and in the last column. -/
example : (∀ ring ∈ heldRings squaresHistory, RingFits 60 ring) ∧ (∀ ring ∈ heldRings squaresHistory, ∀ p ∈ ring, 0 ≤ p.x ∧ p.x ≤ 30)
    ∧ leftOver squaresHistory .union .evenOdd .evenOdd = some 0
    ∧ ((((Wagyu.new false).calls 60 squaresHistory).1.execute 60 .union .evenOdd .evenOdd).2.toOption.map fun r => r.vertices.map fun p => p.x) = some [20, 20, 30, 30, 10, 10, 0, 0, 20] := by
  refine ⟨by unfold RingFits; decide +kernel, by decide +kernel, by decide +kernel, by decide +kernel⟩

/-- The two triangles with pointed tops meet those of `C35_horizontal_extent_no_flat_tops` (`pointed_hypotheses`); columns `0`
and `30` are reached by their union. -/
example : (∀ ring ∈ heldRings pointedHistory, ∀ p ∈ ring, 0 ≤ p.x ∧ p.x ≤ 30)
    ∧ ((((Wagyu.new false).calls 60 pointedHistory).1.execute 60 .union .nonZero .evenOdd).2.toOption.map fun r => r.vertices.map fun p => p.x) = some [10, 12, 30, 20, 22, 11, 5, 6, 0, 10] := by
  refine ⟨by decide +kernel, by decide +kernel⟩

end Wagyu
