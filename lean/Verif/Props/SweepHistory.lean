import Verif.Proofs.HotQuiet
import Verif.Proofs.InputEdges
import Verif.Props.RingSweep
import Verif.Props.Sweep

/-!
# C40: whole operations are sequences of events, and C06, C07, C25, C26 for them
-/

namespace Wagyu

open Spec

namespace Spec

/-- No stored bound ends in a horizontal edge, that is, every local maximum of the stored rings is a single point. -/
def NoFlatTops (m : Minimums) : Prop :=
  ∀ v ∈ m.values, ∀ b, b = v.left ∨ b = v.right → ∀ e, (m.bounds b).edges.getLast? = some e → e.bottom.y ≠ e.top.y

end Spec

theorem mem_boundIds {b : Nat} {A : List LocalMinimum} : b ∈ idsOf A ↔ ∃ v ∈ A, b = v.left ∨ b = v.right := by
  unfold idsOf
  rw [List.mem_flatMap]
  simp

theorem mates_of {m : Minimums} (h : MatesOk m) (hflat : NoFlatTops m) (fuel : Nat) : Mates (St.init fuel m.bounds) m.values := by
  refine ⟨fun v hv => ?_, fun b hb => ?_, fun b hb e he => ?_⟩
  · have := h.opened v hv
    have hp : Partners (St.init fuel m.bounds) v.left v.right := ⟨this.unit, this.kind, this.delta⟩
    exact ⟨hp.ne, hp, (h.input.mins v hv).left.ne, (h.input.mins v hv).right.ne⟩
  · obtain ⟨j, h1, h2, h3, h4, -⟩ := h.closed b hb
    exact ⟨j, h2, h3, h4.unit, h4.kind, h4.delta⟩
  · obtain ⟨v, hv, hb⟩ := mem_boundIds.1 hb
    have hp : Path (m.bounds b).edges := by rcases hb with rfl | rfl; exacts [(h.input.mins v hv).left, (h.input.mins v hv).right]
    have hm := List.mem_of_getLast? he
    have := hflat v hv b hb e he
    by_contra hh
    exact this ((hp.hor e hm).1 (by simpa using hh)).symm

section
variable {fuel₀ fuel : Nat} {rev : Bool} {cs : List Call} {w : Wagyu} {op : OperationKind} {sf cf : FillKind} {s : St}

theorem operation_start (hw : ((Wagyu.new rev).calls fuel₀ cs).1 = w) (hfit : ∀ ring ∈ heldRings cs, RingFits fuel₀ ring)
    (hflat : NoFlatTops w.minimums) (hot : buildHotPixels w.minimums.values w.minimums.scanbeams (St.init fuel w.minimums.bounds) = .ok () s) :
    Mates (St.init fuel w.minimums.bounds) w.minimums.values
    ∧ (∀ y, InR (-2 ^ 52) (2 ^ 52) y → ∀ b ∈ idsOf w.minimums.values, ∀ e ∈ ((St.init fuel w.minimums.bounds).bounds b).edges, e.getCurrentX y ≠ .nan)
    ∧ RowInv (-2 ^ 52) (2 ^ 52) (vattiInitial w.minimums s) ∧ ((vattiInitial w.minimums s).scan ≠ [] ∨ sortedMinimums w.minimums.values = [])
    ∧ Run op sf cf (St.init fuel w.minimums.bounds) w.minimums.values (sortedMinimums w.minimums.values) (vattiInitial w.minimums s)
    ∧ Full (vattiInitial w.minimums s) := by
  have hm : MatesOk w.minimums := by rw [← hw]; exact calls_mates fuel₀ cs (Wagyu.new rev) [] (fun _ => MatesOk.empty) hfit
  have hG := given_of hw hfit (within_of_fits hfit)
  have hMI := held_within (fuel := fuel₀) (rev := rev) (before := cs) (lo := -2 ^ 52) (hi := 2 ^ 52) fun ring hr p hp => by
    obtain ⟨h1, h2⟩ := (hfit ring hr).2 p hp
    exact ⟨(abs_le.1 h2).1, (abs_le.1 h2).2, h1, h2⟩
  rw [hw] at hMI
  obtain ⟨h0, hscan, hsne⟩ := start_rows (fuel := fuel) hMI
  have hrow := ((buildHotPixels_rows h0 hscan hsne).elim hot).start hscan
  have hkeep : InputKept (St.init fuel w.minimums.bounds) s := by
    have := (inferInstance : Pres InputKept (buildHotPixels w.minimums.values w.minimums.scanbeams)).pres (St.init fuel w.minimums.bounds)
    rw [hot] at this
    exact this
  have hperm : (sortedMinimums w.minimums.values).Perm w.minimums.values := sortedMinimums_perm _
  refine ⟨mates_of hm hflat fuel, fun y hy b hb e he => ?_, hrow.misc, ?_, ⟨.start _ rfl, ?_, fun m h => hperm.mem_iff.1 h, ?_, nofun, nofun⟩, nofun⟩
  · exact getCurrentX_number (hG.bounded b hb e he) (abs_le.2 hy) ((hG.path b hb).slope e he) ((hG.path b hb).hor e he)
  · by_cases hv : w.minimums.values = []
    · right; rw [hv]; rfl
    · left; exact hsne hv
  · intro b
    exact ⟨(hkeep b).kind, (hkeep b).delta, (hkeep b).partner, (hkeep b).edges⟩
  · exact ((hperm.flatMap_right _).nodup_iff).2 hm.input.ids

/-- **C40.** After any history of calls, if no stored ring has a flat top, the sweep of every operation passes, at the end of
every scanline, through states reached by events only: local minima are inserted, adjacent bounds cross, the two bounds of a
local maximum end together once they are adjacent.  In particular no bound ever ends without its partner. -/
theorem C40_scanlines_are_events (hw : ((Wagyu.new rev).calls fuel₀ cs).1 = w) (hfit : ∀ ring ∈ heldRings cs, RingFits fuel₀ ring)
    (hflat : NoFlatTops w.minimums) (hot : buildHotPixels w.minimums.values w.minimums.scanbeams (St.init fuel w.minimums.bounds) = .ok () s)
    {y : Int} {rest : List LocalMinimum} {t : St}
    (h : Passes (vattiStep op sf cf) 0 (sortedMinimums w.minimums.values) (vattiInitial w.minimums s) y rest t) : Reached op sf cf t := by
  obtain ⟨h1, h2, h3, h4, h5, h6⟩ := operation_start (op := op) (sf := sf) (cf := cf) hw hfit hflat hot
  exact (run_passes h1 h2 h3 (.inr h4) h5 h6 h).1.reached

/-- **C40.** And the only `RuntimeError` the two sweeps of the operation may raise is the one about lines that do not
intersect: neither "DoMaxima error" nor "Could not properly correct intersection order". -/
theorem C40_only_crossing_error (hw : ((Wagyu.new rev).calls fuel₀ cs).1 = w) (hfit : ∀ ring ∈ heldRings cs, RingFits fuel₀ ring)
    (hflat : NoFlatTops w.minimums) (msg : String) (t : St)
    (h : sweeps w.minimums op sf cf (St.init fuel w.minimums.bounds) = .err (.runtime msg) t) :
    msg = "Trying to find intersection of lines that do not intersect" := by
  have key : Post (sweeps w.minimums op sf cf) (St.init fuel w.minimums.bounds) (fun _ _ => True) OnlyCross := by
    unfold sweeps
    refine Post.bind ((hot_only.and (Ok.intro (Q := fun a s => buildHotPixels w.minimums.values w.minimums.scanbeams (St.init fuel w.minimums.bounds) = .ok a s)
      fun _ _ e => e)).imp ?_)
    rintro ⟨⟩ s ⟨-, hot⟩
    obtain ⟨h1, h2, h3, h4, h5, h6⟩ := operation_start (op := op) (sf := sf) (cf := cf) hw hfit hflat hot
    unfold executeVatti
    refine Post.bind (Post.modify (Post.bind (Post.modify ?_)))
    refine Post.loopM (Q := fun _ _ => True) (fun x t => Passes (vattiStep op sf cf) 0 (sortedMinimums w.minimums.values) (vattiInitial w.minimums s) x.1 x.2 t)
      ?_ (fun _ _ _ => only_fuel) .start
    rintro ⟨y, rest⟩ t ht
    refine Post.bind (Post.gets (Post.ite (fun _ => Post.pure trivial) fun hne => ?_))
    obtain ⟨k1, k2, k3, k4⟩ := run_passes h1 h2 h3 (.inr h4) h5 h6 ht
    have hne' : ¬ (t.scan = [] ∧ rest = []) := hne
    have k4' : InR (-2 ^ 52) (2 ^ 52) y ∨ t.scan ≠ [] := k4.elim .inl fun h => h.elim .inr fun h => .inr fun h' => hne' ⟨h', h⟩
    refine Post.bind (((run_step h1 h2 k3 k4' k1 k2).and (Ok.intro (Q := fun r u => vattiStep op sf cf y rest t = .ok r u) fun _ _ e => e)).imp ?_)
    rintro ⟨y', rest'⟩ u ⟨-, e⟩
    exact Post.pure (.next ht hne' e)
  exact key.err h msg rfl

/-- **C06**, for whole operations: at the end of every scanline the winding counts of every active bound are those
determined by the true winding numbers of the two polygons left and right of it. -/
theorem C06_every_scanline (hw : ((Wagyu.new rev).calls fuel₀ cs).1 = w) (hfit : ∀ ring ∈ heldRings cs, RingFits fuel₀ ring)
    (hflat : NoFlatTops w.minimums) (hot : buildHotPixels w.minimums.values w.minimums.scanbeams (St.init fuel w.minimums.bounds) = .ok () s)
    {y : Int} {rest : List LocalMinimum} {t : St}
    (h : Passes (vattiStep op sf cf) 0 (sortedMinimums w.minimums.values) (vattiInitial w.minimums s) y rest t)
    (before after : List Nat) (b : Nat) (hb : act t = before ++ b :: after) : WindingRight sf cf (before.map t.bounds) (t.bounds b) :=
  C06_winding_counts (C40_scanlines_are_events hw hfit hflat hot h) before after b hb

/-- **C07**, for whole operations: at the end of every scanline an active bound carries an output ring if and only if the
regions left and right of it differ in belonging to the result of the operation. -/
theorem C07_every_scanline (hw : ((Wagyu.new rev).calls fuel₀ cs).1 = w) (hfit : ∀ ring ∈ heldRings cs, RingFits fuel₀ ring)
    (hflat : NoFlatTops w.minimums) (hot : buildHotPixels w.minimums.values w.minimums.scanbeams (St.init fuel w.minimums.bounds) = .ok () s)
    {y : Int} {rest : List LocalMinimum} {t : St}
    (h : Passes (vattiStep op sf cf) 0 (sortedMinimums w.minimums.values) (vattiInitial w.minimums s) y rest t)
    (before after : List Nat) (b : Nat) (hb : act t = before ++ b :: after) : OutputRight op sf cf (before.map t.bounds) (t.bounds b) :=
  C07_output_on_boundary (C40_scanlines_are_events hw hfit hflat hot h) before after b hb

/-- **C25**, for whole operations: at the end of every scanline a ring is carried by no active bound or by exactly two, one
as left and the other as right side. -/
theorem C25_every_scanline (hw : ((Wagyu.new rev).calls fuel₀ cs).1 = w) (hfit : ∀ ring ∈ heldRings cs, RingFits fuel₀ ring)
    (hflat : NoFlatTops w.minimums) (hot : buildHotPixels w.minimums.values w.minimums.scanbeams (St.init fuel w.minimums.bounds) = .ok () s)
    {y : Int} {rest : List LocalMinimum} {t : St}
    (h : Passes (vattiStep op sf cf) 0 (sortedMinimums w.minimums.values) (vattiInitial w.minimums s) y rest t) (r : Nat) :
    (act t).filter (fun b => decide ((t.bounds b).ring = some r)) = []
    ∨ ∃ b c, (act t).filter (fun b => decide ((t.bounds b).ring = some r)) = [b, c] ∧ b ≠ c
      ∧ (((t.bounds b).side = .left ∧ (t.bounds c).side = .right) ∨ ((t.bounds b).side = .right ∧ (t.bounds c).side = .left)) :=
  C25_two_ends (C40_scanlines_are_events hw hfit hflat hot h) r

/-- When no edge of the held rings is horizontal, no stored bound ends in a horizontal edge. -/
theorem C40_no_horizontal_edges (hw : ((Wagyu.new rev).calls fuel₀ cs).1 = w) (hfit : ∀ ring ∈ heldRings cs, RingFits fuel₀ ring)
    (hh : ∀ ring ∈ heldRings cs, ∀ es, edgesOf fuel₀ ring = .ok es → ∀ e ∈ es, e.bottom.y ≠ e.top.y) : NoFlatTops w.minimums := by
  intro v hv b hb e he
  have h := calls_from fuel₀ cs (Wagyu.new rev) [] (fun _ => ⟨MatesOk.empty, by simp [EdgesFrom, Wagyu.new, Minimums.empty]⟩) hfit
  rw [hw] at h
  obtain ⟨ring, hr, es, h1, f, h2, h3⟩ := h v hv b hb e (List.mem_of_getLast? he)
  have := hh ring hr es h1 f h2
  rcases h3 with rfl | ⟨h3, -⟩
  · exact this
  · exact absurd h3 this

end

/-! ## The hypotheses are met: two triangles with pointed tops, their edges crossing -/

/-- An operation, a `clear()`, then two triangles whose tops (least `y`) are points; the second one has a flat bottom. -/
def pointedHistory : List Call :=
  [.addLinearRing [⟨9, 9⟩, ⟨40, 9⟩, ⟨9, 40⟩, ⟨9, 9⟩] .subject, .execute .union .evenOdd .nonZero, .clear,
    .addLinearRing [⟨10, 0⟩, ⟨22, 21⟩, ⟨0, 15⟩, ⟨10, 0⟩] .subject, .addPolygon [[⟨12, 3⟩, ⟨30, 18⟩, ⟨5, 18⟩, ⟨12, 3⟩]] .clip]

/-- Goes on for at most `k` scanlines. -/
def scanlines (op : OperationKind) (sf cf : FillKind) : Nat → Int → List LocalMinimum → St → Option (Int × List LocalMinimum × St)
  | 0, y, rest, s => some (y, rest, s)
  | k + 1, y, rest, s => if s.scan = [] ∧ rest = [] then none else
    match vattiStep op sf cf y rest s with
    | .ok (y', rest') s' => scanlines op sf cf k y' rest' s'
    | .err _ _ => none

theorem scanlines_passes {op : OperationKind} {sf cf : FillKind} {y₀ : Int} {rest₀ : List LocalMinimum} {s₀ : St} :
    ∀ (k : Nat) {y : Int} {rest : List LocalMinimum} {s : St}, Passes (vattiStep op sf cf) y₀ rest₀ s₀ y rest s →
    ∀ {y' : Int} {rest' : List LocalMinimum} {t : St}, scanlines op sf cf k y rest s = some (y', rest', t) →
    Passes (vattiStep op sf cf) y₀ rest₀ s₀ y' rest' t
  | 0, y, rest, s, h, y', rest', t, e => by
    obtain ⟨rfl, rfl, rfl⟩ := by simpa [scanlines] using e
    exact h
  | k + 1, y, rest, s, h, y', rest', t, e => by
    unfold scanlines at e
    split_ifs at e with hne
    split at e
    · next e' => exact scanlines_passes k (.next h hne e') e
    · cases e

/-- The number of active bounds, the number of those carrying an output ring, and the number of allocated rings, at the end
of the scanline number `k`. -/
def pointedActive (k : Nat) : Option (Int × Nat × Nat × Nat) :=
  let w := ((Wagyu.new false).calls 60 pointedHistory).1
  match buildHotPixels w.minimums.values w.minimums.scanbeams (St.init 60 w.minimums.bounds) with
  | .err _ _ => none
  | .ok _ s => (scanlines .union .nonZero .evenOdd k 0 (sortedMinimums w.minimums.values) (vattiInitial w.minimums s)).map fun x =>
      (x.1, (act x.2.2).length, ((act x.2.2).filter fun b => (x.2.2.bounds b).ring.isSome).length, x.2.2.nr)

/-- The hypotheses of the theorems above, for the union of the two triangles. -/
theorem pointed_hypotheses : (∀ ring ∈ heldRings pointedHistory, RingFits 60 ring)
    ∧ NoFlatTops ((Wagyu.new false).calls 60 pointedHistory).1.minimums := by
  constructor
  · unfold RingFits; decide +kernel
  · have : (((Wagyu.new false).calls 60 pointedHistory).1.minimums.values.all fun v => [v.left, v.right].all fun b =>
        (((Wagyu.new false).calls 60 pointedHistory).1.minimums.bounds b).edges.getLast?.all fun e => decide (e.bottom.y ≠ e.top.y)) = true := by
      decide +kernel
    intro v hv b hb e he
    have h1 := List.all_eq_true.1 (List.all_eq_true.1 this v hv) b (by rcases hb with rfl | rfl <;> simp)
    rw [he] at h1
    simpa using h1

/-- On the scanline `y = 15` four bounds are active, two of which carry one of the two rings created so far; on the scanline
`y = 3` a third ring has been created. -/
example : pointedActive 3 = some (15, 4, 2, 2) ∧ pointedActive 4 = some (3, 2, 2, 3) := by decide +kernel

end Wagyu
