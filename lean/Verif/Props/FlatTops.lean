import Verif.Proofs.SweepFairStep
import Verif.Props.SweepHistory
import Verif.Props.Failures
import Verif.Spec.Partners

/-!
# C40, C06, C07, C25 for stored rings with flat tops
-/

namespace Wagyu

open Spec

theorem mated_of {m : Minimums} (h : MatesOk m) (fuel : Nat) : Mated (St.init fuel m.bounds) m.values := by
  have hpath : ∀ b ∈ idsOf m.values, Path (m.bounds b).edges := by
    intro b hb
    obtain ⟨v, hv, hb⟩ := mem_boundIds.1 hb
    rcases hb with rfl | rfl
    exacts [(h.input.mins v hv).left, (h.input.mins v hv).right]
  refine ⟨fun v hv => ?_, fun b hb => ?_, fun b hb j hj hf hf' => ?_, hpath, fun b hb j hj => ?_⟩
  · have := h.opened v hv
    have hp : Partners (St.init fuel m.bounds) v.left v.right := ⟨this.unit, this.kind, this.delta⟩
    exact ⟨hp.ne, hp, (h.input.mins v hv).left.ne, (h.input.mins v hv).right.ne⟩
  · obtain ⟨j, h1, h2, h3, h4, -⟩ := h.closed b hb
    exact ⟨j, h1, h2, h3, h4.unit, h4.kind, h4.delta⟩
  · obtain ⟨j', h1, h2, h3, h4, -⟩ := h.closed b hb
    obtain rfl : j = j' := by
      have : (m.bounds b).maximumBound = some j := hj
      rw [h2] at this; exact (Option.some.inj this).symm
    have key : ∀ c ∈ idsOf m.values, FlatTop (St.init fuel m.bounds) c → (m.bounds c).windingDelta ≠ -1 := by
      rintro c hc ⟨e, he, hh⟩ hd
      obtain ⟨e', he', hlt⟩ := h.steep c hc hd
      have he : (m.bounds c).edges.getLast? = some e := he
      rw [he'] at he
      obtain rfl : e' = e := Option.some.inj he
      have := ((hpath c hc).hor e' (List.mem_of_getLast? he')).1 hh
      omega
    have k1 := key b hb hf
    have k2 := key j h1 hf'
    have := h4.unit
    have := h4.delta
    omega
  · obtain ⟨j', h1, h2, h3, h4, p, h5, h6⟩ := h.closed b hb
    obtain rfl : j = j' := by
      have : (m.bounds b).maximumBound = some j := hj
      rw [h2] at this; exact (Option.some.inj this).symm
    exact h6.trans h5.symm

theorem opens_of {F : Extent} {m : Minimums} {fuel : Nat} (hG : Given F (fun b => (m.bounds b).edges) m.values) : Opens (St.init fuel m.bounds) m.values := by
  intro v hv
  obtain ⟨p, sl, sr, hpy⟩ := hG.start v hv
  obtain ⟨el, ll, hel, hrise⟩ := hG.rises v hv
  obtain ⟨er, lr, her⟩ : ∃ e l, (m.bounds v.right).edges = e :: l := by
    cases h : (m.bounds v.right).edges with
    | nil => exact absurd h (hG.path _ (mem_idsOf_right hv)).ne
    | cons e l => exact ⟨e, l, rfl⟩
  have hpl : el.bottom = p := by rw [hel] at sl; exact Option.some.inj sl
  have hpr : er.bottom = p := by rw [her] at sr; exact Option.some.inj sr
  have hor := (hG.path _ (mem_idsOf_right hv)).hor er (by rw [her]; simp)
  have hol := (hG.path _ (mem_idsOf_left hv)).hor el (by rw [hel]; simp)
  refine ⟨el, ll, er, lr, hel, her, by rw [hpl]; exact hpy, by rw [hpr]; exact hpy, ?_, ?_⟩
  · by_contra hx
    have := hol.1 (by simpa using hx)
    omega
  · rw [hG.horizontal v hv, hor]
    constructor
    · rintro ⟨e, l, h1, h2⟩
      rw [her] at h1; cases h1; exact h2
    · intro h; exact ⟨er, lr, her, h⟩

section
variable {fuel₀ fuel : Nat} {rev : Bool} {cs : List Call} {w : Wagyu} {op : OperationKind} {sf cf : FillKind} {s : St}

theorem fair_start (hw : ((Wagyu.new rev).calls fuel₀ cs).1 = w) (hfit : ∀ ring ∈ heldRings cs, RingFits fuel₀ ring)
    (hot : buildHotPixels w.minimums.values w.minimums.scanbeams (St.init fuel w.minimums.bounds) = .ok () s) :
    Given ⟨-2 ^ 52, 2 ^ 52, -2 ^ 52, 2 ^ 52⟩ (fun b => ((St.init fuel w.minimums.bounds).bounds b).edges) w.minimums.values
    ∧ Mated (St.init fuel w.minimums.bounds) w.minimums.values ∧ Opens (St.init fuel w.minimums.bounds) w.minimums.values
    ∧ (∀ y, InR (-2 ^ 52) (2 ^ 52) y → ∀ b ∈ idsOf w.minimums.values, ∀ e ∈ ((St.init fuel w.minimums.bounds).bounds b).edges, e.getCurrentX y ≠ .nan)
    ∧ RowInv (-2 ^ 52) (2 ^ 52) (vattiInitial w.minimums s) ∧ ((vattiInitial w.minimums s).scan ≠ [] ∨ sortedMinimums w.minimums.values = [])
    ∧ Walks (St.init fuel w.minimums.bounds) w.minimums.values (sortedMinimums w.minimums.values) (vattiInitial w.minimums s)
    ∧ Fair op sf cf (St.init fuel w.minimums.bounds) (sortedMinimums w.minimums.values) (vattiInitial w.minimums s) := by
  have hm : MatesOk w.minimums := by rw [← hw]; exact calls_mates fuel₀ cs (Wagyu.new rev) [] (fun _ => MatesOk.empty) hfit
  have hG := given_of hw hfit (within_of_fits hfit)
  have hMI := held_within (fuel := fuel₀) (rev := rev) (before := cs) (lo := -2 ^ 52) (hi := 2 ^ 52) fun ring hr p hp => by
    obtain ⟨h1, h2⟩ := (hfit ring hr).2 p hp
    exact ⟨(abs_le.1 h2).1, (abs_le.1 h2).2, h1, h2⟩
  rw [hw] at hMI
  obtain ⟨h0, hscan, hsne⟩ := start_rows (fuel := fuel) hMI
  have hrow := ((buildHotPixels_rows h0 hscan hsne).elim hot).start hscan
  have hkeep : InputKept (St.init fuel w.minimums.bounds) s := by
    have := (inferInstance : Pres InputKept (buildHotPixels w.minimums.values w.minimums.scanbeams)).pres (St.init fuel w.minimums.bounds)
    rw [hot] at this
    exact this
  have hperm : (sortedMinimums w.minimums.values).Perm w.minimums.values := sortedMinimums_perm _
  have hM := mated_of hm fuel
  have hsame : HeapSame (St.init fuel w.minimums.bounds) s := by
    have := (HeapSame.i19 w.minimums.values w.minimums.scanbeams).pres (St.init fuel w.minimums.bounds)
    rw [hot] at this
    exact ⟨this.1, this.2, this.3, this.4, this.5⟩
  refine ⟨hG, hM, opens_of hG, fun y hy b hb e he => ?_, hrow.misc, ?_, ⟨topmost w.minimums + 1, ⟨?_, fun m h => hperm.mem_iff.1 h, ?_, nofun, List.nodup_nil, nofun, nofun, ?_, nofun⟩,
    (vatti_start hG (fun v => extent_abs) hsame fun b => (hkeep b).edges).1⟩, ⟨⟨.start _ rfl, nofun, ?_, nofun⟩, nofun⟩⟩
  · exact getCurrentX_number (hG.bounded b hb e he) (abs_le.2 hy) ((hG.path b hb).slope e he) ((hG.path b hb).hor e he)
  · by_cases hv : w.minimums.values = []
    · right; rw [hv]; rfl
    · left; exact hsne hv
  · intro b
    exact ⟨(hkeep b).kind, (hkeep b).delta, (hkeep b).partner, (hkeep b).edges⟩
  · exact ((hperm.flatMap_right _).nodup_iff).2 hm.input.ids
  · exact fun c hc _ hr => absurd ((hperm.flatMap_right _).mem_iff.2 hc) hr
  · intro b hb m hbm
    have hb' : b ∈ idsOf w.minimums.values := (hperm.flatMap_right _).mem_iff.1 (hb.resolve_left nofun)
    obtain ⟨j, h1, h2, -⟩ := hM.closed b hb'
    rw [h2] at hbm; cases hbm
    exact .inr ((hperm.flatMap_right _).mem_iff.2 h1)

theorem waiting_iff {t : St} {rest : List LocalMinimum} {b : Nat} : Waiting t rest b ↔ b ∈ act t ∨ b ∈ idsOf rest := by
  unfold Waiting; rw [mem_act, mem_boundIds]

theorem Walk.paired_iff {y : Int} {s0 t : St} {A rest : List LocalMinimum} (h : Walk y s0 A rest t) : AllPaired t rest ↔ Paired' s0 rest t := by
  unfold AllPaired Paired'
  simp only [waiting_iff, (h.static _).2.2.1]
  exact ⟨fun h b hb m hm => h b m hb hm, fun h b m hb hm => h b hb m hm⟩

/-- **C40.** After any history of calls, whatever the stored rings: take a state `t` of the sweep at the end of a scanline and
any later one `t'`.  If at `t'` no bound has ended without its partner, then `t` is reached by events only (local minima are
inserted, adjacent bounds cross, the two bounds of a local maximum end together once they are adjacent).  In particular this
is so for every scanline of a sweep that ends with no active bound. -/
theorem C40_paired_scanlines (hw : ((Wagyu.new rev).calls fuel₀ cs).1 = w) (hfit : ∀ ring ∈ heldRings cs, RingFits fuel₀ ring)
    (hot : buildHotPixels w.minimums.values w.minimums.scanbeams (St.init fuel w.minimums.bounds) = .ok () s)
    {y y' : Int} {rest rest' : List LocalMinimum} {t t' : St}
    (h : Passes (vattiStep op sf cf) 0 (sortedMinimums w.minimums.values) (vattiInitial w.minimums s) y rest t)
    (h' : Passes (vattiStep op sf cf) y rest t y' rest' t') (hp : AllPaired t' rest') : Reached op sf cf t := by
  obtain ⟨hG, h1, h2, h3, h4, h5, h6, h7⟩ := fair_start (op := op) (sf := sf) (cf := cf) hw hfit hot
  obtain ⟨i0, i2, i3, i4, i5, -⟩ := fair_passes hG (fun v => extent_abs) h1 h2 h3 h4 (.inr h5) h6 (sortedMinimums_order _) (.inl h7) h
  have ⟨Y, i1, iv⟩ := i0
  rcases i3 with i3 | i3
  · exact i3.reached
  · obtain ⟨⟨Y', j1, -⟩, -, -, -, -, j6, -⟩ := fair_passes hG (fun v => extent_abs) h1 h2 h3 i4 i5 i0 i2 (.inr i3) h'
    exact absurd (j1.paired_iff.1 hp) ((j6 i3).not_paired h1)

/-- **C40.** Otherwise some bound with a flat top has ended without its partner, which does not have a flat top, and the
partner is left for good: it is active, or still to be inserted, at the end of every later scanline. -/
theorem C40_left_for_good (hw : ((Wagyu.new rev).calls fuel₀ cs).1 = w) (hfit : ∀ ring ∈ heldRings cs, RingFits fuel₀ ring)
    (hot : buildHotPixels w.minimums.values w.minimums.scanbeams (St.init fuel w.minimums.bounds) = .ok () s)
    {y : Int} {rest : List LocalMinimum} {t : St}
    (h : Passes (vattiStep op sf cf) 0 (sortedMinimums w.minimums.values) (vattiInitial w.minimums s) y rest t) (hp : ¬ AllPaired t rest) :
    (∃ b m, (t.bounds b).maximumBound = some m ∧ ¬ Waiting t rest b ∧ EndsFlat t b ∧ Waiting t rest m ∧ ¬ EndsFlat t m)
    ∧ ∀ y' rest' t', Passes (vattiStep op sf cf) y rest t y' rest' t' → ¬ AllPaired t' rest' := by
  obtain ⟨hG, h1, h2, h3, h4, h5, h6, h7⟩ := fair_start (op := op) (sf := sf) (cf := cf) hw hfit hot
  obtain ⟨i0, i2, i3, i4, i5, -⟩ := fair_passes hG (fun v => extent_abs) h1 h2 h3 h4 (.inr h5) h6 (sortedMinimums_order _) (.inl h7) h
  have ⟨Y, i1, iv⟩ := i0
  have ho := i3.resolve_left fun h => hp (i1.paired_iff.2 h.paired)
  refine ⟨?_, fun y' rest' t' h' hp' => ?_⟩
  · obtain ⟨b, m, k1, k2, k3, k4, k5, k6, e, he, heh⟩ := ho
    refine ⟨b, m, by rw [(i1.static b).2.2.1]; exact k2, by rw [waiting_iff]; exact fun h => h.elim k4 k5, ?_, waiting_iff.2 k6, ?_⟩
    · exact ⟨e, by rw [i1.static.edges]; exact he, ((h1.path b k1).hor e (List.mem_of_getLast? he)).1 heh⟩
    rintro ⟨e, he, hey⟩
    rw [i1.static.edges] at he
    have hmA : m ∈ idsOf w.minimums.values := by
      rcases k6 with h | h
      · exact (i1.act m h).1
      · obtain ⟨v, hv, e⟩ := List.mem_flatMap.1 h
        exact List.mem_flatMap.2 ⟨v, i1.sub v hv, e⟩
    exact k3 ⟨e, he, ((h1.path m hmA).hor e (List.mem_of_getLast? he)).2 hey⟩
  · obtain ⟨⟨Y', j1, -⟩, -, -, -, -, j6, -⟩ := fair_passes hG (fun v => extent_abs) h1 h2 h3 i4 i5 i0 i2 (.inr ho) h'
    exact absurd (j1.paired_iff.1 hp') ((j6 ho).not_paired h1)

/-- **C40.** A `RuntimeError` of the sweep other than the one about lines that do not intersect, "DoMaxima error" for one, is
raised only on a scanline at whose beginning some bound had already ended without its partner. -/
theorem C40_error_only_after (hw : ((Wagyu.new rev).calls fuel₀ cs).1 = w) (hfit : ∀ ring ∈ heldRings cs, RingFits fuel₀ ring)
    (hot : buildHotPixels w.minimums.values w.minimums.scanbeams (St.init fuel w.minimums.bounds) = .ok () s)
    {y : Int} {rest : List LocalMinimum} {t u : St}
    (h : Passes (vattiStep op sf cf) 0 (sortedMinimums w.minimums.values) (vattiInitial w.minimums s) y rest t) (hne : ¬ (t.scan = [] ∧ rest = []))
    {msg : String} (he : vattiStep op sf cf y rest t = .err (.runtime msg) u)
    (hmsg : msg ≠ "Trying to find intersection of lines that do not intersect") : ¬ AllPaired t rest := by
  obtain ⟨hG, h1, h2, h3, h4, h5, h6, h7⟩ := fair_start (op := op) (sf := sf) (cf := cf) hw hfit hot
  obtain ⟨i0, i2, i3, i4, i5, -⟩ := fair_passes hG (fun v => extent_abs) h1 h2 h3 h4 (.inr h5) h6 (sortedMinimums_order _) (.inl h7) h
  have ⟨Y, i1, iv⟩ := i0
  intro hp
  rcases i3 with i3 | i3
  · have i5' : InR (-2 ^ 52) (2 ^ 52) y ∨ t.scan ≠ [] := i5.elim .inl fun h => h.elim .inr fun h => .inr fun h' => hne ⟨h', h⟩
    exact hmsg ((fair_errors h1 h3 i4 i5' i1 i3).err he msg rfl)
  · exact i3.not_paired h1 (i1.paired_iff.1 hp)

/-- **C06**, whatever the stored rings: at the end of every scanline followed by one at whose end no bound has ended without
its partner, the winding counts are those of the true winding numbers. -/
theorem C06_paired_scanlines (hw : ((Wagyu.new rev).calls fuel₀ cs).1 = w) (hfit : ∀ ring ∈ heldRings cs, RingFits fuel₀ ring)
    (hot : buildHotPixels w.minimums.values w.minimums.scanbeams (St.init fuel w.minimums.bounds) = .ok () s)
    {y y' : Int} {rest rest' : List LocalMinimum} {t t' : St}
    (h : Passes (vattiStep op sf cf) 0 (sortedMinimums w.minimums.values) (vattiInitial w.minimums s) y rest t)
    (h' : Passes (vattiStep op sf cf) y rest t y' rest' t') (hp : AllPaired t' rest')
    (before after : List Nat) (b : Nat) (hb : act t = before ++ b :: after) : WindingRight sf cf (before.map t.bounds) (t.bounds b) :=
  C06_winding_counts (C40_paired_scanlines hw hfit hot h h' hp) before after b hb

/-- **C07**, whatever the stored rings: likewise, an active bound carries an output ring if and only if the regions left and
right of it differ in belonging to the result of the operation. -/
theorem C07_paired_scanlines (hw : ((Wagyu.new rev).calls fuel₀ cs).1 = w) (hfit : ∀ ring ∈ heldRings cs, RingFits fuel₀ ring)
    (hot : buildHotPixels w.minimums.values w.minimums.scanbeams (St.init fuel w.minimums.bounds) = .ok () s)
    {y y' : Int} {rest rest' : List LocalMinimum} {t t' : St}
    (h : Passes (vattiStep op sf cf) 0 (sortedMinimums w.minimums.values) (vattiInitial w.minimums s) y rest t)
    (h' : Passes (vattiStep op sf cf) y rest t y' rest' t') (hp : AllPaired t' rest')
    (before after : List Nat) (b : Nat) (hb : act t = before ++ b :: after) : OutputRight op sf cf (before.map t.bounds) (t.bounds b) :=
  C07_output_on_boundary (C40_paired_scanlines hw hfit hot h h' hp) before after b hb

/-- **C25**, whatever the stored rings: likewise, a ring is carried by no active bound or by exactly two, one as left and the
other as right side. -/
theorem C25_paired_scanlines (hw : ((Wagyu.new rev).calls fuel₀ cs).1 = w) (hfit : ∀ ring ∈ heldRings cs, RingFits fuel₀ ring)
    (hot : buildHotPixels w.minimums.values w.minimums.scanbeams (St.init fuel w.minimums.bounds) = .ok () s)
    {y y' : Int} {rest rest' : List LocalMinimum} {t t' : St}
    (h : Passes (vattiStep op sf cf) 0 (sortedMinimums w.minimums.values) (vattiInitial w.minimums s) y rest t)
    (h' : Passes (vattiStep op sf cf) y rest t y' rest' t') (hp : AllPaired t' rest') (r : Nat) :
    (act t).filter (fun b => decide ((t.bounds b).ring = some r)) = []
    ∨ ∃ b c, (act t).filter (fun b => decide ((t.bounds b).ring = some r)) = [b, c] ∧ b ≠ c
      ∧ (((t.bounds b).side = .left ∧ (t.bounds c).side = .right) ∨ ((t.bounds b).side = .right ∧ (t.bounds c).side = .left)) :=
  C25_two_ends (C40_paired_scanlines hw hfit hot h h' hp) r

end

/-! ## The hypotheses are met: two overlapping squares with flat tops; and the failure of two quadrilaterals -/

/-- Two squares, both with a flat top and a flat bottom. -/
def squaresHistory : List Call :=
  [.addLinearRing [⟨0, 0⟩, ⟨20, 0⟩, ⟨20, 20⟩, ⟨0, 20⟩, ⟨0, 0⟩] .subject, .addLinearRing [⟨10, 10⟩, ⟨30, 10⟩, ⟨30, 30⟩, ⟨10, 30⟩] .clip]

/-- The two quadrilaterals of C39. -/
def quadsHistory : List Call := [.addLinearRing leaningQuad .subject, .addLinearRing touchingQuad .clip]

/-- Is no bound left without its partner?  (Partners are never changed, so those stored with the object may be used.) -/
def allPaired (t : St) (rest : List LocalMinimum) : Bool :=
  (act t ++ idsOf rest).all fun b => match (t.bounds b).maximumBound with
    | none => true
    | some m => (act t ++ idsOf rest).contains m

theorem allPaired_iff {t : St} {rest : List LocalMinimum} : allPaired t rest = true ↔ AllPaired t rest := by
  unfold allPaired AllPaired
  rw [List.all_eq_true]
  simp only [waiting_iff]
  constructor
  · intro h b m hb hm
    have := h b (List.mem_append.2 hb)
    rw [hm] at this
    exact List.mem_append.1 (List.contains_iff_mem.1 this)
  · intro h b hb
    cases hm : (t.bounds b).maximumBound with
    | none => rfl
    | some m => exact List.contains_iff_mem.2 (List.mem_append.2 (h b m (List.mem_append.1 hb) hm))

/-- At the end of the scanline number `k`: the scanline, the numbers of active bounds, of those with an output ring and of
minima left, and whether no bound has ended without its partner. -/
def sweepAt (cs : List Call) (op : OperationKind) (k : Nat) : Option (Int × Nat × Nat × Nat × Bool) :=
  let w := ((Wagyu.new false).calls 60 cs).1
  match buildHotPixels w.minimums.values w.minimums.scanbeams (St.init 60 w.minimums.bounds) with
  | .err _ _ => none
  | .ok _ s => (scanlines op .evenOdd .evenOdd k 0 (sortedMinimums w.minimums.values) (vattiInitial w.minimums s)).map fun x =>
      (x.1, (act x.2.2).length, ((act x.2.2).filter fun b => (x.2.2.bounds b).ring.isSome).length, x.2.1.length, allPaired x.2.2 x.2.1)

/-- The stored squares do have flat tops; and their sweep ends, on the scanline number 4 (`y = 0`), with no active bound, so that the
theorems above speak about all its scanlines. -/
example : (∀ ring ∈ heldRings squaresHistory, RingFits 60 ring)
    ∧ (((Wagyu.new false).calls 60 squaresHistory).1.minimums.values.any fun v => [v.left, v.right].any fun b =>
        (((Wagyu.new false).calls 60 squaresHistory).1.minimums.bounds b).edges.getLast?.any fun e => decide (e.top.y = e.bottom.y)) = true
    ∧ sweepAt squaresHistory .union 2 = some (20, 4, 2, 0, true) ∧ sweepAt squaresHistory .union 4 = some (0, 0, 0, 0, true) := by
  refine ⟨by unfold RingFits; decide +kernel, by decide +kernel, by decide +kernel, by decide +kernel⟩

/-- Of the two quadrilaterals of C39 a bound ends without its partner on the scanline `y = -49`; the error is raised two scanlines
later. -/
example : (∀ ring ∈ heldRings quadsHistory, RingFits 60 ring) ∧ sweepAt quadsHistory .union 3 = some (-10, 4, 2, 0, true)
    ∧ sweepAt quadsHistory .union 4 = some (-49, 3, 2, 0, false) ∧ sweepAt quadsHistory .union 5 = some (-50, 3, 2, 0, false)
    ∧ sweepAt quadsHistory .union 6 = none := by
  refine ⟨by unfold RingFits; decide +kernel, by decide +kernel, by decide +kernel, by decide +kernel, by decide +kernel⟩

end Wagyu
