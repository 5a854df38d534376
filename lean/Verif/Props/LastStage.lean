import Verif.Props.TopologyStages
import Verif.Props.Output
import Verif.Proofs.LastLoop

/-!
# C45, C46: the last stage of the topology correction, and the rings of the result
-/

namespace Wagyu

open Spec

namespace Spec

/-- The body of `execute` (wagyu.py:91-96), with a given merge of rings in the last stage. -/
def operationWith (merge : ConnectionMap → List LoopItem → Nat → Option Nat → Nat → Nat → M ConnectionMap)
    (m : Minimums) (reverseOutput : Bool) (op : OperationKind) (sf cf : FillKind) : M Multipolygon := do
  sweeps m op sf cf
  firstStages
  lastStageWith merge
  buildResult reverseOutput

/-- With the merge of the code, it is the operation. -/
theorem operationWith_merge (m : Minimums) (reverseOutput : Bool) (op : OperationKind) (sf cf : FillKind) :
    operationWith mergeLoop m reverseOutput op sf cf = runOperation m reverseOutput op sf cf := by
  unfold operationWith runOperation
  rw [correctTopology_stages]
  unfold sweeps
  simp only [M.assoc]
  rfl

end Spec

theorem lastStageWith_merge : lastStageWith mergeLoop = lastStage := rfl

theorem narrows_last : Narrows (lastStageWith mergeSimple) (lastStageWith mergeLoop) := by
  unfold lastStageWith
  exact Narrows.loopM (fun _ => Narrows.bind narrows_chained fun _ => Narrows.refl _) _

theorem narrows_operation (m : Minimums) (rev : Bool) (op : OperationKind) (sf cf : FillKind) :
    Narrows (operationWith mergeSimple m rev op sf cf) (runOperation m rev op sf cf) := by
  rw [← operationWith_merge]
  unfold operationWith
  exact Narrows.bind (Narrows.refl _) fun _ => Narrows.bind (Narrows.refl _) fun _ => Narrows.bind narrows_last fun _ => Narrows.refl _

instance Up.sweeps (m : Minimums) (op : OperationKind) (sf cf : FillKind) : Up (Wagyu.sweeps m op sf cf) (Wagyu.sweeps m op sf cf) := by
  unfold Wagyu.sweeps; up
instance Up.orientStage : Up Wagyu.orientStage Wagyu.orientStage := by
  unfold Wagyu.orientStage; up
instance Up.firstStages : Up Wagyu.firstStages Wagyu.firstStages := by
  unfold Wagyu.firstStages; up

/-- The state after the first stages. -/
def AfterFirst (s : St) : Prop := (∃ L, LI s L ∧ ∀ k, Once s (L k)) ∧ ∀ i ∈ s.allNodes, i < s.nn

theorem Rooted.after {s t : St} (h : Rooted t s) : AfterFirst s := by
  obtain ⟨-, L, -, -, h1, h2, -, -, h3, -⟩ := h.lists
  exact ⟨⟨L, ⟨h1, h2, fun r _ => h3 r⟩, h3⟩, h.all⟩

theorem AfterFirst.unfuel {s : St} {f : Nat} (h : AfterFirst (s.wf f)) : AfterFirst s := by
  obtain ⟨⟨L, h1, h2⟩, h3⟩ := h
  exact ⟨⟨L, h1.unfuel, h2⟩, h3⟩

/-! ## The rings of the result -/

section
variable {s : St} {L : Nat → List Nat}

/-- A closed ring whose vertices, except the last, are distinct. -/
def Spec.ClosedOnce (ring : List Point) : Prop := ∃ p t, ring = p :: t ++ [p] ∧ (p :: t).Nodup

theorem ok_ringToLinearRing (h : TI s L) (ho : ∀ k, Once s (L k)) (r : Nat) (rev : Bool) :
    Ok (ringToLinearRing r rev) s fun l s' => s = s' ∧ ClosedOnce l := by
  by_cases hr : L r = []
  · unfold ringToLinearRing pointNodeToLinearRing
    refine Post.bind (Post.getRing (Post.bind (Post.deref (fun a ha => ?_) fun _ => trivial)))
    rw [h.own.head, hr] at ha; cases ha
  · have he : Ends (fun _ => False) (ringToLinearRing r rev) s fun l s' => s' = s ∧ ClosedOnce l := by
      refine ⟨(L r).length, .inl ⟨closedRing s.nodes L rev r, s, fun k hk => ?_, rfl, ?_⟩⟩
      · exact ringToLinearRing_run (s := s.wf k) (lists := L) (ids := [r]) (fun i hi => by
          obtain rfl := List.mem_singleton.1 hi
          exact ⟨(h.own.cycle _ hr).2, h.own.head _, hk⟩) rev (List.mem_singleton.2 rfl)
      · have := ho r
        unfold Once at this
        unfold closedRing
        cases e : pointsOf s.nodes (L r) with
        | nil => cases hl : L r with
          | nil => exact absurd hl hr
          | cons a t => rw [hl] at e; cases e
        | cons p t =>
          rw [e] at this
          dsimp only
          split
          · exact ⟨p, t, rfl, this⟩
          · refine ⟨p, t.reverse, rfl, ?_⟩
            rw [List.nodup_cons] at this ⊢
            simpa using this
    refine Post.imp (Ok.of_ends' he) fun l s' ⟨hf, f, h1, h2⟩ => ⟨?_, h2⟩
    have := congrArg (fun t => St.wf t s.fuel) h1
    change s'.wf s.fuel = s at this
    rw [← hf] at this
    exact this.symm

theorem ok_mapRings {α β : Type} {m : α → M β} {P : β → Prop} (h : ∀ a, Ok (m a) s fun b s' => s = s' ∧ P b) :
    ∀ l : List α, Ok (mapM' m l) s fun bs s' => s = s' ∧ ∀ b ∈ bs, P b
  | [] => Post.pure ⟨rfl, nofun⟩
  | a :: l => by
    rw [mapM']
    refine Post.bind ((h a).imp ?_)
    rintro b _ ⟨rfl, hb⟩
    refine Post.bind ((ok_mapRings h l).imp ?_)
    rintro bs _ ⟨rfl, hbs⟩
    exact Post.pure ⟨rfl, List.forall_mem_cons.2 ⟨hb, hbs⟩⟩

theorem ok_ringsToPolygons (h : TI s L) (ho : ∀ k, Once s (L k)) (rev : Bool) : ∀ (n : Nat) (l : List (Option Nat)),
    Ok (ringsToPolygons rev n l) s fun ps s' => s = s' ∧ ∀ polygon ∈ ps, ∀ ring ∈ polygon, ClosedOnce ring
  | 0, _ => trivial
  | n + 1, l => by
    rw [ringsToPolygons]
    refine Post.bind ((ok_mapRings (P := fun ps => ∀ polygon ∈ ps, ∀ ring ∈ polygon, ClosedOnce ring) (fun o => ?_) l).imp ?_)
    · cases o with
      | none => exact Post.pure ⟨rfl, by simp⟩
      | some r =>
        refine Post.bind ((ok_ringToLinearRing h ho r rev).imp ?_)
        rintro ext _ ⟨rfl, hext⟩
        refine Post.bind (Post.getRing (Post.bind ((ok_mapRings (fun c => ok_ringToLinearRing h ho c rev) _).imp ?_)))
        rintro holes _ ⟨rfl, hholes⟩
        refine Post.bind ((ok_mapRings (P := fun ps => ∀ polygon ∈ ps, ∀ ring ∈ polygon, ClosedOnce ring)
          (fun c => Post.bind (Post.getRing (ok_ringsToPolygons h ho rev n _))) _).imp ?_)
        rintro rest _ ⟨rfl, hrest⟩
        refine Post.pure ⟨rfl, fun polygon hp => ?_⟩
        rcases List.mem_cons.1 hp with rfl | hp
        · exact List.forall_mem_cons.2 ⟨hext, hholes⟩
        · obtain ⟨ps, hps, hp⟩ := List.mem_flatten.1 hp
          exact hrest ps hps polygon hp
    · rintro parts _ ⟨rfl, hparts⟩
      refine Post.pure ⟨rfl, fun polygon hp => ?_⟩
      obtain ⟨ps, hps, hp⟩ := List.mem_flatten.1 hp
      exact hparts ps hps polygon hp

theorem ok_buildResult (h : TI s L) (ho : ∀ k, Once s (L k)) (rev : Bool) :
    Ok (buildResult rev) s fun ps _ => ∀ polygon ∈ ps, ∀ ring ∈ polygon, ClosedOnce ring := by
  unfold buildResult
  exact Post.bind (Post.gets (Post.bind (Post.gets ((ok_ringsToPolygons h ho rev _ _).imp fun _ _ h => h.2))))

end

section
variable (fuel₀ : Nat) (rev : Bool) (cs : List Call) (w : Wagyu) (op : OperationKind) (sf cf : FillKind)
  (hw : ((Wagyu.new rev).calls fuel₀ cs).1 = w) (hfit : ∀ ring ∈ heldRings cs, RingFits fuel₀ ring)

include hw hfit

theorem ok_first (fuel : Nat) : Ok (do sweeps w.minimums op sf cf; firstStages) (St.init fuel w.minimums.bounds) fun _ s => AfterFirst s := by
  have key : Tot (do sweeps w.minimums op sf cf; firstStages) (St.init 0 w.minimums.bounds) fun _ s => AfterFirst s :=
    Tot.bind ((sweeps_swept op sf cf hw hfit).imp fun _ s h =>
      (Ends.tot (ends_firstStages h) fun _ => unplaced_real).imp fun _ s' ⟨_, h'⟩ => h'.after)
  have key' : Ends Err.Real (do sweeps w.minimums op sf cf; firstStages) (St.init fuel w.minimums.bounds) fun _ s => AfterFirst s := key
  have hu : Up (do sweeps w.minimums op sf cf; firstStages) (do sweeps w.minimums op sf cf; firstStages) := by up
  exact (Ok.of_ends key').imp fun _ s ⟨f, h⟩ => h.unfuel

/-- **C45** (partial).  After any history of calls, let the last stage of the topology correction (the loop that merges rings
along chains of touching rings and splits rings at repeated points) return, and let the rings of every chain along which it
merged be distinct (`mergeSimple` raises otherwise; when it does not, the last stage of the code does the same).  Then,
afterwards, the points are distributed over closed rings, no ring visits a position twice, the same point nodes as before
are in rings, none has been created and none has moved, and the rings have the same directed edges in total as before
(`edgeTotal`), so the same total signed area and the same total winding number around any position.

Missing: that the rings of a chain are always distinct, and that the stage ends. -/
theorem C45_last_stage_partial (fuel : Nat) (s s' : St)
    (h : (do sweeps w.minimums op sf cf; firstStages) (St.init fuel w.minimums.bounds) = .ok () s)
    (h' : lastStageWith mergeSimple s = .ok () s') :
    lastStage s = .ok () s' ∧ SamePoints s s' ∧ ∃ lists lists', Rings s lists ∧ Rings s' lists'
      ∧ (∀ r, (pointsOf s'.nodes (lists' r)).Nodup)
      ∧ (∀ i, (∃ r, i ∈ lists r) ↔ ∃ r, i ∈ lists' r)
      ∧ ∀ c, edgeTotal c s'.nodes lists' s'.nr = edgeTotal c s.nodes lists s.nr := by
  obtain ⟨⟨L, h1, h2⟩, h3⟩ := (ok_first fuel₀ rev cs w op sf cf hw hfit fuel).elim h
  obtain ⟨L', k1, k2, k3⟩ := (ok_lastStage h1 h3).elim h'
  exact ⟨narrows_last s () s' h', ⟨k2.nn, k2.loc⟩, L, L', h1.ti.own, k1.ti.own, k3,
    fun i => ⟨fun ⟨r, hr⟩ => k2.kept i r hr, fun ⟨r, hr⟩ => k2.back i r hr⟩, k2.total⟩

/-- **C46** (partial).  After any history of calls, when an operation returns (and the rings of every chain along which rings
were merged were distinct, see C45), every ring of the result is closed and visits no other position twice.

Missing: that the rings of a chain are always distinct. -/
theorem C46_result_rings_partial (fuel : Nat) (result : Multipolygon) (s' : St)
    (h : operationWith mergeSimple w.minimums w.reverseOutput op sf cf (St.init fuel w.minimums.bounds) = .ok result s') :
    runOperation w.minimums w.reverseOutput op sf cf (St.init fuel w.minimums.bounds) = .ok result s'
    ∧ (w.minimums.values ≠ [] → (w.execute fuel op sf cf).2 = .ok result)
    ∧ ∀ polygon ∈ result, ∀ ring ∈ polygon, ClosedOnce ring := by
  have hrun := narrows_operation _ _ _ _ _ _ _ _ h
  refine ⟨hrun, fun hne => by unfold Wagyu.execute; rw [if_neg hne, hrun], ?_⟩
  have hok : Ok (operationWith mergeSimple w.minimums w.reverseOutput op sf cf) (St.init fuel w.minimums.bounds)
      fun result _ => ∀ polygon ∈ result, ∀ ring ∈ polygon, ClosedOnce ring := by
    unfold operationWith
    rw [← M.assoc]
    refine Post.bind ((ok_first fuel₀ rev cs w op sf cf hw hfit fuel).imp ?_)
    rintro _ s ⟨⟨L, h1, h2⟩, h3⟩
    refine Post.bind ((ok_lastStage h1 h3).imp ?_)
    rintro _ s1 ⟨L', k1, k2, k3⟩
    exact ok_buildResult k1.ti k3 _
  exact hok.elim h

end

/-! ## The hypotheses are met -/

/-- A square and two triangles that, together, touch its left and its right edge. -/
def chainHistory : List Call :=
  [.addPolygon [[⟨0, 0⟩, ⟨12, 0⟩, ⟨12, 12⟩, ⟨0, 12⟩, ⟨0, 0⟩]] .subject,
    .addLinearRing [⟨0, 6⟩, ⟨6, 7⟩, ⟨3, 9⟩, ⟨0, 6⟩] .clip, .addLinearRing [⟨6, 7⟩, ⟨12, 6⟩, ⟨9, 3⟩, ⟨6, 7⟩] .clip]

/-- The hypotheses hold; the last stage merges the square and its two holes (rings `0`, `1`, `2`) into the rings `0` and `3`,
and the result consists of the two parts of the square. -/
example : (∀ ring ∈ heldRings chainHistory, RingFits 60 ring)
    ∧ (match (do sweeps ((Wagyu.new false).calls 60 chainHistory).1.minimums .difference .evenOdd .evenOdd; firstStages)
          (St.init 60 ((Wagyu.new false).calls 60 chainHistory).1.minimums.bounds) with
      | .ok _ s => match lastStageWith mergeSimple s with
        | .ok _ s' => decide (
            ((List.range s.nr).filter fun r => (s.rings r).node.isSome) = [0, 1, 2]
            ∧ ((List.range s'.nr).filter fun r => (s'.rings r).node.isSome) = [0, 3])
        | .err _ _ => false
      | .err _ _ => false) = true
    ∧ (match operationWith mergeSimple ((Wagyu.new false).calls 60 chainHistory).1.minimums false .difference .evenOdd .evenOdd
          (St.init 60 ((Wagyu.new false).calls 60 chainHistory).1.minimums.bounds) with
      | .ok result _ => decide (result = [[[⟨12, 6⟩, ⟨9, 3⟩, ⟨6, 7⟩, ⟨0, 6⟩, ⟨0, 0⟩, ⟨12, 0⟩, ⟨12, 6⟩]],
          [[⟨12, 6⟩, ⟨12, 12⟩, ⟨0, 12⟩, ⟨0, 6⟩, ⟨3, 9⟩, ⟨6, 7⟩, ⟨12, 6⟩]]])
      | .err _ _ => false) = true := by
  unfold RingFits
  refine ⟨?_, ?_, ?_⟩ <;> decide +kernel

end Wagyu
