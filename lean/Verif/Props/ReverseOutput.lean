import Verif.Proofs.NetCycle
import Verif.Props.LastStage
import Verif.Props.Output

/-!
# C03 for whole operations: `reverse_output`
-/

namespace Wagyu

open Spec

theorem LI.net {s : St} {L : Nat → List Nat} (h1 : LI s L) (h3 : ∀ i ∈ s.allNodes, i < s.nn) : Net (fun i => ∃ r, i ∈ L r) s.nn s := by
  have own := h1.ti.own
  have around : ∀ r i, i ∈ L r → (∃ j, j ∈ L r ∧ Link s.nodes i j) ∧ ∃ j, j ∈ L r ∧ Link s.nodes j i := by
    intro r i hi
    have hc := (own.cycle r (List.ne_nil_of_mem hi)).2
    cases hl : L r with
    | nil => rw [hl] at hi; cases hi
    | cons a t =>
      rw [hl] at hi hc
      have ch := hc.2
      rw [List.isChain_iff_getElem] at ch
      obtain ⟨k, hk, e⟩ := List.getElem_of_mem hi
      have mem : ∀ m (hm : m < (a :: t ++ [a]).length), (a :: t ++ [a])[m] ∈ a :: t := by
        intro m hm
        have := List.getElem_mem hm
        simp only [List.mem_append, List.mem_singleton] at this
        rcases this with h | h
        · exact h
        · rw [h]; exact List.mem_cons_self
      have ek : ∀ (hm : k < (a :: t ++ [a]).length), (a :: t ++ [a])[k] = i := fun hm => by
        rw [List.getElem_append_left hk]; exact e
      have hlen : (a :: t ++ [a]).length = (a :: t).length + 1 := by simp
      refine ⟨⟨_, mem (k + 1) (by omega), ?_⟩, ?_⟩
      · have := ch k (by omega)
        rw [ek] at this; exact this
      · cases k with
        | zero =>
          have e0 : i = a := e.symm
          have := ch t.length (by simp)
          refine ⟨_, mem t.length (by simp), ?_⟩
          have el : (a :: t ++ [a])[t.length + 1]'(by simp) = a := by
            rw [List.getElem_append_right (by simp)]; simp
          rw [el] at this
          rw [e0]; exact this
        | succ k =>
          refine ⟨_, mem k (by omega), ?_⟩
          have := ch k (by omega)
          rw [ek] at this; exact this
  refine ⟨rfl, ?_, ?_, ?_, ?_, ?_, h3⟩
  · rintro i ⟨r, hi⟩
    obtain ⟨⟨j, hj, hl⟩, -⟩ := around r i hi
    exact ⟨j, ⟨r, hj⟩, hl⟩
  · rintro i ⟨r, hi⟩
    obtain ⟨-, j, hj, hl⟩ := around r i hi
    exact ⟨j, ⟨r, hj⟩, hl⟩
  · intro i hi hr
    cases hn : (s.nodes i).ring with
    | none => exact absurd hn hr
    | some r => exact ⟨r, own.kept i hi r hn⟩
  · intro r i hi
    rw [own.head] at hi
    exact ⟨r, List.mem_of_mem_head? hi⟩
  · rintro i ⟨r, hi⟩
    exact (own.own r i hi).1

theorem AfterFirst.net {s : St} (h : AfterFirst s) : ∃ U : Nat → Prop, Net U s.nn s := by
  obtain ⟨⟨L, h1, -⟩, h3⟩ := h
  exact ⟨_, h1.net h3⟩

/-- The part of an operation before the result is built. -/
def untilResult (m : Minimums) (op : OperationKind) (sf cf : FillKind) : M Unit := do
  (do sweeps m op sf cf; firstStages)
  lastStage

theorem runOperation_until (m : Minimums) (rev : Bool) (op : OperationKind) (sf cf : FillKind) :
    runOperation m rev op sf cf = (do untilResult m op sf cf; buildResult rev) := by
  rw [← operationWith_merge]
  unfold operationWith untilResult
  rw [lastStageWith_merge, M.assoc, M.assoc]

instance linear_eq (r : Nat) (rev : Bool) : Pres Eq (ringToLinearRing r rev) := by
  unfold ringToLinearRing pointNodeToLinearRing nodesFrom nodesBackFrom
  refine Pres.bind inferInstance fun _ => Pres.bind inferInstance fun _ => Pres.bind ?_ fun _ =>
    Pres.bind (Pres.mapM' (fun _ => inferInstance) _) fun _ => by pres
  split <;> pres

instance polygons_eq (rev : Bool) (fuel : Nat) (l : List (Option Nat)) : Pres Eq (ringsToPolygons rev fuel l) := by
  induction fuel generalizing l with
  | zero => exact Pres.raise _
  | succ fuel ih =>
    rw [ringsToPolygons]
    refine Pres.bind (Pres.mapM' (fun o => ?_) _) fun _ => Pres.pure' _
    cases o with
    | none => exact Pres.pure' _
    | some r =>
      refine Pres.bind inferInstance fun _ => Pres.bind inferInstance fun _ => Pres.bind (Pres.mapM' (fun _ => inferInstance) _) fun _ => ?_
      exact Pres.bind (Pres.mapM' (fun _ => Pres.bind inferInstance fun _ => ih _) _) fun _ => Pres.pure' _

instance result_eq (rev : Bool) : Pres Eq (buildResult rev) := by
  unfold buildResult; pres

/-- The state after an operation does not depend on `reverse_output`. -/
theorem runOperation_state (m : Minimums) (rev rev' : Bool) (op : OperationKind) (sf cf : FillKind) (s : St) :
    (runOperation m rev op sf cf s).state = (runOperation m rev' op sf cf s).state := by
  rw [runOperation_until, runOperation_until, run_bind, run_bind]
  cases untilResult m op sf cf s with
  | err e s' => rfl
  | ok a s' => exact ((result_eq rev).pres s').symm.trans ((result_eq rev').pres s')

theorem execute_fst (fuel : Nat) (w : Wagyu) (op : OperationKind) (sf cf : FillKind) :
    (w.execute fuel op sf cf).1 = if w.minimums.values = [] then w else
      { w with minimums := { w.minimums with bounds := (runOperation w.minimums w.reverseOutput op sf cf (St.init fuel w.minimums.bounds)).state.bounds } } := by
  unfold Wagyu.execute
  split
  · rfl
  · cases runOperation w.minimums w.reverseOutput op sf cf (St.init fuel w.minimums.bounds) <;> rfl

theorem addPolygonFrom_rev (fuel : Nat) (kind : PolygonKind) (rev : Bool) : ∀ (p : Polygon) (r : Bool) (w : Wagyu),
    ({ w with reverseOutput := rev }.addPolygonFrom fuel r kind p).1 = { (w.addPolygonFrom fuel r kind p).1 with reverseOutput := rev }
  | [], _, _ => rfl
  | ring :: p, r, w => by
    unfold Wagyu.addPolygonFrom
    have e : { w with reverseOutput := rev }.addLinearRing fuel ring kind
        = ({ (w.addLinearRing fuel ring kind).1 with reverseOutput := rev }, (w.addLinearRing fuel ring kind).2) := rfl
    rw [e]
    cases h : w.addLinearRing fuel ring kind with
    | mk w' x =>
      cases x with
      | error e => rfl
      | ok b => exact addPolygonFrom_rev fuel kind rev p _ w'

theorem call_rev (fuel : Nat) (rev : Bool) (w : Wagyu) (c : Call) :
    ({ w with reverseOutput := rev }.call fuel c).1 = { (w.call fuel c).1 with reverseOutput := rev } := by
  cases c with
  | addLinearRing ring kind => rfl
  | addPolygon p kind => exact addPolygonFrom_rev fuel kind rev p false w
  | clear => rfl
  | execute op sf cf =>
    show ({ w with reverseOutput := rev }.execute fuel op sf cf).1 = { (w.execute fuel op sf cf).1 with reverseOutput := rev }
    rw [execute_fst, execute_fst]
    dsimp only
    split
    · rfl
    · rw [runOperation_state w.minimums rev w.reverseOutput]

theorem calls_rev (fuel : Nat) (rev : Bool) : ∀ (cs : List Call) (w : Wagyu),
    ({ w with reverseOutput := rev }.calls fuel cs).1 = { (w.calls fuel cs).1 with reverseOutput := rev }
  | [], _ => rfl
  | c :: cs, w => by
    show (({ w with reverseOutput := rev }.call fuel c).1.calls fuel cs).1 = { ((w.call fuel c).1.calls fuel cs).1 with reverseOutput := rev }
    rw [call_rev, calls_rev fuel rev cs]

theorem net_until (fuel₀ : Nat) (rev : Bool) (cs : List Call) (w : Wagyu) (op : OperationKind) (sf cf : FillKind)
    (hw : ((Wagyu.new rev).calls fuel₀ cs).1 = w) (hfit : ∀ ring ∈ heldRings cs, RingFits fuel₀ ring) (fuel : Nat) :
    Ok (untilResult w.minimums op sf cf) (St.init fuel w.minimums.bounds) fun _ s => ∃ U : Nat → Prop, Net U s.nn s := by
  unfold untilResult
  refine Post.bind ((ok_first fuel₀ rev cs w op sf cf hw hfit fuel).imp fun _ s hs => ?_)
  obtain ⟨U, hU⟩ := hs.net
  refine (net_lastStage.run s hU).imp fun _ s' h' => ⟨U, ?_⟩
  rw [h'.1.nn]; exact h'.1

instance : Preo SamePoints where
  refl _ := ⟨rfl, fun _ => rfl⟩
  trans h k := ⟨k.1.trans h.1, fun i => (k.2 i).trans (h.2 i)⟩
instance : ForestPrims SamePoints where
  node s j n hx hy := by
    refine ⟨rfl, fun i => ?_⟩
    show locOf (upd _ _ _) i = _
    unfold locOf
    by_cases hi : i = j
    · subst hi; rw [upd_same, hx, hy]
    · rw [upd_ne _ _ hi]
  ring _ _ _ _ _ := ⟨rfl, fun _ => rfl⟩
  sort _ _ := ⟨rfl, fun _ => rfl⟩
  parent _ _ := ⟨fun _ => ⟨rfl, fun _ => rfl⟩⟩
  children p f := by unfold modChildren; split <;> exact ⟨fun _ => ⟨rfl, fun _ => rfl⟩⟩
  create := ⟨fun _ => ⟨rfl, fun _ => rfl⟩⟩

instance lastStage_points : Pres SamePoints lastStage := by
  unfold lastStage
  pres

/-- **C45**, the part that holds of the code without any assumption about the chains along which rings are merged: when the
last stage of the topology correction returns, no point has been created or moved, and the points of every ring form a closed
doubly linked list of points that belonged to rings before. -/
theorem C45_links_stay_closed (fuel₀ : Nat) (rev : Bool) (cs : List Call) (w : Wagyu) (op : OperationKind) (sf cf : FillKind)
    (hw : ((Wagyu.new rev).calls fuel₀ cs).1 = w) (hfit : ∀ ring ∈ heldRings cs, RingFits fuel₀ ring) (fuel : Nat) (s s' : St)
    (h : (do sweeps w.minimums op sf cf; firstStages) (St.init fuel w.minimums.bounds) = .ok () s) (h' : lastStage s = .ok () s') :
    SamePoints s s' ∧ ∃ lists, Rings s lists
      ∧ ∀ r first, (s'.rings r).node = some first → ∃ rest, IsCycle s'.nodes (first :: rest) ∧ ∀ i ∈ first :: rest, ∃ k, i ∈ lists k := by
  obtain ⟨⟨L, h1, -⟩, h3⟩ := (ok_first fuel₀ rev cs w op sf cf hw hfit fuel).elim h
  obtain ⟨k, -⟩ := (net_lastStage.run s (h1.net h3)).elim h'
  refine ⟨by have := lastStage_points.pres s; rw [h'] at this; exact this, L, h1.ti.own, fun r a ha => ?_⟩
  obtain ⟨t, h5, h6⟩ := k.cycle (k.root r a ha)
  exact ⟨t, h5, h6⟩

/-- **C03** for whole operations.  After any history of calls on an object created with `reverse_output=True`, an operation
has the same outcome as after the same calls on an object created with `reverse_output=False`, except that the points of
every linear ring of the result are listed in the opposite order: the polygons, their holes and their order are the same, the
exceptions too.  (`fuel₀` and `fuel` bound the number of iterations of a loop; the held rings have to be within reach of the
first one.) -/
theorem C03_execute (fuel₀ fuel : Nat) (cs : List Call) (hfit : ∀ ring ∈ heldRings cs, RingFits fuel₀ ring)
    (op : OperationKind) (sf cf : FillKind) :
    (((Wagyu.new true).calls fuel₀ cs).1.execute fuel op sf cf).2
      = (((Wagyu.new false).calls fuel₀ cs).1.execute fuel op sf cf).2.map fun result => result.map fun polygon => polygon.map List.reverse := by
  have e := calls_rev fuel₀ true cs (Wagyu.new false)
  rw [show { Wagyu.new false with reverseOutput := true } = Wagyu.new true from rfl] at e
  rw [e]
  have hr : ((Wagyu.new false).calls fuel₀ cs).1.reverseOutput = false := by
    have := calls_rev fuel₀ false cs (Wagyu.new false)
    rw [show { Wagyu.new false with reverseOutput := false } = Wagyu.new false from rfl] at this
    rw [this]
  have hn := net_until fuel₀ false cs _ op sf cf rfl hfit fuel
  generalize ((Wagyu.new false).calls fuel₀ cs).1 = w at hr hn ⊢
  unfold Wagyu.execute
  dsimp only
  rw [hr]
  split
  · rfl
  · rw [runOperation_until, runOperation_until, run_bind, run_bind]
    unfold Ok Post at hn
    cases hu : untilResult w.minimums op sf cf (St.init fuel w.minimums.bounds) with
    | err e s' => rfl
    | ok a s' =>
      rw [hu] at hn
      obtain ⟨U, hU⟩ := hn
      dsimp only
      rcases turns_result hU with ⟨r, h1, h2⟩ | ⟨e, h1, h2⟩
      · rw [h1, h2]; rfl
      · rw [h1, h2]; rfl

/-- A square with a square hole, subtracted from a larger square: two nested polygons. -/
private def nested : List Call := [.addLinearRing [⟨0, 0⟩, ⟨9, 0⟩, ⟨9, 9⟩, ⟨0, 9⟩] .subject,
  .addPolygon [[⟨1, 1⟩, ⟨8, 1⟩, ⟨8, 8⟩, ⟨1, 8⟩], [⟨2, 2⟩, ⟨2, 7⟩, ⟨7, 7⟩, ⟨7, 2⟩]] .clip]

/-- The hypothesis is met, and the theorem speaks about two polygons, one with a hole. -/
example : (∀ ring ∈ heldRings nested, RingFits 60 ring)
    ∧ (((Wagyu.new false).calls 60 nested).1.execute 200 .difference .evenOdd .evenOdd).2
      = .ok [[[⟨9, 0⟩, ⟨9, 9⟩, ⟨0, 9⟩, ⟨0, 0⟩, ⟨9, 0⟩], [⟨8, 1⟩, ⟨1, 1⟩, ⟨1, 8⟩, ⟨8, 8⟩, ⟨8, 1⟩]],
          [[⟨2, 7⟩, ⟨2, 2⟩, ⟨7, 2⟩, ⟨7, 7⟩, ⟨2, 7⟩]]]
    ∧ (((Wagyu.new true).calls 60 nested).1.execute 200 .difference .evenOdd .evenOdd).2
      = .ok [[[⟨9, 0⟩, ⟨0, 0⟩, ⟨0, 9⟩, ⟨9, 9⟩, ⟨9, 0⟩], [⟨8, 1⟩, ⟨8, 8⟩, ⟨1, 8⟩, ⟨1, 1⟩, ⟨8, 1⟩]],
          [[⟨2, 7⟩, ⟨7, 7⟩, ⟨7, 2⟩, ⟨2, 2⟩, ⟨2, 7⟩]]] := by
  refine ⟨by unfold RingFits; decide +kernel, ?_, ?_⟩ <;> decide +kernel

end Wagyu
