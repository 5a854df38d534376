import Verif.Proofs.TopoMarks
import Verif.Props.RingSweep
import Verif.Props.Extent

/-!
# The state between the sweeps and the topology correction
-/

namespace Wagyu

open Spec

/-- What holds between the sweeps and the topology correction. -/
structure Swept (s : St) : Prop where
  hw : HW s
  refs : References s
  blank : ∀ r, Blank (s.rings r)

theorem sweeps_hw (op : OperationKind) (sf cf : FillKind) {m : Minimums} (hG : Given ⟨-2 ^ 52, 2 ^ 52, -2 ^ 52, 2 ^ 52⟩ (fun b => (m.bounds b).edges) m.values) :
    Tot (sweeps m op sf cf) (St.init 0 m.bounds) fun _ s => HW s := by
  unfold sweeps
  refine Tot.bind ?_
  obtain ⟨N', ⟨a, s', h3, h4⟩ | ⟨e, s', h3, h4⟩⟩ := tot_buildHotPixels (fuel := 0) hG
  · have hsame : HeapSame (St.init N' m.bounds) s' := by
      have := (HeapSame.i19 m.values m.scanbeams).pres (St.init N' m.bounds)
      have e := h3 N' (Nat.le_refl _)
      change buildHotPixels _ _ (St.init N' m.bounds) = _ at e
      rw [e] at this
      exact ⟨this.1, this.2, this.3, this.4, this.5⟩
    obtain ⟨h5, h6⟩ := vatti_start (c := if 0 < s'.hotPixels.length then some 0 else none) hG (fun v => extent_abs) hsame h4.2.2
    obtain ⟨ys, a1, a2, -, N, a3⟩ := visits_of (step := vattiStep op sf cf) (fun Y rest s => VI _ _ Y rest s) (fun rest s => Phi _ _ rest s)
      (fun y Y rest s hJ hne => tot_vattiStep op sf cf hG (fun v => extent_abs) y hJ hne) _ 0 _ _ _ (Nat.le_refl _) h5
    refine ⟨N', Or.inl ⟨a, s', h3, ?_⟩⟩
    have key : ∀ k r, ys.length < k → Visits (vattiStep op sf cf) 0 (sortedMinimums m.values) (vattiInitial m (s'.wf k)) ys r →
        executeVatti op sf cf m.values m.scanbeams (s'.wf k) = r := by
      intro k r hk hr
      unfold executeVatti setCurrentHotPixelIndex
      rw [run_bind, run_modify]
      dsimp only
      rw [run_bind, run_modify]
      dsimp only
      exact visits_iter hr k hk
    rcases a3 with ⟨s2, Y2, b0, b1⟩ | ⟨e2, s2, b1, b2⟩
    · exact ⟨max N (ys.length + 1), Or.inl ⟨(), s2, fun k hk => key k _ (by omega) (b1 k (by omega)), b0.hw⟩⟩
    · exact ⟨max N (ys.length + 1), Or.inr ⟨e2, s2, b1, fun k hk => key k _ (by omega) (b2 k (by omega))⟩⟩
  · exact ⟨N', Or.inr ⟨e, s', h3, h4⟩⟩

theorem sweeps_swept {fuel₀ : Nat} {rev : Bool} {cs : List Call} {w : Wagyu} (op : OperationKind) (sf cf : FillKind)
    (hw : ((Wagyu.new rev).calls fuel₀ cs).1 = w) (hfit : ∀ ring ∈ heldRings cs, RingFits fuel₀ ring) :
    Tot (sweeps w.minimums op sf cf) (St.init 0 w.minimums.bounds) fun _ s => Swept s := by
  obtain ⟨N, ⟨a, s, h1, h2⟩ | h⟩ := sweeps_hw op sf cf (given_of hw hfit (within_of_fits hfit))
  · refine ⟨N, Or.inl ⟨a, s, h1, h2, ?_, ?_⟩⟩
    · have hm := held_within (fuel := fuel₀) (rev := rev) (before := cs) (lo := -2 ^ 52) (hi := 2 ^ 52) fun ring hr p hp => by
        obtain ⟨h1, h2⟩ := (hfit ring hr).2 p hp
        exact ⟨(abs_le.1 h2).1, (abs_le.1 h2).2, h1, h2⟩
      rw [hw] at hm
      obtain ⟨h0, hscan, hsne⟩ := start_rows (fuel := N) hm
      have hok : Ok (sweeps w.minimums op sf cf) (St.init N w.minimums.bounds) fun _ s => RowInv (-2 ^ 52) (2 ^ 52) s := by
        unfold sweeps
        refine Post.bind ((buildHotPixels_rows h0 hscan hsne).imp fun _ s1 h1 => ?_)
        exact executeVatti_rows h1 hscan hsne
      obtain ⟨n, h⟩ := (hok.elim (h1 N (Nat.le_refl _))).heap
      have hn : s.nn = n := h.nn
      subst hn
      exact ⟨fun i hi => (h.nodes i hi).2, h.rings, h.all⟩
    · have hp : Pres Unmarked (sweeps w.minimums op sf cf) := by unfold sweeps; exact Pres.bind inferInstance fun _ => inferInstance
      have := (Post.of_pres (s := (St.init 0 w.minimums.bounds).wf N) hp).ok (h1 N (Nat.le_refl _))
      exact fun r => this r ⟨rfl, rfl⟩
  · exact ⟨N, Or.inr h⟩

end Wagyu
