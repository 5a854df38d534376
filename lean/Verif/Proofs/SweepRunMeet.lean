import Verif.Proofs.SweepRunOpen

/-!
# Crossings inside a scanbeam are events
-/

namespace Wagyu

open Spec

instance (y : Int) : Quiet (updateCurrentX y) := by unfold updateCurrentX; quiet

section
variable {op : OperationKind} {sf cf : FillKind} {s0 : St} {A rest : List LocalMinimum} {s : St} {α β : Type} {y : Int}

theorem Run.xmoved {s' : St} (h : Run op sf cf s0 A rest s) (k : XMoved s s') : Run op sf cf s0 A rest s' := by
  obtain ⟨f, rfl, hf⟩ := k
  refine h.quiet rfl rfl (fun b => ?_) fun b hb => ?_
  · obtain ⟨x, p, e⟩ := hf b
    show core (f b) = _
    rw [e]; rfl
  · obtain ⟨x, p, e⟩ := hf b
    show (f b).nxtIdx = (f b).curIdx + 1
    rw [e]; exact h.idx b hb

theorem full_ids (h : Full s) : s.abl = (act s).map some := by
  unfold Full at h
  unfold act
  generalize s.abl = l at *
  induction l with
  | nil => rfl
  | cons o l ih =>
    cases o with
    | none => simp at h
    | some b =>
      rw [List.mem_cons, not_or] at h
      simpa using ih h.2

/-- `Post` of an outcome. -/
def Outcome (Q : St → Prop) (r : Res Unit) : Prop :=
  match r with
  | .ok _ t => Q t
  | .err e t => OnlyCross e t

theorem Processed.run {ns : List IntersectNode} {r : Res Unit} (h : Processed op sf cf s ns r) : Run op sf cf s0 A rest s → Full s →
    Outcome (fun t => Run op sf cf s0 A rest t ∧ Full t) r := by
  induction h with
  | done s => exact fun h k => ⟨h, k⟩
  | @fail s s' n ns p q e h1 h2 =>
    intro _ _ msg he
    subst he
    have : Quiet (crossOne op sf cf n) := by unfold crossOne; quiet
    exact absurd h2 (this.quiet _ _ _)
  | @step s s' n ns p q r h1 h2 h3 ih =>
    intro hs hf
    have hadj : Adjacent s p.length (p.length + 1) n.first n.second :=
      ⟨by omega, by rw [h1]; simp, by rw [h1]; simp, fun k _ _ => by omega⟩
    obtain ⟨pt, hc⟩ : ∃ pt, intersectBounds pt op sf cf n.first n.second s = .ok () s' := by
      unfold crossOne at h2
      simp only [bind, M.bind] at h2
      have hp : Pres Eq (liftE n.point.round) := inferInstance
      have := hp.pres s
      cases hl : liftE n.point.round s with
      | err e t => rw [hl] at h2; cases h2
      | ok pt t => rw [hl] at h2 this; cases this; exact ⟨pt, h2⟩
    have ha : s'.abl = s.abl := by
      have := (inferInstance : Pres Still (intersectBounds pt op sf cf n.first n.second)).pres s
      rw [hc] at this
      exact this.abl
    have := (Run.cross (p := pt) (Q := fun _ t => Run op sf cf s0 A rest t) hs hadj fun s' h _ _ => h).ok hc
    have := this.ok (ablSwap_eq s' p q _ _ (ha.trans h1))
    refine ih this ?_
    unfold Full at hf ⊢
    rw [h1] at hf
    simpa using hf

theorem crossingOf_only {a b : Nat} {Q : FPoint → St → Prop} (k : ∀ p, Q p s) : Post (crossingOf a b) s Q OnlyCross := by
  unfold crossingOf
  refine Post.bind (Post.currentEdge fun e _ => Post.bind (Post.currentEdge fun e' _ => ?_))
  split
  · exact Post.raise fun msg e => by cases e; rfl
  · exact Post.pure (k _)

theorem buildGo_only : ∀ (l : List (Nat × Nat)) (acc : List IntersectNode), Post (buildIntersectList.go l acc) s (fun _ _ => True) OnlyCross
  | [], acc => by unfold buildIntersectList.go; exact Post.pure trivial
  | (a, b) :: l, acc => by
    unfold buildIntersectList.go
    exact Post.bind (crossingOf_only fun p => buildGo_only l _)

theorem build_only : Post buildIntersectList s (fun _ _ => True) OnlyCross := by
  unfold buildIntersectList sortActive
  refine Post.bind (Post.bind (Post.gets (Post.bind (Post.gets (Post.bind (Post.gets ?_))))))
  split
  · exact Post.raise only_fuel
  · exact Post.pure (buildGo_only _ _)

theorem run_intersections (hX : ∀ b ∈ idsOf A, ∀ e ∈ (s0.bounds b).edges, e.getCurrentX y ≠ .nan) (hs : Run op sf cf s0 A rest s) (hf : Full s) :
    Post (processIntersections y op sf cf) s (fun _ s' => Run op sf cf s0 A rest s' ∧ Full s') OnlyCross := by
  unfold processIntersections
  refine Post.bind (Post.gets (Post.ite (fun _ => Post.pure ⟨hs, hf⟩) fun _ => ?_))
  refine Post.bind ((Ok.quiet (post_updateCurrentX (fun _ x => x ≠ .nan) fun b hb e he => ?_)).only.imp ?_)
  · refine hX b (hs.act b (mem_act.2 hb)).1 e ?_
    rw [← hs.static.edges]
    exact List.mem_of_getElem? he
  rintro _ s1 ⟨hm, hx⟩
  have h1 := hs.xmoved hm
  have f1 : Full s1 := by unfold Full; rw [hm.abl]; exact hf
  have hids := full_ids f1
  have hnd : (act s1).Nodup := (reached_inv h1.reached).nodup
  have hx1 : ∀ i ∈ act s1, (s1.bounds i).currentX ≠ .nan := fun i hi => hx i (hm.abl ▸ mem_act.1 hi)
  refine Post.bind ((build_only.and (Ok.intro (Q := fun l s' => buildIntersectList s1 = .ok l s') fun l s' e => e)).imp ?_)
  rintro l s2 ⟨-, e⟩
  obtain rfl := (pending_of_built s1 s2 _ l hids hnd hx1 e).1
  refine Post.ite (fun _ => Post.pure ⟨h1, f1⟩) fun _ => Post.bind (Post.gets ?_)
  obtain ⟨-, order, -, ho, -⟩ := C08_processed_once op sf cf s2 s2 _ l _ hids hnd hx1 e (pySorted_perm' (IntersectNode.lt s2.bounds) l)
  have := ho.run h1 f1
  unfold Outcome at this
  unfold Post
  dsimp only
  split at this <;> next e => rw [e]; exact this

end

end Wagyu
