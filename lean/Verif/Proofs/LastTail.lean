import Verif.Proofs.LastWeave

/-!
# `process_single_intersection`: the whole merge
-/

namespace Wagyu

open Spec

section
variable {s s' : St} {L L' : Nat → List Nat}

/-- The end of the merge, from the two calls of `update_points` on. -/
def mergeTail (cm : ConnectionMap) (iList : List LoopItem) (ringOrigin : Nat) (ringParent : Option Nat) (originIsHole : Bool) (new : Nat) : M ConnectionMap := do
  updatePoints ringOrigin
  updatePoints new
  modRing ringOrigin fun g => { g with bottomNode := none }
  forList iList fun it => do
    modRing it.1 fun g => { g with bottomNode := none }
    if originIsHole then replaceRing it.1 (some ringOrigin)
    else replaceRing it.1 (← getRing ringOrigin).parent
  if originIsHole then
    assignAsChild new (some ringOrigin)
    let p ← deref ringParent
    forChildren (some p) fun c => do
      if ← ringInsideOf c new then reassignAsChild c (some new)
  else
    assignAsSibling new ringOrigin
    forChildren (some ringOrigin) fun c => do
      if ← ringInsideOf c new then reassignAsChild c (some new)
  let (cm, moved) ← clearLoopPairs iList cm
  let (kept, moved') ← originPairs ringOrigin (cm ringOrigin)
  let cm := upd cm ringOrigin kept
  pure ((moved ++ moved').foldl (fun cm it => upd cm it.1 (cm it.1 ++ [(it.2.1, it.2.2)])) cm)

/-- The merge after the exchanges. -/
def mergeRest (cm : ConnectionMap) (iList : List LoopItem) (ringOrigin : Nat) (ringParent : Option Nat) (op1 op2 : Nat) (originIsHole : Bool) : M ConnectionMap := do
  let new ← createRing
  modRing ringOrigin fun g => { g with corrected := false }
  let s1 ← nodeStats op1
  let s2 ← nodeStats op2
  if originIsHole && F64.lt s1.1 (.fin 0) then
    setRingNode ringOrigin (some op1)
    setStats ringOrigin s1
    setRingNode new (some op2)
    setStats new s2
    mergeTail cm iList ringOrigin ringParent originIsHole new
  else
    setRingNode ringOrigin (some op2)
    setStats ringOrigin s2
    setRingNode new (some op1)
    setStats new s1
    mergeTail cm iList ringOrigin ringParent originIsHole new

theorem mergeLoop_eq (cm : ConnectionMap) (iList : List LoopItem) (ringOrigin : Nat) (ringParent : Option Nat) (op1 op2 : Nat) :
    mergeLoop cm iList ringOrigin ringParent op1 op2 = (do
      let originIsHole ← ringIsHole ringOrigin
      switchNext op1 op2
      forList iList fun it => switchNext it.2.1 it.2.2
      mergeRest cm iList ringOrigin ringParent op1 op2 originIsHole) := by
  unfold mergeLoop mergeRest mergeTail
  rfl

theorem Post.newRing {s : St} {Q : Nat → St → Prop} {E : Err → St → Prop} (h : Q s.nr { s with rings := upd s.rings s.nr Ring.fresh, nr := s.nr + 1 }) : Post Wagyu.createRing s Q E := h
theorem Post.start {α : Type} {m k : M α} {s s1 : St} {Q : α → St → Prop} {E : Err → St → Prop} (e : m s = k s1) (h : Post k s1 Q E) : Post m s Q E := by
  unfold Post at h ⊢
  rw [e]; exact h

set_option maxHeartbeats 1600000 in
theorem ok_mergeTail (h : LI s L) {O x y : Nat} {iList : List LoopItem} {X Y : List Nat} {H : Nat → Node} {s1 : St} {cm : ConnectionMap}
    (rp : Option Nat) (hole : Bool)
    (hloc : ∀ i, locOf H i = locOf s.nodes i) (hOl : O ∉ iList.map Prod.fst) (hO : L O ≠ []) (hl : ∀ r ∈ iList.map Prod.fst, L r ≠ [])
    (hnd : (iList.map Prod.fst).Nodup)
    (hout : ∀ i, (∀ r, r = O ∨ r ∈ iList.map Prod.fst → i ∉ L r) → H i = s.nodes i)
    (hX : IsCycle H (x :: X)) (hY : IsCycle H (y :: Y))
    (hm : ∀ i, i ∈ (x :: X) ++ (y :: Y) ↔ ∃ r, (r = O ∨ r ∈ iList.map Prod.fst) ∧ i ∈ L r) (hdis : ∀ i ∈ x :: X, i ∉ y :: Y)
    (hsum : ∀ c, ringSum c (pointsOf s.nodes (x :: X)) + ringSum c (pointsOf s.nodes (y :: Y))
          = ringSum c (pointsOf s.nodes (L O)) + ((iList.map Prod.fst).map fun r => ringSum c (pointsOf s.nodes (L r))).sum)
    (hcm : Joints s L cm) (h1 : Wired s H O x y X Y s1) :
    Ok (mergeTail cm iList O rp hole s.nr) s1 fun cm' s' => ∃ L', LI s' L' ∧ Relinked s L s' L' ∧ Joints s' L' cm' := by
  have hOn := (h.ti.own.cycle O hO).1
  unfold mergeTail
  refine Post.bind ((Ok.of_ends' (E := fun _ => False) (ends_updatePoints h1.ro.1 (by rw [h1.nodes]; exact hX))).imp ?_)
  rintro _ s2 ⟨hf2, f2, e2⟩
  have e2' : s2 = { s1 with nodes := withRing (x :: X) (some O) s1.nodes } := St.eq_of_wf e2 hf2
  subst e2'
  refine Post.bind ((Ok.of_ends' (E := fun _ => False) (ends_updatePoints (s := { s1 with nodes := withRing (x :: X) (some O) s1.nodes }) (t := Y) h1.rn.1 (by
    dsimp only; rw [h1.nodes]; exact isCycle_withRing hY))).imp ?_)
  rintro _ s3 ⟨hf3, f3, e3⟩
  have e3' := St.eq_of_wf e3 hf3
  dsimp only at e3'
  subst e3'
  refine Post.bind (Post.modRing ?_)
  refine Post.bind ((ok_replaceAll (fun it s => ?_) iList _).imp ?_)
  · refine Post.bind (Post.modRing ?_)
    have key : OnlyTree s { s with rings := upd s.rings it.1 { s.rings it.1 with bottomNode := none } } := (ot04 it.1 none).pres s
    refine Post.ite (fun _ => (ok_replaceRing _ _).imp fun _ s' he => key.emptied he) fun _ => ?_
    exact Post.bind (Post.getRing ((ok_replaceRing _ _).imp fun _ s' he => key.emptied he))
  intro _ s4 h4
  have hw : Wired s (withRing (y :: Y) (some s.nr) (withRing (x :: X) (some O) H)) O x y X Y
      { s1 with nodes := withRing (y :: Y) (some s.nr) (withRing (x :: X) (some O) s1.nodes), rings := upd s1.rings O { s1.rings O with bottomNode := none } } := by
    have hne : s.nr ≠ O := by omega
    refine ⟨by dsimp only; rw [h1.nodes], h1.nn, h1.all, h1.nr, ?_, ?_, fun k e1 e2 => ?_⟩
    · dsimp only; rw [Wagyu.upd_same]
      exact ⟨h1.ro.1, h1.ro.2.1.alike ⟨rfl, rfl, rfl, rfl, rfl, rfl⟩, h1.ro.2.2⟩
    · dsimp only; rw [Wagyu.upd_ne _ _ hne]; exact h1.rn
    · dsimp only; rw [Wagyu.upd_ne _ _ e1]; exact h1.others k e1 e2
  obtain ⟨w1, w2⟩ := woven_ti h hloc hOl hO hl hnd hout hX hY hm hdis hsum hw h4
  have tail : ∀ s5, OnlyTree s4 s5 → Ok (do
      let (cm, moved) ← clearLoopPairs iList cm
      let (kept, moved') ← originPairs O (cm O)
      let cm := upd cm O kept
      pure ((moved ++ moved').foldl (fun cm it => upd cm it.1 (cm it.1 ++ [(it.2.1, it.2.2)])) cm) : M ConnectionMap) s5
      fun cm' s' => ∃ L', LI s' L' ∧ Relinked s L s' L' ∧ Joints s' L' cm' := by
    intro s5 h5
    have w5 := h5.li w1
    refine Post.bind ((ok_clearLoopPairs iList cm w5.ti w5.known).imp ?_)
    rintro ⟨cm1, moved⟩ s6 ⟨h6, c1, c2, c3⟩
    dsimp only at c1 c2 c3 ⊢
    have w6 := h6.li w5
    refine Post.bind ((ok_originPairs O (cm1 O) w6.ti w6.known).imp ?_)
    rintro ⟨kept, moved'⟩ s7 ⟨h7, d1, d2⟩
    dsimp only at d1 d2 ⊢
    have w7 := h7.li w6
    have h47 : OnlyTree s4 s7 := Preo.trans (Preo.trans h5 h6) h7
    have r7 := w2.trans (h47.relinked (L := woven L (iList.map Prod.fst) O s.nr (x :: X) (y :: Y)))
    have n7 : s7.nodes = s4.nodes := h47.nodes
    have n5 : s5.nodes = s4.nodes := h5.nodes
    have n6 : s6.nodes = s4.nodes := h6.nodes.trans n5
    refine Post.pure ⟨_, w7, r7, woven_joints h.ti w7.ti r7 hcm c1 c2 ?_ ?_⟩
    · intro p hp
      obtain ⟨a1, a2⟩ := d1 p hp
      exact ⟨a1, by rw [n7, ← n6]; exact a2⟩
    · intro z hz
      rcases List.mem_append.1 hz with hz | hz
      · obtain ⟨a1, a2⟩ := c3 z hz
        exact ⟨a1, by rw [n7, ← n5]; exact a2⟩
      · obtain ⟨a1, a2⟩ := d2 z hz
        refine ⟨⟨O, ?_⟩, by rw [n7, ← n6]; exact a2⟩
        rw [← c1 O hOl]; exact a1
  refine Post.ite (fun _ => ?_) fun _ => ?_
  · refine Post.bind ((Ok.hush (inferInstance : Pres Hush (assignAsChild s.nr (some O))) w1.ti w1.known).imp fun _ s5 h5 => ?_)
    have w5 := h5.li w1
    refine Post.bind (Post.deref (fun p _ => ?_) fun _ => trivial)
    have hfc : Pres Hush (forChildren (some p) fun c => do if ← ringInsideOf c s.nr then reassignAsChild c (some s.nr)) := hush_forChildren _ fun c => by pres
    exact Post.bind ((Ok.hush hfc w5.ti w5.known).imp fun _ s6 h6 => tail s6 (Preo.trans h5 h6))
  · refine Post.bind ((Ok.hush (inferInstance : Pres Hush (assignAsSibling s.nr O)) w1.ti w1.known).imp fun _ s5 h5 => ?_)
    have w5 := h5.li w1
    have hfc : Pres Hush (forChildren (some O) fun c => do if ← ringInsideOf c s.nr then reassignAsChild c (some s.nr)) := hush_forChildren _ fun c => by pres
    exact Post.bind ((Ok.hush hfc w5.ti w5.known).imp fun _ s6 h6 => tail s6 (Preo.trans h5 h6))

set_option maxHeartbeats 1600000 in
/-- The merge of the rings along a loop. -/
theorem ok_mergeLoop (h : LI s L) {O a b : Nat} {iList : List LoopItem} (hl : LoopOf s L (O, a, b) iList) {cm : ConnectionMap} (hcm : Joints s L cm)
    (rp : Option Nat) :
    Ok (mergeLoop cm iList O rp a b) s fun cm' s' => ∃ L', LI s' L' ∧ Relinked s L s' L' ∧ Joints s' L' cm' := by
  rw [mergeLoop_eq]
  refine Post.bind ((Ok.hole h.ti h.known O).imp fun hole s1 h1 => ?_)
  have k1 := h1.li h
  have l1 : LoopOf s1 L (O, a, b) iList := by
    obtain ⟨items, p1, p2, p3, p4, p5⟩ := hl.ex
    exact ⟨items, p1, p2, p3, p4, fun it hit => by rw [h1.nodes]; exact p5 it hit⟩
  have j1 : Joints s1 L cm := hcm.congr h1.nn fun i => by rw [h1.nodes]
  obtain ⟨H, hrun, hloc, -, hOl, hO, hne, hnd, hout, C, D, c1, c2, hm, hdis, hsum⟩ := run_exchanges k1.ti l1
  have hOn := (k1.ti.own.cycle O hO).1
  have hnO : s1.nr ≠ O := by omega
  have ep : ∀ l, pointsOf H l = pointsOf s1.nodes l := fun l => pointsOf_congr hloc l
  refine Post.start (hrun fun _ => mergeRest cm iList O rp a b hole) ?_
  unfold mergeRest
  refine Post.bind (Post.newRing ?_)
  refine Post.bind (Post.modRing ?_)
  dsimp only
  refine Post.bind (Post.imp (Ok.of_ends' (E := fun _ => False) (ends_nodeStats (t := C) ?_)) ?_)
  · exact c1
  rintro st1 s3 ⟨hf3, f3, e3, a1, a2, a3⟩
  have e3' := St.eq_of_wf e3 hf3
  subst e3'
  refine Post.bind (Post.imp (Ok.of_ends' (E := fun _ => False) (ends_nodeStats (t := D) ?_)) ?_)
  · exact c2
  rintro st2 s3 ⟨hf3, f3, e3, b1, b2, b3⟩
  have e3' := St.eq_of_wf e3 hf3
  subst e3'
  dsimp only at a1 a2 a3 b1 b2 b3
  rw [ep] at a1 a3 b1 b3
  have hsum' : ∀ c, ringSum c (pointsOf s1.nodes (a :: C)) + ringSum c (pointsOf s1.nodes (b :: D))
          = ringSum c (pointsOf s1.nodes (L O)) + ((iList.map Prod.fst).map fun r => ringSum c (pointsOf s1.nodes (L r))).sum := fun c => by
    rw [List.map_map]; exact hsum c
  have back : ∀ cm' s', (∃ L', LI s' L' ∧ Relinked s1 L s' L' ∧ Joints s' L' cm') → ∃ L', LI s' L' ∧ Relinked s L s' L' ∧ Joints s' L' cm' :=
    fun cm' s' ⟨L', q1, q2, q3⟩ => ⟨L', q1, h1.relinked.trans q2, q3⟩
  refine Post.ite (fun _ => ?_) fun _ => ?_
  · refine Post.bind (Post.modRing (Post.bind (Post.modRing (Post.bind (Post.modRing (Post.bind (Post.modRing ?_)))))))
    refine Post.imp (ok_mergeTail k1 rp hole hloc hOl hO hne hnd hout c1 c2 hm hdis hsum' j1 ⟨rfl, rfl, rfl, rfl, ?_, ?_, fun k q1 q2 => ?_⟩) back
    · simp only [Wagyu.upd_same, Wagyu.upd_ne _ _ hnO, Wagyu.upd_ne _ _ hnO.symm]
      exact ⟨by trivial, ⟨a1, a2, rfl, a3⟩, by trivial⟩
    · simp only [Wagyu.upd_same, Wagyu.upd_ne _ _ hnO, Wagyu.upd_ne _ _ hnO.symm]
      exact ⟨by trivial, ⟨b1, b2, rfl, b3⟩, by trivial⟩
    · simp only [Wagyu.upd_ne _ _ q1, Wagyu.upd_ne _ _ q2]
  · refine Post.bind (Post.modRing (Post.bind (Post.modRing (Post.bind (Post.modRing (Post.bind (Post.modRing ?_)))))))
    refine Post.imp (ok_mergeTail k1 rp hole hloc hOl hO hne hnd hout c2 c1 (fun i => ?_) (fun i q1 q2 => hdis i q2 q1) (fun c => ?_) j1
      ⟨rfl, rfl, rfl, rfl, ?_, ?_, fun k q1 q2 => ?_⟩) back
    · rw [← hm i, List.mem_append, List.mem_append]; exact or_comm
    · rw [← hsum' c]; exact add_comm _ _
    · simp only [Wagyu.upd_same, Wagyu.upd_ne _ _ hnO, Wagyu.upd_ne _ _ hnO.symm]
      exact ⟨by trivial, ⟨b1, b2, rfl, b3⟩, by trivial⟩
    · simp only [Wagyu.upd_same, Wagyu.upd_ne _ _ hnO, Wagyu.upd_ne _ _ hnO.symm]
      exact ⟨by trivial, ⟨a1, a2, rfl, a3⟩, by trivial⟩
    · simp only [Wagyu.upd_ne _ _ q1, Wagyu.upd_ne _ _ q2]
end

end Wagyu
