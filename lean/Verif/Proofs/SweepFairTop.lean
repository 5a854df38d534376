import Verif.Proofs.SweepFair

/-!
# The top of a scanbeam when bounds may end in horizontal edges: maxima
-/

namespace Wagyu

open Spec

section
variable {op : OperationKind} {sf cf : FillKind} {s0 : St} {A rest : List LocalMinimum} {s : St} {α β : Type} {y : Int}

theorem Ok.ablGet {i : Nat} {Q : Option Nat → St → Prop} (k : ∀ o, s.abl[i]? = some o → Q o s) : Ok (ablGet i) s Q := Ok.only (Post.ablGet k)
theorem Ok.currentEdge {b : Nat} {Q : Edge → St → Prop} (k : ∀ e, (s.bounds b).currentEdge? = some e → Q e s) : Ok (currentEdge b) s Q :=
  Ok.only (Post.currentEdge k)
theorem Ok.nextEdge {b : Nat} {Q : Edge → St → Prop} (k : ∀ e, (s.bounds b).nextEdge? = some e → Q e s) : Ok (nextEdge b) s Q :=
  Ok.only (Post.nextEdge k)
theorem Ok.isMaxima {b : Nat} {Q : Bool → St → Prop} (k : ∀ r, (r = true ↔ AtTop y s b) → Q r s) : Ok (isMaxima b y) s Q :=
  Ok.only (Post.isMaxima k)

theorem Walk.still {s' : St} (h : Walk y s0 A rest s) (k : Slots s s') (k' : InputKept s s') : Walk y s0 A rest s' := h.slots k k'.static

/-- The bound meets its partner, wherever that is. -/
theorem walk_maximaLoop {b m mi bi : Nat} (h : Walk y s0 A rest s) (hb : s.abl[bi]? = some (some b)) (hm : s.abl[mi]? = some (some m)) (hne : bi ≠ mi) :
    Ok (maximaLoop op sf cf mi bi) s fun q s' => Walk y s0 A rest s' ∧ Drops s0 s s' ∧ s'.abl[q.1]? = some (some b) ∧ s'.abl[mi]? = some (some m) ∧ q.1 ≠ mi := by
  unfold maximaLoop
  refine Post.loopM (Q := fun (q : Nat × Bool) s' => Walk y s0 A rest s' ∧ Drops s0 s s' ∧ s'.abl[q.1]? = some (some b) ∧ s'.abl[mi]? = some (some m) ∧ q.1 ≠ mi)
    (fun (st : Nat × Nat × Bool) s' => Walk y s0 A rest s' ∧ Drops s0 s s' ∧ s'.abl[st.1]? = some (some b) ∧ s'.abl[mi]? = some (some m) ∧ st.1 ≠ mi ∧ st.1 < st.2.1)
    ?_ (fun _ _ _ => trivial) ⟨h, Drops.refl _ _, hb, hm, hne, Nat.lt_succ_self _⟩
  rintro ⟨b1, ni, skipped⟩ s1 ⟨h1, h2, h3, h4, h5, h6⟩
  dsimp only at h3 h5 h6 ⊢
  refine Post.bind (Post.gets (Post.ite (fun hc => ?_) fun hc => Post.pure ⟨h1, h2, h3, h4, h5⟩))
  refine Post.bind (Ok.ablGet fun o ho => ?_)
  cases o with
  | none => exact Post.pure ⟨h1, h2, h3, h4, h5, by dsimp only; omega⟩
  | some nb =>
    dsimp only
    refine Post.bind (Ok.look fun o _ => Post.bind (Ok.look fun c _ => Post.bind (Ok.look fun e _ => ?_)))
    refine Post.bind (((ok_abl_crossing (i := b1) (j := ni)).and (Ok.intro (Q := fun _ s' => intersectBounds e.top op sf cf c nb s1 = .ok () s') fun _ _ e => e)).imp ?_)
    rintro _ s2 ⟨k1, e2⟩
    refine Post.bind ((k1.and (Ok.intro (Q := fun _ s' => ablSwap b1 ni s2 = .ok () s') fun _ _ e => e)).imp ?_)
    rintro _ s3 ⟨⟨l1, l2, x, z, l3, l4, l5⟩, e3⟩
    have w : Walk y s0 A rest s3 ∧ Slots s1 s3 := by
      have a1 := (Walk.stay (m := intersectBounds e.top op sf cf c nb) (Q := fun _ s' => Walk y s0 A rest s' ∧ Slots s1 s') h1 fun _ _ w k => ⟨w, k⟩).elim e2
      have a2 := (Walk.stay (m := ablSwap b1 ni) (Q := fun _ s' => Walk y s0 A rest s' ∧ Slots s2 s') a1.1 fun _ _ w k => ⟨w, k⟩).elim e3
      exact ⟨a2.1, Preo.trans a1.2 a2.2⟩
    rw [h3] at l3; cases l3
    refine Post.pure ⟨w.1, h2.trans w.2.drops, ?_, ?_, hc.2, Nat.lt_succ_self _⟩
    · dsimp only
      rw [l5, List.getElem?_set_self (by rw [List.length_set]; exact l2)]
    · rw [l5, List.getElem?_set_ne (by omega), List.getElem?_set_ne h5]; exact h4

theorem Walk.setTwo {b m i j : Nat} (h : Walk y s0 A rest s) (hb : s.abl[i]? = some (some b)) (hm : s.abl[j]? = some (some m)) (hij : i ≠ j)
    (h1 : (s0.bounds b).maximumBound = some m) (h2 : (s0.bounds m).maximumBound = some b) (t1 : Topped y s0 b) (t2 : Topped y s0 m) {Q : Unit → St → Prop}
    (k : ∀ s', Walk y s0 A rest s' → Drops s0 s s' → s' = { s with abl := (s.abl.set i none).set j none } → Q () s') :
    Ok (ablSet i none) s fun _ s1 => Ok (ablSet j none) s1 Q :=
  Post.modify (Post.modify (k _ (h.pair hb hm hij h1 h2 t1 t2).1 (h.pair hb hm hij h1 h2 t1 t2).2 rfl))

theorem walk_doMaxima {b m mi bi : Nat} (h : Walk y s0 A rest s) (hb : s.abl[bi]? = some (some b)) (hm : s.abl[mi]? = some (some m)) (hne : bi ≠ mi)
    (h1 : (s0.bounds b).maximumBound = some m) (h2 : (s0.bounds m).maximumBound = some b) (t1 : Topped y s0 b) (t2 : Topped y s0 m) :
    Ok (doMaxima op sf cf bi mi) s fun _ s' => Walk y s0 A rest s' ∧ Drops s0 s s' := by
  unfold doMaxima
  refine Post.bind ((walk_maximaLoop h hb hm hne).imp ?_)
  rintro ⟨b1, skipped⟩ s1 ⟨w1, d1, p1, p2, p3⟩
  dsimp only at p1 p3 ⊢
  refine Post.bind (Ok.ablGet fun o ho => Post.bind (Post.deref (fun c hc => ?_) fun _ => trivial))
  obtain rfl : c = b := by rw [p1, hc] at ho; simpa using ho.symm
  refine Post.bind (Ok.ablGet fun o' ho' => Post.bind (Post.deref (fun c' hc' => ?_) fun _ => trivial))
  obtain rfl : c' = m := by rw [p2, hc'] at ho'; simpa using ho'.symm
  refine Post.bind (Post.getBound (Post.bind (Post.getBound ?_)))
  have fin : ∀ s2, Walk y s0 A rest s2 → Drops s0 s s2 → s2.abl = s1.abl → Ok (do
      ablSet b1 none
      ablSet mi none
      pure (if skipped then bi else bi + 1) : M Nat) s2 fun _ s' => Walk y s0 A rest s' ∧ Drops s0 s s' := by
    intro s2 w2 d2 a2
    rw [← a2] at p1 p2
    exact Post.bind ((w2.setTwo p1 p2 p3 h1 h2 t1 t2 fun s' w d _ => (⟨w, d2.trans d⟩ : Walk y s0 A rest s' ∧ Drops s0 s s')).imp
      fun _ _ h => Post.bind (h.imp fun _ _ h => Post.pure h))
  refine Post.ite (fun _ => ?_) fun _ => Post.ite (fun _ => Post.raise trivial) fun _ => fin _ w1 d1 rfl
  refine Post.bind (Ok.look fun e _ => Post.bind ((Walk.stay w1 fun _ s2 w2 k2 => (⟨w2, k2⟩ : Walk y s0 A rest s2 ∧ Slots s1 s2)).and (Ok.pres (R := Still) inferInstance) |>.imp ?_))
  rintro _ s2 ⟨⟨w2, k2⟩, k3⟩
  exact fin s2 w2 (d1.trans k2.drops) k3.abl

/-- The partner of a bound is never itself. -/
theorem Mated.ne (hM : Mated s0 A) {b m : Nat} (hb : b ∈ idsOf A) (h : (s0.bounds b).maximumBound = some m) : b ≠ m := by
  obtain ⟨m', -, h1, -, h3⟩ := hM.closed b hb
  rw [h1] at h; cases h
  exact h3.ne

theorem Mated.back (hM : Mated s0 A) {b m : Nat} (hb : b ∈ idsOf A) (h : (s0.bounds b).maximumBound = some m) : (s0.bounds m).maximumBound = some b := by
  obtain ⟨m', -, h1, h2, -⟩ := hM.closed b hb
  rw [h1] at h; cases h
  exact h2

theorem Walk.at_top {b : Nat} (h : Walk y s0 A rest s) (hb : b ∈ Wagyu.act s) (hat : AtTop y s b) : Topped y s0 b := by
  obtain ⟨h1, e, h2, h3⟩ := hat
  exact h.topped hb h2 (by omega) (by omega)

/-- The next edge starts where the current one ends. -/
theorem Walk.next_bottom (hM : Mated s0 A) {b : Nat} (h : Walk y s0 A rest s) (hb : b ∈ Wagyu.act s) {e f : Edge} (he : (s.bounds b).currentEdge? = some e)
    (hf : (s.bounds b).nextEdge? = some f) : f.bottom.y = e.top.y := by
  have hf' : (s0.bounds b).edges[(s.bounds b).curIdx + 1]? = some f := by rw [← h.static.edges, ← h.idx b hb]; exact hf
  have he' : (s0.bounds b).edges[(s.bounds b).curIdx]? = some e := by rw [← h.static.edges]; exact he
  rw [((hM.path b (h.act b hb).1).step he' hf').1]

/-- The current edges of active bounds do not end below the row `y`. -/
def Span (y : Int) (s : St) : Prop := ∀ b ∈ act s, ∀ e, (s.bounds b).currentEdge? = some e → e.top.y ≤ y

theorem Span.sub {s' : St} (h : Span y s) (ha : ∀ b ∈ act s', b ∈ act s) (hc : ∀ b, (s'.bounds b).currentEdge? = (s.bounds b).currentEdge?) : Span y s' :=
  fun b hb e he => h b (ha b hb) e (by rw [← hc]; exact he)

/-- What is done at one position of the active bounds. -/
def topBody (op : OperationKind) (sf cf : FillKind) (topY : Int) : Nat → M (Nat ⊕ Unit) := fun (bi : Nat) => do
    let len ← gets fun s => s.abl.length
    if bi < len then
      match ← ablGet bi with
      | none => pure (.inl (bi + 1))
      | some b =>
        let maximum ← (do
          if ← isMaxima b topY then
            let bd ← getBound b
            let abl ← gets St.abl
            let mi := findIdentity bd.maximumBound abl
            if mi = abl.length then pure (some mi)
            else
              let m ← deref (← ablGet mi)
              let e ← currentEdge m
              if e.isHorizontal then pure none
              else if ← isMaxima m topY then pure (some mi) else pure none
          else pure none : M (Option Nat))
        match maximum with
        | some mi =>
          let bi ← doMaxima op sf cf bi mi
          pure (.inl bi)
        | none =>
          let promote ← (do
            if ← isIntermediate b topY then
              let e ← nextEdge b
              pure e.isHorizontal
            else pure false : M Bool)
          if promote then
            if (← getBound b).ring.isSome then
              let e ← currentEdge b
              insertHotPixelsInPath b e.top false
            toNextEdge b
            if (← getBound b).ring.isSome then
              let e ← currentEdge b
              addPointToRing b e.bottom
          else
            let e ← currentEdge b
            modBound b fun bd => { bd with currentX := e.getCurrentX topY }
          pure (.inl (bi + 1))
    else pure (.inr ())

theorem topOfScanbeamLoop_eq (y : Int) : topOfScanbeamLoop op sf cf y = loopM (topBody op sf cf y) 0 := rfl

theorem walk_topBody (hM : Mated s0 A) {bi : Nat} {s1 : St} (w1 : Walk y s0 A rest s1) (d1 : Drops s0 s s1) (sp1 : Span y s → Span y s1) :
    Ok (topBody op sf cf y bi) s1 fun _ s' => Walk y s0 A rest s' ∧ Drops s0 s s' ∧ (Span y s → Span y s') := by
  unfold topBody
  refine Post.bind (Post.gets (Post.ite (fun hlt => ?_) fun _ => Post.pure ⟨w1, d1, sp1⟩))
  refine Post.bind (Ok.ablGet fun o ho => ?_)
  cases o with
  | none => exact Post.pure ⟨w1, d1, sp1⟩
  | some b =>
    have hb : b ∈ act s1 := mem_act.2 (List.mem_of_getElem? ho)
    have hbA := (w1.act b hb).1
    dsimp only
    refine Post.bind (Post.imp (Q := fun r s' => s1 = s' ∧ ∀ mi, r = some mi → mi = findIdentity (s1.bounds b).maximumBound s1.abl ∧ AtTop y s1 b) ?_ ?_)
    · refine Post.bind (Ok.isMaxima fun r hr => Post.ite (fun hrt => ?_) fun _ => Post.pure ⟨rfl, nofun⟩)
      have hat := hr.1 hrt
      refine Post.bind (Post.getBound (Post.bind (Post.gets (Post.ite (fun _ => Post.pure ⟨rfl, fun mi h => by cases h; exact ⟨rfl, hat⟩⟩) fun hl => ?_))))
      refine Post.bind (Ok.look fun o _ => Post.bind (Ok.look fun m _ => Post.bind (Ok.look fun e _ => Post.ite (fun _ => Post.pure ⟨rfl, nofun⟩) fun _ => ?_)))
      refine Post.bind (Ok.look fun r _ => Post.ite (fun _ => Post.pure ⟨rfl, fun mi h => by cases h; exact ⟨rfl, hat⟩⟩) fun _ => Post.pure ⟨rfl, nofun⟩)
    · rintro r _ ⟨rfl, hr⟩
      cases r with
      | some mi =>
        dsimp only
        obtain ⟨hmi, hat⟩ := hr mi rfl
        have ht : Topped y s0 b := w1.at_top hb hat
        obtain ⟨mb, -, m1, m2, m3⟩ := hM.closed b hbA
        have hmb : (s1.bounds b).maximumBound = some mb := by rw [(w1.static b).2.2.1]; exact m1
        rw [hmb] at hmi
        by_cases hl : mi = s1.abl.length
        · subst hl
          exact Post.bind (Ok.only (doMaxima_alone bi))
        · have hg : s1.abl[mi]? = some (some mb) := by rw [hmi] at hl ⊢; exact findIdentity_get hl
          refine Post.bind ((walk_doMaxima w1 ho hg ?_ m1 m2 ht (ht.mate hM hbA m1)).and (Ok.pres (R := Put) inferInstance) |>.imp fun _ s2 h => Post.pure ⟨h.1.1, d1.trans h.1.2, fun k => (sp1 k).sub h.1.2.sub fun c => (h.2 c).edge⟩)
          rintro rfl
          rw [ho] at hg; cases hg
          exact m3.ne rfl
      | none =>
        dsimp only
        refine Post.bind (Post.imp (Q := fun r s' => s1 = s' ∧ (r = true → (s1.bounds b).nxtIdx < (s1.bounds b).edges.length ∧ ∃ e, (s1.bounds b).currentEdge? = some e ∧ e.top.y = y)) ?_ ?_)
        · unfold isIntermediate
          refine Post.bind (Post.bind (Post.getBound (Post.ite (fun hlt => Post.bind (Ok.currentEdge fun e he => Post.pure ?_)) fun hlt => Post.pure ?_)))
          · exact Post.ite (fun ht => Post.bind (Ok.look fun f _ => Post.pure ⟨rfl, fun _ => ⟨hlt, e, he, of_decide_eq_true ht⟩⟩)) fun _ => Post.pure ⟨rfl, nofun⟩
          · exact Post.ite (fun h => by cases h) fun _ => Post.pure ⟨rfl, nofun⟩
        · rintro promote _ ⟨rfl, hp⟩
          refine Post.ite (fun hpt => ?_) fun _ => ?_
          · obtain ⟨hlt, ec, hec, hey⟩ := hp hpt
            have fin : ∀ s4, Walk y s0 A rest s4 → Slots s1 s4 → Ok (do
                toNextEdge b
                let __do_lift ← getBound b
                if __do_lift.ring.isSome = true then do
                    let e ← currentEdge b
                    addPointToRing b e.bottom
                    pure (Sum.inl (bi + 1))
                  else pure (Sum.inl (bi + 1)) : M (Nat ⊕ Unit)) s4 (fun _ s' => Walk y s0 A rest s' ∧ Drops s0 s s' ∧ (Span y s → Span y s')) := by
              intro s4 h4 k4
              refine Post.bind (h4.next (k4.act.mem_iff.2 hb) (by rw [k4.nxtIdx, k4.edges]; exact hlt) (fun f hf => ?_) ?_)
              · rw [k4.next] at hf
                exact (w1.next_bottom hM hb hec hf).trans hey |>.ge
              intro s5 h5 ha5 hc5 _ hn5 _
              have sp5 : Span y s → Span y s5 := by
                intro k c hc f hf
                rw [mem_act, ha5, ← mem_act, k4.act.mem_iff] at hc
                by_cases hcb : c = b
                · subst hcb
                  rw [hn5, k4.next] at hf
                  have h1 := w1.next_bottom hM hb hec hf
                  have h2 := (hM.path c hbA).le f (by rw [← w1.static.edges]; exact List.mem_of_getElem? hf)
                  omega
                · rw [hc5 c hcb, k4.edge] at hf
                  exact sp1 k c hc f hf
              have d5 : Drops s0 s s5 := (d1.trans k4.drops).trans ⟨fun c hc => by rw [mem_act, ha5] at hc; exact mem_act.2 hc, fun c hc hn => absurd (by rw [mem_act, ha5]; exact mem_act.1 hc) hn⟩
              refine Post.bind (Post.getBound (Post.ite (fun _ => ?_) fun _ => Post.pure ⟨h5, d5, sp5⟩))
              exact Post.bind (Ok.look fun e _ => Post.bind (h5.stay fun _ s7 h7 k7 => Post.pure ⟨h7, d5.trans k7.drops, fun k => (sp5 k).sub (fun c => k7.act.mem_iff.1) k7.edge⟩))
            refine Post.bind (Post.getBound (Post.ite (fun _ => ?_) fun _ => ?_))
            · refine Post.bind (Ok.look fun e _ => Post.bind (w1.stay fun _ s4 h4 k4 => ?_))
              exact fin s4 h4 k4
            · exact fin s1 w1 (Preo.refl _)
          · refine Post.bind (Ok.look fun e _ => Post.bind (Post.modBound (Post.pure ?_)))
            have k : Slots s1 { s1 with bounds := upd s1.bounds b { s1.bounds b with currentX := e.getCurrentX y } } :=
              (Slots.mod (b := b) (f := fun bd => { bd with currentX := e.getCurrentX y }) (fun _ => rfl) (fun _ => rfl) fun _ => rfl).pres s1
            refine ⟨w1.slots k fun c => ?_, d1.trans k.drops, fun h => (sp1 h).sub (fun c => k.act.mem_iff.1) k.edge⟩
            by_cases h : c = b
            · subst h; show Bound.polygonKind (upd _ _ _ c) = _ ∧ Bound.windingDelta (upd _ _ _ c) = _ ∧ Bound.maximumBound (upd _ _ _ c) = _ ∧ Bound.edges (upd _ _ _ c) = _
              rw [Wagyu.upd_same]; exact ⟨rfl, rfl, rfl, rfl⟩
            · show Bound.polygonKind (upd _ _ _ c) = _ ∧ Bound.windingDelta (upd _ _ _ c) = _ ∧ Bound.maximumBound (upd _ _ _ c) = _ ∧ Bound.edges (upd _ _ _ c) = _
              rw [upd_ne _ _ h]; exact ⟨rfl, rfl, rfl, rfl⟩

theorem walk_topLoop (hM : Mated s0 A) (hs : Walk y s0 A rest s) :
    Ok (topOfScanbeamLoop op sf cf y) s fun _ s' => Walk y s0 A rest s' ∧ Drops s0 s s' ∧ (Span y s → Span y s') := by
  rw [topOfScanbeamLoop_eq]
  refine Post.loopM (fun _ s' => Walk y s0 A rest s' ∧ Drops s0 s s' ∧ (Span y s → Span y s')) ?_ (fun _ _ _ => trivial) ⟨hs, Drops.refl _ _, id⟩
  rintro bi s1 ⟨w1, d1, p1⟩
  exact Post.imp (walk_topBody hM w1 d1 p1) (by rintro (_ | _) _ h <;> exact h)

/-! ## The events at the top -/

/-- The current edge of the bound is not horizontal. -/
def Steeped (s : St) (b : Nat) : Prop := ∀ e, (s.bounds b).currentEdge? = some e → e.isHorizontal = false

/-- On its last edge, which is not horizontal and ends on the scanline. -/
def TopS (y : Int) (s : St) (b : Nat) : Prop := AtTop y s b ∧ Steeped s b

/-- A horizontal current edge is on the scanline, and the bound is not about to start a horizontal edge. -/
def Looked (y : Int) (s : St) (b : Nat) : Prop := (∀ e, (s.bounds b).currentEdge? = some e → e.isHorizontal = true → e.bottom.y = y) ∧ PDone y s b

theorem SamePlace.steeped {s' : St} {b : Nat} (k : SamePlace (s.bounds b) (s'.bounds b)) : Steeped s' b ↔ Steeped s b := by
  unfold Steeped; rw [k.edge]
theorem SamePlace.topS {s' : St} {b : Nat} (k : SamePlace (s.bounds b) (s'.bounds b)) : TopS y s' b ↔ TopS y s b := by
  unfold TopS AtTop; rw [k.steeped, k.nxtIdx, k.edges, k.edge]
theorem Looked.same {s' : St} {b : Nat} (h : Looked y s b) (k : SamePlace (s.bounds b) (s'.bounds b)) : Looked y s' b := by
  refine ⟨?_, h.2.same k⟩
  rw [k.edge]; exact h.1

theorem Looked.eq {s' : St} {b : Nat} (h : Looked y s b) (k : s'.bounds b = s.bounds b) : Looked y s' b := by
  unfold Looked PDone at *; rw [k]; exact h
theorem Steeped.eq {s' : St} {b : Nat} (h : Steeped s b) (k : s'.bounds b = s.bounds b) : Steeped s' b := by
  unfold Steeped at *; rw [k]; exact h

/-- Bounds before `bi` have been looked at, the others are not horizontal. -/
structure TopWalk (op : OperationKind) (sf cf : FillKind) (s0 : St) (A rest : List LocalMinimum) (y : Int) (bi : Nat) (s : St) : Prop where
  run : Run op sf cf s0 A rest s
  pos : ∀ k c m, k < bi → s.abl[k]? = some (some c) → (s0.bounds c).maximumBound = some m → m ∈ act s → ¬ (TopS y s c ∧ TopS y s m)
  lo : ∀ k c, k < bi → s.abl[k]? = some (some c) → Looked y s c
  hi : ∀ k c, bi ≤ k → s.abl[k]? = some (some c) → Steeped s c

theorem TopWalk.still {bi : Nat} {s' : St} (h : TopWalk op sf cf s0 A rest y bi s) (h' : Run op sf cf s0 A rest s') (ha : s'.abl = s.abl) (hp : Put s s') :
    TopWalk op sf cf s0 A rest y bi s' := by
  refine ⟨h', fun k c m hk hc hm hma => ?_, fun k c hk hc => ?_, fun k c hk hc => ?_⟩
  · rw [(hp c).topS, (hp m).topS]
    rw [mem_act, ha, ← mem_act] at hma
    rw [ha] at hc
    exact h.pos k c m hk hc hm hma
  · rw [ha] at hc
    exact (h.lo k c hk hc).same (hp c)
  · rw [ha] at hc
    rw [(hp c).steeped]
    exact h.hi k c hk hc

theorem TopWalk.snoc {bi b : Nat} (h : TopWalk op sf cf s0 A rest y bi s) (hb : s.abl[bi]? = some (some b)) (hs : Looked y s b)
    (hn : ∀ m, (s0.bounds b).maximumBound = some m → m ∈ act s → ¬ (TopS y s b ∧ TopS y s m)) : TopWalk op sf cf s0 A rest y (bi + 1) s := by
  refine ⟨h.run, fun k c m hk hc hm hma => ?_, fun k c hk hc => ?_, fun k c hk hc => h.hi k c (by omega) hc⟩
  · by_cases e : k = bi
    · subst e
      rw [hb] at hc; cases hc
      exact hn m hm hma
    · exact h.pos k c m (by omega) hc hm hma
  · by_cases e : k = bi
    · subst e
      rw [hb] at hc; cases hc
      exact hs
    · exact h.lo k c (by omega) hc

/-- `do_maxima` leaves what is left of the bound alone. -/
theorem doMaxima_keep (maxIdx bi : Nat) (hlt : bi < maxIdx) : Ok (doMaxima op sf cf bi maxIdx) s fun r s' =>
    (∀ k, k < bi → s'.abl[k]? = s.abl[k]?) ∧ bi ≤ r := by
  unfold doMaxima
  refine Post.bind ((maximaLoop_place maxIdx bi).imp ?_)
  rintro ⟨b1, skipped⟩ s1 ⟨h1, h2, h3, h4, h5⟩
  dsimp only at h2 h3 ⊢
  refine Post.bind (Ok.look fun o _ => Post.bind (Ok.look fun b _ => Post.bind (Ok.look fun o' _ => Post.bind (Ok.look fun m _ => ?_))))
  refine Post.bind (Post.getBound (Post.bind (Post.getBound ?_)))
  have fin : ∀ s2, Still s1 s2 → Ok (do
      ablSet b1 none
      ablSet maxIdx none
      pure (if skipped then bi else bi + 1) : M Nat) s2 fun r s' => (∀ k, k < bi → s'.abl[k]? = s.abl[k]?) ∧ bi ≤ r := by
    intro s2 k2
    refine Post.bind (Post.modify (Post.bind (Post.modify (Post.pure ⟨fun k hk => ?_, ?_⟩))))
    · change ((s2.abl.set b1 none).set maxIdx none)[k]? = _
      rw [List.getElem?_set_ne (by omega), List.getElem?_set_ne (by omega), k2.abl]
      exact h4 k hk
    · split <;> omega
  refine Post.ite (fun _ => ?_) fun _ => Post.ite (fun _ => Post.raise trivial) fun _ => fin _ (Preo.refl _)
  refine Post.bind (Ok.look fun e _ => ?_)
  exact Post.bind ((Ok.pres (R := Still) inferInstance).imp fun _ s2 h => fin s2 h)

theorem nodup_pos {l : List (Option Nat)} (hnd : (l.filterMap id).Nodup) {i j c : Nat} (hi : l[i]? = some (some c)) (hj : l[j]? = some (some c)) : i = j := by
  by_contra hne
  have hj' : (l.set i none)[j]? = some (some c) := by rw [List.getElem?_set_ne hne]; exact hj
  exact ((mem_set_none hnd hi c).1 (List.mem_of_getElem? hj')).2 rfl

theorem fair_topLoop (hM : Mated s0 A) (hs : Run op sf cf s0 A rest s) (hl : ∀ b ∈ act s, Steeped s b) :
    Post (topOfScanbeamLoop op sf cf y) s (fun _ s' => Run op sf cf s0 A rest s' ∧ (∀ b ∈ act s', Looked y s' b)
      ∧ ∀ b ∈ act s', ∀ m, (s0.bounds b).maximumBound = some m → m ∈ act s' → ¬ (TopS y s' b ∧ TopS y s' m)) OnlyCross := by
  unfold topOfScanbeamLoop
  refine Post.loopM (Q := fun _ s' => Run op sf cf s0 A rest s' ∧ (∀ b ∈ act s', Looked y s' b)
      ∧ ∀ b ∈ act s', ∀ m, (s0.bounds b).maximumBound = some m → m ∈ act s' → ¬ (TopS y s' b ∧ TopS y s' m)) (fun bi s' => TopWalk op sf cf s0 A rest y bi s') ?_ (fun _ _ _ => only_fuel)
    ⟨hs, nofun, nofun, fun k c _ hc => hl c (mem_act.2 (List.mem_of_getElem? hc))⟩
  intro bi s1 hI
  refine Post.bind (Post.gets (Post.ite (fun hlt => ?_) fun hge => Post.pure ⟨hI.run, fun b hb => ?_, fun b hb m hm hma => ?_⟩))
  rotate_left
  · obtain ⟨k, hk⟩ := List.mem_iff_getElem?.1 (mem_act.1 hb)
    exact hI.lo k b (by have := (List.getElem?_eq_some_iff.1 hk).1; omega) hk
  · obtain ⟨k, hk⟩ := List.mem_iff_getElem?.1 (mem_act.1 hb)
    exact hI.pos k b m (by have := (List.getElem?_eq_some_iff.1 hk).1; omega) hk hm hma
  refine Post.bind (Post.ablGet fun o ho => ?_)
  cases o with
  | none =>
    refine Post.pure ⟨hI.run, fun k c m hk hc hm hma => ?_, fun k c hk hc => ?_, fun k c hk hc => hI.hi k c (by omega) hc⟩
    · by_cases e : k = bi
      · subst e; rw [ho] at hc; cases hc
      · exact hI.pos k c m (by omega) hc hm hma
    · by_cases e : k = bi
      · subst e; rw [ho] at hc; cases hc
      · exact hI.lo k c (by omega) hc
  | some b =>
    have hb : b ∈ act s1 := mem_act.2 (List.mem_of_getElem? ho)
    obtain ⟨mb, -, m1, m2, m3⟩ := hM.closed b (hI.run.act b hb).1
    have hmb : (s1.bounds b).maximumBound = some mb := by rw [(hI.run.static b).2.2.1]; exact m1
    have hsb : Steeped s1 b := hI.hi bi b (Nat.le_refl _) ho
    dsimp only
    refine Post.bind (Post.imp (Q := fun r s' => s' = s1 ∧ (r = none → ¬ (TopS y s1 b ∧ mb ∈ act s1 ∧ TopS y s1 mb))
      ∧ ∀ mi, r = some mi → mi = s1.abl.length ∨ (s1.abl[mi]? = some (some mb) ∧ TopS y s1 b ∧ TopS y s1 mb)) ?_ ?_)
    · refine Post.bind (Post.isMaxima fun r hr => Post.ite (fun hrt => ?_) fun hrf => Post.pure ⟨rfl, fun _ h => hrf (hr.2 h.1.1), nofun⟩)
      have hb' := hr.1 hrt
      refine Post.bind (Post.getBound (Post.bind (Post.gets ?_)))
      rw [hmb]
      refine Post.ite (fun hl => Post.pure ⟨rfl, nofun, fun mi h => Or.inl (by cases h; exact hl)⟩) fun hl => ?_
      have hg := findIdentity_get hl
      refine Post.bind (Post.ablGet fun o ho' => ?_)
      rw [hg] at ho'
      cases ho'
      refine Post.bind (Post.deref (fun m hm => ?_) fun h => by cases h)
      cases hm
      refine Post.bind (Post.currentEdge fun e he => Post.ite (fun hh => Post.pure ⟨rfl, fun _ h => ?_, nofun⟩) fun hh => ?_)
      · have := h.2.2.2 e he
        rw [hh] at this; cases this
      · refine Post.bind (Post.isMaxima fun r' hr' => Post.ite (fun h => Post.pure ⟨rfl, nofun, ?_⟩) fun h => Post.pure ⟨rfl, fun _ h' => h (hr'.2 h'.2.2.1), nofun⟩)
        rintro mi ⟨⟩
        exact Or.inr ⟨hg, ⟨hb', hsb⟩, hr'.1 h, fun e' he' => by rw [he] at he'; cases he'; simpa using hh⟩
    · rintro r _ ⟨rfl, h1, h2⟩
      rename_i s2
      cases r with
      | some mi =>
        dsimp only
        rcases h2 mi rfl with rfl | ⟨hg, hb', hm'⟩
        · exact Post.bind (doMaxima_alone bi)
        · have hma : mb ∈ act s2 := mem_act.2 (List.mem_of_getElem? hg)
          have hlt : bi < mi := by
            rcases Nat.lt_trichotomy bi mi with h | h | h
            · exact h
            · subst h
              rw [ho] at hg; cases hg
              exact absurd rfl m3.ne
            · exact absurd ⟨hm', hb'⟩ (hI.pos mi mb b h hg m2 hb)
          refine Post.bind ((((doMaxima_ok hI.run.reached ho hg hlt (hI.run.static.partners m3)).only.and ((doMaxima_place mi bi hlt).and (doMaxima_keep mi bi hlt))).and
            (Ok.pres (R := Put) inferInstance)).imp ?_)
          rintro r s3 ⟨⟨⟨r1, r2⟩, ⟨r3, r4⟩, r6, r7⟩, r5⟩
          refine Post.pure ⟨⟨r1, hI.run.static.trans r2, hI.run.sub, hI.run.nd, fun c hc => hI.run.act c (r4 c hc), fun c hc => ?_⟩, fun k c m hk hc hm hma => ?_,
            fun k c hk hc => ?_, fun k c hk hc => ?_⟩
          · rw [(r5 c).nxtIdx, (r5 c).curIdx]; exact hI.run.idx c (r4 c hc)
          · obtain ⟨k1, k2⟩ := r3 k c hk hc
            rw [(r5 c).topS, (r5 m).topS]
            exact hI.pos k c m k1 k2 hm (r4 m hma)
          · obtain ⟨k1, k2⟩ := r3 k c hk hc
            exact (hI.lo k c k1 k2).same (r5 c)
          · rw [(r5 c).steeped]
            obtain ⟨j, hj⟩ := List.mem_iff_getElem?.1 (mem_act.1 (r4 c (mem_act.2 (List.mem_of_getElem? hc))))
            by_cases hjb : bi ≤ j
            · exact hI.hi j c hjb hj
            · have := nodup_pos (reached_inv r1).nodup hc ((r6 j (by omega)).trans hj)
              omega
      | none =>
        dsimp only
        have hno := h1 rfl
        refine Post.bind (Post.imp (Q := fun r s' => s' = s2 ∧ (r = true → (s2.bounds b).nxtIdx < (s2.bounds b).edges.length
          ∧ ∃ e f, (s2.bounds b).currentEdge? = some e ∧ e.top.y = y ∧ (s2.bounds b).nextEdge? = some f ∧ f.isHorizontal = true) ∧ (r = false → PDone y s2 b)) ?_ ?_)
        · unfold isIntermediate
          refine Post.bind (Post.bind (Post.getBound (Post.ite (fun hlt => Post.bind (Post.currentEdge fun e he => Post.pure ?_)) fun hlt => Post.pure ?_)))
          · refine Post.ite (fun hy => Post.bind (Post.nextEdge fun f hf => Post.pure ⟨rfl, fun h => ⟨hlt, e, f, he, of_decide_eq_true hy, hf, h⟩, fun h e' f' _ hf' _ => ?_⟩))
              fun hy => Post.pure ⟨rfl, nofun, fun _ e' f' he' _ hy' => ?_⟩
            · rw [hf] at hf'; cases hf'; exact h
            · rw [he] at he'; cases he'
              exact absurd (decide_eq_true hy') hy
          · refine Post.ite (fun h => by cases h) fun _ => Post.pure ⟨rfl, nofun, fun _ e f _ hf => ?_⟩
            exact absurd (List.getElem?_eq_some_iff.1 hf).1 hlt
        · rintro promote _ ⟨rfl, hp, hp'⟩
          rename_i s3
          refine Post.ite (fun hpt => ?_) fun hpf => ?_
          · obtain ⟨hlt, e0, f, he0, hy0, hf, hfh⟩ := hp hpt
            have fin : ∀ s4, Run op sf cf s0 A rest s4 → Still s3 s4 → Post (do
                toNextEdge b
                let __do_lift ← getBound b
                if __do_lift.ring.isSome = true then do
                    let e ← currentEdge b
                    addPointToRing b e.bottom
                    pure (Sum.inl (bi + 1))
                  else pure (Sum.inl (bi + 1))) s4 (fun r s' =>
                match (r : Nat ⊕ Unit) with
                | .inl y_1 => TopWalk op sf cf s0 A rest y y_1 s'
                | .inr b => Run op sf cf s0 A rest s' ∧ (∀ b ∈ act s', Looked y s' b)
                  ∧ ∀ b ∈ act s', ∀ m, (s0.bounds b).maximumBound = some m → m ∈ act s' → ¬ (TopS y s' b ∧ TopS y s' m)) OnlyCross := by
              intro s4 h4 k4
              have hb4 : b ∈ act s4 := by rw [mem_act, k4.abl, ← mem_act]; exact hb
              have h4' := hI.still h4 k4.abl k4.bound
              refine Post.bind (h4.next hb4 (by rw [(k4.bound b).nxtIdx, (k4.bound b).edges]; exact hlt) ?_)
              intro s5 h5 ha5 hc5 he5 hn5
              have hf5 : (s5.bounds b).currentEdge? = some f := by rw [hn5, (k4.bound b).next, hf]
              have hnt : ¬ TopS y s5 b := fun t => by have := t.2 f hf5; rw [hfh] at this; cases this
              have hpath := hM.path b (hI.run.act b hb).1
              have hst : y = f.bottom.y := by
                have := (hpath.step (i := (s3.bounds b).curIdx) (e := e0) (f := f) (by rw [← hI.run.static.edges]; exact he0)
                  (by rw [← hI.run.static.edges, ← hI.run.idx b hb]; exact hf)).1
                rw [← this, hy0]
              have hseen : Looked y s5 b := by
                refine ⟨fun e he _ => by rw [hf5] at he; cases he; exact hst.symm, fun e g he hg _ => ?_⟩
                rw [hf5] at he; cases he
                have hb5 : b ∈ act s5 := by rw [mem_act, ha5, ← mem_act]; exact hb4
                have := (hpath.step (i := (s5.bounds b).curIdx) (e := f) (f := g) (by rw [← h5.static.edges]; exact hf5)
                  (by rw [← h5.static.edges, ← h5.idx b hb5]; exact hg)).2
                by_contra hx
                exact this ⟨hfh, by simpa using hx⟩
              have h6 : TopWalk op sf cf s0 A rest y (bi + 1) s5 := by
                refine ⟨h5, fun k c m hk hc hm hma => ?_, fun k c hk hc => ?_, fun k c hk hc => ?_⟩
                · rintro ⟨t1, t2⟩
                  have hcb : c ≠ b := fun e => hnt (e ▸ t1)
                  have hmb' : m ≠ b := fun e => hnt (e ▸ t2)
                  rw [ha5] at hc
                  rw [mem_act, ha5, ← mem_act] at hma
                  have hk' : k < bi := by
                    by_contra hge
                    obtain rfl : k = bi := by omega
                    rw [k4.abl, ho] at hc; cases hc
                    exact hcb rfl
                  refine h4'.pos k c m hk' hc hm hma ⟨?_, ?_⟩
                  · unfold TopS AtTop Steeped at t1 ⊢; rw [hc5 c hcb] at t1; exact t1
                  · unfold TopS AtTop Steeped at t2 ⊢; rw [hc5 m hmb'] at t2; exact t2
                · by_cases hcb : c = b
                  · subst hcb; exact hseen
                  · rw [ha5] at hc
                    have hk' : k < bi := by
                      by_contra hge
                      obtain rfl : k = bi := by omega
                      rw [k4.abl, ho] at hc; cases hc
                      exact hcb rfl
                    exact (h4'.lo k c hk' hc).eq (hc5 c hcb)
                · rw [ha5] at hc
                  have hcb : c ≠ b := by
                    rintro rfl
                    have := nodup_pos (reached_inv h4.reached).nodup hc (by rw [k4.abl]; exact ho)
                    omega
                  exact (h4'.hi k c (by omega) hc).eq (hc5 c hcb)
              refine Post.bind (Post.getBound (Post.ite (fun _ => ?_) fun _ => Post.pure h6))
              refine Post.bind (Post.currentEdge fun e he => Post.bind (h5.add fun _ s7 h7 k7 k7' => Post.pure ?_))
              exact h6.still h7 k7'.abl k7'.bound
            refine Post.bind (Post.getBound (Post.ite (fun _ => ?_) fun _ => ?_))
            · refine Post.bind (Post.currentEdge fun e he => Post.bind (hI.run.add fun _ s4 h4 _ k4 => ?_))
              exact (fin s4 h4 k4).imp (by rintro (_ | _) _ h <;> exact h)
            · exact (fin s3 hI.run (Preo.refl _)).imp (by rintro (_ | _) _ h <;> exact h)
          · refine Post.bind (Post.currentEdge fun e he => Post.bind (Post.modBound (Post.pure ?_)))
            have hx : XMoved s3 { s3 with bounds := upd s3.bounds b { s3.bounds b with currentX := e.getCurrentX y } } := xmoved_x
            have hr := hI.run.xmoved hx
            have hcur : ∀ c, (upd s3.bounds b { s3.bounds b with currentX := e.getCurrentX y } c).currentEdge? = (s3.bounds c).currentEdge?
                ∧ (upd s3.bounds b { s3.bounds b with currentX := e.getCurrentX y } c).nxtIdx = (s3.bounds c).nxtIdx
                ∧ (upd s3.bounds b { s3.bounds b with currentX := e.getCurrentX y } c).edges = (s3.bounds c).edges := by
              intro c
              by_cases h : c = b
              · subst h; rw [Wagyu.upd_same]; exact ⟨rfl, rfl, rfl⟩
              · rw [upd_ne _ _ h]; exact ⟨rfl, rfl, rfl⟩
            have hst : ∀ c, Steeped { s3 with bounds := upd s3.bounds b { s3.bounds b with currentX := e.getCurrentX y } } c ↔ Steeped s3 c := by
              intro c
              unfold Steeped
              dsimp only
              rw [(hcur c).1]
            have ht : ∀ c, TopS y { s3 with bounds := upd s3.bounds b { s3.bounds b with currentX := e.getCurrentX y } } c ↔ TopS y s3 c := by
              intro c
              unfold TopS AtTop
              rw [hst]
              dsimp only
              rw [(hcur c).1, (hcur c).2.1, (hcur c).2.2]
            have hse : ∀ c, Looked y s3 c → Looked y { s3 with bounds := upd s3.bounds b { s3.bounds b with currentX := e.getCurrentX y } } c := by
              intro c h
              refine ⟨?_, h.2.xmoved hx⟩
              dsimp only
              rw [(hcur c).1]; exact h.1
            refine TopWalk.snoc ⟨hr, fun k c m hk hc hm hma => ?_, fun k c hk hc => hse c (hI.lo k c hk hc), fun k c hk hc => (hst c).2 (hI.hi k c hk hc)⟩ ho
              (hse b ⟨fun e he hh => (by rw [hsb e he] at hh; cases hh), hp' (by simpa using hpf)⟩) fun m hm hma h => ?_
            · rw [ht, ht]
              exact hI.pos k c m hk hc hm hma
            · rw [ht, ht] at h
              rw [m1] at hm; cases hm
              exact hno ⟨h.1, hma, h.2⟩

end

end Wagyu
