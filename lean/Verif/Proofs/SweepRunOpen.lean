import Verif.Proofs.SweepRunFlat

/-!
# Local minima are events
-/

namespace Wagyu

open Spec

instance (y : Int) : Quiet (insertScan y) := by unfold insertScan; quiet
instance (b : Nat) (side : EdgeSide) : Quiet (initializeBound b side) := by unfold initializeBound; quiet
instance (m : LocalMinimum) : Quiet (initializeMinimum m) := by unfold initializeMinimum; quiet
instance (k : PolygonKind) (l : List (Option Nat)) (acc : List Nat) : Quiet (findSameKind k l acc) := by
  induction l generalizing acc with
  | nil => unfold findSameKind; quiet
  | cons o l ih => rw [findSameKind]; quiet
instance (l r : Nat) : Quiet (insertBoundIntoAbl l r) := by unfold insertBoundIntoAbl; quiet
instance (i : Nat) (sf cf : FillKind) : Quiet (setWindingCount i sf cf) := by
  unfold setWindingCount
  refine @Quiet.bind _ _ _ _ inferInstance fun o => @Quiet.bind _ _ _ _ inferInstance fun b => @Quiet.bind _ _ _ _ inferInstance fun bd => ?_
  quiet
instance (op : OperationKind) (sf cf : FillKind) (l r : Nat) : Quiet (insertLmLeftAndRightBound op sf cf l r) := by
  unfold insertLmLeftAndRightBound; quiet

section
variable {op : OperationKind} {sf cf : FillKind} {s0 : St} {A rest : List LocalMinimum} {s : St} {α β : Type} {y : Int}

theorem openMinimum_idx {m : LocalMinimum} (hne : m.left ≠ m.right) (el : (s.bounds m.left).edges ≠ []) (er : (s.bounds m.right).edges ≠ []) :
    Ok (do initializeMinimum m
           insertLmLeftAndRightBound op sf cf m.left m.right : M Unit) s fun _ s' => ∀ b,
      (b = m.left ∨ b = m.right → (s'.bounds b).nxtIdx = (s'.bounds b).curIdx + 1) ∧ (b ≠ m.left → b ≠ m.right → SamePlace (s.bounds b) (s'.bounds b)) := by
  obtain ⟨e, l, hel⟩ := List.exists_cons_of_ne_nil el
  obtain ⟨e', l', her⟩ := List.exists_cons_of_ne_nil er
  unfold initializeMinimum
  refine Post.bind (Post.bind ((initializeBound_run hel).imp ?_))
  rintro _ _ ⟨L, rfl, Le, L0, L1, Lc, Lr⟩
  refine (initializeBound_run (e := e') (l := l') ?_).imp ?_
  · dsimp only; rw [Wagyu.upd_other _ _ _ _ hne.symm, her]
  rintro _ _ ⟨R, rfl, Re, R0, R1, Rc, Rr⟩
  dsimp only
  refine (Ok.pres (R := Put) inferInstance).imp fun _ s' hp b => ⟨?_, fun h1 h2 => ?_⟩
  · rintro (rfl | rfl)
    · rw [(hp _).nxtIdx, (hp _).curIdx]
      dsimp only
      rw [Wagyu.upd_other _ _ _ _ hne, Wagyu.upd_same, L0, L1]
    · rw [(hp _).nxtIdx, (hp _).curIdx]
      dsimp only
      rw [Wagyu.upd_same, R0, R1]
  · have := hp b
    dsimp only at this
    rw [Wagyu.upd_other _ _ _ _ h2, Wagyu.upd_other _ _ _ _ h1] at this
    exact this

theorem run_openMinimum {m : LocalMinimum} (hM : Mates s0 A) (hs : Run op sf cf s0 A (m :: rest) s) (hf : Full s) :
    Post (do initializeMinimum m
             insertLmLeftAndRightBound op sf cf m.left m.right : M Unit) s (fun _ s' => Run op sf cf s0 A rest s' ∧ Full s') OnlyCross := by
  have hmA := hs.sub m (by simp)
  obtain ⟨hne, hp, el, er⟩ := hM.opened m hmA
  rw [← hs.static.edges] at el er
  have hl : m.left ∉ act s := fun h => (hs.act _ h).2 (by rw [idsOf_cons]; simp)
  have hr : m.right ∉ act s := fun h => (hs.act _ h).2 (by rw [idsOf_cons]; simp)
  have hnd := hs.nd
  rw [idsOf_cons, List.nodup_cons, List.nodup_cons] at hnd
  obtain ⟨hnl, hnr, hnd⟩ := hnd
  have hp' := hs.static.partners hp
  have h1 := (minimum_inv (reached_inv hs.reached) hne hl hr el er hp').run
  have hq : Quiet (do initializeMinimum m; insertLmLeftAndRightBound op sf cf m.left m.right : M Unit) := Quiet.bind inferInstance fun _ => inferInstance
  refine ((Ok.quiet h1).only.and (openMinimum_idx hne el er)).imp ?_
  rintro _ s' ⟨⟨e, -, -, hst, i, -, ha⟩, hx⟩
  have hab : ∀ b, some b ∈ s'.abl ↔ b = m.left ∨ b = m.right ∨ some b ∈ s.abl := by
    intro b
    rw [ha, List.mem_append, List.mem_cons, List.mem_cons, Option.some.injEq, Option.some.injEq]
    conv_rhs => rw [← List.take_append_drop i s.abl, List.mem_append]
    tauto
  refine ⟨⟨.step hs.reached (.minimum m hne hl hr el er hp' e), hs.static.trans hst, fun v hv => hs.sub v (by simp [hv]), hnd, fun b hb => ?_, fun b hb => ?_⟩, ?_⟩
  · rw [mem_act, hab] at hb
    rcases hb with rfl | rfl | hb
    · exact ⟨mem_idsOf_left hmA, fun h => hnl (by simp [h])⟩
    · exact ⟨mem_idsOf_right hmA, hnr⟩
    · have := hs.act b (mem_act.2 hb)
      rw [idsOf_cons] at this
      exact ⟨this.1, fun h => this.2 (by simp [h])⟩
  · rw [mem_act, hab] at hb
    by_cases h1 : b = m.left
    · exact (hx b).1 (.inl h1)
    by_cases h2 : b = m.right
    · exact (hx b).1 (.inr h2)
    have hb := (hb.resolve_left h1).resolve_left h2
    have := (hx b).2 h1 h2
    rw [this.nxtIdx, this.curIdx]
    exact hs.idx b (mem_act.2 hb)
  · unfold Full at *
    rw [ha, List.mem_append, List.mem_cons, List.mem_cons]
    rintro (h | h | h | h)
    · exact hf (List.mem_of_mem_take h)
    · cases h
    · cases h
    · exact hf (List.mem_of_mem_drop h)

theorem run_insertHorizontal (hM : Mates s0 A) : ∀ (rest : List LocalMinimum) (s : St), Run op sf cf s0 A rest s → Full s →
    Post (insertHorizontalLocalMinima op sf cf y rest) s (fun r s' => Run op sf cf s0 A r s' ∧ Full s') OnlyCross
  | [], s, hs, hf => by
    rw [insertHorizontalLocalMinima]
    exact Post.pure ⟨hs, hf⟩
  | m :: rest, s, hs, hf => by
    rw [insertHorizontalLocalMinima]
    refine Post.ite (fun h => ?_) fun h => Post.pure ⟨hs, hf⟩
    rw [← M.assoc]
    exact Post.bind ((run_openMinimum hM hs hf).imp fun _ s1 h => run_insertHorizontal hM rest s1 h.1 h.2)

theorem run_insertMinima (hM : Mates s0 A) : ∀ (rest : List LocalMinimum) (s : St), Run op sf cf s0 A rest s → Full s →
    Post (insertLocalMinima op sf cf y rest) s (fun r s' => Run op sf cf s0 A r s' ∧ Full s') OnlyCross
  | [], s, hs, hf => by
    rw [insertLocalMinima]
    exact Post.pure ⟨hs, hf⟩
  | m :: rest, s, hs, hf => by
    rw [insertLocalMinima]
    refine Post.ite (fun h => ?_) fun h => Post.pure ⟨hs, hf⟩
    rw [← M.assoc]
    exact Post.bind ((run_openMinimum hM hs hf).imp fun _ s1 h => run_insertMinima hM rest s1 h.1 h.2)

theorem run_promote (rest : List LocalMinimum) : ∀ (l : List (Option Nat)) (s : St), Run op sf cf s0 A rest s → (∀ o ∈ l, o ∈ s.abl) →
    Post (promoteIntermediate y l) s (fun _ s' => Run op sf cf s0 A rest s' ∧ s'.abl = s.abl) OnlyCross
  | [], s, hs, _ => by
    rw [promoteIntermediate]
    exact Post.pure ⟨hs, rfl⟩
  | o :: l, s, hs, hl => by
    rw [promoteIntermediate]
    refine Post.bind (Post.deref (fun b hb => ?_) fun _ => nofun)
    subst hb
    have hbs : some b ∈ s.abl := hl _ (by simp)
    have go : ∀ s1, Run op sf cf s0 A rest s1 → s1.abl = s.abl → Post (promoteIntermediate y l) s1 (fun _ s' => Run op sf cf s0 A rest s' ∧ s'.abl = s.abl) OnlyCross := by
      intro s1 h1 a1
      refine (run_promote rest l s1 h1 fun o ho => ?_).imp fun _ s' h => ⟨h.1, h.2.trans a1⟩
      rw [a1]; exact hl o (by simp [ho])
    refine Post.bind (Post.imp (Q := fun r s' => s' = s ∧ (r = true → (s.bounds b).nxtIdx < (s.bounds b).edges.length)) ?_ ?_)
    · unfold isIntermediate
      exact Post.bind (Post.getBound (Post.ite (fun hlt => Post.bind (Post.currentEdge fun e he => Post.pure ⟨rfl, fun _ => hlt⟩)) fun _ => Post.pure ⟨rfl, nofun⟩))
    · rintro r _ ⟨rfl, hr⟩
      rename_i s1
      refine Post.ite (fun h => ?_) fun _ => go s1 hs rfl
      have fin : ∀ s2, Run op sf cf s0 A rest s2 → Still s1 s2 → Post (do
          toNextEdge b
          promoteIntermediate y l : M Unit) s2 (fun _ s' => Run op sf cf s0 A rest s' ∧ s'.abl = s1.abl) OnlyCross := by
        intro s2 h2 k2
        refine Post.bind (h2.next (by rw [mem_act, k2.abl]; exact hbs) (by rw [(k2.bound b).nxtIdx, (k2.bound b).edges]; exact hr h) ?_)
        intro s3 h3 a3 _ _ _
        exact go s3 h3 (a3.trans k2.abl)
      refine Post.bind (Post.getBound (Post.ite (fun _ => ?_) fun _ => fin s1 hs (Preo.refl _)))
      exact Post.bind (Post.currentEdge fun e he => Post.bind (hs.add fun _ s2 h2 _ k2 => fin s2 h2 k2))

theorem run_topOfScanbeam (hM : Mates s0 A) (hs : Run op sf cf s0 A rest s) :
    Post (processEdgesAtTopOfScanbeam op sf cf y rest) s (fun r s' => Run op sf cf s0 A r s' ∧ Full s') OnlyCross := by
  unfold processEdgesAtTopOfScanbeam
  refine Post.bind ((run_topLoop hM hs).imp fun _ s1 h1 => Post.bind ((run_filter h1).imp fun _ s2 h2 => ?_))
  refine Post.bind ((run_insertHorizontal hM rest s2 h2.1 h2.2).imp fun r s3 h3 => Post.bind ((run_horizontals hM h3.1).imp fun _ s4 h4 => ?_))
  refine Post.bind (Post.gets (Post.bind ((run_promote r _ s4 h4.1 fun _ h => h).imp fun _ s5 h5 => Post.pure ⟨h5.1, ?_⟩)))
  unfold Full
  rw [h5.2]; exact h4.2

end

end Wagyu
