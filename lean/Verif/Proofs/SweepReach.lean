import Verif.Proofs.SweepClose

/-!
# Every event keeps the invariant
-/

namespace Wagyu

open Spec

section
variable {op : OperationKind} {sf cf : FillKind}

theorem Ok.run {α : Type} {m : M α} {s : St} {Q : α → St → Prop} (h : Ok m s Q) :
    Ok m s fun a s' => m s = .ok a s' ∧ Q a s' := Ok.intro fun _ _ e => ⟨e, h.elim e⟩

theorem initializeBound_ok (s : St) (b : Nat) (side : EdgeSide) (he : (s.bounds b).edges ≠ []) :
    Ok (initializeBound b side) s fun _ s' => s'.abl = s.abl ∧ s'.nr = s.nr ∧ Static s s'
      ∧ (∀ c, c ≠ b → s'.bounds c = s.bounds c) ∧ (s'.bounds b).ring = none := by
  unfold initializeBound
  refine Post.bind (Post.getBound ?_)
  refine Post.ite (fun h => absurd h he) fun _ => ?_
  refine Post.bind (Post.modBound (Post.bind (Ok.intro fun e s1 hr => ?_)))
  have hs : s1 = { s with bounds := upd s.bounds b (((s.bounds b).setCur 0).setNxt 1) } := by
    have hp : Pres Eq (currentEdge b) := inferInstance
    have := hp.pres { s with bounds := upd s.bounds b (((s.bounds b).setCur 0).setNxt 1) }
    rw [hr] at this
    exact this.symm
  subst hs
  refine Post.modBound ⟨rfl, rfl, fun c => ?_, fun c hc => ?_, ?_⟩
  · show (upd _ _ _ c : Bound).polygonKind = _ ∧ (upd _ _ _ c : Bound).windingDelta = _ ∧ (upd _ _ _ c : Bound).maximumBound = _
      ∧ (upd _ _ _ c : Bound).edges = _
    by_cases h : c = b
    · subst h; rw [upd_same]; dsimp only; rw [upd_same]; exact ⟨rfl, rfl, rfl, rfl⟩
    · rw [upd_ne _ _ h]; dsimp only; rw [upd_ne _ _ h]; exact ⟨rfl, rfl, rfl, rfl⟩
  · show upd _ _ _ c = _
    rw [upd_ne _ _ hc]; dsimp only; rw [upd_ne _ _ hc]
  · show (upd _ _ _ b : Bound).ring = _
    rw [upd_same]

theorem SInv.congr {s s' : St} (h : SInv op sf cf s) (hact : act s' = act s) (hnr : s'.nr = s.nr)
    (hb : ∀ b ∈ act s, SameState (s.bounds b) (s'.bounds b)) : SInv op sf cf s' := by
  refine ⟨by rw [hact]; exact h.nodup, ?_, ?_⟩
  · rw [hact]
    refine allOk_congr _ _ (fun c hc => ?_) h.ok
    obtain ⟨h1, h2, h3, h4, h5, -⟩ := hb c hc
    exact ⟨h1, h2, h3, h4, by rw [h5]⟩
  · intro c hc r hr
    rw [hact] at hc
    rw [(hb c hc).ring] at hr
    obtain ⟨h1, d, h2, h3, h4, h5, h6⟩ := h.ends c hc r hr
    refine ⟨by rw [hnr]; exact h1, d, by rw [hact]; exact h2, h3, by rw [(hb d h2).ring]; exact h4, ?_, fun e he her => ?_⟩
    · rw [(hb d h2).side, (hb c hc).side]; exact h5
    · rw [hact] at he
      rw [(hb e he).ring] at her
      exact h6 e he her

theorem minimum_inv {s : St} {m : LocalMinimum} (hi : SInv op sf cf s) (hlr : m.left ≠ m.right) (hl : m.left ∉ act s)
    (hr : m.right ∉ act s) (el : (s.bounds m.left).edges ≠ []) (er : (s.bounds m.right).edges ≠ [])
    (hp : Partners s m.left m.right) :
    Ok (do initializeMinimum m
           insertLmLeftAndRightBound op sf cf m.left m.right : M Unit) s fun _ s' => SInv op sf cf s' ∧ s.nr ≤ s'.nr ∧ Static s s'
      ∧ ∃ i, i ≤ s.abl.length ∧ s'.abl = s.abl.take i ++ some m.left :: some m.right :: s.abl.drop i := by
  unfold initializeMinimum
  refine Post.bind (Post.bind ((initializeBound_ok s m.left .left el).imp ?_))
  rintro _ s1 ⟨a1, n1, st1, c1, r1⟩
  refine (initializeBound_ok s1 m.right .right (by rw [(st1 m.right).2.2.2]; exact er)).imp ?_
  rintro _ s2 ⟨a2, n2, st2, c2, r2⟩
  have hst := st1.trans st2
  have hact : act s2 = act s := by unfold act; rw [a2, a1]
  have hi2 : SInv op sf cf s2 := by
    refine hi.congr hact (n2.trans n1) fun b hb => ?_
    have : s2.bounds b = s.bounds b := by
      rw [c2 b (by rintro rfl; exact hr hb), c1 b (by rintro rfl; exact hl hb)]
    rw [this]; exact ⟨rfl, rfl, rfl, rfl, rfl, rfl⟩
  refine (insertLm_inv hi2 (by rw [hact]; exact hl) (by rw [hact]; exact hr) hlr (by rw [c2 _ hlr]; exact r1) r2 ?_ ?_ ?_).imp ?_
  · rw [(hst m.left).2.1]; exact hp.unit
  · rw [(hst m.left).1, (hst m.right).1]; exact hp.kind
  · rw [(hst m.left).2.1, (hst m.right).2.1]; exact hp.delta
  · rintro _ s3 ⟨h1, h2, h3, i, h4, h5⟩
    rw [a2, a1] at h4 h5
    exact ⟨h1, by rw [n2, n1] at h2; exact h2, hst.trans h3, i, h4, h5⟩

theorem close_inv {s : St} {p : Point} {i j a b : Nat} (hi : SInv op sf cf s) (h : Adjacent s i j a b ∨ Adjacent s j i b a)
    (hp : Partners s a b) :
    Ok (do if (← getBound a).ring.isSome ∧ (← getBound b).ring.isSome then addLocalMaximumPoint p a b
           ablSet i none
           ablSet j none : M Unit) s fun _ s' => SInv op sf cf s' ∧ s.nr ≤ s'.nr ∧ Static s s'
      ∧ s'.abl = (s.abl.set i none).set j none := by
  have hij : i ≠ j := by rcases h with h | h <;> have := h.lt <;> omega
  have hab : a ≠ b := by rcases h with h | h <;> [exact h.ne hi; exact (h.ne hi).symm]
  have hp' : (s.bounds a).windingDelta = -(s.bounds b).windingDelta := by have := hp.delta; omega
  have agree : (s.bounds a).ring.isSome = (s.bounds b).ring.isSome := by
    rcases h with h | h
    · exact (adjacent_agree hi h hp.kind hp.delta).symm
    · exact adjacent_agree hi h hp.kind.symm hp'
  have fin : ∀ s1, (((s.bounds a).ring = none ∧ (s.bounds b).ring = none ∧ s1 = s)
      ∨ ((s.bounds a).ring.isSome ∧ (s.bounds b).ring.isSome ∧ Closed2 s s1 a b)) →
      Ok (do ablSet i none
             ablSet j none : M Unit) s1 fun _ s' => SInv op sf cf s' ∧ s.nr ≤ s'.nr ∧ Static s s'
      ∧ s'.abl = (s.abl.set i none).set j none := by
    intro s1 h1
    have hf : Frame s s1 := by
      rcases h1 with ⟨_, _, rfl⟩ | ⟨_, _, h1⟩
      · exact Frame.refl _
      · exact h1.frame
    refine Post.bind (Post.modify (Post.modify ⟨?_, hf.nr, hf.static, ?_⟩))
    · rcases h with h | h
      · refine remove_inv (s1 := s1) hi h hp.kind hp.delta ?_ rfl rfl ?_
        · rcases h1 with ⟨x, y, rfl⟩ | h1
          · exact Or.inl ⟨x, y, Preo.refl _⟩
          · exact Or.inr h1
        · show (s1.abl.set i none).set j none = _
          rw [hf.abl]
      · refine remove_inv (s1 := s1) hi h hp.kind.symm hp' ?_ rfl rfl ?_
        · rcases h1 with ⟨x, y, rfl⟩ | ⟨x, y, h1⟩
          · exact Or.inl ⟨y, x, Preo.refl _⟩
          · exact Or.inr ⟨y, x, h1.symm⟩
        · show (s1.abl.set i none).set j none = _
          rw [hf.abl, List.set_comm _ _ hij]
    · show (s1.abl.set i none).set j none = _
      rw [hf.abl]
  refine Post.bind (Post.getBound (Post.bind (Post.getBound ?_)))
  refine Post.ite (fun hc => ?_) fun hc => ?_
  · exact Post.bind ((addLocalMaximumPoint_ok s p hab hc.1 hc.2).imp fun _ s1 h1 => fin s1 (Or.inr ⟨hc.1, hc.2, h1⟩))
  · refine fin s (Or.inl ?_)
    rw [← agree, and_self] at hc
    have ha : (s.bounds a).ring = none := by simpa using hc
    have hb : (s.bounds b).ring = none := by
      rw [ha] at agree
      simpa using agree.symm
    exact ⟨ha, hb, rfl⟩

theorem event_inv {s s' : St} (hi : SInv op sf cf s) (h : Event op sf cf s s') : SInv op sf cf s' := by
  cases h with
  | minimum m h1 h2 h3 h4 h5 h6 h7 => exact ((minimum_inv hi h1 h2 h3 h4 h5 h6).elim h7).1
  | crossing p i j a b h1 h2 =>
    have : Ok (do intersectBounds p op sf cf a b
                  ablSwap i j : M Unit) s fun _ s' => SInv op sf cf s' := by
      refine Post.bind ((crossing_inv hi h1.lt h1.fst h1.snd h1.between).imp ?_)
      rintro _ s1 ⟨-, h⟩
      exact h.imp fun _ s2 h => h.1
    exact this.elim h2
  | maximum p i j a b h1 h2 h3 => exact ((close_inv hi h1 h2).elim h3).1
  | quiet h1 h2 h3 => exact hi.congr h1 h2 h3

theorem start_inv {s : St} (h : act s = []) : SInv op sf cf s := by
  refine ⟨by rw [h]; exact List.nodup_nil, by rw [h]; trivial, fun c hc => ?_⟩
  rw [h] at hc; cases hc

theorem reached_inv {s : St} (h : Reached op sf cf s) : SInv op sf cf s := by
  induction h with
  | start s h => exact start_inv h
  | step _ he ih => exact event_inv ih he

end

end Wagyu
