import Verif.Proofs.SweepRunScan

/-!
# Horizontal edges are sequences of crossings
-/

namespace Wagyu

open Spec

instance Same.passRight (b : Nat) (stop : Point → M Bool) [h : ∀ p, Pres Same (stop p)] (len n i : Nat) :
    Pres Same (passHotPixelsRight b stop len n i) := by
  induction n generalizing i with
  | zero => unfold passHotPixelsRight; pres
  | succ n ih => have := ih (i + 1); have := h; unfold passHotPixelsRight; pres
instance Same.passLeft (b : Nat) (stop : Point → M Bool) [h : ∀ p, Pres Same (stop p)] (i : Nat) :
    Pres Same (passHotPixelsLeft b stop i) := by
  induction i with
  | zero => unfold passHotPixelsLeft; pres
  | succ n ih => have := h; unfold passHotPixelsLeft; pres

section
variable {op : OperationKind} {sf cf : FillKind} {s0 : St} {A rest : List LocalMinimum} {s : St} {α β : Type} {y : Int}

theorem Run.passRight {b : Nat} {stop : Point → M Bool} (h1 : ∀ p, Pres Same (stop p)) (h2 : ∀ p, Pres Still (stop p)) (h3 : ∀ p, Quiet (stop p)) {len n i : Nat}
    {Q : Nat → St → Prop} (h : Run op sf cf s0 A rest s) (k : ∀ a s', Run op sf cf s0 A rest s' → Still s s' → Q a s') :
    Post (passHotPixelsRight b stop len n i) s Q OnlyCross := h.add fun a s' h _ h' => k a s' h h'

theorem Run.passLeft {b : Nat} {stop : Point → M Bool} (h1 : ∀ p, Pres Same (stop p)) (h2 : ∀ p, Pres Still (stop p)) (h3 : ∀ p, Quiet (stop p)) {i : Nat}
    {Q : Nat → St → Prop} (h : Run op sf cf s0 A rest s) (k : ∀ a s', Run op sf cf s0 A rest s' → Still s s' → Q a s') :
    Post (passHotPixelsLeft b stop i) s Q OnlyCross := h.add fun a s' h _ h' => k a s' h h'

/-- While the bound `b`, at position `bi`, moves along its horizontal edge. -/
structure FlatRun (op : OperationKind) (sf cf : FillKind) (s0 : St) (A rest : List LocalMinimum) (s : St) (b bi : Nat) (s' : St) : Prop where
  run : Run op sf cf s0 A rest s'
  put : Put s s'
  pos : s'.abl[bi]? = some (some b)

theorem FlatRun.still {b bi : Nat} {s1 s2 : St} (h : FlatRun op sf cf s0 A rest s b bi s1) (h' : Run op sf cf s0 A rest s2) (k : Still s1 s2) :
    FlatRun op sf cf s0 A rest s b bi s2 := ⟨h', Preo.trans h.put k.bound, by rw [k.abl]; exact h.pos⟩

theorem Run.finish {b bi : Nat} {s1 : St} (h : FlatRun op sf cf s0 A rest s b bi s1) (hlt : (s.bounds b).nxtIdx < (s.bounds b).edges.length) :
    Post (finishHorizontal b bi) s1 (fun _ s' => Run op sf cf s0 A rest s') OnlyCross := by
  unfold finishHorizontal
  have fin : ∀ s2, FlatRun op sf cf s0 A rest s b bi s2 → Post (do
      let bd ← getBound b
      if bd.nxtIdx < bd.edges.length then toNextEdge b else ablSet bi none : M Unit) s2 (fun _ s' => Run op sf cf s0 A rest s') OnlyCross := by
    intro s2 h2
    refine Post.bind (Post.getBound (Post.ite (fun hl => ?_) fun hl => ?_))
    · exact h2.run.next (mem_act.2 (List.mem_of_getElem? h2.pos)) hl fun s3 h3 _ _ _ _ => h3
    · exact absurd (by rw [(h2.put b).nxtIdx, (h2.put b).edges]; exact hlt) hl
  refine Post.bind (Post.getBound (Post.ite (fun _ => ?_) fun _ => fin s1 h))
  exact Post.bind (Post.currentEdge fun e he => Post.bind (h.run.add fun _ s2 h2 _ k2 => fin s2 (h.still h2 k2)))

theorem Post.partner {b : Nat} {Q : Bool × Nat → St → Prop} (hn : (s.bounds b).nxtIdx < (s.bounds b).edges.length)
    (k : ∀ n, Q (false, n) s) : Post (horizontalPartner b y) s Q OnlyCross := by
  unfold horizontalPartner
  refine Post.bind (Post.isMaxima fun r hr => Post.bind (Post.gets (Post.ite (fun h => ?_) fun _ => Post.pure (k _))))
  exact absurd (hr.1 h).1 (by omega)

set_option maxHeartbeats 1600000 in
theorem run_ltr {b boundIdx : Nat} (hs : Run op sf cf s0 A rest s) (hb : s.abl[boundIdx]? = some (some b))
    (hlt : (s.bounds b).nxtIdx < (s.bounds b).edges.length) :
    Post (processHorizontalLeftToRight op sf cf y boundIdx) s (fun _ s' => Run op sf cf s0 A rest s') OnlyCross := by
  unfold processHorizontalLeftToRight
  refine Post.bind (Post.ablGet fun o ho => Post.bind (Post.deref (fun c hc => ?_) fun _ => nofun))
  obtain rfl : c = b := by rw [hb, hc] at ho; simpa using ho.symm
  refine Post.bind (Post.partner hlt fun maxIdx => ?_)
  dsimp only
  refine Post.bind (Post.gets (Post.bind (Post.look fun cur _ => Post.bind (Post.currentEdge fun e he => Post.bind (Post.look fun hp0 _ => Post.bind (Post.gets ?_))))))
  refine Post.bind (Post.imp (Q := fun r s' => match r with
    | .inl v => False
    | .inr (bi, _, _) => FlatRun op sf cf s0 A rest s c bi s') ?_ ?_)
  · refine Post.forElse (fun (st : Nat × Nat × Bool × Nat) s' => FlatRun op sf cf s0 A rest s c st.1 s' ∧ st.1 < st.2.2.2 ∧
      ∀ k, st.1 < k → k < st.2.2.2 → s'.abl[k]? = some none) ?_ ?_ _ _ _ ⟨⟨hs, Preo.refl _, hb⟩, Nat.lt_succ_self _, fun k h1 h2 => absurd h2 (by dsimp only at h1 ⊢; omega)⟩
    · rintro ⟨bi, hp, shifted, ni⟩ s1 ⟨h1, h2, h3⟩
      dsimp only at h1 h2 h3 ⊢
      refine Post.bind (Post.ablGet fun o ho => ?_)
      cases o with
      | none =>
        refine Post.pure ⟨h1, by dsimp only; omega, fun k l1 l2 => ?_⟩
        dsimp only at l1 l2
        by_cases e : k = ni
        · subst e; exact ho
        · exact h3 k l1 (by omega)
      | some nb =>
        dsimp only
        refine Post.bind (Run.passRight (fun p => by pres) (fun p => by pres) (fun p => by quiet) h1.run fun hp s2 r2 k2 => ?_)
        have h12 := h1.still r2 k2
        have ho2 : s2.abl[ni]? = some (some nb) := by rw [k2.abl]; exact ho
        have h32 : ∀ k, bi < k → k < ni → s2.abl[k]? = some none := by rw [k2.abl]; exact h3
        refine Post.bind (Post.getBound (Post.bind (Post.currentEdge fun e he => ?_)))
        refine Post.ite (fun _ => Post.pure h12) fun _ => Post.bind (Post.look fun ends _ => Post.ite (fun _ => Post.pure h12) fun _ => ?_)
        have fin : ∀ s3, Run op sf cf s0 A rest s3 → Still s2 s3 → Post (do
            let __do_lift ← getBound nb
            let r ← roundHalfUpM __do_lift.currentX
            intersectBounds { x := r, y := y } op sf cf c nb
            ablSwap bi ni
            pure (Sum.inl (ni, hp, true, ni + 1)) : M ((Nat × Nat × Bool × Nat) ⊕ (Nat ⊕ (Nat × Nat × Bool)))) s3
            (fun r s' => match r with
              | .inl st => FlatRun op sf cf s0 A rest s c st.1 s' ∧ st.1 < st.2.2.2 ∧
                ∀ k, st.1 < k → k < st.2.2.2 → s'.abl[k]? = some none
              | .inr r => match r with
                | .inl v => False
                | .inr (bi, _, _) => FlatRun op sf cf s0 A rest s c bi s') OnlyCross := by
          intro s3 r3 k3
          have h13 := h12.still r3 k3
          have hadj : Adjacent s3 bi ni c nb := ⟨h2, h13.pos, by rw [k3.abl]; exact ho2, by rw [k3.abl]; exact h32⟩
          refine Post.bind (Post.getBound (Post.bind (Post.look fun r _ => Post.bind ((Run.cross r3 hadj fun s4 r4 p4 a4 => ?_).imp fun _ s' h => Post.bind h))))
          refine Post.pure ⟨⟨r4, Preo.trans h13.put p4, ?_⟩, Nat.lt_succ_self _, fun k l1 l2 => absurd l2 (by dsimp only at l1 ⊢; omega)⟩
          dsimp only
          rw [a4, List.getElem?_set_self (by rw [List.length_set]; exact (List.getElem?_eq_some_iff.1 hadj.snd).1)]
        have hfalse : ∀ {γ : Type} {a b : M γ}, (if (false && decide (ni = maxIdx)) = true then a else b) = b := by intros; simp
        simp only [hfalse]
        refine Post.bind (Post.getBound (Post.ite (fun _ => ?_) fun _ => ?_))
        · refine Post.bind (Post.look fun r _ => Post.bind (h12.run.add fun _ s3 r3 _ k3 => ?_))
          exact (fin s3 r3 k3).imp (by rintro (_ | _ | _) _ h <;> exact h)
        · exact (fin s2 h12.run (Preo.refl _)).imp (by rintro (_ | _ | _) _ h <;> exact h)
    · rintro ⟨bi, hp, shifted, ni⟩ s1 ⟨h1, -⟩
      exact Post.pure h1
  · rintro (v | ⟨bi, hp, shifted⟩) s1 hv
    · exact hv.elim
    · dsimp only at hv ⊢
      have fin : ∀ s2, FlatRun op sf cf s0 A rest s c bi s2 → Post (do
          finishHorizontal c bi
          pure (if shifted = true then boundIdx else boundIdx + 1) : M Nat) s2 (fun _ s' => Run op sf cf s0 A rest s') OnlyCross :=
        fun s2 h2 => Post.bind ((Run.finish h2 hlt).imp fun _ _ h => Post.pure h)
      refine Post.bind (Post.getBound (Post.ite (fun _ => ?_) fun _ => fin s1 hv))
      exact Post.bind (Run.passRight (fun p => by pres) (fun p => by pres) (fun p => by quiet) hv.run fun hp s2 r2 k2 => fin s2 (hv.still r2 k2))

set_option maxHeartbeats 1600000 in
theorem run_rtl {b boundIdx : Nat} (hs : Run op sf cf s0 A rest s) (hb : s.abl[boundIdx]? = some (some b))
    (hlt : (s.bounds b).nxtIdx < (s.bounds b).edges.length) :
    Post (processHorizontalRightToLeft op sf cf y boundIdx) s (fun _ s' => Run op sf cf s0 A rest s') OnlyCross := by
  unfold processHorizontalRightToLeft
  refine Post.bind (Post.ablGet fun o ho => Post.bind (Post.deref (fun c hc => ?_) fun _ => nofun))
  obtain rfl : c = b := by rw [hb, hc] at ho; simpa using ho.symm
  refine Post.bind (Post.partner hlt fun maxIdx => ?_)
  dsimp only
  refine Post.bind (Post.gets (Post.bind (Post.look fun cur _ => Post.bind (Post.currentEdge fun e he => Post.bind (Post.look fun hp0 _ => ?_)))))
  refine Post.bind (Post.imp (Q := fun r s' => match r with
    | .inl v => False
    | .inr (bi, _) => FlatRun op sf cf s0 A rest s c bi s') ?_ ?_)
  · refine Post.forElseN (fun n (st : Nat × Nat × Nat) s' => FlatRun op sf cf s0 A rest s c st.1 s' ∧ n + st.2.2 = boundIdx ∧ n ≤ st.1 ∧
      ∀ k, n ≤ k → k < st.1 → s'.abl[k]? = some none) ?_ ?_ _ _ _ ⟨⟨hs, Preo.refl _, hb⟩, rfl, Nat.le_refl _, fun k h1 h2 => absurd h2 (by dsimp only at h1 ⊢; omega)⟩
    · rintro n ⟨bi, hp, j⟩ s1 ⟨h1, h0, h2, h3⟩
      dsimp only at h0 h1 h2 h3 ⊢
      obtain rfl : n = boundIdx - 1 - j := by omega
      generalize hpi : boundIdx - 1 - j = pi at *
      refine Post.bind (Post.ablGet fun o ho => ?_)
      cases o with
      | none =>
        refine Post.pure ⟨h1, by dsimp only; omega, by dsimp only; omega, fun k l1 l2 => ?_⟩
        dsimp only at l1 l2
        by_cases e : k = pi
        · subst e; exact ho
        · exact h3 k (by omega) l2
      | some nb =>
        dsimp only
        refine Post.bind (Run.passLeft (fun p => by pres) (fun p => by pres) (fun p => by quiet) h1.run fun hp s2 r2 k2 => ?_)
        have h12 := h1.still r2 k2
        have ho2 : s2.abl[pi]? = some (some nb) := by rw [k2.abl]; exact ho
        have h32 : ∀ k, pi + 1 ≤ k → k < bi → s2.abl[k]? = some none := by rw [k2.abl]; exact h3
        refine Post.bind (Post.getBound (Post.bind (Post.currentEdge fun e he => ?_)))
        refine Post.ite (fun _ => Post.pure h12) fun _ => Post.bind (Post.look fun ends _ => Post.ite (fun _ => Post.pure h12) fun _ => ?_)
        have fin : ∀ s3, Run op sf cf s0 A rest s3 → Still s2 s3 → Post (do
            let __do_lift ← getBound nb
            let r ← roundHalfUpM __do_lift.currentX
            intersectBounds { x := r, y := y } op sf cf nb c
            ablSwap pi bi
            pure (Sum.inl (pi, hp, j + 1)) : M ((Nat × Nat × Nat) ⊕ (Unit ⊕ (Nat × Nat)))) s3
            (fun r s' => match r with
              | .inl st => FlatRun op sf cf s0 A rest s c st.1 s' ∧ pi + st.2.2 = boundIdx ∧ pi ≤ st.1 ∧
                ∀ k, pi ≤ k → k < st.1 → s'.abl[k]? = some none
              | .inr r => match r with
                | .inl v => False
                | .inr (bi, _) => FlatRun op sf cf s0 A rest s c bi s') OnlyCross := by
          intro s3 r3 k3
          have h13 := h12.still r3 k3
          have hadj : Adjacent s3 pi bi nb c := ⟨by omega, by rw [k3.abl]; exact ho2, h13.pos, fun k l1 l2 => by rw [k3.abl]; exact h32 k (by omega) l2⟩
          refine Post.bind (Post.getBound (Post.bind (Post.look fun r _ => Post.bind ((Run.cross r3 hadj fun s4 r4 p4 a4 => ?_).imp fun _ s' h => Post.bind h))))
          refine Post.pure ⟨⟨r4, Preo.trans h13.put p4, ?_⟩, by dsimp only; omega, Nat.le_refl _, fun k l1 l2 => absurd l2 (by dsimp only at l1 ⊢; omega)⟩
          dsimp only
          rw [a4, List.getElem?_set_ne (by omega), List.getElem?_set_self (List.getElem?_eq_some_iff.1 hadj.fst).1]
        have hfalse : ∀ {γ : Type} {a b : M γ}, (if (false && decide (pi = maxIdx)) = true then a else b) = b := by intros; simp
        simp only [hfalse]
        refine Post.bind (Post.getBound (Post.ite (fun _ => ?_) fun _ => ?_))
        · refine Post.bind (Post.look fun r _ => Post.bind (h12.run.add fun _ s3 r3 _ k3 => ?_))
          exact (fin s3 r3 k3).imp (by rintro (_ | _ | _) _ h <;> exact h)
        · exact (fin s2 h12.run (Preo.refl _)).imp (by rintro (_ | _ | _) _ h <;> exact h)
    · rintro ⟨bi, hp, j⟩ s1 ⟨h1, -⟩
      exact Post.pure h1
  · rintro (v | ⟨bi, hp⟩) s1 hv
    · exact hv.elim
    · dsimp only at hv ⊢
      have fin : ∀ s2, FlatRun op sf cf s0 A rest s c bi s2 → Post (do
          finishHorizontal c bi
          pure (boundIdx + 1) : M Nat) s2 (fun _ s' => Run op sf cf s0 A rest s') OnlyCross :=
        fun s2 h2 => Post.bind ((Run.finish h2 hlt).imp fun _ _ h => Post.pure h)
      refine Post.bind (Post.getBound (Post.ite (fun _ => ?_) fun _ => fin s1 hv))
      exact Post.bind (Run.passLeft (fun p => by pres) (fun p => by pres) (fun p => by quiet) hv.run fun hp s2 r2 k2 => fin s2 (hv.still r2 k2))

theorem run_horizontal {b boundIdx : Nat} (hs : Run op sf cf s0 A rest s) (hb : s.abl[boundIdx]? = some (some b))
    (hlt : (s.bounds b).nxtIdx < (s.bounds b).edges.length) :
    Post (processHorizontal op sf cf y boundIdx) s (fun _ s' => Run op sf cf s0 A rest s') OnlyCross := by
  unfold processHorizontal
  refine Post.bind (Post.ablGet fun o ho => Post.bind (Post.deref (fun c hc => ?_) fun _ => nofun))
  refine Post.bind (Post.currentEdge fun e he => ?_)
  exact Post.ite (fun _ => run_ltr hs hb hlt) fun _ => run_rtl hs hb hlt

/-- No removed entry is left in the list of active bounds. -/
def Full (s : St) : Prop := none ∉ s.abl

theorem run_filter (hs : Run op sf cf s0 A rest s) : Post ablFilter s (fun _ s' => Run op sf cf s0 A rest s' ∧ Full s') OnlyCross := by
  unfold ablFilter
  refine Post.modify ⟨hs.quiet (filterMap_filter_some _) rfl (fun _ => rfl) hs.idx, ?_⟩
  intro h
  have := (List.mem_filter.1 h).2
  simp at this

theorem run_horizontals (hM : Mates s0 A) (hs : Run op sf cf s0 A rest s) :
    Post (processHorizontals op sf cf y) s (fun _ s' => Run op sf cf s0 A rest s' ∧ Full s') OnlyCross := by
  unfold processHorizontals
  refine Post.bind (Post.imp (Q := fun _ s' => Run op sf cf s0 A rest s') ?_ fun _ s' h => run_filter h)
  refine Post.loopM (Q := fun _ s' => Run op sf cf s0 A rest s') (fun _ s' => Run op sf cf s0 A rest s') ?_ (fun _ _ _ => only_fuel) hs
  intro i s1 h1
  refine Post.bind (Post.gets (Post.ite (fun _ => ?_) fun _ => Post.pure h1))
  refine Post.bind (Post.ablGet fun o ho => ?_)
  cases o with
  | none => exact Post.pure h1
  | some b =>
    dsimp only
    refine Post.bind (Post.currentEdge fun e he => Post.ite (fun hh => ?_) fun _ => Post.pure h1)
    have hb : b ∈ act s1 := mem_act.2 (List.mem_of_getElem? ho)
    have hlt : (s1.bounds b).nxtIdx < (s1.bounds b).edges.length := by
      have hc : (s1.bounds b).curIdx < (s1.bounds b).edges.length := (List.getElem?_eq_some_iff.1 he).1
      have := h1.idx b hb
      by_contra hn
      have := h1.steep hM hb he (by omega)
      rw [hh] at this; cases this
    exact Post.bind ((run_horizontal h1 ho hlt).imp fun _ _ h => Post.pure h)

end

end Wagyu
