import Verif.Proofs.VattiBase

/-!
# Horizontals in the second sweep
-/

namespace Wagyu

open Spec

section
variable {s : St} (op : OperationKind) (sf cf : FillKind)

theorem tot_passRight {b : Nat} {stop : Point → M Bool} (hst : ∀ p, Steady (stop p)) (hst' : ∀ p, Pres Eq (stop p)) (len : Nat) :
    ∀ (n i : Nat) (s : St), HW s → some b ∈ s.abl → Tot (passHotPixelsRight b stop len n i) s fun _ s' => Grown s s'
  | 0, i, s, h, hb => Tot.pure (Grown.refl h)
  | n + 1, i, s, h, hb => by
    unfold passHotPixelsRight
    have h1 := hst
    have h2 := hst'
    refine Tot.bind (Tot.reader fun p => Tot.bind (Tot.reader fun t => ?_))
    refine Tot.ite (fun _ => Tot.pure (Grown.refl h)) fun _ => ?_
    refine Tot.bind (Tot.getBound (Tot.ite (fun _ => ?_) fun _ => tot_passRight hst hst' len n (i + 1) s h hb))
    refine Tot.bind ((tot_addPointToRing h hb p).imp fun _ s1 k => ?_)
    exact (tot_passRight hst hst' len n (i + 1) s1 k.hw (k.active hb)).imp fun _ _ k' => k.trans k'

theorem tot_passLeft {b : Nat} {stop : Point → M Bool} (hst : ∀ p, Steady (stop p)) (hst' : ∀ p, Pres Eq (stop p)) :
    ∀ (i : Nat) (s : St), HW s → some b ∈ s.abl → Tot (passHotPixelsLeft b stop i) s fun _ s' => Grown s s'
  | 0, s, h, hb => Tot.pure (Grown.refl h)
  | i + 1, s, h, hb => by
    unfold passHotPixelsLeft
    have h1 := hst
    have h2 := hst'
    refine Tot.bind (Tot.reader fun p => Tot.bind (Tot.reader fun t => ?_))
    refine Tot.ite (fun _ => Tot.pure (Grown.refl h)) fun _ => ?_
    refine Tot.bind (Tot.getBound (Tot.ite (fun _ => ?_) fun _ => tot_passLeft hst hst' i s h hb))
    refine Tot.bind ((tot_addPointToRing h hb p).imp fun _ s1 k => ?_)
    exact (tot_passLeft hst hst' i s1 k.hw (k.active hb)).imp fun _ _ k' => k.trans k'

instance Steady.horizontalEnds (b : Nat) (x : F64) : Steady (horizontalEnds b x) := by unfold Wagyu.horizontalEnds; steady
instance Steady.horizontalPartner (b : Nat) (y : Int) : Steady (horizontalPartner b y) := by unfold Wagyu.horizontalPartner; steady
instance Steady.hotPixelFind (p : Point → Bool) (len n i : Nat) : Steady (hotPixelFind p len n i) := by
  induction n generalizing i with
  | zero => unfold Wagyu.hotPixelFind; steady
  | succ n ih => unfold Wagyu.hotPixelFind; have := ih; steady

variable {Q : St → Prop}

theorem tot_finishHorizontal (h : HW s) {b bi : Nat} (hb : s.abl[bi]? = some (some b))
    (hQ1 : ∀ s1, Grown s s1 → (s1.bounds b).nxtIdx < (s1.bounds b).edges.length → Tot (toNextEdge b) s1 fun _ s' => Q s')
    (hQ2 : ∀ s1, Grown s s1 → Q { s1 with abl := s1.abl.set bi none }) :
    Tot (finishHorizontal b bi) s fun _ s' => Q s' := by
  unfold finishHorizontal
  have fin : ∀ s1, Grown s s1 → Tot (do
      let bd ← getBound b
      if bd.nxtIdx < bd.edges.length then toNextEdge b else ablSet bi none) s1 fun _ s' => Q s' := fun s1 k =>
    Tot.bind (Tot.getBound (Tot.ite (hQ1 s1 k) fun _ => Tot.ablSet (hQ2 s1 k)))
  refine Tot.bind (Tot.getBound (Tot.ite (fun _ => ?_) fun _ => fin s (Grown.refl h)))
  refine Tot.bind (Tot.currentEdge fun e he => ?_)
  exact Tot.bind ((tot_addPointToRing h (List.mem_of_getElem? hb) _).imp fun _ s1 k => fin s1 k)

theorem drop_two {s s1 s2 : St} (h1 : Exch s s1) (k : Grown s1 s2) {b i : Nat} (hb : s1.abl[i]? = some (some b)) (j : Nat) :
    Fewer s { s2 with abl := (s2.abl.set j none).set i none } ∧ actives { s2 with abl := (s2.abl.set j none).set i none } < actives s := by
  have f1 := (h1.add k).fewer
  have f2 := Fewer.drop f1.hw i
  have f3 := Fewer.drop f2.hw j
  have hcomm : (s2.abl.set j none).set i none = (s2.abl.set i none).set j none := by
    by_cases hij : j = i
    · rw [hij]
    · exact List.set_comm _ _ hij
  rw [hcomm]
  refine ⟨f1.trans (f2.trans f3), ?_⟩
  have a1 := f1.count
  have a2 := set_none_length (l := s2.abl) (i := i) (b := b) (by rw [k.still.abl]; exact hb)
  have a3 := f3.count
  unfold actives at a1 a3 ⊢
  dsimp only at a3 ⊢
  omega

theorem tot_horizontalLTR (h : HW s) (y : Int) {b boundIdx : Nat} (hb : s.abl[boundIdx]? = some (some b))
    (hQ1 : ∀ s1, Exch s s1 → (s1.bounds b).nxtIdx < (s1.bounds b).edges.length → Tot (toNextEdge b) s1 fun _ s' => Q s')
    (hQ2 : ∀ s1, Fewer s s1 → actives s1 < actives s → Q s1) :
    Tot (processHorizontalLeftToRight op sf cf y boundIdx) s fun r s' => boundIdx ≤ r ∧ Q s' := by
  unfold processHorizontalLeftToRight
  refine Tot.bind (Tot.ablGet fun o ho => Tot.bind (Tot.deref fun c hc => ?_))
  obtain rfl : c = b := by rw [hb, hc] at ho; simpa using ho.symm
  refine Tot.bind (Tot.reader fun pr => ?_)
  obtain ⟨isMax, maxIdx⟩ := pr
  dsimp only
  refine Tot.bind (Tot.gets (fun _ _ => rfl) (Tot.bind (Tot.reader fun cur => Tot.bind (Tot.currentEdge fun e he => ?_))))
  refine Tot.bind (Tot.reader fun hp0 => Tot.bind (Tot.ablLen ?_))
  refine Tot.bind (Tot.imp (Q := fun r s' => match r with
    | .inl v => boundIdx ≤ v ∧ Q s'
    | .inr (bi, _, _) => Exch s s' ∧ s'.abl[bi]? = some (some c)) ?_ ?_)
  · refine Tot.forElse (fun (st : Nat × Nat × Bool × Nat) s' => Exch s s' ∧ s'.abl[st.1]? = some (some c)) ?_ ?_ _ _ _ ⟨Exch.refl h, hb⟩
    · rintro ⟨bi, hp, shifted, ni⟩ s1 ⟨h1, h2⟩
      dsimp only at h2 ⊢
      refine Tot.bind (Tot.ablGet fun o ho => ?_)
      cases o with
      | none => exact Tot.pure ⟨h1, h2⟩
      | some nb =>
        dsimp only
        refine Tot.bind ((tot_passRight (b := c) (fun p => by steady) (fun p => by pres) _ _ _ s1 h1.hw (List.mem_of_getElem? h2)).imp fun hp s2 k2 => ?_)
        have h2' : s2.abl[bi]? = some (some c) := by rw [k2.still.abl]; exact h2
        have ho' : s2.abl[ni]? = some (some nb) := by rw [k2.still.abl]; exact ho
        have h12 := h1.add k2
        refine Tot.bind (Tot.getBound (Tot.bind (Tot.currentEdge fun e he => ?_)))
        refine Tot.ite (fun _ => Tot.pure ⟨h12, h2'⟩) fun _ => ?_
        refine Tot.bind (Tot.reader fun ends => ?_)
        refine Tot.ite (fun _ => Tot.pure ⟨h12, h2'⟩) fun _ => ?_
        have fin : ∀ s3, Grown s2 s3 → Tot (if (isMax && decide (ni = maxIdx)) = true then do
            let __do_lift ← getBound c
            let __do_lift_1 ← getBound nb
            if __do_lift.ring.isSome = true ∧ __do_lift_1.ring.isSome = true then do
                let e ← currentEdge c
                addLocalMaximumPoint e.top c nb
                ablSet maxIdx none
                ablSet bi none
                pure (Sum.inr (Sum.inl (if shifted = true then boundIdx else boundIdx + 1)))
              else do
                ablSet maxIdx none
                ablSet bi none
                pure (Sum.inr (Sum.inl (if shifted = true then boundIdx else boundIdx + 1)))
          else do
            let __do_lift ← getBound nb
            let r ← roundHalfUpM __do_lift.currentX
            intersectBounds { x := r, y := y } op sf cf c nb
            ablSwap bi ni
            pure (Sum.inl (ni, hp, true, ni + 1)) : M ((Nat × Nat × Bool × Nat) ⊕ (Nat ⊕ (Nat × Nat × Bool)))) s3
            fun r s' => match r with
              | .inl st => Exch s s' ∧ s'.abl[st.1]? = some (some c)
              | .inr r => match r with
                | .inl v => boundIdx ≤ v ∧ Q s'
                | .inr (bi, _, _) => Exch s s' ∧ s'.abl[bi]? = some (some c) := by
          intro s3 k3
          have h3 : s3.abl[bi]? = some (some c) := by rw [k3.still.abl]; exact h2'
          have ho3 : s3.abl[ni]? = some (some nb) := by rw [k3.still.abl]; exact ho'
          have h13 := h12.add k3
          refine Tot.ite (fun _ => ?_) fun _ => ?_
          · refine Tot.bind (Tot.getBound (Tot.bind (Tot.getBound ?_)))
            have dr : ∀ s4, Grown s3 s4 → Tot (do
                ablSet maxIdx none
                ablSet bi none
                pure (Sum.inr (Sum.inl (if shifted = true then boundIdx else boundIdx + 1))) : M ((Nat × Nat × Bool × Nat) ⊕ (Nat ⊕ (Nat × Nat × Bool)))) s4
                fun r s' => match r with
                  | .inl st => Exch s s' ∧ s'.abl[st.1]? = some (some c)
                  | .inr r => match r with
                    | .inl v => boundIdx ≤ v ∧ Q s'
                    | .inr (bi, _, _) => Exch s s' ∧ s'.abl[bi]? = some (some c) := by
              intro s4 k4
              refine Tot.bind (Tot.ablSet (Tot.bind (Tot.ablSet (Tot.pure ⟨by split <;> omega, ?_⟩))))
              have := drop_two h13 k4 h3 maxIdx
              exact hQ2 _ this.1 this.2
            refine Tot.ite (fun _ => ?_) fun _ => dr s3 (Grown.refl h13.hw)
            refine Tot.bind (Tot.currentEdge fun e he => ?_)
            exact Tot.bind ((tot_addLocalMaximumPoint h13.hw (List.mem_of_getElem? h3) (List.mem_of_getElem? ho3) _).imp fun _ s4 k4 => dr s4 k4)
          · refine Tot.bind (Tot.getBound (Tot.bind (Tot.reader fun r => ?_)))
            refine Tot.bind ((tot_intersectBounds h13.hw (List.mem_of_getElem? h3) (List.mem_of_getElem? ho3) _ op sf cf).imp fun _ s4 k4 => ?_)
            refine Tot.bind (Tot.ablSwap fun x z hx hz => Tot.pure ⟨(h13.add k4).trans (Exch.swap k4.hw hx hz), ?_⟩)
            rw [k4.still.abl, h3] at hx; cases hx
            dsimp only
            rw [swap_get (by rw [k4.still.abl]; exact h3) hz, if_pos rfl]
        refine Tot.bind (Tot.getBound (Tot.ite (fun _ => ?_) fun _ => ?_))
        · refine Tot.bind (Tot.reader fun r => Tot.bind ((tot_addPointToRing h12.hw (List.mem_of_getElem? h2') _).imp fun _ s3 k3 => ?_))
          exact (fin s3 k3).imp (by rintro (_ | _ | _) _ h <;> exact h)
        · exact (fin s2 (Grown.refl h12.hw)).imp (by rintro (_ | _ | _) _ h <;> exact h)
    · rintro ⟨bi, hp, shifted, ni⟩ s1 ⟨h1, h2⟩
      exact Tot.pure ⟨h1, h2⟩
  · rintro (v | ⟨bi, hp, shifted⟩) s1 hv
    · exact Tot.pure hv
    · obtain ⟨h1, h2⟩ := hv
      dsimp only
      have fin : ∀ s2, Grown s1 s2 → Tot (do
          finishHorizontal c bi
          pure (if shifted = true then boundIdx else boundIdx + 1) : M Nat) s2 fun r s' => boundIdx ≤ r ∧ Q s' := by
        intro s2 k2
        have h12 := h1.add k2
        have h3 : s2.abl[bi]? = some (some c) := by rw [k2.still.abl]; exact h2
        refine Tot.bind ((tot_finishHorizontal (Q := Q) h12.hw h3 ?_ ?_).imp ?_)
        · intro s3 k3 hlt
          exact hQ1 s3 (h12.add k3) hlt
        · intro s3 k3
          have h4 : s3.abl[bi]? = some (some c) := by rw [k3.still.abl]; exact h3
          have := drop_two h12 k3 h3 bi
          rw [List.set_set] at this
          exact hQ2 _ this.1 this.2
        · intro _ s3 h3
          exact Tot.pure ⟨by split <;> omega, h3⟩
      refine Tot.bind (Tot.getBound (Tot.ite (fun _ => ?_) fun _ => fin s1 (Grown.refl h1.hw)))
      exact Tot.bind ((tot_passRight (b := c) (fun p => by steady) (fun p => by pres) _ _ _ s1 h1.hw (List.mem_of_getElem? h2)).imp fun _ s2 k2 => fin s2 k2)

theorem tot_horizontalRTL (h : HW s) (y : Int) {b boundIdx : Nat} (hb : s.abl[boundIdx]? = some (some b))
    (hQ1 : ∀ s1, Exch s s1 → (s1.bounds b).nxtIdx < (s1.bounds b).edges.length → Tot (toNextEdge b) s1 fun _ s' => Q s')
    (hQ2 : ∀ s1, Fewer s s1 → actives s1 < actives s → Q s1) :
    Tot (processHorizontalRightToLeft op sf cf y boundIdx) s fun r s' => boundIdx ≤ r ∧ Q s' := by
  unfold processHorizontalRightToLeft
  refine Tot.bind (Tot.ablGet fun o ho => Tot.bind (Tot.deref fun c hc => ?_))
  obtain rfl : c = b := by rw [hb, hc] at ho; simpa using ho.symm
  refine Tot.bind (Tot.reader fun pr => ?_)
  obtain ⟨isMax, maxIdx⟩ := pr
  dsimp only
  refine Tot.bind (Tot.gets (fun _ _ => rfl) (Tot.bind (Tot.reader fun cur => Tot.bind (Tot.currentEdge fun e he => ?_))))
  refine Tot.bind (Tot.reader fun hp0 => ?_)
  refine Tot.bind (Tot.imp (Q := fun r s' => match r with
    | .inl _ => Q s'
    | .inr (bi, _) => Exch s s' ∧ s'.abl[bi]? = some (some c)) ?_ ?_)
  · refine Tot.forElse (fun (st : Nat × Nat × Nat) s' => Exch s s' ∧ s'.abl[st.1]? = some (some c)) ?_ ?_ _ _ _ ⟨Exch.refl h, hb⟩
    · rintro ⟨bi, hp, k⟩ s1 ⟨h1, h2⟩
      dsimp only at h2 ⊢
      refine Tot.bind (Tot.ablGet fun o ho => ?_)
      cases o with
      | none => exact Tot.pure ⟨h1, h2⟩
      | some pb =>
        dsimp only
        refine Tot.bind ((tot_passLeft (b := c) (fun p => by steady) (fun p => by pres) _ s1 h1.hw (List.mem_of_getElem? h2)).imp fun hp s2 k2 => ?_)
        have h2' : s2.abl[bi]? = some (some c) := by rw [k2.still.abl]; exact h2
        have ho' : s2.abl[boundIdx - 1 - k]? = some (some pb) := by rw [k2.still.abl]; exact ho
        have h12 := h1.add k2
        refine Tot.bind (Tot.getBound (Tot.bind (Tot.currentEdge fun e he => ?_)))
        refine Tot.ite (fun _ => Tot.pure ⟨h12, h2'⟩) fun _ => ?_
        refine Tot.bind (Tot.reader fun ends => ?_)
        refine Tot.ite (fun _ => Tot.pure ⟨h12, h2'⟩) fun _ => ?_
        have fin : ∀ s3, Grown s2 s3 → Tot (if (isMax && decide (boundIdx - 1 - k = maxIdx)) = true then do
            let __do_lift ← getBound c
            let __do_lift_1 ← getBound pb
            if __do_lift.ring.isSome = true ∧ __do_lift_1.ring.isSome = true then do
                let e ← currentEdge c
                addLocalMaximumPoint e.top c pb
                ablSet (boundIdx - 1 - k) none
                ablSet bi none
                pure (Sum.inr (Sum.inl ()))
              else do
                ablSet (boundIdx - 1 - k) none
                ablSet bi none
                pure (Sum.inr (Sum.inl ()))
          else do
            let __do_lift ← getBound pb
            let r ← roundHalfUpM __do_lift.currentX
            intersectBounds { x := r, y := y } op sf cf pb c
            ablSwap (boundIdx - 1 - k) bi
            pure (Sum.inl (boundIdx - 1 - k, hp, k + 1)) : M ((Nat × Nat × Nat) ⊕ (Unit ⊕ (Nat × Nat)))) s3
            fun r s' => match r with
              | .inl st => Exch s s' ∧ s'.abl[st.1]? = some (some c)
              | .inr r => match r with
                | .inl _ => Q s'
                | .inr (bi, _) => Exch s s' ∧ s'.abl[bi]? = some (some c) := by
          intro s3 k3
          have h3 : s3.abl[bi]? = some (some c) := by rw [k3.still.abl]; exact h2'
          have ho3 : s3.abl[boundIdx - 1 - k]? = some (some pb) := by rw [k3.still.abl]; exact ho'
          have h13 := h12.add k3
          refine Tot.ite (fun _ => ?_) fun _ => ?_
          · refine Tot.bind (Tot.getBound (Tot.bind (Tot.getBound ?_)))
            have dr : ∀ s4, Grown s3 s4 → Tot (do
                ablSet (boundIdx - 1 - k) none
                ablSet bi none
                pure (Sum.inr (Sum.inl ())) : M ((Nat × Nat × Nat) ⊕ (Unit ⊕ (Nat × Nat)))) s4
                fun r s' => match r with
                  | .inl st => Exch s s' ∧ s'.abl[st.1]? = some (some c)
                  | .inr r => match r with
                    | .inl _ => Q s'
                    | .inr (bi, _) => Exch s s' ∧ s'.abl[bi]? = some (some c) := by
              intro s4 k4
              have := drop_two h13 k4 h3 (boundIdx - 1 - k)
              exact Tot.bind (Tot.ablSet (Tot.bind (Tot.ablSet (Tot.pure (hQ2 _ this.1 this.2)))))
            refine Tot.ite (fun _ => ?_) fun _ => dr s3 (Grown.refl h13.hw)
            refine Tot.bind (Tot.currentEdge fun e he => ?_)
            exact Tot.bind ((tot_addLocalMaximumPoint h13.hw (List.mem_of_getElem? h3) (List.mem_of_getElem? ho3) _).imp fun _ s4 k4 => dr s4 k4)
          · refine Tot.bind (Tot.getBound (Tot.bind (Tot.reader fun r => ?_)))
            refine Tot.bind ((tot_intersectBounds h13.hw (List.mem_of_getElem? ho3) (List.mem_of_getElem? h3) _ op sf cf).imp fun _ s4 k4 => ?_)
            refine Tot.bind (Tot.ablSwap fun x z hx hz => Tot.pure ⟨(h13.add k4).trans (Exch.swap k4.hw hx hz), ?_⟩)
            have hz' := hz
            rw [k4.still.abl, h3] at hz'; cases hz'
            dsimp only
            rw [swap_get hx hz]
            split
            · next e => rw [← hx, e, hz]
            · exact if_pos rfl
        refine Tot.bind (Tot.getBound (Tot.ite (fun _ => ?_) fun _ => ?_))
        · refine Tot.bind (Tot.reader fun r => Tot.bind ((tot_addPointToRing h12.hw (List.mem_of_getElem? h2') _).imp fun _ s3 k3 => ?_))
          exact (fin s3 k3).imp (by rintro (_ | _ | _) _ h <;> exact h)
        · exact (fin s2 (Grown.refl h12.hw)).imp (by rintro (_ | _ | _) _ h <;> exact h)
    · rintro ⟨bi, hp, k⟩ s1 ⟨h1, h2⟩
      exact Tot.pure ⟨h1, h2⟩
  · rintro (v | ⟨bi, hp⟩) s1 hv
    · exact Tot.pure ⟨Nat.le_succ _, hv⟩
    · obtain ⟨h1, h2⟩ := hv
      dsimp only
      have fin : ∀ s2, Grown s1 s2 → Tot (do
          finishHorizontal c bi
          pure (boundIdx + 1) : M Nat) s2 fun r s' => boundIdx ≤ r ∧ Q s' := by
        intro s2 k2
        have h12 := h1.add k2
        have h3 : s2.abl[bi]? = some (some c) := by rw [k2.still.abl]; exact h2
        refine Tot.bind ((tot_finishHorizontal (Q := Q) h12.hw h3 ?_ ?_).imp ?_)
        · intro s3 k3 hlt
          exact hQ1 s3 (h12.add k3) hlt
        · intro s3 k3
          have := drop_two h12 k3 h3 bi
          rw [List.set_set] at this
          exact hQ2 _ this.1 this.2
        · intro _ s3 h3
          exact Tot.pure ⟨Nat.le_succ _, h3⟩
      refine Tot.bind (Tot.getBound (Tot.ite (fun _ => ?_) fun _ => fin s1 (Grown.refl h1.hw)))
      exact Tot.bind ((tot_passLeft (b := c) (fun p => by steady) (fun p => by pres) _ s1 h1.hw (List.mem_of_getElem? h2)).imp fun _ s2 k2 => fin s2 k2)

theorem tot_processHorizontal (h : HW s) (y : Int) {b boundIdx : Nat} (hb : s.abl[boundIdx]? = some (some b))
    (hQ1 : ∀ s1, Exch s s1 → (s1.bounds b).nxtIdx < (s1.bounds b).edges.length → Tot (toNextEdge b) s1 fun _ s' => Q s')
    (hQ2 : ∀ s1, Fewer s s1 → actives s1 < actives s → Q s1) :
    Tot (processHorizontal op sf cf y boundIdx) s fun r s' => boundIdx ≤ r ∧ Q s' := by
  unfold processHorizontal
  refine Tot.bind (Tot.ablGet fun o ho => Tot.bind (Tot.deref fun c hc => Tot.bind (Tot.currentEdge fun e he => ?_)))
  exact Tot.ite (fun _ => tot_horizontalLTR op sf cf h y hb hQ1 hQ2) fun _ => tot_horizontalRTL op sf cf h y hb hQ1 hQ2

end

end Wagyu
